import Verif.Workers.Spec

/-! # Lemmas on pools of workers -/

namespace Verif.Workers

theorem split_at {α : Type} : ∀ {l : List α} {i : Nat} {x : α}, l[i]? = some x →
    ∃ a b, l = a ++ x :: b ∧ ∀ y, l.set i y = a ++ y :: b
  | [], i, x, h => by simp at h
  | z :: r, 0, x, h => by
    simp only [List.getElem?_cons_zero, Option.some.injEq] at h
    subst h
    exact ⟨[], r, rfl, fun y => rfl⟩
  | z :: r, i + 1, x, h => by
    simp only [List.getElem?_cons_succ] at h
    obtain ⟨a, b, e, f⟩ := split_at h
    refine ⟨z :: a, b, by rw [e]; rfl, fun y => ?_⟩
    rw [List.set_cons_succ, f y]; rfl

def W.jobs : W → List Nat
  | .busy j => [j]
  | _ => []

theorem running_split (a b : List W) (x : W) : (running (a ++ x :: b)).Perm (x.jobs ++ running (a ++ b)) := by
  have e : running (a ++ x :: b) = running a ++ (x.jobs ++ running b) := by
    unfold running
    rw [List.filterMap_append]
    congr 1
    cases x <;> rfl
  have e2 : running (a ++ b) = running a ++ running b := by
    unfold running; rw [List.filterMap_append]
  rw [e, e2, ← List.append_assoc, ← List.append_assoc]
  exact List.Perm.append_right _ List.perm_append_comm

theorem left_split (a b : List W) (x : W) :
    ((a ++ x :: b).map W.left).sum = ((a ++ b).map W.left).sum + x.left := by
  simp only [List.map_append, List.map_cons, List.sum_append, List.sum_cons]
  omega

structure Inv (n : Nat) (k : Pool) : Prop where
  fifo : k.given = k.started ++ k.q
  once : k.started.Perm (k.done ++ running k.ws)
  size : k.size = k.q.length
  processed : k.processed = k.done.length
  awake : k.q ≠ [] → W.waiting ∈ k.ws → W.ready ∈ k.ws
  ending : k.shut = true → W.waiting ∈ k.ws → W.ready ∈ k.ws ∨ ∃ j, W.busy j ∈ k.ws
  gone : W.gone ∈ k.ws → k.shut = true ∧ k.q = []
  len : k.ws.length = n
  top : k.size ≤ k.maxSize
  ended : k.destroyed = true → k.shut = true ∧ ∀ w, w ∈ k.ws → w = W.gone

/-- What a signal does. -/
theorem signal_spec {ws ws' : List W} {who : Nat} (h : signal ws who = some ws') :
    ws'.length = ws.length ∧ (running ws').Perm (running ws) ∧ (W.waiting ∈ ws → W.ready ∈ ws') ∧
    (∀ w, w ∈ ws' → w ∈ ws ∨ w = .ready) ∧ (∀ j, W.busy j ∈ ws → W.busy j ∈ ws') ∧
    (W.ready ∈ ws → W.ready ∈ ws') ∧ (ws'.map W.left).sum ≤ (ws.map W.left).sum ∧
    (W.gone ∈ ws ↔ W.gone ∈ ws') := by
  unfold signal at h
  by_cases c : ws.all (fun w => decide (w ≠ .waiting)) = true
  · rw [if_pos c] at h
    cases h
    refine ⟨rfl, List.Perm.refl _, ?_, fun w h => Or.inl h, fun j h => h, fun h => h, Nat.le_refl _, Iff.rfl⟩
    intro hw
    have := of_decide_eq_true (List.all_eq_true.mp c _ hw)
    exact absurd rfl this
  · rw [if_neg c] at h
    by_cases d : ws[who]? = some .waiting
    · rw [if_pos d] at h
      cases h
      obtain ⟨a, b, e, f⟩ := split_at d
      rw [f, e]
      refine ⟨by simp, ?_, ?_, ?_, ?_, ?_, ?_, ?_⟩
      · exact (running_split a b .ready).trans (running_split a b .waiting).symm
      · intro _; simp
      · intro w hw
        rcases List.mem_append.mp hw with k | k
        · exact Or.inl (List.mem_append_left _ k)
        · rcases List.mem_cons.mp k with k | k
          · exact Or.inr k
          · exact Or.inl (List.mem_append_right _ (List.mem_cons_of_mem _ k))
      · intro j hj
        rcases List.mem_append.mp hj with k | k
        · exact List.mem_append_left _ k
        · rcases List.mem_cons.mp k with k | k
          · cases k
          · exact List.mem_append_right _ (List.mem_cons_of_mem _ k)
      · intro _; simp
      · rw [left_split, left_split]; simp only [W.left]; omega
      · simp
    · rw [if_neg d] at h; cases h

theorem mem_mid {α : Type} {a b : List α} {x w : α} : w ∈ a ++ x :: b ↔ w = x ∨ w ∈ a ++ b := by
  simp only [List.mem_append, List.mem_cons]
  constructor
  · rintro (h | h | h)
    · exact Or.inr (Or.inl h)
    · exact Or.inl h
    · exact Or.inr (Or.inr h)
  · rintro (h | h | h)
    · exact Or.inr (Or.inl h)
    · exact Or.inl h
    · exact Or.inr (Or.inr h)

theorem act_inv {n : Nat} {k k' : Pool} {e : Ev} (h : Inv n k) (ha : act k e = some (some k')) : Inv n k' := by
  obtain ⟨h1, h2, h3, h4, h5, h6, h7, h8, h9, h10⟩ := h
  cases e with
  | enq job who =>
    simp only [act] at ha
    by_cases c : k.shut = true
    · rw [if_pos c] at ha; cases ha
    · rw [if_neg c] at ha
      have c' : k.shut = false := by simpa using c
      cases hs : signal k.ws who with
      | none => rw [hs] at ha; cases ha
      | some ws =>
        rw [hs] at ha
        cases ha
        obtain ⟨s1, s2, s3, s4, s5, s6, s7, s8⟩ := signal_spec hs
        refine ⟨?_, ?_, ?_, h4, ?_, ?_, ?_, ?_, ?_, ?_⟩
        · show k.given ++ [job] = k.started ++ (k.q ++ [job]); rw [h1, List.append_assoc]
        · exact h2.trans (List.Perm.append_left _ s2.symm)
        · show k.size + 1 = (k.q ++ [job]).length; simp [h3]
        · intro _ hw
          rcases s4 _ hw with r | r
          · exact s3 r
          · cases r
        · intro e; rw [c'] at e; cases e
        · intro hg
          have := h7 (s8.mpr hg)
          rw [c'] at this; cases this.1
        · exact s1.trans h8
        · show k.size + 1 ≤ if k.size + 1 > k.maxSize then k.size + 1 else k.maxSize
          split <;> omega
        · intro e
          have := (h10 e).1
          rw [c'] at this; cases this
  | work w who =>
    simp only [act] at ha
    cases hw : k.ws[w]? with
    | none => rw [hw] at ha; cases ha
    | some x =>
      rw [hw] at ha
      cases x with
      | waiting => cases ha
      | busy j => cases ha
      | gone => cases ha
      | ready =>
        dsimp only at ha
        obtain ⟨a, b, e, f⟩ := split_at hw
        cases hq : k.q with
        | cons job rest =>
          rw [hq] at ha
          dsimp only at ha
          have ng : W.gone ∉ k.ws := fun g => by have := (h7 g).2; rw [hq] at this; cases this
          have ngab : W.gone ∉ a ++ b := fun g => ng (by rw [e]; exact mem_mid.mpr (Or.inr g))
          have hd : k.destroyed = true → False := by
            intro d
            have := (h10 d).2 .ready (by rw [e]; exact mem_mid.mpr (Or.inl rfl))
            cases this
          have hperm : (k.started ++ [job]).Perm (k.done ++ running (k.ws.set w (.busy job))) := by
            rw [f]
            have p1 := (running_split a b (.busy job))
            have p2 : k.started.Perm (k.done ++ running (a ++ b)) := by
              rw [e] at h2
              exact h2.trans (List.Perm.append_left _ (running_split a b .ready))
            refine (List.Perm.append_right [job] p2).trans ?_
            rw [List.append_assoc]
            exact List.Perm.append_left _ (List.perm_append_comm.trans p1.symm)
          by_cases c : rest = []
          · rw [if_pos c] at ha
            cases ha
            refine ⟨?_, hperm, ?_, h4, ?_, ?_, ?_, ?_, ?_, fun d => (hd d).elim⟩
            · show k.given = k.started ++ [job] ++ rest; rw [h1, hq]; simp
            · show k.size - 1 = rest.length; rw [h3, hq]; simp
            · intro q _; exact absurd c q
            · intro _ _; right
              exact ⟨job, by show W.busy job ∈ k.ws.set w (.busy job); rw [f]; exact mem_mid.mpr (Or.inl rfl)⟩
            · intro g
              have g' : W.gone ∈ k.ws.set w (.busy job) := g
              rw [f] at g'
              rcases mem_mid.mp g' with r | r
              · cases r
              · exact absurd r ngab
            · show (k.ws.set w _).length = n; rw [List.length_set]; exact h8
            · show k.size - 1 ≤ k.maxSize; omega
          · rw [if_neg c] at ha
            cases hs : signal (k.ws.set w (.busy job)) who with
            | none => rw [hs] at ha; cases ha
            | some ws =>
              rw [hs] at ha
              cases ha
              obtain ⟨s1, s2, s3, s4, s5, s6, s7, s8⟩ := signal_spec hs
              refine ⟨?_, ?_, ?_, h4, ?_, ?_, ?_, ?_, ?_, fun d => (hd d).elim⟩
              · show k.given = k.started ++ [job] ++ rest; rw [h1, hq]; simp
              · exact hperm.trans (List.Perm.append_left _ s2.symm)
              · show k.size - 1 = rest.length; rw [h3, hq]; simp
              · intro _ hw'
                rcases s4 _ hw' with r | r
                · exact s3 r
                · cases r
              · intro _ _; right
                exact ⟨job, s5 job (by rw [f]; exact mem_mid.mpr (Or.inl rfl))⟩
              · intro g
                have g' := s8.mpr g
                rw [f] at g'
                rcases mem_mid.mp g' with r | r
                · cases r
                · exact absurd r ngab
              · show ws.length = n; rw [s1, List.length_set]; exact h8
              · show k.size - 1 ≤ k.maxSize; omega
        | nil =>
          rw [hq] at ha h1 h3 h7
          dsimp only at ha
          have hd : k.destroyed = true → False := by
            intro d
            have := (h10 d).2 .ready (by rw [e]; exact mem_mid.mpr (Or.inl rfl))
            cases this
          have base : k.started.Perm (k.done ++ running (a ++ b)) := by
            rw [e] at h2
            exact h2.trans (List.Perm.append_left _ (running_split a b .ready))
          by_cases c : k.shut = true
          · rw [if_pos c] at ha
            cases hs : signal (k.ws.set w .gone) who with
            | none => rw [hs] at ha; cases ha
            | some ws =>
              rw [hs] at ha
              cases ha
              obtain ⟨s1, s2, s3, s4, s5, s6, s7, s8⟩ := signal_spec hs
              refine ⟨h1, ?_, h3, h4, ?_, ?_, fun _ => ⟨c, rfl⟩, ?_, h9, fun d => (hd d).elim⟩
              · refine base.trans (List.Perm.append_left _ ?_)
                rw [f] at s2
                exact (running_split a b .gone).symm.trans s2.symm
              · intro q _; exact absurd rfl q
              · intro _ hw'
                left
                rcases s4 _ hw' with r | r
                · exact s3 r
                · cases r
              · show ws.length = n; rw [s1, List.length_set]; exact h8
          · rw [if_neg c] at ha
            cases ha
            have c' : k.shut = false := by simpa using c
            refine ⟨h1, ?_, h3, h4, ?_, ?_, ?_, ?_, h9, fun d => (hd d).elim⟩
            · refine base.trans (List.Perm.append_left _ ?_)
              show (running (a ++ b)).Perm (running (k.ws.set w .waiting))
              rw [f]
              exact (running_split a b .waiting).symm
            · intro q _; exact absurd rfl q
            · intro s; exact absurd s c
            · intro g
              have g' : W.gone ∈ k.ws.set w .waiting := g
              rw [f] at g'
              rcases mem_mid.mp g' with r | r
              · cases r
              · exact h7 (by rw [e]; exact mem_mid.mpr (Or.inr r))
            · show (k.ws.set w _).length = n; rw [List.length_set]; exact h8
  | finish w =>
    simp only [act] at ha
    cases hw : k.ws[w]? with
    | none => rw [hw] at ha; cases ha
    | some x =>
      rw [hw] at ha
      cases x with
      | waiting => cases ha
      | ready => cases ha
      | gone => cases ha
      | busy job =>
        dsimp only at ha
        cases ha
        obtain ⟨a, b, e, f⟩ := split_at hw
        have rdy : W.ready ∈ k.ws.set w .ready := by rw [f]; exact mem_mid.mpr (Or.inl rfl)
        refine ⟨h1, ?_, h3, ?_, fun _ _ => rdy, fun _ _ => Or.inl rdy, ?_, ?_, h9, ?_⟩
        · show k.started.Perm (k.done ++ [job] ++ running (k.ws.set w .ready))
          rw [f]
          rw [e] at h2
          refine h2.trans ?_
          rw [List.append_assoc]
          exact List.Perm.append_left _ ((running_split a b (.busy job)).trans
            (List.Perm.append_left [job] (running_split a b .ready).symm))
        · show k.processed + 1 = (k.done ++ [job]).length; simp [h4]
        · intro g
          have g' : W.gone ∈ k.ws.set w .ready := g
          rw [f] at g'
          rcases mem_mid.mp g' with r | r
          · cases r
          · exact h7 (by rw [e]; exact mem_mid.mpr (Or.inr r))
        · show (k.ws.set w _).length = n; rw [List.length_set]; exact h8
        · intro d
          have := (h10 d).2 (.busy job) (by rw [e]; exact mem_mid.mpr (Or.inl rfl))
          cases this
  | spurious w =>
    simp only [act] at ha
    cases hw : k.ws[w]? with
    | none => rw [hw] at ha; cases ha
    | some x =>
      rw [hw] at ha
      cases x with
      | ready => cases ha
      | busy j => cases ha
      | gone => cases ha
      | waiting =>
        dsimp only at ha
        cases ha
        obtain ⟨a, b, e, f⟩ := split_at hw
        have rdy : W.ready ∈ k.ws.set w .ready := by rw [f]; exact mem_mid.mpr (Or.inl rfl)
        refine ⟨h1, ?_, h3, h4, fun _ _ => rdy, fun _ _ => Or.inl rdy, ?_, ?_, h9, ?_⟩
        · show k.started.Perm (k.done ++ running (k.ws.set w .ready))
          rw [f]
          rw [e] at h2
          exact h2.trans (List.Perm.append_left _ ((running_split a b .waiting).trans (running_split a b .ready).symm))
        · intro g
          have g' : W.gone ∈ k.ws.set w .ready := g
          rw [f] at g'
          rcases mem_mid.mp g' with r | r
          · cases r
          · exact h7 (by rw [e]; exact mem_mid.mpr (Or.inr r))
        · show (k.ws.set w _).length = n; rw [List.length_set]; exact h8
        · intro d
          have := (h10 d).2 .waiting (by rw [e]; exact mem_mid.mpr (Or.inl rfl))
          cases this
  | destroy who =>
    simp only [act] at ha
    by_cases c : k.shut = true
    · rw [if_pos c] at ha; cases ha
    · rw [if_neg c] at ha
      have c' : k.shut = false := by simpa using c
      cases hs : signal k.ws who with
      | none => rw [hs] at ha; cases ha
      | some ws =>
        rw [hs] at ha
        cases ha
        obtain ⟨s1, s2, s3, s4, s5, s6, s7, s8⟩ := signal_spec hs
        refine ⟨h1, ?_, h3, h4, ?_, ?_, ?_, s1.trans h8, h9, ?_⟩
        · exact h2.trans (List.Perm.append_left _ s2.symm)
        · intro _ hw
          rcases s4 _ hw with r | r
          · exact s3 r
          · cases r
        · intro _ hw
          left
          rcases s4 _ hw with r | r
          · exact s3 r
          · cases r
        · intro hg
          have := h7 (s8.mpr hg)
          rw [c'] at this; cases this.1
        · intro d
          have := (h10 d).1
          rw [c'] at this; cases this
  | joined =>
    simp only [act] at ha
    by_cases c : k.shut ∧ k.ws.all (fun w => decide (w = .gone)) ∧ k.destroyed = false
    · rw [if_pos c] at ha
      cases ha
      exact ⟨h1, h2, h3, h4, h5, h6, h7, h8, h9, fun _ => ⟨c.1, fun w hw =>
        of_decide_eq_true (List.all_eq_true.mp c.2.1 w hw)⟩⟩
    · rw [if_neg c] at ha; cases ha

theorem create_inv (n : Nat) : Inv n (create n) := by
  refine ⟨rfl, ?_, rfl, rfl, fun h => absurd rfl h, fun h => (by cases h), ?_, List.length_replicate, Nat.le_refl _,
    fun h => (by cases h)⟩
  · have : running (List.replicate n W.ready) = [] := by
      unfold running
      rw [List.filterMap_eq_nil_iff]
      intro w hw
      rw [List.eq_of_mem_replicate hw]
    show ([] : List Nat).Perm ([] ++ running (List.replicate n W.ready))
    rw [this]; exact List.Perm.refl _
  · intro h
    have := List.eq_of_mem_replicate h
    cases this

theorem run_inv {n : Nat} (es : List Ev) : ∀ {k t : Pool}, Inv n k → run k es = some (some t) → Inv n t := by
  induction es with
  | nil => intro k t h hr; simp only [run] at hr; cases hr; exact h
  | cons e es ih =>
    intro k t h hr
    simp only [run] at hr
    cases ha : act k e with
    | none => rw [ha] at hr; cases hr
    | some o =>
      cases o with
      | none => rw [ha] at hr; cases hr
      | some k' => rw [ha] at hr; exact ih (act_inv h ha) hr

theorem act_given {k k' : Pool} {e : Ev} (ha : act k e = some (some k')) : k'.given = k.given ++ gives [e] := by
  cases e with
  | enq job who =>
    simp only [act] at ha
    split at ha
    · cases ha
    · split at ha
      · cases ha
      · cases ha; rfl
  | work w who =>
    simp only [act] at ha
    have e : k.given ++ gives [.work w who] = k.given := List.append_nil _
    rw [e]
    split at ha
    · split at ha
      · split at ha
        · cases ha; rfl
        · split at ha
          · cases ha
          · cases ha; rfl
      · split at ha
        · split at ha
          · cases ha
          · cases ha; rfl
        · cases ha; rfl
    · cases ha
  | finish w =>
    simp only [act] at ha
    split at ha
    · cases ha; exact (List.append_nil _).symm
    · cases ha
  | spurious w =>
    simp only [act] at ha
    split at ha
    · cases ha; exact (List.append_nil _).symm
    · cases ha
  | destroy who =>
    simp only [act] at ha
    split at ha
    · cases ha
    · split at ha
      · cases ha
      · cases ha; exact (List.append_nil _).symm
  | joined =>
    simp only [act] at ha
    split at ha
    · cases ha; exact (List.append_nil _).symm
    · cases ha

theorem gives_cons (e : Ev) (es : List Ev) : gives (e :: es) = gives [e] ++ gives es := by
  cases e <;> rfl

theorem run_given (es : List Ev) : ∀ {k t : Pool}, run k es = some (some t) → t.given = k.given ++ gives es := by
  induction es with
  | nil => intro k t hr; simp only [run] at hr; cases hr; exact (List.append_nil _).symm
  | cons e es ih =>
    intro k t hr
    simp only [run] at hr
    cases ha : act k e with
    | none => rw [ha] at hr; cases hr
    | some o =>
      cases o with
      | none => rw [ha] at hr; cases hr
      | some k' =>
        rw [ha] at hr
        rw [ih hr, act_given ha, gives_cons e es, List.append_assoc]

end Verif.Workers
