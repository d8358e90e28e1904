import Verif.Rowcount.Stats

/-! # The messages sent decide what a scan finds; closing and opening -/

namespace Verif.Rowcount

variable {σ μ : Type} {O : Ops σ μ} {R : σ → σ → Prop}

/-- Content at the start and messages sent, of a basement node. -/
def Base.past (b : Base σ μ) : σ × List (Nat × μ) := (b.init, b.hist)

/-- The same of all. -/
def St.past (s : St σ μ) : List (List (σ × List (Nat × μ))) := s.leaves.map (fun l => l.bases.map Base.past)

/-- What sending does to it. -/
def pastStep (p : List (List (σ × List (Nat × μ))) × Nat) : Ev μ → List (List (σ × List (Nat × μ))) × Nat
  | .put l i m =>
    match p.1[l]? with
    | none => p
    | some bs =>
      match bs[i]? with
      | none => p
      | some b => (p.1.set l (bs.set i (b.1, b.2 ++ [(p.2 + 1, m)])), p.2 + 1)
  | .broadcast m => (p.1.map (fun bs => bs.map (fun b => (b.1, b.2 ++ [(p.2 + 1, m)]))), p.2 + 1)
  | _ => p

theorem map_set_same {α β : Type} (f : α → β) : ∀ (l : List α) (i : Nat) (a b : α), l[i]? = some b → f a = f b →
    (l.set i a).map f = l.map f
  | [], i, a, b, h, _ => by simp at h
  | x :: r, 0, a, b, h, e => by
    simp only [List.getElem?_cons_zero, Option.some.injEq] at h
    subst h
    simp only [List.set_cons_zero, List.map_cons, e]
  | x :: r, i + 1, a, b, h, e => by
    simp only [List.getElem?_cons_succ] at h
    simp only [List.set_cons_succ, List.map_cons, map_set_same f r i a b h e]

theorem past_leaf {s : St σ μ} {l : Nat} {lf l' : Leaf σ μ} (hl : s.leaves[l]? = some lf)
    (e : l'.bases.map Base.past = lf.bases.map Base.past) :
    (s.leaves.set l l').map (fun l => l.bases.map Base.past) = s.past :=
  map_set_same (fun l : Leaf σ μ => l.bases.map Base.past) s.leaves l l' lf hl e

theorem past_base {s : St σ μ} {l i : Nat} {lf : Leaf σ μ} {b b' : Base σ μ} (hl : s.leaves[l]? = some lf)
    (hb : lf.bases[i]? = some b) (e : b'.past = b.past) :
    (s.leaves.set l { lf with bases := lf.bases.set i b' }).map (fun l => l.bases.map Base.past) = s.past :=
  past_leaf hl (map_set_same Base.past lf.bases i b' b hb e)

theorem past_map {s : St σ μ} {l : Nat} {lf : Leaf σ μ} {d c : Bool} (hl : s.leaves[l]? = some lf)
    (g : Base σ μ → Base σ μ) (e : ∀ b, (g b).past = b.past) :
    (s.leaves.set l { bases := lf.bases.map g, dirty := d, cloned := c }).map (fun l => l.bases.map Base.past) = s.past := by
  apply past_leaf hl
  dsimp only
  rw [List.map_map]
  exact List.map_congr_left (fun b _ => e b)

theorem past_flush (b : Base σ μ) (cut : Nat) : (b.flush O cut).1.past = b.past := by
  unfold Base.flush; cases b.mem <;> rfl
theorem past_write (b : Base σ μ) : (b.write O).1.past = b.past := by
  unfold Base.write; cases b.mem <;> rfl
theorem past_copy (b : Base σ μ) : b.copy.1.past = b.past := by
  unfold Base.copy; cases b.mem <;> rfl
theorem past_writeCopy (b : Base σ μ) : (b.writeCopy O).1.past = b.past := by
  unfold Base.writeCopy; cases b.clone <;> rfl

theorem step_past {s t : St σ μ} (e : Ev μ) (hst : step O s e = some t) (ho : e.ordinary = true) :
    (t.past, t.next) = pastStep (s.past, s.next) e := by
  cases e with
  | oldUpdate => cases ho
  | restart => cases ho
  | put l i m =>
    simp only [step] at hst
    cases hl : s.leaves[l]? with
    | none => rw [hl] at hst; cases hst
    | some lf =>
      rw [hl] at hst; dsimp only at hst
      cases hb : lf.bases[i]? with
      | none => rw [hb] at hst; cases hst
      | some b =>
        rw [hb] at hst; dsimp only at hst
        cases hst
        have e1 : s.past[l]? = some (lf.bases.map Base.past) := by
          unfold St.past; rw [List.getElem?_map, hl]; rfl
        have e2 : (lf.bases.map Base.past)[i]? = some b.past := by
          rw [List.getElem?_map, hb]; rfl
        simp only [pastStep]
        rw [e1]
        dsimp only
        rw [e2]
        dsimp only [St.past]
        rw [List.map_set, List.map_set]
        rfl
  | broadcast m =>
    simp only [step] at hst
    cases hst
    simp only [pastStep, St.past, List.map_map]
    refine Prod.ext ?_ rfl
    dsimp only
    refine List.map_congr_left (fun l _ => ?_)
    simp only [Function.comp_apply, List.map_map]
    exact List.map_congr_left (fun b _ => rfl)
  | load l i =>
    simp only [step] at hst
    cases hl : s.leaves[l]? with
    | none => rw [hl] at hst; cases hst
    | some lf =>
      rw [hl] at hst; dsimp only at hst
      cases hb : lf.bases[i]? with
      | none => rw [hb] at hst; cases hst
      | some b =>
        rw [hb] at hst; dsimp only at hst
        by_cases hm : b.mem = none
        · rw [if_pos hm] at hst
          cases hst
          exact Prod.ext (past_base hl hb rfl) rfl
        · rw [if_neg hm] at hst; cases hst
  | read l i =>
    simp only [step] at hst
    cases hl : s.leaves[l]? with
    | none => rw [hl] at hst; cases hst
    | some lf =>
      rw [hl] at hst; dsimp only at hst
      cases hb : lf.bases[i]? with
      | none => rw [hb] at hst; cases hst
      | some b =>
        rw [hb] at hst; dsimp only at hst
        cases hm : b.mem with
        | none => rw [hm] at hst; cases hst
        | some m =>
          rw [hm] at hst; dsimp only at hst
          cases hst
          exact Prod.ext (past_base hl hb rfl) rfl
  | flush l cut =>
    simp only [step] at hst
    cases hl : s.leaves[l]? with
    | none => rw [hl] at hst; cases hst
    | some lf =>
      rw [hl] at hst; dsimp only at hst
      by_cases hf : lf.full = true
      · rw [if_pos hf] at hst
        cases hst
        exact Prod.ext (past_map hl _ (fun b => past_flush b cut)) rfl
      · rw [if_neg hf] at hst; cases hst
  | write l =>
    simp only [step] at hst
    cases hl : s.leaves[l]? with
    | none => rw [hl] at hst; cases hst
    | some lf =>
      rw [hl] at hst; dsimp only at hst
      by_cases hf : (lf.full && lf.dirty && !lf.cloned) = true
      · rw [if_pos hf] at hst
        cases hst
        exact Prod.ext (past_map hl _ past_write) rfl
      · rw [if_neg hf] at hst; cases hst
  | writeClone l =>
    simp only [step] at hst
    cases hl : s.leaves[l]? with
    | none => rw [hl] at hst; cases hst
    | some lf =>
      rw [hl] at hst; dsimp only at hst
      by_cases hf : lf.cloned = true
      · rw [if_pos hf] at hst
        cases hst
        exact Prod.ext (past_map hl _ past_writeCopy) rfl
      · rw [if_neg hf] at hst; cases hst
  | evict l =>
    simp only [step] at hst
    cases hl : s.leaves[l]? with
    | none => rw [hl] at hst; cases hst
    | some lf =>
      rw [hl] at hst; dsimp only at hst
      by_cases hf : (!lf.dirty && !lf.cloned) = true
      · rw [if_pos hf] at hst
        cases hst
        exact Prod.ext (past_map hl _ (fun _ => rfl)) rfl
      · rw [if_neg hf] at hst; cases hst
  | drop l i =>
    simp only [step] at hst
    cases hl : s.leaves[l]? with
    | none => rw [hl] at hst; cases hst
    | some lf =>
      rw [hl] at hst; dsimp only at hst
      cases hb : lf.bases[i]? with
      | none => rw [hb] at hst; cases hst
      | some b =>
        rw [hb] at hst; dsimp only at hst
        cases hm : b.mem with
        | none => rw [hm] at hst; cases hst
        | some m =>
          rw [hm] at hst; dsimp only at hst
          by_cases hf : (!lf.dirty && !lf.cloned) = true
          · rw [if_pos hf] at hst
            cases hst
            exact Prod.ext (past_base hl hb rfl) rfl
          · rw [if_neg hf] at hst; cases hst
  | beginCkpt =>
    simp only [step] at hst
    by_cases hf : s.ckpt = none ∧ s.leaves.all (fun l => !l.cloned) = true
    · rw [if_pos hf] at hst
      cases hst
      refine Prod.ext ?_ rfl
      show (s.leaves.map (fun l => l.copy.1)).map (fun l => l.bases.map Base.past) = s.past
      rw [List.map_map]
      refine List.map_congr_left (fun l _ => ?_)
      show l.copy.1.bases.map Base.past = l.bases.map Base.past
      unfold Leaf.copy
      by_cases hd : l.dirty = true
      · rw [if_pos hd]
        dsimp only
        rw [List.map_map]
        exact List.map_congr_left (fun b _ => past_copy b)
      · rw [if_neg hd]
    · rw [if_neg hf] at hst; cases hst
  | endCkpt =>
    simp only [step] at hst
    cases hc : s.ckpt with
    | none => rw [hc] at hst; cases hst
    | some c =>
      rw [hc] at hst; dsimp only at hst
      by_cases hf : s.leaves.all (fun l => !l.cloned) = true
      · rw [if_pos hf] at hst; cases hst; rfl
      · rw [if_neg hf] at hst; cases hst

theorem pastStep_quiet (e : Ev μ) (h : e.sends = false) (p : List (List (σ × List (Nat × μ))) × Nat) :
    pastStep p e = p := by
  cases e <;> first | rfl | cases h

/-- What was sent decides the histories. -/
theorem run_past (evs : List (Ev μ)) : ∀ {s t : St σ μ}, run O s evs = some t →
    (∀ e, e ∈ evs → e.ordinary = true) →
    (t.past, t.next) = (evs.filter Ev.sends).foldl pastStep (s.past, s.next) := by
  induction evs with
  | nil => intro s t h _; simp only [run] at h; cases h; rfl
  | cons e es ih =>
    intro s t h ho
    simp only [run] at h
    cases hq : step O s e with
    | none => rw [hq] at h; cases h
    | some q =>
      rw [hq] at h
      have a := ih h (fun x hx => ho x (List.mem_cons_of_mem _ hx))
      have b := step_past e hq (ho e List.mem_cons_self)
      rw [a, b]
      by_cases c : e.sends = true
      · rw [List.filter_cons_of_pos c]; rfl
      · rw [List.filter_cons_of_neg c, pastStep_quiet e (by simpa using c)]

theorem said_filter (evs : List (Ev μ)) : (evs.map (saidBy O)).sum = ((evs.filter Ev.sends).map (saidBy O)).sum := by
  induction evs with
  | nil => rfl
  | cons e es ih =>
    by_cases c : e.sends = true
    · rw [List.filter_cons_of_pos c]
      simp only [List.map_cons, List.sum_cons, ih]
    · rw [List.filter_cons_of_neg c]
      have : saidBy O e = 0 := by cases e <;> first | rfl | exact absurd rfl c
      simp only [List.map_cons, List.sum_cons, ih, this, Int.zero_add]

/-- The corrections of all messages. -/
def allDue (O : Ops σ μ) (p : List (List (σ × List (Nat × μ)))) : Int :=
  (p.map (fun bs => (bs.map (fun b => tally O b.1 b.2)).sum)).sum

theorem scanned_due {s : St σ μ} (h : Scanned s) : total (Base.due O) s.leaves = allDue O s.past := by
  unfold total allDue St.past
  rw [List.map_map]
  refine sum_congr (fun l hl => ?_)
  show _ = ((l.bases.map Base.past).map (fun b => tally O b.1 b.2)).sum
  rw [List.map_map]
  refine sum_congr (fun b hb => ?_)
  obtain ⟨m, hm, k⟩ := h l hl b hb
  show b.dueAt O b.seenTo = tally O b.init b.hist
  have e : b.seenTo = m.upto := by unfold Base.seenTo; rw [hm]
  unfold Base.dueAt
  rw [e, filter_all (fun x hx => by simpa using k x hx)]

theorem nkeys_of {s : St σ μ} {x : Int} (e : (s.rows : Int) = x) (h : x < 2 ^ 63) : nkeys s = x := by
  unfold nkeys
  have a : s.rows ≠ ones := by unfold ones; omega
  have b : s.rows < 2 ^ 63 := by omega
  simp only
  rw [if_neg a, if_pos b, if_neg (by omega)]
  exact e

theorem bounded_last (evs : List (Ev μ)) : ∀ {s t : St σ μ} (base : Int), bounded O base s evs = true →
    run O s evs = some t → 0 ≤ due O base evs t ∧ due O base evs t < 2 ^ 63 := by
  induction evs with
  | nil =>
    intro s t base h hr
    simp only [run] at hr
    cases hr
    simp only [bounded, decide_eq_true_eq] at h
    unfold due
    simp only [List.map_nil, List.sum_nil]
    omega
  | cons e es ih =>
    intro s t base h hr
    simp only [run] at hr
    simp only [bounded, Bool.and_eq_true] at h
    cases hq : step O s e with
    | none => rw [hq] at hr; cases hr
    | some q =>
      rw [hq] at hr h
      have k := ih _ h.2 hr
      unfold due at k ⊢
      simp only [List.map_cons, List.sum_cons]
      omega

/-- No leaf is dirty and no clone is waiting: what closing comes to when all is written. -/
def Clean (s : St σ μ) : Prop := s.ckpt = none ∧ ∀ l, l ∈ s.leaves → l.dirty = false ∧ l.cloned = false

/-- The corrections readers have made that are not on disk. -/
def outstanding (s : St σ μ) : Int := total (fun b => - b.undo) s.leaves

theorem reopen_state (h : All O R s) (hc : Clean s) :
    ∃ t, run O s [.beginCkpt, .endCkpt, .restart] = some t ∧ All O R t ∧ t.rows = s.rows ∧ t.ckpt = none ∧
      total (Base.due O) t.leaves = total (Base.due O) s.leaves - outstanding s ∧ t.past = s.past ∧ t.next = s.next := by
  obtain ⟨c1, c2⟩ := hc
  have hall : s.leaves.all (fun l => !l.cloned) = true := by
    rw [List.all_eq_true]; intro l hl; simp [(c2 l hl).2]
  have hcopy : s.leaves.map (fun l => l.copy.1) = s.leaves := by
    conv => rhs; rw [← List.map_id s.leaves]
    refine List.map_congr_left (fun l hl => ?_)
    unfold Leaf.copy
    rw [if_neg (by rw [(c2 l hl).1]; decide)]
    rfl
  have him : s.leaves.map (Leaf.image O) = s.leaves.map (fun l => { l with bases := l.bases.map Base.forget }) := by
    refine List.map_congr_left (fun l hl => ?_)
    obtain ⟨d1, d2⟩ := c2 l hl
    unfold Leaf.image
    rw [d1]
    have : l.bases.map (Base.image O false) = l.bases.map Base.forget := by
      refine List.map_congr_left (fun b hb => ?_)
      have hi := h l hl b hb
      rw [d2] at hi
      have := no_clone hi
      unfold Base.image Base.forget
      dsimp only
      rw [← this]
    rw [this]
    cases l
    simp only at d1 d2
    rw [d1, d2]
  refine ⟨{ leaves := s.leaves.map (Leaf.image O), rows := s.rows,
            stats := s.onDisk + (s.leaves.map (fun l => l.copy.2)).sum,
            onDisk := s.onDisk + (s.leaves.map (fun l => l.copy.2)).sum, next := s.next, ckpt := none,
            saved := { leaves := s.leaves.map (Leaf.image O), rows := s.rows, stats := s.onDisk + (s.leaves.map (fun l => l.copy.2)).sum, next := s.next } },
    ?_, ?_, rfl, rfl, ?_, ?_, rfl⟩
  · simp only [run, step]
    rw [if_pos ⟨c1, hall⟩]
    dsimp only
    rw [hcopy, if_pos hall]
  · intro q hq x hx
    dsimp only at hq
    rw [him] at hq
    obtain ⟨l, hl, e⟩ := List.mem_map.mp hq
    subst e
    obtain ⟨b, hb, e⟩ := List.mem_map.mp hx
    subst e
    have hi := h l hl b hb
    dsimp only
    rw [(c2 l hl).1, (c2 l hl).2] at hi ⊢
    exact (inv_forget hi).1
  · dsimp only
    rw [him]
    unfold total outstanding total
    rw [List.map_map]
    have : ∀ a b c : Int, a + b = c → a = c - b := by intro a b c h; omega
    apply this
    rw [← sum_add]
    refine sum_congr (fun l hl => ?_)
    show ((l.bases.map Base.forget).map (Base.due O)).sum + (l.bases.map (fun b => - b.undo)).sum = _
    rw [List.map_map, ← sum_add]
    refine sum_congr (fun b hb => ?_)
    have hi := h l hl b hb
    rw [(c2 l hl).1, (c2 l hl).2] at hi
    have := (inv_forget hi).2
    show b.forget.due O + - b.undo = b.due O
    omega
  · unfold St.past
    dsimp only
    rw [him, List.map_map]
    refine List.map_congr_left (fun l _ => ?_)
    show (l.bases.map Base.forget).map Base.past = _
    rw [List.map_map]
    rfl

end Verif.Rowcount
