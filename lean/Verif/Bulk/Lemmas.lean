import Verif.Bulk.Spec

namespace Verif.Bulk

theorem past_trans {fwd a b c} (h1 : past fwd a b = true) (h2 : past fwd b c = true) : past fwd a c = true := by
  unfold past at *
  cases fwd <;> simp_all <;> omega

theorem past_irrefl {fwd a} : past fwd a a = false := by
  unfold past; cases fwd <;> simp

theorem past_asymm {fwd a b} (h1 : past fwd a b = true) : past fwd b a = false := by
  unfold past at *
  cases fwd <;> simp_all <;> omega

theorem outside_mono {fwd c a b} (h1 : past fwd a b = true) (h2 : outside fwd c a = true) : outside fwd c b = true := by
  unfold past outside at *
  cases fwd <;> simp_all <;> omega

theorem ordered_iff {fwd rows} : Ordered fwd rows ↔ rows.Pairwise fun a b => past fwd a.key b.key = true := by
  unfold Ordered past
  cases fwd <;> simp

theorem ahead_eq {fwd p rows} : ahead fwd p rows = (rows.filter fun r => r.live && past fwd p r.key).map (·.key) := rfl

theorem takeWhile_true {α} {p : α → Bool} {l : List α} (h : ∀ a ∈ l, p a = true) : l.takeWhile p = l := by
  induction l with
  | nil => rfl
  | cons a l ih =>
    rw [List.takeWhile_cons, h a List.mem_cons_self]
    simp only [if_true]
    rw [ih fun b hb => h b (List.mem_cons_of_mem _ hb)]

theorem inBound_eq {fwd c l} : inBound fwd (boundOf fwd c) l = l.takeWhile fun k => !outside fwd c k := by
  unfold boundOf outside inBound
  cases c.limited <;> cases fwd <;> cases c.posInf <;> cases c.negInf <;>
    simp only [Bool.false_eq_true, Bool.true_eq_false, if_true, if_false, Bool.false_and, Bool.true_and, Bool.not_false, Bool.not_true]
  all_goals first
    | exact (takeWhile_true fun _ _ => rfl).symm
    | (congr 1; funext k; simp only [← decide_not, Nat.not_lt])

theorem ahead_cons {fwd p r rs} : ahead fwd p (r :: rs) =
    if (r.live && past fwd p r.key) = true then r.key :: ahead fwd p rs else ahead fwd p rs := by
  rw [ahead_eq, List.filter_cons]
  by_cases h : (r.live && past fwd p r.key) = true
  · rw [if_pos h, if_pos h]; rfl
  · rw [if_neg h, if_neg h]; rfl

theorem ahead_append {fwd p a b} : ahead fwd p (a ++ b) = ahead fwd p a ++ ahead fwd p b := by
  rw [ahead_eq, List.filter_append, List.map_append]; rfl

/-- Beyond the next key the same rows are ahead. -/
theorem ahead_next {fwd p k rows} (hp : past fwd p k = true) (h : ∀ r ∈ rows, past fwd k r.key = true) :
    ahead fwd k rows = ahead fwd p rows := by
  rw [ahead_eq, ahead_eq]
  congr 1
  apply List.filter_congr
  intro r hr
  rw [h r hr, past_trans hp (h r hr)]

theorem ahead_none {fwd p q rows} (h : ∀ r ∈ rows, (r.live && past fwd p r.key) = false) (hq : q = p ∨ past fwd p q = true) :
    ahead fwd q rows = [] := by
  rw [ahead_eq, List.map_eq_nil_iff, List.filter_eq_nil_iff]
  intro r hr hl
  have hl' := Bool.and_eq_true_iff.mp hl
  have := h r hr
  rcases hq with rfl | hq
  · rw [hl] at this; cases this
  · rw [hl'.1, past_trans hq hl'.2] at this; cases this

def win (fwd : Bool) (c : Cursor) (l : List Nat) : List Nat := l.takeWhile fun k => !outside fwd c k

theorem win_cons_in {fwd c k l} (h : outside fwd c k = false) : win fwd c (k :: l) = k :: win fwd c l := by
  unfold win; rw [List.takeWhile_cons, h]; rfl

theorem win_cons_out {fwd c k l} (h : outside fwd c k = true) : win fwd c (k :: l) = [] := by
  unfold win; rw [List.takeWhile_cons, h]; rfl

theorem win_out {fwd c k rows} (h : outside fwd c k = true) : win fwd c (ahead fwd k rows) = [] := by
  induction rows with
  | nil => rfl
  | cons r rs ih =>
    rw [ahead_cons]
    by_cases hr : (r.live && past fwd k r.key) = true
    · rw [if_pos hr]
      exact win_cons_out (outside_mono (Bool.and_eq_true_iff.mp hr).2 h)
    · rw [if_neg hr]; exact ih

theorem shortcut_spec {fwd c user} {more : List Row} (hu : ∀ k, user k ≠ .err) : ∀ {rs last},
    (∀ r ∈ rs ++ more, past fwd last r.key = true) → (rs ++ more).Pairwise (fun a b => past fwd a.key b.key = true) →
    let t := shortcut fwd c (fun _ => true) user last rs
    t.1 = .ok ∧ (t.2.1 = last ∨ past fwd last t.2.1 = true) ∧
    win fwd c (ahead fwd last (rs ++ more)) = t.2.2 ++ win fwd c (ahead fwd t.2.1 (rs ++ more)) ∧
    (∀ k ∈ t.2.2.dropLast, user k = .more) ∧
    (boundOf fwd c = none → t.2.1 = t.2.2.getLastD last) := by
  intro rs
  induction rs with
  | nil => intro last _ _; exact ⟨rfl, .inl rfl, rfl, fun k hk => (by cases hk), fun _ => rfl⟩
  | cons r rs ih =>
    intro last hp hs
    have hpr := hp r List.mem_cons_self
    have hs1 := List.pairwise_cons.mp hs
    unfold shortcut
    by_cases hl : r.live = false
    · rw [if_pos hl]
      obtain ⟨i1, i2, i3, i4, i5⟩ := ih (last := last) (fun x hx => hp x (List.mem_cons_of_mem _ hx)) hs1.2
      have e : ∀ p, ahead fwd p (r :: rs ++ more) = ahead fwd p (rs ++ more) := by
        intro p; show ahead fwd p (r :: (rs ++ more)) = _; rw [ahead_cons, hl]; rfl
      refine ⟨i1, i2, ?_, i4, i5⟩
      rw [e, e]
      exact i3
    · rw [if_neg hl]
      have hl' : r.live = true := by cases h : r.live <;> simp_all
      have e1 : ahead fwd last (r :: rs ++ more) = r.key :: ahead fwd last (rs ++ more) := by
        show ahead fwd last (r :: (rs ++ more)) = _
        rw [ahead_cons, hl', hpr]; rfl
      have e2 : ∀ q, (q = r.key ∨ past fwd r.key q = true) → ahead fwd q (r :: rs ++ more) = ahead fwd q (rs ++ more) := by
        intro q hq
        show ahead fwd q (r :: (rs ++ more)) = _
        rw [ahead_cons]
        have : past fwd q r.key = false := by
          rcases hq with rfl | hq
          · exact past_irrefl
          · exact past_asymm hq
        rw [this]; simp
      have e3 : ahead fwd r.key (rs ++ more) = ahead fwd last (rs ++ more) := ahead_next hpr hs1.1
      by_cases ho : outside fwd c r.key = true
      · rw [if_pos ho]
        refine ⟨rfl, .inr hpr, ?_, fun k hk => (by cases hk), fun hb => ?_⟩
        · rw [e1, win_cons_out ho, e2 _ (.inl rfl)]
          exact (win_out ho).symm
        · have := inBound_eq (fwd := fwd) (c := c) (l := [r.key])
          rw [hb] at this
          unfold inBound at this
          simp [ho] at this
      · have ho' : outside fwd c r.key = false := by cases h : outside fwd c r.key <;> simp_all
        rw [if_neg ho, if_neg (by simp)]
        cases hur : user r.key with
        | err => exact absurd hur (hu _)
        | stop =>
          refine ⟨rfl, .inr hpr, ?_, fun k hk => (by cases hk), fun _ => rfl⟩
          rw [e1, win_cons_in ho', e2 _ (.inl rfl), e3]; rfl
        | more =>
          obtain ⟨i1, i2, i3, i4, i5⟩ := ih (last := r.key) hs1.1 hs1.2
          refine ⟨i1, .inr ?_, ?_, ?_, ?_⟩
          · rcases i2 with e | e
            · simp only [e]; exact hpr
            · exact past_trans hpr e
          · simp only
            rw [e1, win_cons_in ho', e2 _ i2, ← e3, i3]; rfl
          · intro k hk
            simp only at hk
            generalize (shortcut fwd c (fun _ => true) user r.key rs).2.2 = l at hk i4
            cases l with
            | nil => cases hk
            | cons a l =>
              rcases List.mem_cons.mp hk with rfl | hk
              · exact hur
              · exact i4 k hk
          · intro hb
            simp only
            rw [i5 hb, List.getLastD_cons]

theorem dropWhile_split {α} (p : α → Bool) (l : List α) : ∃ a, l = a ++ l.dropWhile p ∧ ∀ x ∈ a, p x = true := by
  induction l with
  | nil => exact ⟨[], rfl, fun x hx => by cases hx⟩
  | cons y l ih =>
    by_cases h : p y = true
    · obtain ⟨a, ha, hp⟩ := ih
      refine ⟨y :: a, ?_, ?_⟩
      · rw [List.dropWhile_cons, if_pos h]
        exact congrArg (y :: ·) ha
      · intro x hx
        rcases List.mem_cons.mp hx with rfl | hx
        · exact h
        · exact hp x hx
    · exact ⟨[], by rw [List.dropWhile_cons, if_neg h]; rfl, fun x hx => by cases hx⟩

theorem dropWhile_head {α} {p : α → Bool} {l : List α} {x xs} (h : l.dropWhile p = x :: xs) : p x = false := by
  induction l with
  | nil => cases h
  | cons y l ih =>
    rw [List.dropWhile_cons] at h
    by_cases hy : p y = true
    · rw [if_pos hy] at h; exact ih h
    · rw [if_neg hy] at h; cases h; simpa using hy

/-- What one attempt does when no lock is refused. -/
structure Good (fwd : Bool) (c : Cursor) (user : Nat → Ans) (rows : List Row) (t : Res × Nat × List Nat) : Prop where
  none : ahead fwd c.pos rows = [] → t = (.notFound, c.pos, [])
  out : ahead fwd c.pos rows ≠ [] → win fwd c (ahead fwd c.pos rows) = [] → t = (.outOfRange, c.pos, [])
  ok : win fwd c (ahead fwd c.pos rows) ≠ [] → t.1 = .ok ∧ past fwd c.pos t.2.1 = true ∧ t.2.2 ≠ [] ∧
    win fwd c (ahead fwd c.pos rows) = t.2.2 ++ win fwd c (ahead fwd t.2.1 rows) ∧
    (∀ k ∈ t.2.2.dropLast, user k = .more) ∧ (boundOf fwd c = .none → t.2.1 = t.2.2.getLastD c.pos)

theorem search_spec {fwd c user} (hu : ∀ k, user k ≠ .err) : ∀ {parts : List (List Row)}, Ordered fwd parts.flatten →
    Good fwd c user parts.flatten (search fwd c (fun _ => true) user parts) := by
  intro parts
  induction parts with
  | nil => intro _; exact ⟨fun _ => rfl, fun h => absurd rfl h, fun h => absurd rfl h⟩
  | cons b bs ih =>
    intro hs
    rw [ordered_iff, List.flatten_cons] at hs
    obtain ⟨a, ha, hp⟩ := dropWhile_split (fun r => !(r.live && past fwd c.pos r.key)) b
    have hp' : ∀ r ∈ a, (r.live && past fwd c.pos r.key) = false := fun r hr => (Bool.not_eq_true' _).mp (hp r hr)
    cases hd : b.dropWhile (fun r => !(r.live && past fwd c.pos r.key)) with
    | nil =>
      have eb : b = a := by rw [hd, List.append_nil] at ha; exact ha
      have e : search fwd c (fun _ => true) user (b :: bs) = search fwd c (fun _ => true) user bs := by
        show (match b.dropWhile (fun r => !(r.live && past fwd c.pos r.key)) with | [] => _ | r :: rs => _) = _
        rw [hd]
      have g := ih (ordered_iff.mpr (List.pairwise_append.mp hs).2.1)
      have ea : ∀ q, (q = c.pos ∨ past fwd c.pos q = true) → ahead fwd q (b :: bs).flatten = ahead fwd q bs.flatten := by
        intro q hq
        rw [List.flatten_cons, ahead_append, eb, ahead_none hp' hq, List.nil_append]
      rw [e]
      refine ⟨?_, ?_, ?_⟩
      · rw [ea _ (.inl rfl)]; exact g.none
      · rw [ea _ (.inl rfl)]; exact g.out
      · rw [ea _ (.inl rfl)]
        intro h
        obtain ⟨g1, g2, g3, g4, g5, g6⟩ := g.ok h
        exact ⟨g1, g2, g3, by rw [ea _ (.inr g2)]; exact g4, g5, g6⟩
    | cons r rs =>
      rw [hd] at ha
      have hr : (r.live && past fwd c.pos r.key) = true := by simpa using dropWhile_head hd
      have hr' := Bool.and_eq_true_iff.mp hr
      have ef : (b :: bs).flatten = a ++ (r :: (rs ++ bs.flatten)) := by
        rw [List.flatten_cons, ha]; simp
      have hs2 : (r :: (rs ++ bs.flatten)).Pairwise (fun a b => past fwd a.key b.key = true) := by
        rw [ha] at hs
        have : (a ++ (r :: (rs ++ bs.flatten))).Pairwise (fun a b => past fwd a.key b.key = true) := by simpa using hs
        exact (List.pairwise_append.mp this).2.1
      have hs3 := List.pairwise_cons.mp hs2
      have ea : ∀ q, (q = c.pos ∨ past fwd c.pos q = true) → ahead fwd q (b :: bs).flatten = ahead fwd q (r :: (rs ++ bs.flatten)) := by
        intro q hq
        rw [ef, ahead_append, ahead_none hp' hq, List.nil_append]
      have e1 : ahead fwd c.pos (b :: bs).flatten = r.key :: ahead fwd c.pos (rs ++ bs.flatten) := by
        rw [ea _ (.inl rfl), ahead_cons, if_pos hr]
      have e2 : ∀ q, (q = r.key ∨ past fwd r.key q = true) → ahead fwd q (b :: bs).flatten = ahead fwd q (rs ++ bs.flatten) := by
        intro q hq
        have hq2 : past fwd c.pos q = true := by
          rcases hq with rfl | hq
          · exact hr'.2
          · exact past_trans hr'.2 hq
        rw [ea _ (.inr hq2), ahead_cons]
        have : past fwd q r.key = false := by
          rcases hq with rfl | hq
          · exact past_irrefl
          · exact past_asymm hq
        rw [this]; simp
      have e3 : ahead fwd r.key (rs ++ bs.flatten) = ahead fwd c.pos (rs ++ bs.flatten) := ahead_next hr'.2 hs3.1
      have e : search fwd c (fun _ => true) user (b :: bs) =
          if outside fwd c r.key then (.outOfRange, c.pos, [])
          else match user r.key with
            | .stop => (.ok, r.key, [r.key])
            | .err => (.userErr, c.pos, [r.key])
            | .more =>
              let t := shortcut fwd c (fun _ => true) user r.key rs
              (t.1, t.2.1, r.key :: t.2.2) := by
        unfold search
        rw [hd]
        simp only [Bool.true_eq_false, if_false]
        cases user r.key <;> rfl
      rw [e]
      by_cases ho : outside fwd c r.key = true
      · rw [if_pos ho]
        refine ⟨fun h => ?_, fun _ _ => rfl, fun h => ?_⟩
        · rw [e1] at h; cases h
        · rw [e1, win_cons_out ho] at h; exact absurd rfl h
      · have ho' : outside fwd c r.key = false := by cases h : outside fwd c r.key <;> simp_all
        rw [if_neg ho]
        refine ⟨fun h => ?_, fun _ h => ?_, fun _ => ?_⟩
        · rw [e1] at h; cases h
        · rw [e1, win_cons_in ho'] at h; cases h
        · cases hur : user r.key with
          | err => exact absurd hur (hu _)
          | stop =>
            refine ⟨rfl, hr'.2, by simp, ?_, fun k hk => (by cases hk), fun _ => rfl⟩
            rw [e1, win_cons_in ho', e2 _ (.inl rfl), e3]; rfl
          | more =>
            obtain ⟨i1, i2, i3, i4, i5⟩ := shortcut_spec (c := c) (more := bs.flatten) hu (rs := rs) (last := r.key) hs3.1 hs3.2
            refine ⟨i1, ?_, by simp, ?_, ?_, ?_⟩
            · rcases i2 with e | e
              · simp only [e]; exact hr'.2
              · exact past_trans hr'.2 e
            · simp only
              rw [e1, win_cons_in ho', e2 _ i2, ← e3, i3]; rfl
            · intro k hk
              simp only at hk
              generalize (shortcut fwd c (fun _ => true) user r.key rs).2.2 = l at hk i4
              cases l with
              | nil => cases hk
              | cons a l =>
                rcases List.mem_cons.mp hk with rfl | hk
                · exact hur
                · exact i4 k hk
            · intro hb
              simp only
              rw [i5 hb, List.getLastD_cons]

end Verif.Bulk
