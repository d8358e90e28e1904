import Verif.Sort.Model

/-! Quicksort. -/
namespace Verif.Sort
variable {α : Type} {cmp : α → α → Int}

theorem Comparator.refl (h : Comparator cmp) (x : α) : cmp x x ≤ 0 := by
  have := h.turn x x
  omega

theorem Comparator.flip (h : Comparator cmp) {x y : α} (hxy : ¬ cmp x y < 0) : cmp y x ≤ 0 := by
  have := h.turn x y
  omega

theorem Comparator.flip' (h : Comparator cmp) {x y : α} (hxy : cmp x y ≤ 0) : ¬ cmp y x < 0 := by
  have := h.turn y x
  omega

theorem swap_eq {a : List α} {i j : Nat} {x y : α} (hx : a[i]? = some x) (hy : a[j]? = some y) : swap a i j = some ((a.set i y).set j x) := by
  unfold swap
  rw [hx, hy]
  rfl

theorem lt_of_get {a : List α} {i : Nat} {x : α} (h : a[i]? = some x) : i < a.length := by
  rw [List.getElem?_eq_some_iff] at h
  exact h.1

theorem get_of_lt {a : List α} {i : Nat} (h : i < a.length) : ∃ x, a[i]? = some x := ⟨_, List.getElem?_eq_getElem h⟩

theorem swap_length {a : List α} {i j : Nat} {x y : α} : ((a.set i y).set j x).length = a.length := by
  rw [List.length_set, List.length_set]

theorem swap_perm {a : List α} {i j : Nat} {x y : α} (hx : a[i]? = some x) (hy : a[j]? = some y) : ((a.set i y).set j x).Perm a := by
  obtain ⟨h1, rfl⟩ := List.getElem?_eq_some_iff.1 hx
  obtain ⟨h2, rfl⟩ := List.getElem?_eq_some_iff.1 hy
  exact List.set_set_perm h1 h2

/-- What is where after the swap. -/
theorem swap_get {a : List α} {i j : Nat} {x y : α} (hx : a[i]? = some x) (hy : a[j]? = some y) (k : Nat) :
    ((a.set i y).set j x)[k]? = if k = j then some x else if k = i then some y else a[k]? := by
  have h1 := lt_of_get hx
  have h2 := lt_of_get hy
  rw [List.getElem?_set, List.getElem?_set, List.length_set]
  by_cases e1 : j = k
  · subst e1
    simp [h2]
  · by_cases e2 : i = k
    · subst e2
      simp [e1, Ne.symm e1, h1]
    · simp [e1, e2, Ne.symm e1, Ne.symm e2]

theorem median_ok (hc : Comparator cmp) {a : List α} {m : Nat} (hm : m < a.length) (hm0 : 0 < m) :
    ∃ a' v x y, medianOfThree cmp a 0 m (a.length - 1) = some a' ∧ a'.Perm a ∧ a'[m]? = some v ∧ a'[0]? = some x ∧
      a'[a.length - 1]? = some y ∧ cmp x v ≤ 0 ∧ cmp v y ≤ 0 := by
  have hl : 0 < a.length := by omega
  obtain ⟨x0, hx0⟩ := get_of_lt hl
  obtain ⟨p0, hp0⟩ := get_of_lt hm
  obtain ⟨y0, hy0⟩ := get_of_lt (a := a) (i := a.length - 1) (by omega)
  -- the first comparison
  obtain ⟨a1, x1, p1, h1, h2, h3, h4, h5, h6, h7⟩ : ∃ a1 x1 p1, (if 0 < cmp x0 p0 then swap a 0 m else some a) = some a1 ∧ a1.Perm a ∧
      a1.length = a.length ∧ a1[0]? = some x1 ∧ a1[m]? = some p1 ∧ cmp x1 p1 ≤ 0 ∧ (m ≠ a.length - 1 → a1[a.length - 1]? = some y0) := by
    by_cases hgt : 0 < cmp x0 p0
    · rw [if_pos hgt]
      refine ⟨_, p0, x0, swap_eq hx0 hp0, swap_perm hx0 hp0, swap_length, ?_, ?_, ?_, ?_⟩
      · rw [swap_get hx0 hp0, if_neg (by omega), if_pos rfl]
      · rw [swap_get hx0 hp0, if_pos rfl]
      · exact Int.le_of_lt ((hc.turn p0 x0).2 hgt)
      · intro hne
        rw [swap_get hx0 hp0, if_neg (Ne.symm hne), if_neg (by omega)]
        exact hy0
    · rw [if_neg hgt]
      exact ⟨a, x0, p0, rfl, List.Perm.refl _, rfl, hx0, hp0, by omega, fun _ => hy0⟩
  obtain ⟨y1, hy1⟩ := get_of_lt (a := a1) (i := a.length - 1) (by omega)
  have hsplit : medianOfThree cmp a 0 m (a.length - 1) = (if 0 < cmp p1 y1 then
      (swap a1 m (a.length - 1)).bind fun a => a[0]?.bind fun x => a[m]?.bind fun p => if 0 < cmp x p then swap a 0 m else some a
      else some a1) := by
    unfold medianOfThree
    by_cases hgt : 0 < cmp x0 p0
    · rw [if_pos hgt] at h1
      simp only [hx0, hp0, Option.bind_eq_bind, Option.bind_some, if_pos hgt, h1, h5, hy1]
    · rw [if_neg hgt] at h1
      injection h1 with h1
      subst h1
      simp only [hx0, hp0, Option.bind_eq_bind, Option.bind_some, if_neg hgt, hy1]
      rw [hp0] at h5
      injection h5 with h5
      subst h5
      rfl
  rw [hsplit]
  by_cases hgt : 0 < cmp p1 y1
  · rw [if_pos hgt]
    have hne : m ≠ a.length - 1 := by
      intro e
      rw [← e, h5] at hy1
      cases hy1
      have := hc.refl p1
      omega
    have s1 := swap_eq h5 hy1
    generalize ha2 : (a1.set m y1).set (a.length - 1) p1 = a2 at s1
    have g : ∀ k, a2[k]? = if k = a.length - 1 then some p1 else if k = m then some y1 else a1[k]? := by
      intro k
      rw [← ha2]
      exact swap_get h5 hy1 k
    have pm : a2.Perm a1 := by rw [← ha2]; exact swap_perm h5 hy1
    have q0 : a2[0]? = some x1 := by rw [g, if_neg (by omega), if_neg (by omega)]; exact h4
    have qm : a2[m]? = some y1 := by rw [g, if_neg hne, if_pos rfl]
    have qh : a2[a.length - 1]? = some p1 := by rw [g, if_pos rfl]
    simp only [s1, q0, qm, Option.bind_some]
    by_cases hgt2 : 0 < cmp x1 y1
    · rw [if_pos hgt2]
      refine ⟨_, x1, y1, p1, swap_eq q0 qm, (swap_perm q0 qm).trans (pm.trans h2), ?_, ?_, ?_, ?_, ?_⟩
      · rw [swap_get q0 qm, if_pos rfl]
      · rw [swap_get q0 qm, if_neg (by omega), if_pos rfl]
      · rw [swap_get q0 qm, if_neg (Ne.symm hne), if_neg (by omega)]
        exact qh
      · exact Int.le_of_lt ((hc.turn y1 x1).2 hgt2)
      · exact h6
    · rw [if_neg hgt2]
      exact ⟨a2, y1, x1, p1, rfl, pm.trans h2, qm, q0, qh, by omega, Int.le_of_lt ((hc.turn y1 p1).2 hgt)⟩
  · rw [if_neg hgt]
    exact ⟨a1, p1, x1, y1, rfl, h2, h5, h4, hy1, h6, by omega⟩

theorem scanUp_ok {a : List α} {pv : Nat} {v : α} (hv : a[pv]? = some v) {hi : Nat} {y : α} (hy : a[hi]? = some y) (hs : ¬ cmp y v < 0) :
    ∀ (fuel li : Nat), li ≤ hi → hi - li < fuel → ∃ li' x, scanUp cmp a pv fuel li = some li' ∧ li ≤ li' ∧ li' ≤ hi ∧ a[li']? = some x ∧
      ¬ cmp x v < 0 ∧ ∀ j z, li ≤ j → j < li' → a[j]? = some z → cmp z v < 0
  | 0, li, _, hf => absurd hf (Nat.not_lt_zero _)
  | fuel + 1, li, hle, hf => by
    obtain ⟨x, hx⟩ := get_of_lt (a := a) (i := li) (Nat.lt_of_le_of_lt hle (lt_of_get hy))
    unfold scanUp
    simp only [hx, hv, Option.bind_eq_bind, Option.bind_some]
    by_cases hlt : cmp x v < 0
    · rw [if_pos hlt]
      have hne : li ≠ hi := by
        rintro rfl
        rw [hx] at hy
        cases hy
        exact hs hlt
      obtain ⟨li', z, s1, s2, s3, s4, s5, s6⟩ := scanUp_ok hv hy hs fuel (li + 1) (by omega) (by omega)
      refine ⟨li', z, s1, by omega, s3, s4, s5, ?_⟩
      intro j w h1 h2 h3
      by_cases e : j = li
      · subst e
        rw [hx] at h3
        cases h3
        exact hlt
      · exact s6 j w (by omega) h2 h3
    · rw [if_neg hlt]
      exact ⟨li, x, rfl, Nat.le_refl _, hle, hx, hlt, fun j z h1 h2 => by omega⟩

theorem scanDown_ok {a : List α} {pv : Nat} {v : α} (hv : a[pv]? = some v) {x0 : α} (h0 : a[0]? = some x0) (hs : ¬ cmp v x0 < 0) :
    ∀ (fuel ri : Nat), ri < a.length → ri < fuel → ∃ ri' x, scanDown cmp a pv fuel ri = some ri' ∧ ri' ≤ ri ∧ a[ri']? = some x ∧
      ¬ cmp v x < 0 ∧ ∀ j z, ri' < j → j ≤ ri → a[j]? = some z → cmp v z < 0
  | 0, ri, _, hf => absurd hf (Nat.not_lt_zero _)
  | fuel + 1, ri, hlt', hf => by
    obtain ⟨x, hx⟩ := get_of_lt hlt'
    unfold scanDown
    simp only [hx, hv, Option.bind_eq_bind, Option.bind_some]
    by_cases hlt : cmp v x < 0
    · rw [if_pos hlt]
      cases ri with
      | zero =>
        rw [hx] at h0
        cases h0
        exact absurd hlt hs
      | succ ri =>
        obtain ⟨ri', z, s1, s2, s3, s4, s5⟩ := scanDown_ok hv h0 hs fuel ri (by omega) (by omega)
        refine ⟨ri', z, s1, by omega, s3, s4, ?_⟩
        intro j w h1 h2 h3
        by_cases e : j = ri + 1
        · subst e
          rw [hx] at h3
          cases h3
          exact hlt
        · exact s5 j w h1 (by omega) h3
    · rw [if_neg hlt]
      exact ⟨ri, x, rfl, Nat.le_refl _, hx, hlt, fun j z h1 h2 => by omega⟩

/-- The loop: what is left of `li` is not above the pivot, what is right of `ri` not below it. -/
structure Parted (cmp : α → α → Int) (a : List α) (v : α) (li ri : Nat) : Prop where
  low : ∀ j x, j < li → a[j]? = some x → cmp x v ≤ 0
  high : ∀ j x, ri < j → a[j]? = some x → cmp v x ≤ 0
  lo1 : 1 ≤ li
  hi1 : li + 1 ≤ a.length
  ri1 : ri + 1 < a.length

theorem movedPivot_get {a : List α} {pv li ri : Nat} {v x y : α} (hv : a[pv]? = some v) (hx : a[li]? = some x) (hy : a[ri]? = some y) (hne : li ≠ ri) :
    ((a.set li y).set ri x)[movedPivot pv li ri]? = some v := by
  rw [swap_get hx hy]
  unfold movedPivot
  by_cases e1 : pv = li
  · subst e1
    rw [if_pos rfl, if_pos rfl, ← hx, hv]
  · rw [if_neg e1]
    by_cases e2 : pv = ri
    · subst e2
      rw [if_pos rfl, if_neg hne, if_pos rfl, ← hy, hv]
    · rw [if_neg e2, if_neg e2, if_neg e1, hv]

theorem partition_ok (hc : Comparator cmp) : ∀ (fuel : Nat) {a : List α} {pv li ri : Nat} {v : α}, a[pv]? = some v → Parted cmp a v li ri →
    ri + 1 - li < fuel → ∃ a' li' ri', partition cmp fuel a pv li ri = some (a', li', ri') ∧ a'.Perm a ∧ ri' < li' ∧ Parted cmp a' v li' ri'
  | 0, a, pv, li, ri, v, _, _, hf => absurd hf (Nat.not_lt_zero _)
  | fuel + 1, a, pv, li, ri, v, hv, hp, hf => by
    unfold partition
    by_cases hle : li ≤ ri
    · rw [if_pos hle]
      obtain ⟨x0, hx0⟩ := get_of_lt (a := a) (i := 0) (by have := hp.ri1; omega)
      obtain ⟨yh, hyh⟩ := get_of_lt (a := a) (i := a.length - 1) (by have := hp.ri1; omega)
      have l0 := hp.low 0 x0 hp.lo1 hx0
      have h1 := hp.high (a.length - 1) yh (by have := hp.ri1; omega) hyh
      have := hp.ri1
      have := hp.hi1
      have := hp.lo1
      obtain ⟨li', x, s1, s2, s3, s4, s5, s6⟩ := scanUp_ok hv hyh (hc.flip' h1) (a.length + 1) li (by omega) (by omega)
      obtain ⟨ri', y, t1, t2, t3, t4, t5⟩ := scanDown_ok hv hx0 (hc.flip' l0) (a.length + 1) ri (by omega) (by omega)
      simp only [s1, t1, Option.bind_eq_bind, Option.bind_some]
      have low : ∀ j z, j < li' → a[j]? = some z → cmp z v ≤ 0 := by
        intro j z hj hz
        by_cases e : j < li
        · exact hp.low j z e hz
        · exact Int.le_of_lt (s6 j z (by omega) hj hz)
      have high : ∀ j z, ri' < j → a[j]? = some z → cmp v z ≤ 0 := by
        intro j z hj hz
        by_cases e : ri < j
        · exact hp.high j z e hz
        · exact Int.le_of_lt (t5 j z hj (by omega) hz)
      have vx : cmp v x ≤ 0 := hc.flip s5
      have yv : cmp y v ≤ 0 := hc.flip t4
      by_cases hlt : li' < ri'
      · rw [if_pos hlt]
        obtain ⟨r, rfl⟩ : ∃ r, ri' = r + 1 := ⟨ri' - 1, by omega⟩
        rw [swap_eq s4 t3]
        have hvp := movedPivot_get hv s4 t3 (by omega)
        have hpp := swap_perm s4 t3
        have hg := swap_get s4 t3
        have hlen : ((a.set li' y).set (r + 1) x).length = a.length := swap_length
        obtain ⟨a', l2, r2, q1, q2, q3, q4⟩ := partition_ok hc fuel (li := li' + 1) (ri := r) hvp
          ⟨by
            intro j z hj hz
            rw [hg] at hz
            split at hz
            · omega
            · split at hz
              · cases hz; exact yv
              · exact low j z (by omega) hz,
           by
            intro j z hj hz
            rw [hg] at hz
            split at hz
            · cases hz; exact vx
            · split at hz
              · omega
              · exact high j z (by omega) hz,
           by omega, by omega, by omega⟩ (by omega)
        exact ⟨a', l2, r2, q1, q2.trans hpp, q3, q4⟩
      · rw [if_neg hlt]
        by_cases he : li' = ri'
        · rw [if_pos he]
          subst he
          obtain ⟨r, rfl⟩ : ∃ r, li' = r + 1 := ⟨li' - 1, by omega⟩
          rw [s4] at t3
          cases t3
          obtain ⟨a', l2, r2, q1, q2, q3, q4⟩ := partition_ok hc fuel (li := r + 1 + 1) (ri := r) hv
            ⟨by
              intro j z hj hz
              by_cases e : j = r + 1
              · subst e
                rw [s4] at hz
                cases hz
                exact yv
              · exact low j z (by omega) hz,
             by
              intro j z hj hz
              by_cases e : j = r + 1
              · subst e
                rw [s4] at hz
                cases hz
                exact vx
              · exact high j z (by omega) hz,
             by omega, by omega, by omega⟩ (by omega)
          exact ⟨a', l2, r2, q1, q2, q3, q4⟩
        · rw [if_neg he]
          exact partition_ok hc fuel hv ⟨low, high, by omega, by omega, by omega⟩ (by omega)
    · rw [if_neg hle]
      exact ⟨a, li, ri, rfl, List.Perm.refl _, by omega, hp⟩

/-- Sorted pieces around a value, with what equals the value between. -/
theorem join_sorted (hc : Comparator cmp) {v : α} {l m r : List α} (hl : InOrder cmp l) (hr : InOrder cmp r) (l1 : ∀ x ∈ l, cmp x v ≤ 0)
    (m1 : ∀ x ∈ m, cmp x v ≤ 0 ∧ cmp v x ≤ 0) (r1 : ∀ x ∈ r, cmp v x ≤ 0) : InOrder cmp (l ++ m ++ r) := by
  have mid : InOrder cmp m := by
    unfold InOrder
    rw [List.pairwise_iff_forall_sublist]
    intro x y hxy
    have hx : x ∈ m := hxy.subset List.mem_cons_self
    have hy : y ∈ m := hxy.subset (List.mem_cons_of_mem _ List.mem_cons_self)
    exact hc.trans x v y (m1 x hx).1 (m1 y hy).2
  refine List.pairwise_append.2 ⟨List.pairwise_append.2 ⟨hl, mid, ?_⟩, hr, ?_⟩
  · intro x hx y hy
    exact hc.trans x v y (l1 x hx) (m1 y hy).2
  · intro x hx y hy
    refine hc.trans x v y ?_ (r1 y hy)
    rcases List.mem_append.1 hx with h | h
    · exact l1 x h
    · exact (m1 x h).1

theorem quicksort_ok (hc : Comparator cmp) : ∀ (fuel : Nat) (a : List α), a.length < fuel →
    ∃ s, quicksort cmp fuel a = some s ∧ s.Perm a ∧ InOrder cmp s
  | 0, a, hf => absurd hf (Nat.not_lt_zero _)
  | fuel + 1, a, hf => by
    unfold quicksort
    by_cases h1 : 1 < a.length
    · rw [if_pos h1]
      obtain ⟨a1, v, x, y, m1, m2, m3, m4, m5, m6, m7⟩ := median_ok hc (a := a) (m := a.length / 2) (by omega) (by omega)
      have hlen := m2.length_eq
      obtain ⟨r0, hr0⟩ : ∃ r, a.length - 1 = r + 1 := ⟨a.length - 2, by omega⟩
      obtain ⟨a2, li, ri, p1, p2, p3, p4⟩ := partition_ok hc (a.length + 1) (li := 1) (ri := r0) m3
        ⟨by
          intro j z hj hz
          have : j = 0 := by omega
          subst this
          rw [m4] at hz
          cases hz
          exact m6,
         by
          intro j z hj hz
          have := lt_of_get hz
          have : j = a.length - 1 := by omega
          subst this
          rw [m5] at hz
          cases hz
          exact m7,
         by omega, by omega, by omega⟩ (by omega)
      have hlen2 := p2.length_eq
      have i1 := p4.hi1
      have i2 := p4.ri1
      obtain ⟨l, q1, q2, q3⟩ := quicksort_ok hc fuel (a2.take (ri + 1)) (by rw [List.length_take]; omega)
      have hll : l.length = ri + 1 := by rw [q2.length_eq, List.length_take]; omega
      have hd : (l ++ a2.drop (ri + 1)).drop li = a2.drop li := by
        rw [List.drop_append, List.drop_eq_nil_of_le (by omega), List.nil_append, List.drop_drop]
        congr 1
        omega
      have ht : (l ++ a2.drop (ri + 1)).take li = l ++ (a2.drop (ri + 1)).take (li - (ri + 1)) := by
        rw [List.take_append, List.take_of_length_le (by omega), hll]
      obtain ⟨r, w1, w2, w3⟩ := quicksort_ok hc fuel (a2.drop li) (by rw [List.length_drop]; have := p4.lo1; omega)
      have hdec : dec (a.length - 1) = some r0 := by rw [hr0]; rfl
      refine ⟨l ++ (a2.drop (ri + 1)).take (li - (ri + 1)) ++ r, ?_, ?_, ?_⟩
      · simp only [m1, hdec, p1, q1, hd, w1, ht, Option.bind_eq_bind, Option.bind_some]
      · have e : a2 = a2.take (ri + 1) ++ (a2.drop (ri + 1)).take (li - (ri + 1)) ++ a2.drop li := by
          have : a2.drop li = (a2.drop (ri + 1)).drop (li - (ri + 1)) := by
            rw [List.drop_drop]
            congr 1
            omega
          rw [this, List.append_assoc, List.take_append_drop, List.take_append_drop]
        refine List.Perm.trans ?_ (p2.trans m2)
        conv => rhs; rw [e]
        exact (q2.append (List.Perm.refl _)).append w2
      · refine join_sorted hc (v := v) q3 w3 ?_ ?_ ?_
        · intro z hz
          obtain ⟨j, hj, rfl⟩ := List.getElem_of_mem (q2.mem_iff.1 hz)
          rw [List.length_take] at hj
          rw [List.getElem_take]
          exact p4.low j _ (by omega) (List.getElem?_eq_getElem (by omega))
        · intro z hz
          obtain ⟨j, hj, rfl⟩ := List.getElem_of_mem hz
          rw [List.length_take, List.length_drop] at hj
          rw [List.getElem_take, List.getElem_drop]
          have hz := List.getElem?_eq_getElem (l := a2) (i := ri + 1 + j) (by omega)
          exact ⟨p4.low _ _ (by omega) hz, p4.high _ _ (by omega) hz⟩
        · intro z hz
          obtain ⟨j, hj, rfl⟩ := List.getElem_of_mem (w2.mem_iff.1 hz)
          rw [List.length_drop] at hj
          rw [List.getElem_drop]
          exact p4.high _ _ (by omega) (List.getElem?_eq_getElem (by omega))
    · rw [if_neg h1]
      refine ⟨a, rfl, List.Perm.refl _, ?_⟩
      match a, h1 with
      | [], _ => exact List.Pairwise.nil
      | [x], _ => exact List.pairwise_singleton _ _
      | _ :: _ :: _, h => simp at h

end Verif.Sort
