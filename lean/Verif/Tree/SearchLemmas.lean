import Verif.Tree.Search

/-! Where a search goes, and what is left when it finds nothing. -/
namespace Verif.Tree
set_option linter.unusedSectionVars false
variable {K R B : Type} [LinearOrder K]

/-! ### Goals -/

theorem Goal.up {g : Goal K} (h : g.left = true) {x y : K} (hxy : x ≤ y) (hx : g.cmp x = true) : g.cmp y = true := by
  cases g with
  | first => rfl
  | atLeast k b => simp only [Goal.cmp, decide_eq_true_eq] at hx ⊢; exact le_trans hx hxy
  | after k => simp only [Goal.cmp, decide_eq_true_eq] at hx ⊢; exact lt_of_lt_of_le hx hxy
  | last => cases h
  | atMost k => cases h
  | before k => cases h

theorem Goal.down {g : Goal K} (h : g.left = false) {x y : K} (hxy : x ≤ y) (hy : g.cmp y = true) : g.cmp x = true := by
  cases g with
  | first => cases h
  | atLeast k b => cases h
  | after k => cases h
  | last => rfl
  | atMost k => simp only [Goal.cmp, decide_eq_true_eq] at hy ⊢; exact le_trans hxy hy
  | before k => simp only [Goal.cmp, decide_eq_true_eq] at hy ⊢; exact lt_of_le_of_lt hxy hy

/-! ### The child of a node -/

theorem halve_spec {stop : K → Bool} {ks ext : List K} (hmono : ∀ (i j : Nat) (p q : K), ks[i]? = some p → ks[j]? = some q → i ≤ j → stop p = true → stop q = true) :
    ∀ (fuel lo hi : Nat), hi - lo ≤ fuel → lo ≤ hi → hi ≤ ks.length →
    (∀ j p, j < lo → ks[j]? = some p → stop p = false) → (∀ j p, hi ≤ j → ks[j]? = some p → stop p = true) →
    ∃ i, halve stop (ks ++ ext) fuel lo hi = some i ∧ i ≤ ks.length ∧
      (∀ j p, j < i → ks[j]? = some p → stop p = false) ∧ (∀ j p, i ≤ j → ks[j]? = some p → stop p = true)
  | 0, lo, hi, hf, hle, hn, h1, h2 => by
    refine ⟨lo, rfl, by omega, h1, fun j p hj => h2 j p (by omega)⟩
  | fuel + 1, lo, hi, hf, hle, hn, h1, h2 => by
    unfold halve
    by_cases hlt : lo < hi
    · rw [if_pos hlt]
      have hm : (lo + hi) / 2 < ks.length := by omega
      simp only
      rw [List.getElem?_append_left hm, List.getElem?_eq_getElem hm]
      simp only
      cases hs : stop ks[(lo + hi) / 2] with
      | true =>
        simp only [if_true]
        refine halve_spec hmono fuel lo ((lo + hi) / 2) (by omega) (by omega) (by omega) h1 ?_
        intro j p hj hp
        exact hmono _ j _ p (List.getElem?_eq_getElem hm) hp hj hs
      | false =>
        simp only [Bool.false_eq_true, if_false]
        refine halve_spec hmono fuel ((lo + hi) / 2 + 1) hi (by omega) (by omega) hn ?_ h2
        intro j p hj hp
        cases hp' : stop p with
        | false => rfl
        | true =>
          have := hmono j _ p _ hp (List.getElem?_eq_getElem hm) (by omega) hp'
          rw [hs] at this
          cases this
    · rw [if_neg hlt]
      exact ⟨lo, rfl, by omega, h1, fun j p hj => h2 j p (by omega)⟩

theorem moveUp_spec {ks ext : List K} {b : K} : ∀ (fuel lo : Nat), ks.length - lo ≤ fuel → lo ≤ ks.length →
    ∃ i, moveUp (ks ++ ext) (ks.length + 1) b fuel lo = some i ∧ lo ≤ i ∧ i ≤ ks.length ∧
      (∀ j p, lo ≤ j → j < i → ks[j]? = some p → p ≤ b) ∧ (∀ p, ks[i]? = some p → b < p)
  | 0, lo, hf, hle => by
    refine ⟨lo, rfl, Nat.le_refl _, hle, fun j p h1 h2 => by omega, ?_⟩
    intro p hp
    rw [List.getElem?_eq_none (by omega)] at hp
    cases hp
  | fuel + 1, lo, hf, hle => by
    unfold moveUp
    by_cases hlt : lo < ks.length
    · rw [if_pos (by omega), List.getElem?_append_left hlt, List.getElem?_eq_getElem hlt]
      simp only
      by_cases hp : ks[lo] ≤ b
      · rw [if_pos hp]
        obtain ⟨i, q1, q2, q3, q4, q5⟩ := moveUp_spec (ks := ks) (ext := ext) (b := b) fuel (lo + 1) (by omega) (by omega)
        refine ⟨i, q1, by omega, q3, ?_, q5⟩
        intro j p h1 h2 h3
        rcases Nat.eq_or_lt_of_le h1 with rfl | h1
        · rw [List.getElem?_eq_getElem hlt] at h3
          cases h3
          exact hp
        · exact q4 j p h1 h2 h3
      · rw [if_neg hp]
        refine ⟨lo, rfl, Nat.le_refl _, hle, fun j p h1 h2 => by omega, ?_⟩
        intro p h3
        rw [List.getElem?_eq_getElem hlt] at h3
        cases h3
        exact not_le.1 hp
    · rw [if_neg (by omega)]
      refine ⟨lo, rfl, Nat.le_refl _, hle, fun j p h1 h2 => by omega, ?_⟩
      intro p hp
      rw [List.getElem?_eq_none (by omega)] at hp
      cases hp

theorem moveDown_spec {ks ext : List K} {b : K} : ∀ (lo : Nat), lo ≤ ks.length →
    ∃ i, moveDown (ks ++ ext) b lo = some i ∧ i ≤ lo ∧
      (∀ j p, i ≤ j → j < lo → ks[j]? = some p → b ≤ p) ∧ (∀ p, 0 < i → ks[i - 1]? = some p → p < b)
  | 0, _ => ⟨0, rfl, Nat.le_refl _, fun j p h1 h2 => (by omega), fun p h => absurd h (Nat.lt_irrefl _)⟩
  | lo + 1, hle => by
    unfold moveDown
    have hlt : lo < ks.length := hle
    rw [List.getElem?_append_left hlt, List.getElem?_eq_getElem hlt]
    simp only
    by_cases hp : b ≤ ks[lo]
    · rw [if_pos hp]
      obtain ⟨i, q1, q2, q3, q4⟩ := moveDown_spec (ks := ks) (ext := ext) (b := b) lo (by omega)
      refine ⟨i, q1, by omega, ?_, q4⟩
      intro j p h1 h2 h3
      rcases Nat.lt_or_ge j lo with h | h
      · exact q3 j p h1 h h3
      · have : j = lo := by omega
        subst this
        rw [List.getElem?_eq_getElem hlt] at h3
        cases h3
        exact hp
    · rw [if_neg hp]
      refine ⟨lo + 1, rfl, Nat.le_refl _, fun j p h1 h2 => by omega, ?_⟩
      intro p _ h3
      rw [Nat.add_sub_cancel, List.getElem?_eq_getElem hlt] at h3
      cases h3
      exact not_le.1 hp

theorem sorted_get {ks : List K} (hs : ks.Pairwise (· < ·)) {i j : Nat} {p q : K} (hp : ks[i]? = some p) (hq : ks[j]? = some q)
    (h : i ≤ j) : p ≤ q := by
  rcases Nat.eq_or_lt_of_le h with rfl | h
  · rw [hp] at hq
    cases hq
    exact le_refl _
  · have hi := lt_of_getElem? hp
    have hj := lt_of_getElem? hq
    rw [List.getElem?_eq_getElem hi] at hp
    rw [List.getElem?_eq_getElem hj] at hq
    cases hp
    cases hq
    exact le_of_lt (List.pairwise_iff_getElem.1 hs i j hi hj h)

/-- Searching to the right, everything before the child is out or done; what is after it is not done. -/
theorem searchChild_left {g : Goal K} (hg : g.left = true) {pb : Option K} {ks ext : List K} (hs : ks.Pairwise (· < ·)) :
    ∃ i, searchChild g pb (ks.length + 1) (ks ++ ext) = some i ∧ i ≤ ks.length ∧
      (∀ p, 0 < i → ks[i - 1]? = some p → g.cmp p = false ∨ ∃ b, pb = some b ∧ p ≤ b) ∧
      (∀ p b, ks[i]? = some p → pb = some b → b < p) := by
  unfold searchChild
  by_cases h0 : ks.length = 0
  · rw [if_pos (by omega)]
    refine ⟨0, rfl, Nat.zero_le _, fun p h => absurd h (Nat.lt_irrefl _), ?_⟩
    intro p b hp
    rw [List.getElem?_eq_none (by omega)] at hp
    cases hp
  · rw [if_neg (by omega)]
    simp only [hg, if_true, Nat.add_sub_cancel]
    obtain ⟨i, q1, q2, q3, q4⟩ := halve_spec (stop := fun p => g.cmp p) (ks := ks) (ext := ext)
      (fun i j p q hp hq hij hst => g.up hg (sorted_get hs hp hq hij) hst) (ks.length + 1) 0 ks.length (by omega) (by omega)
      (Nat.le_refl _) (fun j p h => absurd h (Nat.not_lt_zero _)) (by
        intro j p hj hp
        rw [List.getElem?_eq_none hj] at hp
        cases hp)
    rw [q1]
    simp only
    cases pb with
    | none =>
      refine ⟨i, rfl, q2, fun p h hp => Or.inl (q3 _ p (by omega) hp), ?_⟩
      intro p b _ hb
      cases hb
    | some b =>
      simp only
      obtain ⟨i', w1, w2, w3, w4, w5⟩ := moveUp_spec (ks := ks) (ext := ext) (b := b) (ks.length + 1) i (by omega) q2
      refine ⟨i', w1, w3, ?_, ?_⟩
      · intro p h hp
        rcases Nat.lt_or_ge (i' - 1) i with h' | h'
        · exact Or.inl (q3 _ p h' hp)
        · exact Or.inr ⟨b, rfl, w4 (i' - 1) p h' (by omega) hp⟩
      · intro p b' hp hb
        cases hb
        exact w5 p hp

/-- Searching to the left. -/
theorem searchChild_right {g : Goal K} (hg : g.left = false) {pb : Option K} {ks ext : List K} (hs : ks.Pairwise (· < ·)) :
    ∃ i, searchChild g pb (ks.length + 1) (ks ++ ext) = some i ∧ i ≤ ks.length ∧
      (∀ p, ks[i]? = some p → g.cmp p = false ∨ ∃ b, pb = some b ∧ b ≤ p) ∧
      (∀ p b, 0 < i → ks[i - 1]? = some p → pb = some b → p < b) := by
  unfold searchChild
  by_cases h0 : ks.length = 0
  · rw [if_pos (by omega)]
    refine ⟨0, rfl, Nat.zero_le _, ?_, fun p b h => absurd h (Nat.lt_irrefl _)⟩
    intro p hp
    rw [List.getElem?_eq_none (by omega)] at hp
    cases hp
  · rw [if_neg (by omega)]
    simp only [hg, Bool.false_eq_true, if_false, Nat.add_sub_cancel]
    obtain ⟨i, q1, q2, q3, q4⟩ := halve_spec (stop := fun p => !g.cmp p) (ks := ks) (ext := ext)
      (fun i j p q hp hq hij hst => by
        simp only [Bool.not_eq_true'] at hst ⊢
        cases hc : g.cmp q with
        | false => rfl
        | true =>
          have := g.down hg (sorted_get hs hp hq hij) hc
          rw [hst] at this
          cases this) (ks.length + 1) 0 ks.length (by omega) (by omega)
      (Nat.le_refl _) (fun j p h => absurd h (Nat.not_lt_zero _)) (by
        intro j p hj hp
        rw [List.getElem?_eq_none hj] at hp
        cases hp)
    rw [q1]
    simp only
    cases pb with
    | none =>
      refine ⟨i, rfl, q2, fun p hp => Or.inl (by simpa using q4 i p (Nat.le_refl _) hp), ?_⟩
      intro p b _ _ hb
      cases hb
    | some b =>
      simp only
      obtain ⟨i', w1, w2, w3, w4⟩ := moveDown_spec (ks := ks) (ext := ext) (b := b) i q2
      refine ⟨i', w1, by omega, ?_, ?_⟩
      · intro p hp
        rcases Nat.lt_or_ge i' i with h' | h'
        · exact Or.inr ⟨b, rfl, w3 i' p (Nat.le_refl _) h' hp⟩
        · exact Or.inl (by simpa using q4 i' p h' hp)
      · intro p b' h hp hb
        cases hb
        exact w4 p h hp

/-! ### The rows of a basement -/

theorem skipHidden_some {vis : K → R → Bool} {kb : Option K} {k : K} {r : R} : ∀ {n : Nat} {rows : Rows K R},
    skipHidden vis kb n rows = some (k, r) →
    vis k r = true ∧ ∃ pre post, rows = pre ++ (k, r) :: post ∧ ∀ p ∈ pre, vis p.1 p.2 = false
  | _, [], h => by cases h
  | n, (k', r') :: rest, h => by
    unfold skipHidden at h
    split at h
    · rename_i hv
      cases h
      exact ⟨hv, [], rest, rfl, fun _ h => (by cases h)⟩
    · rename_i hv
      split at h
      · cases h
      · obtain ⟨h1, pre, post, h2, h3⟩ := skipHidden_some h
        refine ⟨h1, (k', r') :: pre, post, by rw [h2]; rfl, ?_⟩
        intro p hp
        rcases List.mem_cons.1 hp with rfl | hp
        · simpa using hv
        · exact h3 p hp

theorem skipHidden_none {vis : K → R → Bool} {kb : Option K} : ∀ {n : Nat} {rows : Rows K R}, Sorted rows →
    skipHidden vis kb n rows = none → ∀ p ∈ rows, (∀ b, kb = some b → p.1 ≤ b) → vis p.1 p.2 = false
  | _, [], _, _, p, hp, _ => by cases hp
  | n, (k', r') :: rest, hs, h, p, hp, hb => by
    unfold skipHidden at h
    split at h
    · cases h
    · rename_i hv
      rcases List.mem_cons.1 hp with rfl | hp'
      · simpa using hv
      · split at h
        · rename_i hc
          simp only [Bool.and_eq_true, Bool.not_eq_true'] at hc
          exfalso
          have hlt := (sorted_cons.1 hs).1 p hp'
          unfold belowHi at hc
          cases kb with
          | none => simp at hc
          | some b =>
            simp only [decide_eq_false_iff_not] at hc
            exact hc.2 (le_trans (le_of_lt hlt) (hb b rfl))
        · exact skipHidden_none (sorted_cons.1 hs).2 h p hp' hb

theorem skipHidden_none' {vis : K → R → Bool} : ∀ {n : Nat} {rows : Rows K R},
    skipHidden vis none n rows = none → ∀ p ∈ rows, vis p.1 p.2 = false
  | _, [], _, p, hp => by cases hp
  | n, (k', r') :: rest, h, p, hp => by
    unfold skipHidden at h
    split at h
    · cases h
    · rename_i hv
      rcases List.mem_cons.1 hp with rfl | hp'
      · simpa using hv
      · split at h
        · rename_i hc
          simp [belowHi] at hc
        · exact skipHidden_none' h p hp'

/-- No visible row for a key. -/
def Hidden (vis : K → R → Bool) (v : K → Option R) (x : K) : Prop := ∀ r, v x = some r → vis x r = false

theorem dropWhile_mem {rows : Rows K R} (hs : Sorted rows) {c : K → Bool} (hc : ∀ x y, x ≤ y → c x = true → c y = true) {p : K × R} :
    p ∈ rows.dropWhile (fun p => !c p.1) ↔ p ∈ rows ∧ c p.1 = true := by
  have : rows.dropWhile (fun p => !c p.1) = rows.filter (fun p => c p.1) := by
    have h1 := dropWhile_eq_filter (p := fun p : K × R => !c p.1) (l := rows) (by
      refine hs.imp ?_
      intro a b hab h
      simp only [Bool.not_eq_true'] at h ⊢
      cases ha : c a.1 with
      | false => rfl
      | true =>
        have := hc _ _ (le_of_lt hab) ha
        rw [h] at this
        cases this)
    rw [h1]
    simp
  rw [this, List.mem_filter]

theorem takeWhile_mem {rows : Rows K R} (hs : Sorted rows) {c : K → Bool} (hc : ∀ x y, x ≤ y → c y = true → c x = true) {p : K × R} :
    p ∈ rows.takeWhile (fun p => c p.1) ↔ p ∈ rows ∧ c p.1 = true := by
  have h1 := takeWhile_eq_filter (p := fun p : K × R => c p.1) (l := rows) (by
      refine hs.imp ?_
      intro a b hab h
      exact hc _ _ (le_of_lt hab) h)
  rw [h1, List.mem_filter]

theorem mem_lookup {rows : Rows K R} (hs : Sorted rows) {k : K} {r : R} (h : (k, r) ∈ rows) : lookup rows k = some r := by
  obtain ⟨pre, post, rfl⟩ := List.append_of_mem h
  have hp := List.pairwise_append.1 hs
  rw [lookup_right]
  · unfold lookup
    simp
  · intro p hp'
    exact hp.2.2 p hp' (k, r) List.mem_cons_self

theorem searchRows_found {vis : K → R → Bool} {g : Goal K} {rows : Rows K R} (hs : Sorted rows) {k : K} {r : R}
    (h : searchRows vis g rows = some (k, r)) :
    lookup rows k = some r ∧ vis k r = true ∧ g.cmp k = true ∧
      ∀ x, g.cmp x = true → (if g.left then x < k else k < x) → Hidden vis (lookup rows) x := by
  unfold searchRows at h
  cases hg : g.left with
  | true =>
    rw [hg] at h
    simp only [if_true] at h ⊢
    obtain ⟨h1, pre, post, h2, h3⟩ := skipHidden_some h
    have hmem : ∀ p : K × R, p ∈ rows.dropWhile (fun p => !g.cmp p.1) ↔ p ∈ rows ∧ g.cmp p.1 = true :=
      fun p => dropWhile_mem hs fun x y => g.up hg
    have hk := (hmem (k, r)).1 (by rw [h2]; simp)
    refine ⟨mem_lookup hs hk.1, h1, hk.2, ?_⟩
    intro x hx hlt r' hr'
    have hx' := (hmem (x, r')).2 ⟨lookup_mem hr', hx⟩
    have hsd : Sorted (rows.dropWhile fun p => !g.cmp p.1) := List.Pairwise.sublist (List.dropWhile_sublist _) hs
    rw [h2] at hx' hsd
    rcases List.mem_append.1 hx' with hp | hp
    · exact h3 _ hp
    · exfalso
      have hp2 := (List.pairwise_append.1 hsd).2.1
      rcases List.mem_cons.1 hp with hp | hp
      · cases hp
        exact lt_irrefl _ hlt
      · have := (sorted_cons.1 hp2).1 _ hp
        exact lt_irrefl _ (lt_trans hlt this)
  | false =>
    rw [hg] at h
    simp only [Bool.false_eq_true, if_false] at h ⊢
    obtain ⟨h1, pre, post, h2, h3⟩ := skipHidden_some h
    have hmem : ∀ p : K × R, p ∈ rows.takeWhile (fun p => g.cmp p.1) ↔ p ∈ rows ∧ g.cmp p.1 = true :=
      fun p => takeWhile_mem hs fun x y => g.down hg
    have hrev : ∀ p : K × R, p ∈ (rows.takeWhile fun p => g.cmp p.1).reverse ↔ p ∈ rows ∧ g.cmp p.1 = true := by
      intro p
      rw [List.mem_reverse, hmem]
    have hk := (hrev (k, r)).1 (by rw [h2]; simp)
    refine ⟨mem_lookup hs hk.1, h1, hk.2, ?_⟩
    intro x hx hlt r' hr'
    have hx' := (hrev (x, r')).2 ⟨lookup_mem hr', hx⟩
    have hsd : ((rows.takeWhile fun p => g.cmp p.1).reverse).Pairwise fun a b => b.1 < a.1 := by
      rw [List.pairwise_reverse]
      exact List.Pairwise.sublist (List.takeWhile_sublist _) hs
    rw [h2] at hx' hsd
    rcases List.mem_append.1 hx' with hp | hp
    · exact h3 _ hp
    · exfalso
      have hp2 := (List.pairwise_append.1 hsd).2.1
      rcases List.mem_cons.1 hp with hp | hp
      · cases hp
        exact lt_irrefl _ hlt
      · have := (List.pairwise_cons.1 hp2).1 _ hp
        exact lt_irrefl _ (lt_trans hlt this)

theorem searchRows_none {vis : K → R → Bool} {g : Goal K} {rows : Rows K R} (hs : Sorted rows)
    (h : searchRows vis g rows = none) :
    ∀ x, g.cmp x = true → (∀ b, g.bound = some b → x ≤ b) → Hidden vis (lookup rows) x := by
  intro x hx hb r hr
  unfold searchRows at h
  cases hg : g.left with
  | true =>
    rw [hg] at h
    simp only [if_true] at h
    have hsd : Sorted (rows.dropWhile fun p => !g.cmp p.1) := List.Pairwise.sublist (List.dropWhile_sublist _) hs
    exact skipHidden_none hsd h (x, r) ((dropWhile_mem hs fun x y => g.up hg).2 ⟨lookup_mem hr, hx⟩) hb
  | false =>
    rw [hg] at h
    simp only [Bool.false_eq_true, if_false] at h
    refine skipHidden_none' h (x, r) ?_
    rw [List.mem_reverse]
    exact (takeWhile_mem hs fun x y => g.down hg).2 ⟨lookup_mem hr, hx⟩

end Verif.Tree
