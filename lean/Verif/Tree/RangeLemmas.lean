import Verif.Tree.Range
import Verif.Tree.RightLemmas

/-! Counting in basements, and what the descent makes of it. -/
namespace Verif.Tree
set_option linter.unusedSectionVars false
variable {K R B : Type} [LinearOrder K]

theorem sub32_add (a d : Nat) : sub32 (a + d) a = d % 2 ^ 32 := by
  unfold sub32
  omega

theorem sub64_of_le {a b : Nat} (h : b ≤ a) (ha : a < 2 ^ 64) : sub64 a b = a - b := by
  unfold sub64
  omega

/-- How many rows have a property. -/
def countRows (f : K → Bool) (rows : Rows K R) : Nat := (rows.filter fun r => f r.1).length

theorem findIdx_count {rows : Rows K R} (hs : Sorted rows) (k : K) :
    rows.findIdx (fun r => decide (k ≤ r.1)) = countRows (fun x => decide (x < k)) rows := by
  induction rows with
  | nil => rfl
  | cons r rows ih =>
    obtain ⟨h1, h2⟩ := sorted_cons.1 hs
    rw [List.findIdx_cons]
    unfold countRows at ih ⊢
    rw [List.filter_cons]
    by_cases h : k ≤ r.1
    · have hz : rows.filter (fun r => decide (r.1 < k)) = [] := by
        rw [List.filter_eq_nil_iff]
        intro x hx
        simpa using le_of_lt (lt_of_le_of_lt h (h1 x hx))
      simp [h, not_lt.2 h, hz]
    · simp [h, not_le.1 h, ih h2]

theorem any_count {rows : Rows K R} (hs : Sorted rows) (k : K) :
    countRows (fun x => decide (x = k)) rows = if (rows.any fun r => decide (r.1 = k)) then 1 else 0 := by
  induction rows with
  | nil => rfl
  | cons r rows ih =>
    obtain ⟨h1, h2⟩ := sorted_cons.1 hs
    unfold countRows at ih ⊢
    rw [List.filter_cons, List.any_cons]
    by_cases h : r.1 = k
    · have hz : rows.filter (fun r => decide (r.1 = k)) = [] := by
        rw [List.filter_eq_nil_iff]
        intro x hx
        have := h1 x hx
        rw [h] at this
        simpa using (ne_of_gt this)
      simp [h, hz]
    · rw [decide_eq_false h, Bool.false_or, if_neg (by simpa using h)]
      exact ih h2

theorem any_lookup {rows : Rows K R} (k : K) : (rows.any fun r => decide (r.1 = k)) = true ↔ lookup rows k ≠ none := by
  induction rows with
  | nil => simp [lookup]
  | cons r rows ih =>
    obtain ⟨k', v⟩ := r
    rw [List.any_cons]
    unfold lookup
    by_cases h : k = k'
    · simp [h]
    · have h' : ¬ k' = k := fun e => h e.symm
      simp [h, h', ← ih]

/-- At or above the left end. -/
def fromL : Option K → K → Bool
  | none, _ => true
  | some a, k => decide (a ≤ k)

/-- Above the left end. -/
def pastL : Option K → K → Bool
  | none, _ => true
  | some a, k => decide (a < k)

/-- Below the right end. -/
def beforeR : Option K → K → Bool
  | none, _ => true
  | some b, k => decide (k < b)

theorem between_iff {left right : Option K} {k : K} : (pastL left k && beforeR right k) = true ↔ Between left right k := by
  unfold Between pastL beforeR
  cases left <;> cases right <;> simp

theorem countRows_split (f g : K → Bool) (rows : Rows K R) :
    countRows f rows = countRows (fun k => f k && g k) rows + countRows (fun k => f k && !g k) rows := by
  unfold countRows
  induction rows with
  | nil => rfl
  | cons r rows ih =>
    simp only [List.filter_cons]
    cases f r.1 <;> cases g r.1 <;> simp [ih] <;> omega

theorem countRows_congr {f g : K → Bool} (h : ∀ k, f k = g k) (rows : Rows K R) : countRows f rows = countRows g rows := by
  rw [show f = g from funext h]

theorem countRows_false (rows : Rows K R) : countRows (fun _ => false) rows = 0 := by
  unfold countRows
  simp

theorem countRows_true (rows : Rows K R) : countRows (fun _ => true) rows = rows.length := by
  unfold countRows
  simp

theorem leftAt_ok {rows : Rows K R} (hs : Sorted rows) (left : Option K) :
    (leftAt rows left).1 = countRows (fun k => !fromL left k) rows ∧
    (if (leftAt rows left).2 then 1 else 0) = countRows (fun k => fromL left k && !pastL left k) rows := by
  cases left with
  | none =>
    constructor
    · exact (countRows_false rows).symm
    · exact (countRows_false rows).symm
  | some a =>
    constructor
    · show rows.findIdx _ = _
      rw [findIdx_count hs]
      apply countRows_congr
      intro k
      by_cases h : a ≤ k
      · simp [fromL, h, not_lt.2 h]
      · simp [fromL, h, not_le.1 h]
    · show (if (rows.any fun r => decide (r.1 = a)) then 1 else 0) = _
      rw [← any_count hs]
      apply countRows_congr
      intro k
      unfold fromL pastL
      by_cases h : k = a
      · simp [h]
      · simp only [h, decide_false]
        symm
        simp only [Bool.and_eq_false_iff, decide_eq_false_iff_not, Bool.not_eq_false', decide_eq_true_eq]
        rcases lt_or_gt_of_ne h with h | h
        · exact Or.inl (not_le.2 h)
        · exact Or.inr h

theorem rightAt_ok {rows : Rows K R} (hs : Sorted rows) (right : Option K) :
    (rightAt rows true right).1 = countRows (beforeR right) rows := by
  cases right with
  | none => exact (countRows_true rows).symm
  | some b => exact findIdx_count hs b

/-- The ends are in order. -/
def Ordered (left right : Option K) : Prop := ∀ a b, left = some a → right = some b → a < b

/-- Counting in one basement that holds both ends. -/
theorem countIn_mid {rows : Rows K R} (hs : Sorted rows) {left right : Option K} (ho : Ordered left right) :
    let m := countRows (fun k => pastL left k && beforeR right k) rows
    let c := countIn rows left right true
    m + c.eqL = (rightAt rows true right).1 - (leftAt rows left).1 ∧
    (leftAt rows left).1 ≤ (rightAt rows true right).1 ∧
    (m + 1 < 2 ^ 32 → c.mid = m) := by
  intro m c
  obtain ⟨l1, l2⟩ := leftAt_ok hs left
  have r1 := rightAt_ok hs right
  have e1 := countRows_split (beforeR right) (fromL left) rows
  have e2 := countRows_split (fun k => beforeR right k && fromL left k) (pastL left) rows
  have e3 : countRows (fun k => beforeR right k && !fromL left k) rows = countRows (fun k => !fromL left k) rows := by
    apply countRows_congr
    intro k
    cases left with
    | none => simp [fromL]
    | some a =>
      cases right with
      | none => simp [beforeR]
      | some b =>
        have := ho a b rfl rfl
        simp only [beforeR, fromL]
        by_cases h : a ≤ k
        · simp [h]
        · have : k < b := lt_trans (not_le.1 h) this
          simp [h, this]
  have e4 : countRows (fun k => (beforeR right k && fromL left k) && pastL left k) rows = m := by
    apply countRows_congr
    intro k
    cases left with
    | none => simp [fromL, pastL]
    | some a =>
      simp only [fromL, pastL]
      by_cases h : a < k
      · simp [h, le_of_lt h]
      · simp [h]
  have e5 : countRows (fun k => (beforeR right k && fromL left k) && !pastL left k) rows =
      countRows (fun k => fromL left k && !pastL left k) rows := by
    apply countRows_congr
    intro k
    cases left with
    | none => simp [pastL]
    | some a =>
      cases right with
      | none => simp [beforeR]
      | some b =>
        have := ho a b rfl rfl
        simp only [beforeR, fromL, pastL]
        by_cases h : a < k
        · simp [h]
        · have : k < b := lt_of_le_of_lt (not_lt.1 h) this
          simp [this]
  have hc : c.eqL = countRows (fun k => fromL left k && !pastL left k) rows := l2
  have hr : (rightAt rows true right).1 = (leftAt rows left).1 + (m + c.eqL) := by
    rw [hc, r1, l1]
    omega
  have hle : c.eqL ≤ 1 := by
    show (if (leftAt rows left).2 then 1 else 0) ≤ 1
    split <;> omega
  refine ⟨by omega, by omega, ?_⟩
  intro hm
  show sub64 (sub32 (rightAt rows true right).1 (leftAt rows left).1) c.eqL = m
  rw [hr, sub32_add, Nat.mod_eq_of_lt (by omega), sub64_of_le (by omega) (by omega)]
  omega

/-- Whether the key at an end is there. -/
theorem leftAt_found {rows : Rows K R} (left : Option K) : (leftAt rows left).2 = true ↔ ∃ k, left = some k ∧ lookup rows k ≠ none := by
  cases left with
  | none => simp [leftAt]
  | some a => simp only [leftAt, findZero, any_lookup]; simp

theorem rightAt_found {rows : Rows K R} (right : Option K) :
    (rightAt rows true right).2 = true ↔ ∃ k, right = some k ∧ lookup rows k ≠ none := by
  cases right with
  | none => simp [rightAt]
  | some a => simp only [rightAt, findZero, if_true, any_lookup]; simp

theorem lookup_iff_mem {rows : Rows K R} {k : K} : lookup rows k ≠ none ↔ k ∈ rows.map (·.1) := by
  rw [← any_lookup, List.any_eq_true, List.mem_map]
  simp

/-- The rows between the ends, as a list of keys. -/
theorem rows_list {rows : Rows K R} (hs : Sorted rows) {f : K → Bool} {P : K → Prop} (h : ∀ k, f k = true ∧ lookup rows k ≠ none ↔ P k) :
    Count P (countRows f rows) := by
  refine ⟨(rows.filter fun r => f r.1).map (·.1), ⟨?_, ?_⟩, by unfold countRows; simp⟩
  · rw [List.pairwise_map]
    exact hs.filter _
  · intro k
    rw [← h, lookup_iff_mem, List.mem_map, List.mem_map]
    constructor
    · rintro ⟨r, hr, rfl⟩
      rw [List.mem_filter] at hr
      exact ⟨hr.2, r, hr.1, rfl⟩
    · rintro ⟨hf, r, hr, rfl⟩
      exact ⟨r, List.mem_filter.2 ⟨hr, hf⟩, rfl⟩

end Verif.Tree
