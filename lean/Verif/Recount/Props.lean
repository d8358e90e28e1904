import Verif.Recount.Lemmas

/-!
# C95: counting the rows again
-/

namespace Verif.Recount

/-- In a dictionary at rest a scan that is not cancelled comes to an end and returns 0; the number reported is then that of the rows and of the
bounds between basement nodes at which there is no row, whatever was reported before. -/
theorem C95_counted {ans : Nat → Int} (ha : ∀ i, ans i = 0) {d : List Part} (hl : Legal 0 d) {fuel : Nat} (hf : (rowsOf d).length < fuel) (old : Nat) :
    ∃ log, recount ans (fun _ => d) fuel old = some (0, (rowsOf d).length + (bare d).length, log) := by
  have hc : ∀ d : List Part, (d.map fun p => cnt p.rows 0).sum = (rowsOf d).length := by
    intro d
    induction d with
    | nil => rfl
    | cons p d ih => rw [rowsOf_cons, List.length_append, ← rows_cnt, List.map_cons, List.sum_cons, ih]
  obtain ⟨s, h1, h2, h3⟩ := run_ok ha hl fuel 0 0 ⟨0, false, []⟩ (by rw [hc]; exact hf)
  refine ⟨s.log, ?_⟩
  unfold recount
  rw [h1]
  simp only [h2, Bool.false_eq_true, if_false]
  rw [h3, want_total (P := fun h => (rowsOf d).contains h) fun p hp h e => by rw [← hi_row hl p hp h e]; simp]
  simp [bare]

/-- The number reported is right if there is a row at every bound, so for every dictionary of one basement node.  Missing: the others, see
`C95_rows_refuted`, and changes during the scan, see `C95_changed_refuted`. -/
theorem C95_rows_partial {ans : Nat → Int} (ha : ∀ i, ans i = 0) {d : List Part} (hl : Legal 0 d) {fuel : Nat} (hf : (rowsOf d).length < fuel) (old : Nat)
    (hb : ∀ p ∈ d, ∀ h, p.hi = some h → h ∈ rowsOf d) :
    ∃ log, recount ans (fun _ => d) fuel old = some (0, (rowsOf d).length, log) := by
  have : bare d = [] := by
    unfold bare
    rw [List.filter_eq_nil_iff]
    intro h hm
    obtain ⟨p, hp, e⟩ := List.mem_filterMap.1 hm
    simp [hb p hp h e]
  have h := C95_counted ha hl hf old
  rw [this] at h
  exact h

/-- Never fewer than there are, and at most one more for every basement node. -/
theorem C95_enough {ans : Nat → Int} (ha : ∀ i, ans i = 0) {d : List Part} (hl : Legal 0 d) {fuel : Nat} (hf : (rowsOf d).length < fuel) (old : Nat) :
    ∃ n log, recount ans (fun _ => d) fuel old = some (0, n, log) ∧ (rowsOf d).length ≤ n ∧ n ≤ (rowsOf d).length + d.length := by
  obtain ⟨log, h⟩ := C95_counted ha hl hf old
  refine ⟨_, log, h, by omega, ?_⟩
  have h1 : (bare d).length ≤ (d.filterMap (·.hi)).length := List.length_filter_le ..
  have h2 : (d.filterMap (·.hi)).length ≤ d.length := List.length_filterMap_le ..
  omega

theorem fin_of {ans : Nat → Int} {dict : Nat → List Part} {fuel old r n log} (e : recount ans dict fuel old = some (r, n, log)) :
    ∃ r' s, Fin r' s ∧ s.log = log ∧ (s.cancelled = true → r = r' ∧ n = old) ∧ (s.cancelled = false → r = 0 ∧ n = s.keys) := by
  unfold recount at e
  cases h : run ans dict fuel 0 0 ⟨0, false, []⟩ with
  | none => rw [h] at e; cases e
  | some t =>
    obtain ⟨r', s⟩ := t
    rw [h] at e
    have hf := run_log (s := ⟨0, false, []⟩) ⟨List.Pairwise.nil, fun e h => (by cases h), fun e h => (by cases h)⟩ h
    simp only at e
    refine ⟨r', s, hf, ?_⟩
    cases hc : s.cancelled with
    | true =>
      rw [hc] at e
      simp only [if_true, Option.some.injEq, Prod.mk.injEq] at e
      exact ⟨e.2.2, fun _ => ⟨e.1.symm, e.2.1.symm⟩, fun h => by cases h⟩
    | false =>
      rw [hc] at e
      simp only [Bool.false_eq_true, if_false, Option.some.injEq, Prod.mk.injEq] at e
      exact ⟨e.2.2, (fun h => by cases h), fun _ => ⟨e.1.symm, e.2.1.symm⟩⟩

/-- Whatever the callback answers and others do: the callback is called; if its last answer is 0, the result is 0 and the number reported is the
one it was told last; otherwise the result is not 0 and the number reported is as before. -/
theorem C95_last {ans : Nat → Int} {dict : Nat → List Part} {fuel old r n log} (e : recount ans dict fuel old = some (r, n, log)) :
    ∃ l told, log = l ++ [told] ∧ (told.2.2 = 0 → r = 0 ∧ n = told.1) ∧ (told.2.2 ≠ 0 → r ≠ 0 ∧ n = old) := by
  obtain ⟨r', s, hf, hl, h1, h2⟩ := fin_of e
  obtain ⟨l, t, e1, -, e3, e4⟩ := hf.last
  refine ⟨l, t, by rw [← hl, e1], ?_, ?_⟩
  · intro h
    have hc : s.cancelled = false := by
      cases q : s.cancelled with
      | false => rfl
      | true => exact absurd h (e4.1 q)
    obtain ⟨a, b⟩ := h2 hc
    exact ⟨a, by rw [b, e3]⟩
  · intro h
    have hc := e4.2 h
    obtain ⟨a, b⟩ := h1 hc
    refine ⟨?_, b⟩
    rw [a]
    rcases hf.ret hc with q | q <;> rw [q] <;> decide

/-- An answer other than 0 ends the scan, if the callback was not just told of deleted rows.  Missing: when it was, see `C95_cancel_refuted`. -/
theorem C95_cancel_partial {ans : Nat → Int} {dict : Nat → List Part} {fuel old r n log} (e : recount ans dict fuel old = some (r, n, log)) :
    ∀ x ∈ log.dropLast, x.2.2 ≠ 0 → 0 < x.2.1 := by
  obtain ⟨r', s, hf, hl, -, -⟩ := fin_of e
  obtain ⟨l, t, e1, e2, -, -⟩ := hf.last
  intro x hx h
  rw [← hl, e1, List.dropLast_concat] at hx
  rcases e2 x hx with q | q
  · exact absurd q h
  · exact q

/-- The numbers told never go down. -/
theorem C95_progress {ans : Nat → Int} {dict : Nat → List Part} {fuel old r n log} (e : recount ans dict fuel old = some (r, n, log)) :
    log.Pairwise fun x y => x.1 ≤ y.1 := by
  obtain ⟨r', s, hf, hl, -, -⟩ := fin_of e
  exact hl ▸ hf.up

/-! ## What does not hold -/

/-- Three basement nodes of which the rows at the bounds were deleted. -/
def gaps : List Part := [⟨[(1, true), (5, false)], some 5⟩, ⟨[(7, true), (9, false)], some 9⟩, ⟨[(11, true)], none⟩]

/-- Three rows, and 5 are reported: the calls that only ask for a lock on the rest of a basement node are counted as rows. -/
theorem C95_rows_refuted : (rowsOf gaps).length = 3 ∧
    (recount (fun _ => 0) (fun _ => gaps) 10 3).map (fun x => (x.1, x.2.1)) = some (0, 5) := by decide +kernel

/-- An empty dictionary of three basement nodes has two rows. -/
theorem C95_empty_refuted : rowsOf [⟨[], some 5⟩, ⟨[], some 9⟩, ⟨[], none⟩] = [] ∧
    (recount (fun _ => 0) (fun _ => [⟨[], some 5⟩, ⟨[], some 9⟩, ⟨[], none⟩]) 10 0).map (fun x => (x.1, x.2.1)) = some (0, 2) := by decide +kernel

/-- The callback cancels when it is told of deleted rows in front of a row: it is called again, and the number is set. -/
theorem C95_cancel_refuted :
    recount (fun i => if i = 0 then 7 else 0) (fun _ => [⟨[(1, false), (2, true)], none⟩]) 10 100 = some (0, 1, [(0, 1, 7), (1, 0, 0), (1, 0, 0)]) := by
  decide +kernel

/-- What the callback answered is not returned, but 1. -/
theorem C95_code_refuted :
    recount (fun _ => 7) (fun _ => [⟨[(2, true)], none⟩]) 10 100 = some (1, 100, [(1, 0, 7)]) := by decide +kernel

/-- A row put before the cursor during the scan is lost from the number, although the put had added it: 2 for 3 rows. -/
theorem C95_changed_refuted :
    let before : List Part := [⟨[(10, true), (30, true)], none⟩]
    let after : List Part := [⟨[(10, true), (20, true), (30, true)], none⟩]
    (recount (fun _ => 0) (fun i => if i < 2 then before else after) 10 3).map (fun x => (x.1, x.2.1)) = some (0, 2) ∧
      (rowsOf after).length = 3 := by decide +kernel

/-! ## Non-vacuity -/

theorem gaps_legal : Legal 0 gaps := by
  refine ⟨by decide, by decide, by decide, by decide, by decide, by decide, by decide, by decide, by decide, by decide, rfl⟩

example : ∃ log, recount (fun _ => 0) (fun _ => gaps) 4 77 = some (0, 5, log) := C95_counted (fun _ => rfl) gaps_legal (by decide) 77

/-- A row at the bound. -/
example : ∃ log, recount (fun _ => 0) (fun _ => [⟨[(1, true), (5, true)], some 5⟩, ⟨[(6, false), (7, true)], none⟩]) 4 77 = some (0, 3, log) :=
  C95_rows_partial (fun _ => rfl) (d := [⟨[(1, true), (5, true)], some 5⟩, ⟨[(6, false), (7, true)], none⟩])
    ⟨by decide, by decide, by decide, by decide, by decide, by decide, rfl⟩ (by decide) 77 (by
      intro p hp h e
      simp only [List.mem_cons, List.not_mem_nil, or_false] at hp
      rcases hp with q | q <;> subst q <;> cases e
      decide)

/-- A scan that is cancelled behind the first row. -/
example : recount (fun i => if i = 1 then 1 else 0) (fun _ => gaps) 10 3 = some (interrupted, 3, [(1, 0, 0), (1, 1, 1)]) := by decide +kernel

end Verif.Recount
