import Verif.Omt.Find
import Verif.Omt.Run
/-!
Each call on the container does what the call on the list does.
-/
namespace Verif.Omt
open Spec (S vals Mono Op Res note ofE fresh noMarks visit range)

set_option linter.unusedVariables false
set_option linter.unusedSimpArgs false

variable {α : Type}

theorem noMarks_eq (s : S α) : noMarks s = !marked s := rfl

/-- The two results agree. -/
def Agree (sm : Bool) (x : Option (Res α × O α)) (y : Option (Res α × S α)) : Prop :=
  match y with
  | none => x = none
  | some (r, s) => ∃ o, x = some (r, o) ∧ Rep sm s o

theorem agree_same {sm : Bool} {s : S α} {o : O α} (h : Rep sm s o) (r : Res α) : Agree sm (some (r, o)) (some (r, s)) := ⟨o, rfl, h⟩

theorem insertAt_agree {sm : Bool} {s : S α} {o : O α} (h : Rep sm s o) (v : α) (i : Nat) (g : Except Err Unit → Res α) :
    Agree sm ((insertAt sm o v i).map (fun x => (g x.1, x.2))) ((Spec.insertAt s v i).map (fun x => (g x.1, x.2))) := by
  simp only [Spec.insertAt]
  rcases Bool.eq_false_or_eq_true (marked s) with hm | hm
  · rw [insertAt_marked h hm, if_neg (show ¬ noMarks s = true by rw [noMarks_eq, hm]; simp)]; rfl
  ·
    rw [if_pos (show noMarks s = true by rw [noMarks_eq, hm]; rfl)]
    by_cases hi : i ≤ s.length
    · obtain ⟨o', e, r⟩ := insertAt_ok h hm v hi
      rw [e, if_pos hi]
      exact ⟨o', rfl, r⟩
    · rw [insertAt_out h hm v (by omega), if_neg hi]
      exact ⟨o, rfl, h⟩

theorem visit_note (ret : α → Nat → Int) (L : List (α × Nat)) (h : ∀ x ∈ L, ret x.1 x.2 = 0) (acc : List (α × Nat)) : visit (note ret) L acc = (acc ++ L, 0) := by
  induction L generalizing acc with
  | nil => simp [visit]
  | cons x L ih =>
    obtain ⟨v, i⟩ := x
    have := h (v, i) (by simp)
    simp only at this
    simp only [visit, note, this]
    simp only [ne_eq, not_true_eq_false, if_false]
    rw [ih (fun x hx => h x (by simp [hx]))]
    simp

theorem range_full (s : S α) : (range s 0 s.length).map (·.1) = vals s := by
  simp only [range, List.drop_zero]
  rw [List.take_of_length_le (by simp [vals])]
  simp

theorem values_ok {sm : Bool} {s : S α} {o : O α} (h : Rep sm s o) : o.values = some (vals s) := by
  simp only [O.values, rep_size h]
  rw [iterate_ok h _ (Nat.zero_le _)]
  rw [if_neg (by omega), visit_note _ _ (by simp)]
  simp only [List.nil_append, range_full]

theorem step_ok {sm : Bool} {s : S α} {o : O α} (h : Rep sm s o) (op : Op α) (hl : Spec.Legal sm s op) : Agree sm (step sm o op) (Spec.step s op) := by
  cases op with
  | size => simp only [step, Spec.step, rep_size h]; exact agree_same h _
  | insertAt v i => exact insertAt_agree h v i ofE
  | setAt v i =>
    simp only [step, Spec.step, Spec.setAt]
    rcases Bool.eq_false_or_eq_true (marked s) with hm | hm
    · rw [setAt_marked h hm, if_neg (show ¬ noMarks s = true by rw [noMarks_eq, hm]; simp)]; rfl
    ·
      rw [if_pos (show noMarks s = true by rw [noMarks_eq, hm]; rfl)]
      by_cases hi : i < s.length
      · obtain ⟨o', e, r⟩ := setAt_ok h hm v hi
        rw [e, if_pos hi]
        exact ⟨o', rfl, r⟩
      · rw [setAt_out h hm v (by omega), if_neg hi]
        exact ⟨o, rfl, h⟩
  | deleteAt i =>
    simp only [step, Spec.step, Spec.deleteAt]
    rcases Bool.eq_false_or_eq_true (marked s) with hm | hm
    · rw [deleteAt_marked h hm, if_neg (show ¬ noMarks s = true by rw [noMarks_eq, hm]; simp)]; rfl
    ·
      rw [if_pos (show noMarks s = true by rw [noMarks_eq, hm]; rfl)]
      by_cases hi : i < s.length
      · obtain ⟨o', e, r⟩ := deleteAt_ok h hm hi
        rw [e, if_pos hi]
        exact ⟨o', rfl, r⟩
      · rw [deleteAt_out h hm (by omega), if_neg hi]
        exact ⟨o, rfl, h⟩
  | fetch i =>
    simp only [step, Spec.step, fetch_ok h, Spec.fetch, vals, List.getElem?_map]
    cases s[i]? with
    | none => exact agree_same h _
    | some x => exact agree_same h _
  | findZero f =>
    simp only [step, Spec.step, findZero_ok h hl]
    exact agree_same h _
  | find f plus =>
    simp only [step, Spec.step, find_ok h hl]
    exact agree_same h _
  | insert v f =>
    simp only [step, Spec.step, insert_ok h hl]
    cases Spec.findZero f s with
    | mk w i =>
      cases w with
      | some w => exact agree_same h _
      | none =>
        simp only [Option.map_map]
        exact insertAt_agree h v i (fun r => .put r i)
  | iterate ret left right =>
    simp only [step, Spec.step, iterate_ok h _ hl]
    split
    · exact agree_same h _
    · exact agree_same h _
  | iteratePtr new =>
    obtain ⟨o', e, r⟩ := iteratePtr_ok h (fun v i (u : Unit) => (new v i, u)) ()
    simp only [step, Spec.step, e]
    exact ⟨o', rfl, r⟩
  | iterateMark ret left right =>
    obtain ⟨h1, h2⟩ := hl
    subst h1
    obtain ⟨o', e, r⟩ := iterateMark_ok h (note ret) h2 []
    simp only [step, Spec.step, e]
    split
    · rename_i hr
      rw [if_pos hr] at r
      exact ⟨o', rfl, r⟩
    · rename_i hr
      rw [if_neg hr] at r
      exact ⟨o', rfl, r⟩
  | iterateMarked ret =>
    cases hl
    simp only [step, Spec.step, iterateMarked_ok h]
    exact agree_same h _
  | deleteMarked =>
    cases hl
    obtain ⟨o', e, r⟩ := deleteMarked_ok h
    simp only [step, Spec.step, e]
    exact ⟨o', rfl, r⟩
  | clear => exact ⟨_, rfl, clear_ok h⟩
  | split i right =>
    simp only [step, Spec.step, splitStep]
    rcases Bool.eq_false_or_eq_true (marked s) with hm | hm
    · rw [splitAt_marked h hm, if_neg (show ¬ noMarks s = true by rw [noMarks_eq, hm]; simp)]; rfl
    ·
      rw [if_pos (show noMarks s = true by rw [noMarks_eq, hm]; rfl)]
      by_cases hi : i ≤ s.length
      · obtain ⟨n, o', e, r1, r2⟩ := splitAt_ok h hm hi
        rw [e, if_pos hi]
        simp only [values_ok r1, values_ok r2]
        cases right with
        | true => exact ⟨n, rfl, r1⟩
        | false => exact ⟨o', rfl, r2⟩
      · rw [splitAt_out h hm (by omega), if_neg hi]
        exact ⟨o, rfl, h⟩
  | merge vs right =>
    obtain ⟨n, en, rn⟩ := createFrom_ok sm vs
    have hv : vals (vs.map (fun v => (v, false))) = vs := vals_fresh vs
    simp only [step, Spec.step, mergeStep, en]
    cases right with
    | true =>
      obtain ⟨o', e, r⟩ := merge_ok h rn
      rw [hv] at r
      simp only [if_true, e]
      exact ⟨o', rfl, r⟩
    | false =>
      obtain ⟨o', e, r⟩ := merge_ok rn h
      rw [hv] at r
      simp only [Bool.false_eq_true, if_false, e]
      exact ⟨o', rfl, r⟩
  | clone =>
    obtain ⟨o', e, r⟩ := clone_ok h
    simp only [step, Spec.step, e]
    exact ⟨o', rfl, r⟩

theorem runFrom_ok {sm : Bool} (ops : List (Op α)) {s : S α} {o : O α} (h : Rep sm s o) (hl : Spec.LegalRun sm s ops) : runFrom sm o ops = Spec.run s ops := by
  induction ops generalizing s o with
  | nil => rfl
  | cons op ops ih =>
    obtain ⟨h1, h2⟩ := hl
    have := step_ok h op h1
    simp only [runFrom, Spec.run]
    cases hs : Spec.step s op with
    | none =>
      rw [hs] at this
      simp only [Agree] at this
      rw [this]
    | some x =>
      obtain ⟨r, s'⟩ := x
      rw [hs] at this h2
      obtain ⟨o', e, r'⟩ := this
      rw [e]
      simp only [ih r' h2]

end Verif.Omt
