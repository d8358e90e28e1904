import Verif.Omt.Bal
/-!
C38: the ordered container behaves as a list, whatever its representation.
-/
namespace Verif.Omt.Props
open Spec (S vals Op Res note)

set_option linter.unusedVariables false

variable {α σ : Type}

/-- Every history gives the results that it gives on a list: it fails an assertion at the same call, if at all. -/
theorem behaves_as_a_list (sm : Bool) (ops : List (Op α)) (h : Spec.LegalRun sm [] ops) : run sm ops = Spec.run [] ops := by
  obtain ⟨o, e, r⟩ := create_ok (α := α) sm
  simp only [run, e]
  exact runFrom_ok ops r h

/-- A container without marks fails no assertion. -/
theorem no_assertion_fails (ops : List (Op α)) (h : Spec.LegalRun false [] ops) : run false ops ≠ none := by
  rw [behaves_as_a_list false ops h]
  have key : ∀ (ops : List (Op α)) (s : S α), marked s = false → Spec.LegalRun false s ops → Spec.run s ops ≠ none := by
    intro ops
    induction ops with
    | nil => intro s _ _ e; cases e
    | cons op ops ih =>
      intro s hm hl
      obtain ⟨h1, h2⟩ := hl
      have hnm : Spec.noMarks s = true := by rw [noMarks_eq, hm]; rfl
      have hstep : ∃ r s', Spec.step s op = some (r, s') ∧ marked s' = false := by
        have hins : ∀ v i (g : Except Err Unit → Res α), ∃ r s', (Spec.insertAt s v i).map (fun x => (g x.1, x.2)) = some (r, s') ∧ marked s' = false := by
          intro v i g
          simp only [Spec.insertAt, if_pos hnm]
          split
          · exact ⟨_, _, rfl, marked_ins hm i v⟩
          · exact ⟨_, _, rfl, hm⟩
        cases op with
        | insertAt v i => exact hins v i Spec.ofE
        | setAt v i =>
          simp only [Spec.step, Spec.setAt, if_pos hnm]
          split
          · exact ⟨_, _, rfl, marked_set hm i v⟩
          · exact ⟨_, _, rfl, hm⟩
        | deleteAt i =>
          simp only [Spec.step, Spec.deleteAt, if_pos hnm]
          split
          · exact ⟨_, _, rfl, marked_erase hm i⟩
          · exact ⟨_, _, rfl, hm⟩
        | insert v f =>
          simp only [Spec.step]
          split
          · exact ⟨_, _, rfl, hm⟩
          · rename_i i _
            exact hins v i (fun r => .put r i)
        | iterate ret left right =>
          simp only [Spec.step]
          split
          · exact ⟨_, _, rfl, hm⟩
          · exact ⟨_, _, rfl, hm⟩
        | iteratePtr new => exact ⟨_, _, rfl, by rw [change_marked]; exact hm⟩
        | iterateMark ret left right => cases h1.1
        | iterateMarked ret => cases h1
        | deleteMarked => cases h1
        | clear => exact ⟨_, _, rfl, rfl⟩
        | split i right =>
          simp only [Spec.step, if_pos hnm]
          split
          · cases right with
            | true => exact ⟨_, _, rfl, marked_drop hm i⟩
            | false => exact ⟨_, _, rfl, marked_take hm i⟩
          · exact ⟨_, _, rfl, hm⟩
        | merge vs right => cases right <;> exact ⟨_, _, rfl, marked_fresh _⟩
        | clone => exact ⟨_, _, rfl, marked_fresh _⟩
        | _ => exact ⟨_, _, rfl, hm⟩
      obtain ⟨r, s', e, hm'⟩ := hstep
      simp only [Spec.run, e]
      intro hn
      rw [e] at h2
      have := ih s' hm' h2
      cases hx : Spec.run s' ops with
      | none => exact this hx
      | some x => rw [hx] at hn; cases hn
  exact key ops [] rfl h

/-- Iteration calls any callback on the values of the range in order, with their indexes, until it does not return 0. -/
theorem iterates_in_order {sm : Bool} {s : S α} {o : O α} (h : Reached sm s o) (f : α → Nat → σ → σ × Int) {left right : Nat} (hlr : left ≤ right) (hr : right ≤ s.length) (x : σ) :
    iterate o f left right x = some (.ok (Spec.visit f (Spec.range s left right) x)) := by
  rw [iterate_ok (reached_rep h).1 f hlr, if_neg (by omega)]

/-- The same with marks: what the callback has been called on is marked, and nothing else is. -/
theorem marks_what_it_visits {s : S α} {o : O α} (h : Reached true s o) (f : α → Nat → σ → σ × Int) {left right : Nat} (hlr : left ≤ right) (hr : right ≤ s.length) (x : σ) :
    ∃ o', iterateMark o f left right x = some (.ok (Spec.visit f (Spec.range s left right) x), o') ∧
      ∀ (τ : Type) (g : α → Nat → τ → τ × Int) (y : τ), iterateMarked o' g y = some (Spec.visit g (Spec.markedOnes (Spec.setMarks s left (Spec.visited f (Spec.range s left right) x))) y) := by
  obtain ⟨o', e, r⟩ := iterateMark_ok (reached_rep h).1 f hlr x
  rw [if_neg (by omega)] at e r
  exact ⟨o', e, fun τ g y => iterateMarked_ok r g y⟩

/-- Changes in place: each value in turn, with its index. -/
theorem changes_in_place {sm : Bool} {s : S α} {o : O α} (h : Reached sm s o) (f : α → Nat → σ → α × σ) (x : σ) :
    ∃ o', iteratePtr o f x = some (o', (Spec.change f 0 s x).2) ∧ o'.values = some (vals (Spec.change f 0 s x).1) := by
  obtain ⟨o', e, r⟩ := iteratePtr_ok (reached_rep h).1 f x
  exact ⟨o', e, values_ok r⟩

/-- Insertion by comparison keeps a sorted container sorted and adds the value, or finds the equal one and changes nothing. -/
theorem insert_keeps_sorted {sm : Bool} {s : S α} {o : O α} (hr : Reached sm s o) (hm : ∀ x ∈ s, x.2 = false)
    {lt : α → α → Prop} (tr : ∀ a b c, lt a b → lt b c → lt a c) (hs : (vals s).Pairwise lt)
    (v : α) {h : α → Int} (h1 : ∀ x, h x < 0 ↔ lt x v) (h2 : ∀ x, h x > 0 ↔ lt v x) :
    (∃ i x, (vals s)[i]? = some x ∧ h x = 0 ∧ Omt.insert sm o v h = some ((.error .exists, i), o)) ∨
    (∃ i o' vs, (∀ x ∈ vals s, h x ≠ 0) ∧ Omt.insert sm o v h = some ((.ok (), i), o') ∧ o'.values = some vs ∧ vs.Pairwise lt ∧ vs[i]? = some v ∧ ∀ x, x ∈ vs ↔ x = v ∨ x ∈ vals s) := by
  have R := (reached_rep hr).1
  have hmono : Spec.Mono h s := by
    apply List.Pairwise.imp _ hs
    intro a b hab
    refine ⟨fun hb => (h1 a).mpr (tr _ _ _ hab ((h1 b).mp hb)), fun hb => ?_⟩
    by_cases ha : h a ≤ 0
    · exact ha
    · have := (h2 b).mpr (tr _ _ _ ((h2 a).mp (by omega)) hab)
      omega
  have hmk : marked s = false := by
    simp only [marked, List.any_eq_false]
    intro x hx; rw [hm x hx]; simp
  rw [insert_ok R hmono]
  cases hz : ((vals s).zipIdx.filter (fun x => decide (h x.1 = 0))).head? with
  | some y =>
    obtain ⟨x, i⟩ := y
    left
    have hf : Spec.findZero h s = (some x, i) := by simp only [Spec.findZero, hz]
    have hmem : (x, i) ∈ (vals s).zipIdx.filter (fun x => decide (h x.1 = 0)) := List.mem_of_mem_head? (by rw [hz]; rfl)
    rw [List.mem_filter] at hmem
    have := List.mem_zipIdx_iff_getElem?.mp hmem.1
    refine ⟨i, x, this, by simpa using hmem.2, ?_⟩
    rw [hf]
  | none =>
    right
    have hf : Spec.findZero h s = (none, ((vals s).filter (fun v => h v < 0)).length) := by simp only [Spec.findZero, hz]
    have hno : ∀ x ∈ vals s, h x ≠ 0 := by
      intro x hx h0
      obtain ⟨i, hi⟩ := List.getElem?_of_mem hx
      have := List.head?_eq_none_iff.mp hz
      rw [List.filter_eq_nil_iff] at this
      exact this (x, i) (List.mem_zipIdx_iff_getElem?.mpr hi) (by simpa using h0)
    have hi := findZero_le (h := h) (l := s) (by rw [hf])
    obtain ⟨hlo, hhi⟩ := not_found_splits hmono hno
    rw [hf] at hi ⊢
    generalize hk : ((vals s).filter (fun v => decide (h v < 0))).length = k at hi hlo hhi ⊢
    simp only at hi ⊢
    obtain ⟨o', e, r⟩ := insertAt_ok R hmk v hi
    rw [e]
    have hv : vals (ins s k (v, false)) = (vals s).take k ++ v :: (vals s).drop k := by simp [vals, ins]
    refine ⟨k, o', _, hno, rfl, values_ok r, ?_, ?_, ?_⟩
    · rw [hv, List.pairwise_append, List.pairwise_cons]
      refine ⟨hs.sublist (List.take_sublist _ _), ⟨fun x hx => (h2 x).mp (hhi x hx), hs.sublist (List.drop_sublist _ _)⟩, ?_⟩
      intro a ha b hb
      have hav := (h1 a).mp (hlo a ha)
      simp at hb
      rcases hb with hb | hb
      · rw [hb]; exact hav
      · exact tr _ _ _ hav ((h2 b).mp (hhi b hb))
    · rw [hv, List.getElem?_append_right (by simp [vals]; omega)]
      have : ((vals s).take k).length = k := by simp [vals]; omega
      rw [this]; simp
    · intro x
      rw [hv, List.mem_append, List.mem_cons]
      have : x ∈ vals s ↔ x ∈ (vals s).take k ∨ x ∈ (vals s).drop k := by
        rw [← List.mem_append, List.take_append_drop]
      rw [this]
      constructor
      · rintro (h | h | h)
        · exact Or.inr (Or.inl h)
        · exact Or.inl h
        · exact Or.inr (Or.inr h)
      · rintro (h | h | h)
        · exact Or.inr (Or.inl h)
        · exact Or.inl h
        · exact Or.inr (Or.inr h)

/-- A tree is never deeper than the logarithm of its size, to the base 3/2. -/
theorem depth_is_logarithmic {sm : Bool} {s : S α} {t : Tr α} (h : Reached sm s (.tree t)) (hd : t.root.depth ≠ 0) : 3 ^ (t.root.depth - 1) ≤ 2 ^ (t.root.depth - 1) * s.length := by
  obtain ⟨r, b⟩ := reached_rep h
  have := depth_ok r.1 b hd
  rw [r.2.1] at this
  exact this

/-! ## Examples -/

/-- A history that makes a tree, searches it, splits and merges it. -/
def demo : List (Op Nat) :=
  [.insertAt 5 0, .insertAt 9 1, .insertAt 7 1, .findZero (fun x => (x : Int) - 9), .find (fun x => (x : Int) - 8) false, .insert 8 (fun x => (x : Int) - 8), .deleteAt 9, .split 2 true, .merge [1, 2] false, .fetch 1, .iterate (fun v _ => if v = 8 then 3 else 0) 1 4]

example : Spec.LegalRun false [] demo := by decide +kernel

example : run false demo = some [.done, .done, .done, .found (some 9) 2, .place (some (7, 1)), .put (.ok ()) 2, .fails .inval, .rest [5, 7], .done, .value 2, .seen [(2, 1), (8, 2)] 3] := by decide +kernel

/-- A history with marks: the callback stops at the second value, the two are marked and then deleted, and after that the container can be changed again. -/
def demoMarks : List (Op Nat) :=
  [.merge [10, 20, 30, 40] true, .iterateMark (fun v _ => if v = 30 then 1 else 0) 1 4, .iterateMarked (fun _ _ => 0), .deleteMarked, .insertAt 5 0, .iterate (fun _ _ => 0) 0 3]

example : Spec.LegalRun true [] demoMarks := by decide +kernel

example : run true demoMarks = some [.done, .seen [(20, 1), (30, 2)] 1, .seen [(20, 1), (30, 2)] 0, .done, .done, .seen [(5, 0), (10, 1), (40, 2)] 0] := by decide +kernel

/-- A marked container must not be changed by position. -/
example : run true ([.merge [10, 20] true, .iterateMark (fun _ _ => 0) 0 1, .insertAt 5 0] : List (Op Nat)) = none := by decide +kernel

/-- A container that a history leads to, that is a tree of depth 2. -/
example : ∃ t : Tr Nat, Reached true [(1, false), (2, false), (3, false)] (.tree t) ∧ t.root.depth = 2 := by
  obtain ⟨o, e⟩ : ∃ o, create (α := Nat) true = some o := ⟨_, rfl⟩
  have h0 : Reached true [] o := .new e
  cases e
  exact ⟨_, .step (op := .merge [1, 2, 3] true) h0 trivial rfl rfl, rfl⟩

/-- The hypotheses of `insert_keeps_sorted` for numbers. -/
example (v : Nat) : (∀ x : Nat, (x : Int) - v < 0 ↔ x < v) ∧ (∀ x : Nat, (x : Int) - v > 0 ↔ v < x) := ⟨by intro x; omega, by intro x; omega⟩

end Verif.Omt.Props
