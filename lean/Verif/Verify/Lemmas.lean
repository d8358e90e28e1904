import Verif.Verify.Spec

/-!
# Verification accepts exactly the well-formed trees
-/

namespace Verif.Verify

theorem inB_iff {lo hi k} : inB lo hi k = true ↔ Within lo hi k := by
  unfold inB Within
  rw [Bool.and_eq_true]
  constructor
  · rintro ⟨h1, h2⟩
    refine ⟨?_, ?_⟩
    · intro l e; subst e; exact of_decide_eq_true h1
    · intro u e; subst e; exact of_decide_eq_true h2
  · rintro ⟨h1, h2⟩
    refine ⟨?_, ?_⟩
    · cases lo with
      | none => rfl
      | some l => exact decide_eq_true (h1 l rfl)
    · cases hi with
      | none => rfl
      | some u => exact decide_eq_true (h2 u rfl)

theorem ascB_iff : ∀ {l : List Nat}, ascB l = true ↔ l.Pairwise (· < ·)
  | [] => by simp only [ascB, List.Pairwise.nil]
  | [a] => by simp only [ascB, List.pairwise_singleton]
  | a :: b :: l => by
    unfold ascB
    rw [Bool.and_eq_true, ascB_iff, decide_eq_true_iff]
    constructor
    · rintro ⟨h1, h2⟩
      refine List.Pairwise.cons ?_ h2
      intro c hc
      rcases List.mem_cons.mp hc with e | hc
      · rw [e]; exact h1
      · exact Nat.lt_trans h1 ((List.pairwise_cons.mp h2).1 c hc)
    · intro h
      obtain ⟨h1, h2⟩ := List.pairwise_cons.mp h
      exact ⟨h1 b List.mem_cons_self, h2⟩

theorem msgsB_iff {lo hi max} : ∀ {ms last}, msgsB lo hi max last ms = true ↔
    MsgsOk bounded lo hi max ms ∧ ∀ m ∈ ms, last < m.msn := by
  intro ms
  induction ms with
  | nil =>
    intro last
    constructor
    · intro _
      exact ⟨⟨fun _ h => (by cases h), List.Pairwise.nil, fun _ h => (by cases h)⟩, fun _ h => (by cases h)⟩
    · intro _; rfl
  | cons m ms ih =>
    intro last
    unfold msgsB
    simp only [Bool.and_eq_true, Bool.or_eq_true, Bool.not_eq_true', decide_eq_true_iff, ih]
    constructor
    · rintro ⟨⟨⟨⟨h1, h2⟩, h3⟩, h4⟩, h5, h6⟩
      refine ⟨⟨?_, List.Pairwise.cons h6 h5.order, ?_⟩, ?_⟩
      · intro x hx ht
        rcases List.mem_cons.mp hx with e | hx
        · subst e
          rcases h2 with h2 | h2
          · rw [h2] at ht; cases ht
          · exact inB_iff.mp h2
        · exact h5.place x hx ht
      · intro x hx
        rcases List.mem_cons.mp hx with e | hx
        · subst e; exact ⟨Nat.pos_of_ne_zero h1, h4⟩
        · exact h5.range x hx
      · intro x hx
        rcases List.mem_cons.mp hx with e | hx
        · subst e; exact h3
        · exact Nat.lt_trans h3 (h6 x hx)
    · rintro ⟨h, hl⟩
      obtain ⟨o1, o2⟩ := List.pairwise_cons.mp h.order
      refine ⟨⟨⟨⟨?_, ?_⟩, hl m List.mem_cons_self⟩, (h.range m List.mem_cons_self).2⟩, ⟨?_, o2, ?_⟩, o1⟩
      · have := (h.range m List.mem_cons_self).1; omega
      · cases hb : bounded m.ty with
        | false => exact .inl rfl
        | true => exact .inr (inB_iff.mpr (h.place m List.mem_cons_self hb))
      · exact fun x hx => h.place x (List.mem_cons_of_mem _ hx)
      · exact fun x hx => h.range x (List.mem_cons_of_mem _ hx)

theorem msgsB0_iff {lo hi max ms} : msgsB lo hi max 0 ms = true ↔ MsgsOk bounded lo hi max ms := by
  rw [msgsB_iff]
  exact ⟨fun h => h.1, fun h => ⟨h, fun m hm => (h.range m hm).1⟩⟩

theorem empty_iff {α} {l : List α} : l.isEmpty = true ↔ l = [] := List.isEmpty_iff

/-- What one node must satisfy. -/
def NodeP (root pmsn : Nat) (above : Bool) (n : Node) (lo hi : Option Nat) : Prop :=
  (0 < n.height → above = true → n.msn ≤ pmsn) ∧ n.pivots.Pairwise (· < ·) ∧ (∀ p ∈ n.pivots, Within lo hi p) ∧
  ∀ l u x, (l, u, x) ∈ segs lo hi n.pivots n.parts →
    (0 < n.height → MsgsOk bounded l u n.msn x.msgs) ∧
    (n.height = 0 → x.keys.Pairwise (· < ·) ∧ (∀ k ∈ x.keys, Within l u k) ∧ (x.keys ≠ [] → n.msn ≤ root))

theorem nodeB_iff {root pmsn above n lo hi} : nodeB root pmsn above n lo hi = true ↔ NodeP root pmsn above n lo hi := by
  unfold nodeB NodeP
  rw [Bool.and_eq_true, Bool.and_eq_true, Bool.and_eq_true, ascB_iff, List.all_eq_true, List.all_eq_true, and_assoc, and_assoc]
  have e1 : (!(decide (0 < n.height) && above) || decide (n.msn ≤ pmsn)) = true ↔ (0 < n.height → above = true → n.msn ≤ pmsn) := by
    rw [Bool.or_eq_true, decide_eq_true_iff, Bool.not_eq_true', Bool.and_eq_false_iff, decide_eq_false_iff_not]
    cases above <;> simp only [reduceCtorEq, false_implies, implies_true, or_false, or_true, true_or, forall_const] <;> omega
  have e2 : (∀ p ∈ n.pivots, inB lo hi p = true) ↔ ∀ p ∈ n.pivots, Within lo hi p := by
    constructor <;> intro h p hp
    · exact inB_iff.mp (h p hp)
    · exact inB_iff.mpr (h p hp)
  rw [e1, e2]
  refine and_congr Iff.rfl (and_congr Iff.rfl (and_congr Iff.rfl ?_))
  have e3 : ∀ l u (x : Part), (if 0 < n.height then msgsB l u n.msn 0 x.msgs
      else (x.keys.isEmpty || decide (n.msn ≤ root)) && x.keys.all (inB l u) && ascB x.keys) = true ↔
      (0 < n.height → MsgsOk bounded l u n.msn x.msgs) ∧
      (n.height = 0 → x.keys.Pairwise (· < ·) ∧ (∀ k ∈ x.keys, Within l u k) ∧ (x.keys ≠ [] → n.msn ≤ root)) := by
    intro l u x
    by_cases hh : 0 < n.height
    · rw [if_pos hh, msgsB0_iff]
      exact ⟨fun h => ⟨fun _ => h, fun e => by omega⟩, fun h => h.1 hh⟩
    · rw [if_neg hh, Bool.and_eq_true, Bool.and_eq_true, Bool.or_eq_true, ascB_iff, List.all_eq_true, decide_eq_true_iff, empty_iff]
      constructor
      · rintro ⟨⟨h1, h2⟩, h3⟩
        exact ⟨fun e => absurd e hh, fun _ => ⟨h3, fun k hk => inB_iff.mp (h2 k hk), fun hne => h1.resolve_left hne⟩⟩
      · rintro ⟨_, h⟩
        obtain ⟨h1, h2, h3⟩ := h (by omega)
        refine ⟨⟨?_, fun k hk => inB_iff.mpr (h2 k hk)⟩, h1⟩
        by_cases e : x.keys = []
        · exact .inl e
        · exact .inr (h3 e)
  constructor
  · intro h l u x hm
    exact (e3 l u x).mp (h _ hm)
  · rintro h ⟨l, u, x⟩ hm
    exact (e3 l u x).mpr (h l u x hm)

theorem finish_ok {r cbs} (hc : ∀ c ∈ cbs, c = 0) : (finish r cbs).1 = r ∧ ∀ c ∈ (finish r cbs).2, c = 0 := by
  unfold finish
  split
  · next c cbs => 
    have := hc c List.mem_cons_self
    rw [if_pos this]
    exact ⟨rfl, fun x hx => hc x (List.mem_cons_of_mem _ hx)⟩
  · exact ⟨rfl, hc⟩

/-- With a callback that always answers 0, the loop ends well exactly if all children did. -/
theorem children_ok {kg f} : ∀ {xs res cbs}, (∀ c ∈ cbs, c = 0) →
    (∀ x ∈ xs, ∀ cbs, (∀ c ∈ cbs, c = 0) → ∀ c ∈ (f x cbs).2, c = 0) →
    (∀ x ∈ xs, ∀ cbs cbs', (∀ c ∈ cbs, c = 0) → (∀ c ∈ cbs', c = 0) → (f x cbs).1 = (f x cbs').1) →
    (((children kg f xs res cbs).1 = .ok ↔ res = .ok ∧ ∀ x ∈ xs, (f x []).1 = .ok) ∧
      ∀ c ∈ (children kg f xs res cbs).2, c = 0) := by
  intro xs
  induction xs with
  | nil =>
    intro res cbs hc _ _
    exact ⟨⟨fun h => ⟨h, fun _ hx => (by cases hx)⟩, fun h => h.1⟩, hc⟩
  | cons x xs ih =>
    intro res cbs hc h1 h2
    have h1' : ∀ y ∈ xs, _ := fun y hy => h1 y (List.mem_cons_of_mem _ hy)
    have h2' : ∀ y ∈ xs, _ := fun y hy => h2 y (List.mem_cons_of_mem _ hy)
    have hz := h1 x List.mem_cons_self cbs hc
    have he := h2 x List.mem_cons_self cbs [] hc (fun _ hx => (by cases hx))
    unfold children
    cases hf : f x cbs with
    | mk r cbs' =>
      rw [hf] at hz he
      simp only [] at hz he
      cases r with
      | ok =>
        obtain ⟨i1, i2⟩ := ih (res := res) hz h1' h2'
        refine ⟨?_, i2⟩
        simp only []
        rw [i1]
        constructor
        · rintro ⟨e, h⟩
          refine ⟨e, fun y hy => ?_⟩
          rcases List.mem_cons.mp hy with e | hy
          · rw [e]; exact he.symm
          · exact h y hy
        · rintro ⟨e, h⟩
          exact ⟨e, fun y hy => h y (List.mem_cons_of_mem _ hy)⟩
      | repair =>
        have hno : ¬ (res = .ok ∧ ∀ y ∈ x :: xs, (f y []).1 = .ok) := by
          rintro ⟨_, h⟩
          have := h x List.mem_cons_self
          rw [← he] at this
          cases this
        cases kg with
        | true =>
          obtain ⟨i1, i2⟩ := ih (res := .repair) hz h1' h2'
          refine ⟨⟨fun h => ?_, fun h => absurd h hno⟩, i2⟩
          have := (i1.mp h).1
          cases this
        | false => exact ⟨⟨fun h => (by cases h), fun h => absurd h hno⟩, hz⟩
      | user c =>
        refine ⟨⟨fun h => (by cases h), fun h => ?_⟩, hz⟩
        have := h.2 x List.mem_cons_self
        rw [← he] at this
        cases this
      | crash =>
        refine ⟨⟨fun h => (by cases h), fun h => ?_⟩, hz⟩
        have := h.2 x List.mem_cons_self
        rw [← he] at this
        cases this

theorem children_congr {kg f} : ∀ {xs res cbs cbs'}, (∀ c ∈ cbs, c = 0) → (∀ c ∈ cbs', c = 0) →
    (∀ x ∈ xs, ∀ cbs, (∀ c ∈ cbs, c = 0) → ∀ c ∈ (f x cbs).2, c = 0) →
    (∀ x ∈ xs, ∀ cbs cbs', (∀ c ∈ cbs, c = 0) → (∀ c ∈ cbs', c = 0) → (f x cbs).1 = (f x cbs').1) →
    (children kg f xs res cbs).1 = (children kg f xs res cbs').1 := by
  intro xs
  induction xs with
  | nil => intros; rfl
  | cons x xs ih =>
    intro res cbs cbs' hc hc' h1 h2
    have h1' : ∀ y ∈ xs, _ := fun y hy => h1 y (List.mem_cons_of_mem _ hy)
    have h2' : ∀ y ∈ xs, _ := fun y hy => h2 y (List.mem_cons_of_mem _ hy)
    have z1 := h1 x List.mem_cons_self cbs hc
    have z2 := h1 x List.mem_cons_self cbs' hc'
    have he := h2 x List.mem_cons_self cbs cbs' hc hc'
    unfold children
    cases hf : f x cbs with
    | mk r1 d1 =>
      cases hf' : f x cbs' with
      | mk r2 d2 =>
        rw [hf] at z1 he
        rw [hf'] at z2 he
        simp only [] at he z1 z2
        subst he
        cases r1 with
        | ok => exact ih z1 z2 h1' h2'
        | repair =>
          cases kg with
          | true => exact ih z1 z2 h1' h2'
          | false => rfl
        | user c => rfl
        | crash => rfl

/-- The answers 0 of the callback do not matter, and are all that is left. -/
theorem verify_zero {nodes kg root} : ∀ {h pmsn above b lo hi},
    (∀ cbs, (∀ c ∈ cbs, c = 0) → ∀ c ∈ (verify nodes kg root h pmsn above b lo hi cbs).2, c = 0) ∧
    ∀ cbs cbs', (∀ c ∈ cbs, c = 0) → (∀ c ∈ cbs', c = 0) →
      (verify nodes kg root h pmsn above b lo hi cbs).1 = (verify nodes kg root h pmsn above b lo hi cbs').1 := by
  intro h
  induction h with
  | zero =>
    intro pmsn above b lo hi
    unfold verify
    simp only []
    split
    · exact ⟨fun _ hc => hc, fun _ _ _ _ => rfl⟩
    · refine ⟨fun cbs hc => (finish_ok hc).2, fun cbs cbs' hc hc' => ?_⟩
      rw [(finish_ok hc).1, (finish_ok hc').1]
  | succ h ih =>
    intro pmsn above b lo hi
    unfold verify
    simp only []
    split
    · exact ⟨fun _ hc => hc, fun _ _ _ _ => rfl⟩
    · generalize (if nodeB root pmsn above (nodes b) lo hi = true then V.ok else V.repair) = r
      by_cases hr : r = .repair ∧ kg = false
      · simp only [if_pos hr]
        exact ⟨fun _ hc => hc, fun _ _ _ _ => trivial⟩
      · simp only [if_neg hr]
        refine ⟨fun cbs hc => ?_, fun cbs cbs' hc hc' => ?_⟩
        · refine (finish_ok ?_).2
          exact (children_ok hc (fun _ _ => ih.1) (fun _ _ => ih.2)).2
        · rw [(finish_ok ?_).1, (finish_ok ?_).1]
          · exact children_congr hc hc' (fun _ _ => ih.1) (fun _ _ => ih.2)
          · exact (children_ok hc' (fun _ _ => ih.1) (fun _ _ => ih.2)).2
          · exact (children_ok hc (fun _ _ => ih.1) (fun _ _ => ih.2)).2

theorem nodeP_zero {T} (hT : T = bounded) {nodes : Nat → Node} {root pmsn above b lo hi} (hh : (nodes b).height = 0) :
    NodeP root pmsn above (nodes b) lo hi ↔ WF T nodes root 0 pmsn above b lo hi := by
  subst hT
  unfold NodeP WF
  constructor
  · rintro ⟨_, h2, h3, h4⟩
    exact ⟨hh, h2, h3, fun l u x hx => (h4 l u x hx).2 hh⟩
  · rintro ⟨_, h2, h3, h4⟩
    exact ⟨fun e => by omega, h2, h3, fun l u x hx => ⟨fun e => by omega, fun _ => h4 l u x hx⟩⟩

theorem isEmpty_if {α β} (l : List α) (a b : β) : (if l.isEmpty = true then a else b) = if l = [] then a else b := by
  cases l <;> rfl

/-- Verification accepts exactly the well-formed trees. -/
theorem verify_iff {nodes kg root} : ∀ {h pmsn above b lo hi},
    (verify nodes kg root h pmsn above b lo hi []).1 = .ok ↔ WF bounded nodes root h pmsn above b lo hi := by
  intro h
  have hnil : ∀ c ∈ ([] : List Nat), c = 0 := fun _ hx => (by cases hx)
  induction h with
  | zero =>
    intro pmsn above b lo hi
    unfold verify
    simp only []
    split
    · next hh =>
      constructor
      · intro e; cases e
      · intro e; exact absurd e.1 hh
    · next hh =>
      have hh : (nodes b).height = 0 := Decidable.of_not_not hh
      rw [(finish_ok hnil).1, ← nodeP_zero rfl hh, ← nodeB_iff]
      cases nodeB root pmsn above (nodes b) lo hi
      · exact ⟨fun e => (by cases e), fun e => (by cases e)⟩
      · exact ⟨fun _ => rfl, fun _ => rfl⟩
  | succ h ih =>
    intro pmsn above b lo hi
    unfold verify
    simp only []
    split
    · next hh =>
      constructor
      · intro e; cases e
      · intro e; exact absurd e.1 hh
    · next hh =>
      have hh : (nodes b).height = h + 1 := Decidable.of_not_not hh
      have hpos : 0 < (nodes b).height := by omega
      have key : NodeP root pmsn above (nodes b) lo hi ∧
          (∀ y ∈ segs lo hi (nodes b).pivots (nodes b).parts,
            (verify nodes kg root h (if y.2.2.msgs.isEmpty = true then pmsn else (nodes b).msn) (above || !y.2.2.msgs.isEmpty) y.2.2.child
              y.1 y.2.1 []).1 = .ok) ↔ WF bounded nodes root (h + 1) pmsn above b lo hi := by
        constructor
        · rintro ⟨⟨h1, h2, h3, h4⟩, h5⟩
          refine ⟨hh, h2, h3, h1 hpos, fun l u x hx => ⟨(h4 l u x hx).1 hpos, ?_⟩⟩
          have := h5 _ hx
          rw [ih, isEmpty_if] at this
          exact this
        · rintro ⟨_, h2, h3, h1, h4⟩
          refine ⟨⟨fun _ => h1, h2, h3, fun l u x hx => ⟨fun _ => (h4 l u x hx).1, fun e => by omega⟩⟩, ?_⟩
          rintro ⟨l, u, x⟩ hx
          rw [ih, isEmpty_if]
          exact (h4 l u x hx).2
      rw [← key, ← nodeB_iff]
      cases hb : nodeB root pmsn above (nodes b) lo hi with
      | false =>
        refine ⟨fun e => ?_, fun e => by cases e.1⟩
        exfalso
        cases kg with
        | false => cases e
        | true =>
          rw [if_neg (fun x => by cases x.2), (finish_ok ?_).1] at e
          · have := ((children_ok hnil (fun _ _ => verify_zero.1) (fun _ _ => verify_zero.2)).1.mp e).1
            cases this
          · exact (children_ok hnil (fun _ _ => verify_zero.1) (fun _ _ => verify_zero.2)).2
      | true =>
        rw [if_neg (fun x => by cases x.1), (finish_ok ?_).1, (children_ok hnil (fun _ _ => verify_zero.1) (fun _ _ => verify_zero.2)).1]
        · exact ⟨fun e => ⟨rfl, e.2⟩, fun e => ⟨rfl, e.2⟩⟩
        · exact (children_ok hnil (fun _ _ => verify_zero.1) (fun _ _ => verify_zero.2)).2

end Verif.Verify
