import Verif.Sort.Merge
import Verif.Sort.Buffer
import Verif.Tree.Apply
import Mathlib.Data.Nat.Basic

/-!
C74: sorting.  The sort ends, stays inside its arrays and leaves the same elements in order, whatever the array, its length and the
comparison; and what buffered messages are sorted for: the order in which they are applied is the order of their sequence numbers.
-/
namespace Verif.Sort
variable {α : Type} {cmp : α → α → Int}

/-- Every array is sorted: the call ends without leaving its arrays, and what is in the array after it are the elements that were there, in
order. -/
theorem C74_every_array_is_sorted (hc : Comparator cmp) (a scratch : List α) (hs : scratch.length = a.length) :
    ∃ s, mergesort cmp a scratch = some s ∧ s.Perm a ∧ InOrder cmp s :=
  mergesortThr_ok hc (by decide) a scratch hs

/-- The same for every size from which arrays are halved and merged, from three on. -/
theorem C74_for_every_threshold (hc : Comparator cmp) {thr : Nat} (ht : 3 ≤ thr) (a scratch : List α) (hs : scratch.length = a.length) :
    ∃ s, mergesortThr cmp thr a scratch = some s ∧ s.Perm a ∧ InOrder cmp s :=
  mergesortThr_ok hc ht a scratch hs

/-- Two arrays in order with the same elements, no two of which compare equal, are the same. -/
theorem sorted_unique (hc : Comparator cmp) : ∀ {a b : List α}, a.Perm b → InOrder cmp a → InOrder cmp b → (a.Pairwise fun x y => cmp x y ≠ 0) → a = b
  | [], b, hp, _, _, _ => (List.nil_perm.1 hp).symm
  | x :: a, [], hp, _, _, _ => absurd hp.length_eq (by simp)
  | x :: a, y :: b, hp, ha, hb, hd => by
    have ha' := List.pairwise_cons.1 ha
    have hb' := List.pairwise_cons.1 hb
    have hd' := List.pairwise_cons.1 hd
    have hxy : x = y := by
      rcases List.mem_cons.1 (hp.mem_iff.1 List.mem_cons_self) with h | h
      · exact h
      · rcases List.mem_cons.1 (hp.mem_iff.2 List.mem_cons_self) with h' | h'
        · exact h'.symm
        · have h1 := hb'.1 x h
          have h2 := ha'.1 y h'
          have h3 := hd'.1 y h'
          have := hc.turn x y
          have := hc.turn y x
          omega
    subst hxy
    rw [sorted_unique hc (List.perm_cons x |>.1 hp) ha'.2 hb'.2 hd'.2]

/-- When no two elements compare equal, the result depends neither on the order they come in nor on what is in the memory used. -/
theorem C74_the_order_given_does_not_matter (hc : Comparator cmp) {a b s1 s2 : List α} (hp : a.Perm b) (h1 : s1.length = a.length)
    (h2 : s2.length = b.length) (hd : a.Pairwise fun x y => cmp x y ≠ 0) : mergesort cmp a s1 = mergesort cmp b s2 := by
  obtain ⟨u, u1, u2, u3⟩ := C74_every_array_is_sorted hc a s1 h1
  obtain ⟨w, w1, w2, w3⟩ := C74_every_array_is_sorted hc b s2 h2
  rw [u1, w1]
  congr 1
  refine sorted_unique hc (u2.trans (hp.trans w2.symm)) u3 w3 ?_
  refine u2.symm.pairwise hd ?_
  intro x y h e
  have := hc.turn x y
  have := hc.turn y x
  omega

/-! ### Messages -/

open Verif.Tree
variable {K B : Type} [LinearOrder K]

theorem cmpMsn_le {x y : Nat} : cmpMsn x y ≤ 0 ↔ x ≤ y := by
  unfold cmpMsn
  split
  · omega
  · split <;> omega

theorem cmpMsn_turn {x y : Nat} : cmpMsn x y < 0 ↔ 0 < cmpMsn y x := by
  unfold cmpMsn
  (repeat' split) <;> omega

theorem cmpMsn_zero {x y : Nat} : cmpMsn x y = 0 ↔ x = y := by
  unfold cmpMsn
  split
  · omega
  · split <;> omega

omit [LinearOrder K] in
theorem byMsn : Comparator (cmpByMsn (K := K) (B := B)) :=
  ⟨fun _ _ => cmpMsn_turn, fun _ _ _ h1 h2 => cmpMsn_le.2 (Nat.le_trans (cmpMsn_le.1 h1) (cmpMsn_le.1 h2))⟩

theorem byKey_le (x y : Ent K B) : cmpByKey x y ≤ 0 ↔ keyMsnLe x y = true := by
  unfold cmpByKey keyMsnLe
  rcases hx : x.msg.kind with kx | _ | _ <;> rcases hy : y.msg.kind with ky | _ | _ <;> simp only [] <;>
    first
      | (rw [decide_eq_true_iff]; exact cmpMsn_le)
      | decide
      | skip
  by_cases h1 : kx < ky
  · rw [if_pos h1, if_pos h1]
    decide
  · rw [if_neg h1, if_neg h1]
    by_cases h2 : ky < kx
    · rw [if_pos h2, if_pos h2]
      decide
    · rw [if_neg h2, if_neg h2, decide_eq_true_iff]
      exact cmpMsn_le

theorem byKey_turn (x y : Ent K B) : cmpByKey x y < 0 ↔ 0 < cmpByKey y x := by
  unfold cmpByKey
  rcases hx : x.msg.kind with kx | _ | _ <;> rcases hy : y.msg.kind with ky | _ | _ <;> simp only [] <;>
    first
      | exact cmpMsn_turn
      | decide
      | skip
  by_cases h1 : kx < ky
  · rw [if_pos h1, if_neg (lt_asymm h1), if_pos h1]
    decide
  · rw [if_neg h1]
    by_cases h2 : ky < kx
    · rw [if_pos h2, if_pos h2]
      decide
    · rw [if_neg h2, if_neg h2, if_neg h1]
      exact cmpMsn_turn

theorem byKey : Comparator (cmpByKey (K := K) (B := B)) :=
  ⟨byKey_turn, fun x y z h1 h2 => (byKey_le x z).2 (keyMsnLe_trans x y z ((byKey_le x y).1 h1) ((byKey_le y z).1 h2))⟩

/-- Messages with different sequence numbers: sorted in whatever order they were collected, they are in the order the model of the tree
applies them in. -/
theorem C74_sorted_as_they_are_applied (l scratch : List (Ent K B)) (hs : scratch.length = l.length)
    (hd : l.Pairwise fun x y => x.msg.msn ≠ y.msg.msn) : mergesort cmpByMsn l scratch = some (sortBy msnLe l) := by
  obtain ⟨u, u1, u2, u3⟩ := C74_every_array_is_sorted byMsn l scratch hs
  rw [u1]
  congr 1
  refine sorted_unique byMsn (u2.trans (sortBy_perm msnLe l).symm) u3 ?_ ?_
  · have := sortBy_sorted (le := msnLe (K := K) (B := B))
      (fun a b => by unfold msnLe; rw [decide_eq_true_iff, decide_eq_true_iff]; omega)
      (fun a b c h1 h2 => by unfold msnLe at *; rw [decide_eq_true_iff] at *; omega) l
    refine this.imp ?_
    intro a b h
    unfold msnLe at h
    rw [decide_eq_true_iff] at h
    exact cmpMsn_le.2 h
  · refine u2.symm.pairwise (hd.imp fun h e => h (cmpMsn_zero.1 e)) ?_
    intro x y h e
    exact h (cmpMsn_zero.2 (cmpMsn_zero.1 e).symm)

/-- A buffer holds its messages with increasing sequence numbers.  However they are collected, from the trees and the list of broadcasts,
sorting puts them back in that order: every message comes after all the messages sent before it. -/
theorem C74_messages_in_the_order_sent (buffer l scratch : List (Ent K B)) (hb : buffer.Pairwise fun x y => x.msg.msn < y.msg.msn)
    (hp : l.Perm buffer) (hs : scratch.length = l.length) : mergesort cmpByMsn l scratch = some buffer := by
  obtain ⟨u, u1, u2, u3⟩ := C74_every_array_is_sorted byMsn l scratch hs
  rw [u1]
  congr 1
  refine (sorted_unique byMsn (u2.trans hp).symm (hb.imp fun h => cmpMsn_le.2 (Nat.le_of_lt h)) u3 (hb.imp fun h e => ?_)).symm
  have := cmpMsn_zero.1 e
  omega

/-- The trees rebuilt when a node is read: messages with different sequence numbers are in the order in which the trees are kept. -/
theorem C74_trees_rebuilt_in_order (l scratch : List (Ent K B)) (hs : scratch.length = l.length)
    (hd : l.Pairwise fun x y => x.msg.msn ≠ y.msg.msn) : mergesort cmpByKey l scratch = some (sortBy keyMsnLe l) := by
  obtain ⟨u, u1, u2, u3⟩ := C74_every_array_is_sorted byKey l scratch hs
  rw [u1]
  congr 1
  have hne : ∀ x y : Ent K B, x.msg.msn ≠ y.msg.msn → cmpByKey x y ≠ 0 := by
    intro x y h
    unfold cmpByKey
    split
    · split
      · decide
      · split
        · decide
        · exact fun e => h (cmpMsn_zero.1 e)
    · decide
    · decide
    · exact fun e => h (cmpMsn_zero.1 e)
  refine sorted_unique byKey (u2.trans (sortBy_perm keyMsnLe l).symm) u3 ?_ ?_
  · exact (sortBy_sorted keyMsnLe_total keyMsnLe_trans l).imp fun h => (byKey_le _ _).2 h
  · exact u2.symm.pairwise (hd.imp fun h => hne _ _ h) fun {x y} h e => by
      have := byKey.turn x y
      have := byKey.turn y x
      omega

/-! ### What it does not do -/

/-- Elements that compare equal do not keep their order. -/
theorem C74_equal_elements_may_change_places : ∃ (cmp : Nat × Nat → Nat × Nat → Int) (a s : List (Nat × Nat)), Comparator cmp ∧
    mergesort cmp a s = some [(1, 1), (1, 3), (1, 2), (1, 4)] ∧ a = [(1, 1), (1, 2), (1, 3), (1, 4)] ∧ s.length = a.length :=
  ⟨fun x y => cmpMsn x.1 y.1, [(1, 1), (1, 2), (1, 3), (1, 4)], [(0, 0), (0, 0), (0, 0), (0, 0)],
    ⟨fun _ _ => cmpMsn_turn, fun _ _ _ h1 h2 => cmpMsn_le.2 (Nat.le_trans (cmpMsn_le.1 h1) (cmpMsn_le.1 h2))⟩,
    by decide +kernel, rfl, rfl⟩

/-- A comparison that is no order takes it out of the array. -/
theorem C74_the_comparison_must_be_an_order : mergesort (fun _ _ => -1) [1, 2, 3, 4] [0, 0, 0, 0] = none := by decide +kernel

/-! ### Examples -/

theorem byNumber : Comparator cmpMsn :=
  ⟨fun _ _ => cmpMsn_turn, fun _ _ _ h1 h2 => cmpMsn_le.2 (Nat.le_trans (cmpMsn_le.1 h1) (cmpMsn_le.1 h2))⟩

example : mergesort cmpMsn [5, 3, 8, 3, 1, 9, 2] [0, 0, 0, 0, 0, 0, 0] = some [1, 2, 3, 3, 5, 8, 9] := by decide +kernel

/-- Halved and merged. -/
example : mergesortThr cmpMsn 3 [5, 3, 8, 3, 1, 9, 2] [7, 7, 7, 7, 7, 7, 7] = some [1, 2, 3, 3, 5, 8, 9] := by decide +kernel

example : Comparator cmpMsn ∧ (3 ≤ 4) ∧ [7, 7, 7, 7, 7].length = [5, 4, 4, 2, 1].length ∧
    mergesortThr cmpMsn 4 [5, 4, 4, 2, 1] [7, 7, 7, 7, 7] = some [1, 2, 4, 4, 5] := ⟨byNumber, by decide, rfl, by decide +kernel⟩

/-- Three messages, collected tree by tree. -/
example : let m (n : Nat) (k : Kind Nat) : Ent Nat Nat := ⟨⟨n, k, n⟩, .fresh⟩
    let buffer := [m 11 (.once 7), m 12 .all, m 15 (.once 3)]
    let l := [m 15 (.once 3), m 11 (.once 7), m 12 .all]
    (buffer.Pairwise fun x y => x.msg.msn < y.msg.msn) ∧ l.Perm buffer ∧ mergesort cmpByMsn l l = some buffer := by
  refine ⟨by decide +kernel, by decide +kernel, by decide +kernel⟩

example : let m (n : Nat) (k : Kind Nat) : Ent Nat Nat := ⟨⟨n, k, n⟩, .fresh⟩
    let l := [m 15 (.once 3), m 11 (.once 7), m 12 (.once 3)]
    (l.Pairwise fun x y => x.msg.msn ≠ y.msg.msn) ∧ mergesort cmpByKey l l = some [m 12 (.once 3), m 15 (.once 3), m 11 (.once 7)] := by
  refine ⟨by decide +kernel, by decide +kernel⟩

end Verif.Sort
