import Verif.Tree.Wf
import Mathlib.Data.Nat.Basic
/-!
C35: a query sees every earlier write exactly once, however the tree is rearranged.
C36: keys go to the child that owns them.
C37: splits, merges and rebalancing preserve contents.
-/
namespace Verif.Tree
set_option linter.unusedSectionVars false
variable {K R B : Type} [LinearOrder K]

/-! ### C35 -/

/-- Whatever is done to a new dictionary (messages sent, buffers flushed, nodes split, merged, written, evicted and
read back, basements read), nothing fails, and a query for any key gives what the messages sent, each applied
once in the order sent, make of that key. -/
theorem C35_query_sees_every_write_once (sem : Sem K R B) (ops : List (Op K B)) :
    ∃ t, run sem Tree.empty ops = some t ∧ ∀ k, get sem t k = .ok (rowAfter sem (sent ops) k) := by
  obtain ⟨t, h1, h2⟩ := run_ok (ops := ops) (empty_ok sem)
  exact ⟨t, h1, fun k => get_ok h2 k⟩

/-- Asking again, or anything else that sends no message, changes no answer. -/
theorem C35_only_messages_change_answers (sem : Sem K R B) (ops more : List (Op K B)) (h : sent more = [])
    {t t' : Tree K R B} (ht : run sem Tree.empty ops = some t) (ht' : run sem t more = some t') (k : K) :
    get sem t' k = get sem t k := by
  obtain ⟨u, h1, h2⟩ := run_ok (ops := ops) (empty_ok sem)
  rw [ht] at h1
  cases h1
  obtain ⟨u', h3, h4⟩ := run_ok (ops := more) h2
  rw [ht'] at h3
  cases h3
  rw [h, List.append_nil] at h4
  rw [get_ok h4, get_ok h2]

/-- Whichever basement a query reads, what it finds there are rows in key order, within the bounds of the basement, and
for every key within those bounds the value is the one the messages sent make of it. -/
theorem C35_any_basement_read_is_current (sem : Sem K R B) (ops : List (Op K B)) {t : Tree K R B}
    (ht : run sem Tree.empty ops = some t) {route : List Nat} {lo hi : Option K}
    (hb : boundsAt t.h none none route t.root = some (lo, hi)) :
    ∃ rows n fs, readAt sem t.h none none [] route t.root = .ok (rows, n, fs) ∧ Sorted rows ∧
      (∀ x ∈ rows, InB lo hi x.1) ∧ ∀ k, InB lo hi k → lookup rows k = rowAfter sem (sent ops) k := by
  obtain ⟨u, h1, h2⟩ := run_ok (ops := ops) (empty_ok sem)
  rw [ht] at h1
  cases h1
  obtain ⟨rows, n', fs', w1, w2, w3, w4, _⟩ := readAt_ok (fs := []) h2 (by trivial) hb
  exact ⟨rows, n', fs', w1, w2, w3, w4⟩

/-- Rows that are numbers: a message for a key sets it, adds to it or deletes it; a broadcast adds to every row. -/
def numbers : Sem Nat Nat (Option Nat × Nat) where
  one := fun b _ v => match b.1 with
    | none => none
    | some x => some (x + b.2 * v.getD 0)
  each := fun b _ r => match b.1 with
    | none => none
    | some x => some (r + x)
  cutSize := fun _ _ => 10
  splitSize := fun _ _ => 10

/-- A history in which messages are applied early by reads, written, evicted, flushed, split and merged. -/
def busy : List (Op Nat (Option Nat × Nat)) :=
  [.put (.once 1) (some 10, 0) 0, .put (.once 2) (some 20, 0) 0, .put (.once 3) (some 30, 0) 0, .put (.once 4) (some 40, 0) 0,
   .newRoot, .split [] 0 .evenly,
   .put (.once 1) (some 5, 1) 0, .read [0, 0], .put .all (some 100, 0) 0, .read [1, 0], .put (.once 4) (none, 0) 0,
   .moveStale [], .read [0, 0], .write [0] 15, .evict [0] (fun i => i = 0), .flush [] 0 true, .read [1, 0], .put (.once 2) (some 1, 2) 0,
   .write [0] 15, .evict [0] (fun _ => true), .reread [] (fun _ _ => true), .merge [] 0 .rebalance, .put (.once 3) (some 0, 3) 0, .read [1, 0],
   .merge [] 0 .merge, .put (.once 9) (some 9, 9) 1]

example : (do
    let t ← run numbers Tree.empty busy
    some (t.h, [0, 1, 2, 3, 4, 9].map (get numbers t)))
  = some (1, [.ok none, .ok (some 115), .ok (some 241), .ok (some 390), .ok none, .ok (some 9)]) := by
  decide +kernel

/-- Which steps of a history are taken. -/
def taken (sem : Sem K R B) : Tree K R B → List (Op K B) → List Bool
  | _, [] => []
  | t, op :: ops => match step sem t op with
    | .ok t' => true :: taken sem t' ops
    | .skip => false :: taken sem t ops
    | .crash => []

/-- Every step of the history above is taken. -/
example : taken numbers Tree.empty busy = busy.map fun _ => true := by decide +kernel

/-! ### C36 -/

/-- The child chosen for a key has all pivots before it below the key and none after it, and is the only such child; in
particular a key equal to a pivot goes to the left of it. -/
theorem C36_key_goes_to_its_child (pivots : List K) (hs : pivots.Pairwise (· < ·)) (k : K) :
    ∃ i, whichChild (pivots.length + 1) pivots k = some i ∧ i ≤ pivots.length ∧
      (∀ j p, pivots[j]? = some p → (p < k ↔ j < i)) ∧
      ∀ i', i' ≤ pivots.length → (∀ j p, pivots[j]? = some p → (p < k ↔ j < i')) → i' = i := by
  have e := whichChild_eq (ext := []) hs k
  rw [List.append_nil] at e
  refine ⟨_, e, rank_le pivots k, fun j p hp => rank_spec hs k j p hp, ?_⟩
  intro i' hi' hu
  rcases Nat.lt_trichotomy i' (rank pivots k) with h | h | h
  · have hl : i' < pivots.length := Nat.lt_of_lt_of_le h (rank_le _ _)
    have h1 := hu i' _ (List.getElem?_eq_getElem hl)
    have h2 := rank_spec hs k i' _ (List.getElem?_eq_getElem hl)
    exact absurd (h1.1 (h2.2 h)) (Nat.lt_irrefl _)
  · exact h
  · have hl : rank pivots k < pivots.length := by omega
    have h1 := hu (rank pivots k) _ (List.getElem?_eq_getElem hl)
    have h2 := rank_spec hs k (rank pivots k) _ (List.getElem?_eq_getElem hl)
    exact absurd (h2.1 (h1.2 h)) (Nat.lt_irrefl _)

/-- The same by the bounds of the child: they contain the key. -/
theorem C36_bounds_contain_key (pivots : List K) (hs : pivots.Pairwise (· < ·)) (k : K) {i : Nat}
    (h : whichChild (pivots.length + 1) pivots k = some i) :
    InB (childLo none pivots i) (childHi none pivots (pivots.length + 1) i) k := by
  obtain ⟨i', h1, h2, h3, _⟩ := C36_key_goes_to_its_child pivots hs k
  rw [h] at h1
  cases h1
  unfold childLo childHi
  constructor
  · intro a ha
    split at ha
    · cases ha
    · exact (h3 (i - 1) a ha).2 (by omega)
  · intro b hb
    split at hb
    · cases hb
    · have := h3 i b hb
      exact not_lt.1 fun hlt => absurd (this.1 hlt) (Nat.lt_irrefl _)

example : whichChild 4 [10, 20, 30] 20 = some 1 ∧ whichChild 4 [10, 20, 30] 21 = some 2 ∧ whichChild 4 [10, 20, 30] 31 = some 3 ∧
    whichChild 4 [10, 20, 30] 0 = some 0 := by decide
example := C36_key_goes_to_its_child [10, 20, 30] (by decide) 20

/-! ### C37 -/

/-- Splitting a leaf of more than one row, however it is asked to (a left-heavy split only of a rightmost leaf), gives two leaves
that together hold the same rows in the same order, with the new pivot between them. -/
theorem C37_leaf_split (sem : Sem K R B) (mode : Mode) {lo hi : Option K} {l : Leaf K R} (h : LeafWf lo hi l)
    (hr : 1 < (leafRows l).length) (hm : mode = .leftHeavy → hi = none) :
    ∃ a b k, splitLeaf sem mode l = .ok (a, b, k) ∧ leafRows a ++ leafRows b = leafRows l ∧
      LeafWf lo (some k) a ∧ LeafWf (some k) hi b ∧ Above lo k ∧ Below hi k := by
  have ht := topMsn_spec l
  obtain ⟨hc, _, _⟩ := h.core (c := ⟨sem, lookup (leafRows l), topMsn l⟩) ht.1 ht.2 (fun _ _ => rfl)
  obtain ⟨a, b, k, q1, q2, q3, q4, q5, q6, q7, q8⟩ := splitLeaf_ok hc h.mem (aon_nil _) mode hr (fun e => ⟨hm e, rfl⟩)
  refine ⟨a, b, k, ?_, q6, q4.1.wf (allMem_dirty q4.1 q7), q5.1.wf (allMem_dirty q5.1 q8), q2, q3⟩
  exact q1

/-- Merging two neighbouring leaves gives one that holds the rows of both in order. -/
theorem C37_leaf_merge (sem : Sem K R B) {lo hi : Option K} {k : K} {a b : Leaf K R} (ha : LeafWf lo (some k) a) (hb : LeafWf (some k) hi b)
    (hlo : Above lo k) (hhi : Below hi k) :
    ∃ l, mergeLeaves a b = .ok l ∧ leafRows l = leafRows a ++ leafRows b ∧ LeafWf lo hi l := by
  have hta := topMsn_spec a
  have htb := topMsn_spec b
  let c : Ctx K R B := ⟨sem, lookup (leafRows a ++ leafRows b), max (topMsn a) (topMsn b)⟩
  obtain ⟨_, _, wa⟩ := ha.core (c := (⟨sem, lookup (leafRows a), topMsn a⟩ : Ctx K R B)) hta.1 hta.2 (fun _ _ => rfl)
  obtain ⟨_, _, wb⟩ := hb.core (c := (⟨sem, lookup (leafRows b), topMsn b⟩ : Ctx K R B)) htb.1 htb.2 (fun _ _ => rfl)
  obtain ⟨ca, _, _⟩ := ha.core (c := c) (Nat.le_trans hta.1 (Nat.le_max_left _ _))
    (fun p hp b hb => Nat.le_trans (hta.2 p hp b hb) (Nat.le_max_left _ _)) (by
      intro x hx
      show lookup (leafRows a) x = lookup (leafRows a ++ leafRows b) x
      rw [lookup_left]
      intro r hr
      exact lt_of_le_of_lt (hx.2 k rfl) ((wb r hr).1 k rfl))
  obtain ⟨cb, _, _⟩ := hb.core (c := c) (Nat.le_trans htb.1 (Nat.le_max_right _ _))
    (fun p hp b hb => Nat.le_trans (htb.2 p hp b hb) (Nat.le_max_right _ _)) (by
      intro x hx
      show lookup (leafRows b) x = lookup (leafRows a ++ leafRows b) x
      rw [lookup_right]
      intro r hr
      exact lt_of_le_of_lt ((wa r hr).2 k rfl) (hx.1 k rfl))
  obtain ⟨l, q1, q2, q3, q4, q5⟩ := mergeLeaves_ok ca ha.mem cb hb.mem hlo hhi
  exact ⟨l, q1, q5, q2.wf q3⟩

/-- Rebalancing the basements of a leaf before it is written keeps the rows and their order; the disk gets what memory holds. -/
theorem C37_leaf_rebalance (sem : Sem K R B) (limit : Nat) {lo hi : Option K} {l : Leaf K R} (h : LeafWf lo hi l) :
    leafRows (writeLeaf sem limit l) = leafRows l ∧ LeafWf lo hi (writeLeaf sem limit l) ∧
      ∀ p ∈ (writeLeaf sem limit l).parts, p.disk = partRows p := by
  have ht := topMsn_spec l
  obtain ⟨hc, _, _⟩ := h.core (c := ⟨sem, lookup (leafRows l), topMsn l⟩) ht.1 ht.2 (fun _ _ => rfl)
  have hg := writeLeaf_ok (l := { l with dirty := true }) ⟨hc, fun _ => aon_nil _⟩ rfl limit
  have he : writeLeaf sem limit ({ l with dirty := true } : Leaf K R) = writeLeaf sem limit l := rfl
  simp only at hg
  rw [he] at hg
  refine ⟨?_, hg.1.wf ?_, ?_⟩
  · have : leafRows (writeLeaf sem limit l) = (cutRows sem limit [] 0 (leafRows l)).flatten := by
      rw [leafRows_eq]
      unfold writeLeaf
      rw [List.map_map]
      congr 1
      conv => rhs; rw [← List.map_id (cutRows sem limit [] 0 (leafRows l))]
      rfl
    rw [this, cutRows_flatten]
    rfl
  · intro p hp
    obtain ⟨g, _, rfl⟩ := List.mem_map.1 hp
    exact ⟨_, rfl⟩
  · intro p hp
    obtain ⟨g, _, rfl⟩ := List.mem_map.1 hp
    rfl

/-- Splitting an inner node keeps its children, their buffers and its pivots, in order; the pivot in the middle goes up. -/
theorem C37_inner_split {C : Type} (n : Inner K B C) (hn : 1 < n.kids.length) (hp : n.kids.length = n.pivots.length + 1) :
    ∃ a b k, splitInner n = .ok (a, b, k) ∧ a.kids ++ b.kids = n.kids ∧ a.pivots ++ k :: b.pivots = n.pivots ∧
      a.kids.length = a.pivots.length + 1 ∧ b.kids.length = b.pivots.length + 1 := by
  have hl : n.kids.length / 2 - 1 < n.pivots.length := by omega
  have e : (n.pivots.take (n.kids.length / 2)).dropLast = n.pivots.take (n.kids.length / 2 - 1) := by
    rw [List.dropLast_eq_take, List.take_take, List.length_take]
    congr 1
    omega
  refine ⟨{ n with pivots := (n.pivots.take (n.kids.length / 2)).dropLast, kids := n.kids.take (n.kids.length / 2) },
    { n with pivots := n.pivots.drop (n.kids.length / 2), kids := n.kids.drop (n.kids.length / 2) }, n.pivots[n.kids.length / 2 - 1],
    ?_, List.take_append_drop _ _, ?_, ?_, ?_⟩
  · unfold splitInner
    simp only [List.getElem?_eq_getElem hl, need_some, Out.ok_bind]
  · simp only [e]
    rw [show n.pivots.drop (n.kids.length / 2) = n.pivots.drop (n.kids.length / 2 - 1 + 1) by congr 1; omega,
      ← List.drop_eq_getElem_cons hl, List.take_append_drop]
  · simp only [e, List.length_take]
    omega
  · simp only [List.length_drop]
    omega

/-- Merging two inner nodes keeps the children and pivots of both, with the separating pivot between. -/
theorem C37_inner_merge {C : Type} (a b : Inner K B C) (k : K) :
    (mergeInners a b k).kids = a.kids ++ b.kids ∧ (mergeInners a b k).pivots = a.pivots ++ k :: b.pivots := ⟨rfl, rfl⟩

/-- A leaf in memory with the given pivots and rows. -/
def leafOf (pivots : List K) (rows : List (Rows K R)) : Leaf K R :=
  { msn := 1, dirty := true, pivots := pivots, parts := rows.map fun r => ⟨[], some ⟨r, 1, false⟩⟩ }

theorem leafOf_wf {lo hi : Option K} {pivots : List K} {rows : List (Rows K R)}
    (h : Chain (fun lo hi r => Sorted r ∧ ∀ x ∈ r, InB lo hi x.1) lo hi pivots rows) : LeafWf lo hi (leafOf pivots rows) := by
  have hl := h.length
  refine ⟨?_, ?_, ?_⟩
  · intro p hp
    obtain ⟨r, _, rfl⟩ := List.mem_map.1 hp
    exact ⟨_, rfl⟩
  · simp [leafOf]; omega
  · show Chain _ lo hi (pivots.take ((rows.map _).length - 1)) (rows.map _)
    rw [List.length_map, List.take_of_length_le (by omega)]
    exact chain_pmap h fun _ _ _ hP => hP

theorem ex_wf : LeafWf none none (leafOf [2] [[(1, 1), (2, 2)], [(3, 3), (4, 4), (5, 5)]] : Leaf Nat Nat) := by
  apply leafOf_wf
  simp [Chain, Above, Below, Sorted, InB]

example : ∃ a b k, splitLeaf numbers .rightHeavy (leafOf [2] [[(1, 1), (2, 2)], [(3, 3), (4, 4), (5, 5)]]) = .ok (a, b, k) ∧
    leafRows a ++ leafRows b = [(1, 1), (2, 2), (3, 3), (4, 4), (5, 5)] := by
  obtain ⟨a, b, k, h1, h2, _⟩ := C37_leaf_split numbers .rightHeavy ex_wf (by decide) (fun h => by cases h)
  exact ⟨a, b, k, h1, h2⟩
example : (leafRows (writeLeaf numbers 25 (leafOf [2] [[(1, 1), (2, 2)], [(3, 3), (4, 4), (5, 5)]]))).length = 5 ∧
    (writeLeaf numbers 25 (leafOf [2] [[(1, 1), (2, 2)], [(3, 3), (4, 4), (5, 5)]])).pivots = [2, 4] := by
  decide +kernel

end Verif.Tree
