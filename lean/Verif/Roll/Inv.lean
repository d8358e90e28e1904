import Verif.Roll.Spec
/-!
The invariant of rollback logs: which nodes belong to which transaction, and which actions they hold.
-/
set_option linter.unusedVariables false
namespace Verif.Roll
open Spec

variable {α : Type}

/-- Entries to go through, or a chain of nodes. -/
inductive Job (α : Type) where
  | items (l : List (Entry α))
  | chain (xid : Xid) (num : Nat) (head tail : Blk)

/-- The actions reached from entries or from a chain, newest first, the nodes they use and the number of entries. -/
inductive Holds (nodes : Blk → Option (Node α)) : Job α → List α → List Blk → Nat → Prop
  | nil : Holds nodes (.items []) [] [] 0
  | act {a : α} {n : Nat} {l : List (Entry α)} {as : List α} {bs : List Blk} {c : Nat} : Holds nodes (.items l) as bs c → Holds nodes (.items (.act a n :: l)) (a :: as) bs (c + 1)
  | incl {xid : Xid} {num : Nat} {head tail : Blk} {l : List (Entry α)} {as1 as2 : List α} {bs1 bs2 : List Blk} {c1 c2 : Nat} :
      tail ≠ 0 → Holds nodes (.chain xid num head tail) as1 bs1 c1 → Holds nodes (.items l) as2 bs2 c2 →
      Holds nodes (.items (.incl xid num head tail :: l)) (as1 ++ as2) (bs1 ++ bs2) (c1 + c2 + 1)
  | empty {xid : Xid} : Holds nodes (.chain xid 0 0 0) [] [] 0
  | first {xid : Xid} {b : Blk} {nd : Node α} {as : List α} {bs : List Blk} {c : Nat} :
      nodes b = some nd → b ≠ 0 → nd.owner = xid → nd.seq = 0 → nd.prev = 0 → Holds nodes (.items nd.newest) as bs c →
      Holds nodes (.chain xid 1 b b) as (b :: bs) c
  | more {xid : Xid} {k : Nat} {head b : Blk} {nd : Node α} {as1 as2 : List α} {bs1 bs2 : List Blk} {c1 c2 : Nat} :
      nodes b = some nd → b ≠ 0 → nd.owner = xid → nd.seq = k + 1 → Holds nodes (.items nd.newest) as1 bs1 c1 →
      Holds nodes (.chain xid (k + 1) head nd.prev) as2 bs2 c2 → Holds nodes (.chain xid (k + 2) head b) (as1 ++ as2) (b :: (bs1 ++ bs2)) (c1 + c2)

/-- What is known of a transaction. -/
structure Ghost (α : Type) where
  acts : List α
  blks : List Blk
  cnt : Nat

/-- The nodes of a transaction. -/
inductive Own (nodes : Blk → Option (Node α)) (i : Info) : Ghost α → Prop
  | spilled {as : List α} {bs : List Blk} {c : Nat} : i.cur = 0 → Holds nodes (.chain i.xid i.num i.head i.tail) as bs c → Own nodes i ⟨as, bs, c⟩
  | current {nd : Node α} {num : Nat} {as1 as2 : List α} {bs1 bs2 : List Blk} {c1 c2 : Nat} : i.cur ≠ 0 → nodes i.cur = some nd → nd.owner = i.xid → nd.seq = num → i.num = num + 1 → nd.prev = i.tail →
      Holds nodes (.items nd.newest) as1 bs1 c1 → Holds nodes (.chain i.xid num i.head i.tail) as2 bs2 c2 →
      Own nodes i ⟨as1 ++ as2, i.cur :: (bs1 ++ bs2), c1 + c2⟩

/-- The block numbers in the ring, oldest first. -/
def Ring.slot (r : Ring) (i : Nat) : Nat := if r.first + i ≥ r.max then r.first + i - r.max else r.first + i
def Ring.list (r : Ring) : List Blk := (List.range r.num).map fun i => r.slots (r.slot i)

structure Ring.Ok (r : Ring) : Prop where
  num : r.num ≤ r.max
  first : r.first < r.max ∨ r.first = 0

def sizes (l : List (Entry α)) : Nat := (l.map Entry.size).sum

/-- The invariant.  The nodes `fl` belong to nobody for the moment. -/
structure Inv (nodes : Blk → Option (Node α)) (ring : Ring) (gi : Tid → Option Info) (gh : Tid → Ghost α) (fl : List Blk) : Prop where
  own : ∀ t i, gi t = some i → Own nodes i (gh t)
  gone : ∀ t, gi t = none → (gh t).blks = []
  nodup : ∀ t, (gh t).blks.Nodup
  disj : ∀ t u b, t ≠ u → b ∈ (gh t).blks → b ∉ (gh u).blks
  flNodup : fl.Nodup
  flDisj : ∀ t b, b ∈ fl → b ∉ (gh t).blks
  ringOk : ring.Ok
  ringNodup : ring.list.Nodup
  ringNodes : ∀ b ∈ ring.list, b ≠ 0 ∧ nodes b = some .unused
  ringFl : ∀ b ∈ ring.list, b ∉ fl
  ringDisj : ∀ t, ∀ b ∈ ring.list, b ∉ (gh t).blks
  cover : ∀ b, nodes b ≠ none → b ∈ ring.list ∨ b ∈ fl ∨ ∃ t, b ∈ (gh t).blks
  bytes : ∀ b nd, nodes b = some nd → nd.bytes = sizes nd.newest

/-- The invariant between calls. -/
structure Top (s : St α) (a : Abs α) (gh : Tid → Ghost α) : Prop where
  inv : Inv s.nodes s.ring s.txns gh []
  acts : ∀ t l, a t = some l → ∃ i, s.txns t = some i ∧ i.parent = l.parent ∧ l.acts = (gh t).acts.reverse ∧ i.total = (gh t).cnt ∧ i.done = 0
  dead : ∀ t, a t = none → s.txns t = none
  parents : ∀ t l p, a t = some l → l.parent = some p → p ≠ t ∧ a p ≠ none

/-! ### Lemmas about `Holds` -/

theorem Holds.frame {nodes nodes' : Blk → Option (Node α)} {j : Job α} {as : List α} {bs : List Blk} {c : Nat} (h : Holds nodes j as bs c) (he : ∀ b ∈ bs, nodes' b = nodes b) :
    Holds nodes' j as bs c := by
  induction h with
  | nil => exact .nil
  | act _ ih => exact .act (ih he)
  | incl ht _ _ ih1 ih2 => exact .incl ht (ih1 fun b hb => he b (List.mem_append_left _ hb)) (ih2 fun b hb => he b (List.mem_append_right _ hb))
  | empty => exact .empty
  | first hn hb ho hs hp _ ih => exact .first ((he _ List.mem_cons_self).trans hn) hb ho hs hp (ih fun b hb => he b (List.mem_cons_of_mem _ hb))
  | more hn hb ho hs _ _ ih1 ih2 =>
    exact .more ((he _ List.mem_cons_self).trans hn) hb ho hs (ih1 fun b hb => he b (List.mem_cons_of_mem _ (List.mem_append_left _ hb)))
      (ih2 fun b hb => he b (List.mem_cons_of_mem _ (List.mem_append_right _ hb)))

/-- The nodes used are there. -/
theorem Holds.there {nodes : Blk → Option (Node α)} {j : Job α} {as : List α} {bs : List Blk} {c : Nat} (h : Holds nodes j as bs c) : ∀ b ∈ bs, b ≠ 0 ∧ nodes b ≠ none := by
  induction h with
  | nil => intro b hb; cases hb
  | act _ ih => exact ih
  | incl ht _ _ ih1 ih2 => intro b hb; exact (List.mem_append.mp hb).elim (ih1 b) (ih2 b)
  | empty => intro b hb; cases hb
  | first hn h0 ho hs hp _ ih =>
    intro b hb
    rcases List.mem_cons.mp hb with rfl | hb
    · exact ⟨h0, by rw [hn]; simp⟩
    · exact ih b hb
  | more hn h0 ho hs _ _ ih1 ih2 =>
    intro b hb
    rcases List.mem_cons.mp hb with rfl | hb
    · exact ⟨h0, by rw [hn]; simp⟩
    · exact (List.mem_append.mp hb).elim (ih1 b) (ih2 b)

theorem Holds.append {nodes : Blk → Option (Node α)} {l m : List (Entry α)} {as1 as2 : List α} {bs1 bs2 : List Blk} {c1 c2 : Nat}
    (h1 : Holds nodes (.items l) as1 bs1 c1) (h2 : Holds nodes (.items m) as2 bs2 c2) : Holds nodes (.items (l ++ m)) (as1 ++ as2) (bs1 ++ bs2) (c1 + c2) := by
  induction l generalizing as1 bs1 c1 with
  | nil => cases h1; simpa using h2
  | cons e l ih =>
    cases h1 with
    | act h =>
      rw [show ∀ c : Nat, c + 1 + c2 = c + c2 + 1 by intro c; omega]
      exact Holds.act (ih h)
    | incl ht hc h =>
      have := Holds.incl ht hc (ih h)
      rw [List.append_assoc, List.append_assoc]
      rw [show ∀ a b : Nat, a + b + 1 + c2 = a + (b + c2) + 1 by intro a b; omega]
      exact this

/-- A chain without a last node is empty. -/
theorem Holds.chain_nil {nodes : Blk → Option (Node α)} {xid : Xid} {num : Nat} {head : Blk} {as : List α} {bs : List Blk} {c : Nat} (h : Holds nodes (.chain xid num head 0) as bs c) :
    num = 0 ∧ head = 0 ∧ as = [] ∧ bs = [] ∧ c = 0 := by
  cases h with
  | empty => exact ⟨rfl, rfl, rfl, rfl, rfl⟩
  | first _ h0 => exact absurd rfl h0
  | more _ h0 => exact absurd rfl h0

/-- The first node of a chain is one of its nodes. -/
theorem Holds.head_mem {nodes : Blk → Option (Node α)} {j : Job α} {as : List α} {bs : List Blk} {c : Nat} (h : Holds nodes j as bs c) :
    ∀ {xid num head tail}, j = .chain xid (num + 1) head tail → head ∈ bs := by
  induction h with
  | nil => intro _ _ _ _ h; cases h
  | act => intro _ _ _ _ h; cases h
  | incl => intro _ _ _ _ h; cases h
  | empty => intro _ _ _ _ h; cases h
  | first => intro _ _ _ _ h; cases h; exact List.mem_cons_self
  | more _ _ _ _ _ _ _ ih => intro _ _ _ _ h; cases h; exact List.mem_cons_of_mem _ (List.mem_append_right _ (ih rfl))

/-- A chain with a last node has a number. -/
theorem Holds.chain_pos {nodes : Blk → Option (Node α)} {xid : Xid} {num : Nat} {head tail : Blk} {as : List α} {bs : List Blk} {c : Nat} (h : Holds nodes (.chain xid num head tail) as bs c)
    (ht : tail ≠ 0) : ∃ k, num = k + 1 := by
  cases h with
  | empty => exact absurd rfl ht
  | first => exact ⟨0, rfl⟩
  | more => exact ⟨_, rfl⟩

theorem Own.there {nodes : Blk → Option (Node α)} {i : Info} {g : Ghost α} (h : Own nodes i g) : ∀ b ∈ g.blks, b ≠ 0 ∧ nodes b ≠ none := by
  cases h with
  | spilled _ h => exact h.there
  | current h0 hn _ _ _ _ h1 h2 =>
    intro b hb
    rcases List.mem_cons.mp hb with rfl | hb
    · exact ⟨h0, by rw [hn]; simp⟩
    · exact (List.mem_append.mp hb).elim (h1.there b) (h2.there b)

theorem Own.frame {nodes nodes' : Blk → Option (Node α)} {i : Info} {g : Ghost α} (h : Own nodes i g) (he : ∀ b ∈ g.blks, nodes' b = nodes b) : Own nodes' i g := by
  cases h with
  | spilled h0 h => exact .spilled h0 (h.frame he)
  | current h0 hn ho hs hm hp h1 h2 =>
    exact .current h0 ((he _ List.mem_cons_self).trans hn) ho hs hm hp (h1.frame fun b hb => he b (List.mem_cons_of_mem _ (List.mem_append_left _ hb)))
      (h2.frame fun b hb => he b (List.mem_cons_of_mem _ (List.mem_append_right _ hb)))

/-! ### The ring -/

/-- What never changes. -/
def St.cfg (s : St α) : Nat × Nat := (s.limit, s.ring.max)

theorem Ring.give_max (r : Ring) (b : Blk) : (r.give b).2.max = r.max := by unfold Ring.give; split <;> rfl
theorem Ring.get_max (r : Ring) : r.get.2.max = r.max := by unfold Ring.get; split <;> rfl


theorem Ring.slot_inj {r : Ring} (h : r.Ok) {i j : Nat} (hi : i < r.max) (hj : j < r.max) (e : r.slot i = r.slot j) : i = j := by
  have := h.first
  simp only [Ring.slot] at e
  split at e <;> split at e <;> omega

theorem Ring.give_ok {r : Ring} (h : r.Ok) (b : Blk) :
    ((r.give b).1 = true ∧ (r.give b).2.Ok ∧ (r.give b).2.list = r.list ++ [b]) ∨ ((r.give b).1 = false ∧ (r.give b).2 = r) := by
  unfold Ring.give
  split
  · rename_i hlt
    left
    refine ⟨rfl, ⟨by show r.num + 1 ≤ r.max; omega, h.first⟩, ?_⟩
    show (List.range (r.num + 1)).map (fun i => if r.slot i = r.slot r.num then b else r.slots (r.slot i)) = _
    rw [List.range_succ, List.map_append]
    congr 1
    · apply List.map_congr_left
      intro i hi
      have hi := List.mem_range.mp hi
      rw [if_neg]
      intro e
      have := Ring.slot_inj h (by omega) hlt e
      omega
    · simp
  · right; exact ⟨rfl, rfl⟩

theorem Ring.get_ok {r : Ring} (h : r.Ok) : r.get.2.Ok ∧ ((r.get.1 = none ∧ r.list = [] ∧ r.get.2 = r) ∨ ∃ b, r.get.1 = some b ∧ r.list = b :: r.get.2.list) := by
  unfold Ring.get
  split
  · rename_i hpos
    have hn := h.num
    have hf := h.first
    refine ⟨⟨by show r.num - 1 ≤ r.max; omega, ?_⟩, .inr ⟨_, rfl, ?_⟩⟩
    · show (if r.first + 1 ≥ r.max then 0 else r.first + 1) < r.max ∨ (if r.first + 1 ≥ r.max then 0 else r.first + 1) = 0
      split <;> omega
    · obtain ⟨k, hk⟩ : ∃ k, r.num = k + 1 := ⟨r.num - 1, by omega⟩
      simp only [Ring.list, hk, Nat.add_sub_cancel]
      rw [List.range_succ_eq_map, List.map_cons, List.map_map]
      congr 1
      · simp only [Ring.slot]; rw [if_neg (by omega)]; rfl
      · apply List.map_congr_left
        intro i hi
        have hi := List.mem_range.mp hi
        simp only [Function.comp, Ring.slot]
        congr 1
        split <;> split <;> split <;> omega
  · rename_i hpos
    refine ⟨h, .inl ⟨rfl, ?_, rfl⟩⟩
    have : r.num = 0 := by omega
    simp [Ring.list, this]

end Verif.Roll
