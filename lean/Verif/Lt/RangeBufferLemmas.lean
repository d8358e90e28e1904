import Verif.Lt.RangeBuffer

/-! Reading back what was appended to a range buffer. -/
namespace Verif.Lt
open Verif.Codec

/-- An appended range: endpoints and whether the two keys were the same memory. -/
structure Entry where
  left : Pt
  right : Pt
  samePtr : Bool
deriving Repr, DecidableEq

/-- Ranges whose record reads back: key sizes fit 16 bits, and an empty right key comes only with an empty left
key. -/
def Entry.Storable (e : Entry) : Prop :=
  e.left.size < 65536 ∧ e.right.size < 65536 ∧ (e.right = .key [] → e.left = .key [])

def Entry.bytes (e : Entry) : Bytes := record e.left e.right e.samePtr
def Entry.pair (e : Entry) : Pt × Pt := (e.left, e.right)

theorem flag_ne {b : Bool} : flag b ≠ 0 ↔ b = true := by cases b <;> simp [flag]

theorem le2 (v : Nat) : le 2 v = [UInt8.ofNat (v % 256), UInt8.ofNat (v / 256 % 256)] := rfl

theorem ofLe2 (v : Nat) (h : v < 65536) : ofLe [UInt8.ofNat (v % 256), UInt8.ofNat (v / 256 % 256)] = v :=
  ofLe_le 2 v h

theorem deserialize_record (e : Entry) (h : e.Storable) (prev : Dbts) (rest : Bytes) :
    ∃ prev', deserialize prev (e.bytes ++ rest) = some (e.pair, prev', e.bytes.length) := by
  obtain ⟨l, r, s⟩ := e
  obtain ⟨h1, h2, h3⟩ := h
  simp only at h1 h2 h3
  simp only [Entry.bytes, record, Entry.pair]
  by_cases he : dbtEquals l r s = true
  · -- a point
    have hlr : l = r := by
      cases l <;> cases r <;> simp_all [dbtEquals]
    subst hlr
    simp only [he, ↓reduceIte, pointHeader, le2, Nat.mod_eq_of_lt h1, List.cons_append, List.nil_append, deserialize,
      ofLe2 _ h1]
    have h0 : ofLe [UInt8.ofNat (0 % 256), UInt8.ofNat (0 / 256 % 256)] = 0 := by decide
    simp only [h0]
    cases l with
    | negInf => simp [flag, endpoint, Pt.size, Pt.bytes]
    | posInf => simp [flag, endpoint, Pt.size, Pt.bytes]
    | key k => simp [flag, endpoint, Pt.size, Pt.bytes]; omega
  · simp only [he, Bool.false_eq_true, ↓reduceIte, rangeHeader, le2, Nat.mod_eq_of_lt h1, Nat.mod_eq_of_lt h2,
      List.cons_append, List.nil_append, deserialize, ofLe2 _ h1, ofLe2 _ h2]
    cases l with
    | negInf =>
      cases r with
      | negInf => simp [dbtEquals] at he
      | posInf => simp [flag, endpoint, Pt.size, Pt.bytes]
      | key k =>
        have hk : k ≠ [] := by rintro rfl; simp at h3
        have hk' : k.length ≠ 0 := by simpa using hk
        simp [flag, endpoint, Pt.size, Pt.bytes, hk]
        omega
    | posInf =>
      cases r with
      | posInf => simp [dbtEquals] at he
      | negInf => simp [flag, endpoint, Pt.size, Pt.bytes]
      | key k =>
        have hk : k ≠ [] := by rintro rfl; simp at h3
        simp [flag, endpoint, Pt.size, Pt.bytes, hk]
        omega
    | key a =>
      cases r with
      | negInf => simp [flag, endpoint, Pt.size, Pt.bytes]; omega
      | posInf => simp [flag, endpoint, Pt.size, Pt.bytes]; omega
      | key k =>
        by_cases hk : k = []
        · subst hk
          have ha : a = [] := by simpa using h3 rfl
          subst ha
          simp [flag, endpoint, Pt.size, Pt.bytes]
        · simp [flag, endpoint, Pt.size, Pt.bytes, hk]
          omega

theorem record_length (e : Entry) : 8 ≤ e.bytes.length := by
  unfold Entry.bytes record pointHeader rangeHeader
  split <;> simp <;> omega

theorem readChunk_records (es : List Entry) (h : ∀ e ∈ es, e.Storable) (prev : Dbts) :
    ∃ prev', readChunk prev (es.map Entry.bytes).flatten = some (es.map Entry.pair, prev') := by
  induction es generalizing prev with
  | nil => exact ⟨prev, by simp [readChunk]⟩
  | cons e es ih =>
    obtain ⟨p1, hp1⟩ := deserialize_record e (h e (by simp)) prev (es.map Entry.bytes).flatten
    obtain ⟨p2, hp2⟩ := ih (fun x hx => h x (by simp [hx])) p1
    refine ⟨p2, ?_⟩
    have hlen := record_length e
    simp only [List.map_cons, List.flatten_cons]
    generalize hb : e.bytes = bs at *
    cases bs with
    | nil => simp at hlen
    | cons b bs =>
      rw [List.cons_append] at hp1
      rw [List.cons_append, readChunk, hp1]
      simp only
      rw [if_neg (by omega), ← List.cons_append, List.drop_left, hp2]
      rfl

/-- What a buffer holds: the records of the current chunk and of the other chunks. -/
structure Holds (b : RangeBuffer) (cur : List Entry) (others : List (List Entry)) : Prop where
  curChunk : match b.arena.cur with
    | none => cur = [] ∧ others = []
    | some c => cur ≠ [] ∧ c.data = (cur.map Entry.bytes).flatten
  otherChunks : b.arena.others.map Chunk.data = others.map fun o => (o.map Entry.bytes).flatten
  nonempty : ∀ o ∈ others, o ≠ []
  count : b.numRanges = (others.flatten ++ cur).length

theorem holds_create : Holds .create [] [] := ⟨by simp [RangeBuffer.create], rfl, by simp, rfl⟩

theorem holds_append {b b' : RangeBuffer} {cur : List Entry} {others : List (List Entry)} (h : Holds b cur others)
    (e : Entry) (hb : b.append e.left e.right e.samePtr = some b') :
    ∃ cur' others', Holds b' cur' others' ∧ others'.flatten ++ cur' = others.flatten ++ cur ++ [e] := by
  unfold RangeBuffer.append at hb
  split at hb
  case isFalse => simp at hb
  case isTrue =>
    simp only [Option.some.injEq] at hb
    subst hb
    have hc := h.curChunk
    have hn := h.count
    unfold Arena.put
    cases hcur : b.arena.cur with
    | none =>
      rw [hcur] at hc
      obtain ⟨rfl, rfl⟩ := hc
      refine ⟨[e], [], ⟨?_, h.otherChunks, by simp, ?_⟩, by simp⟩
      · simp [Entry.bytes]
      · simp at hn; simp [hn]
    | some c =>
      rw [hcur] at hc
      simp only
      split
      · refine ⟨[e], others ++ [cur], ⟨?_, ?_, ?_, ?_⟩, by simp⟩
        · simp [Entry.bytes]
        · simp [h.otherChunks, hc.2]
        · intro o ho
          rcases List.mem_append.mp ho with ho | ho
          · exact h.nonempty o ho
          · rw [List.mem_singleton.mp ho]; exact hc.1
        · simp [hn]; omega
      · refine ⟨cur ++ [e], others, ⟨?_, h.otherChunks, h.nonempty, ?_⟩, by simp⟩
        · simp [hc.2, Entry.bytes]
        · simp [hn]; omega

theorem readChunks_holds (cs : List Chunk) (os : List (List Entry))
    (h : cs.map Chunk.data = os.map fun o => (o.map Entry.bytes).flatten) (hne : ∀ o ∈ os, o ≠ [])
    (hs : ∀ o ∈ os, ∀ e ∈ o, e.Storable) (prev : Dbts) :
    readChunks prev cs = some ((os.flatten).map Entry.pair) := by
  induction cs generalizing os prev with
  | nil =>
    cases os with
    | nil => rfl
    | cons o os => simp at h
  | cons c cs ih =>
    cases os with
    | nil => simp at h
    | cons o os =>
      simp only [List.map_cons, List.cons.injEq] at h
      obtain ⟨p, hp⟩ := readChunk_records o (hs o (by simp)) prev
      rw [readChunks]
      have : c.data ≠ [] := by
        rw [h.1]
        cases o with
        | nil => exact absurd rfl (hne [] (by simp))
        | cons e o =>
          have := record_length e
          intro h0
          rw [List.map_cons, List.flatten_cons, List.append_eq_nil_iff] at h0
          rw [h0.1] at this; simp at this
      rw [if_neg this, h.1, hp]
      simp only
      rw [ih os h.2 (fun o ho => hne o (by simp [ho])) (fun o ho => hs o (by simp [ho]))]
      simp

/-- Iteration gives the current chunk's ranges first, then the older chunks'. -/
theorem ranges_holds {b : RangeBuffer} {cur : List Entry} {others : List (List Entry)} (h : Holds b cur others)
    (hs : ∀ e ∈ others.flatten ++ cur, e.Storable) :
    b.ranges = some ((cur ++ others.flatten).map Entry.pair) := by
  have hc := h.curChunk
  unfold RangeBuffer.ranges
  cases hcur : b.arena.cur with
  | none =>
    rw [hcur] at hc
    obtain ⟨rfl, rfl⟩ := hc; rfl
  | some c =>
    rw [hcur] at hc
    simp only
    rw [readChunks_holds (c :: b.arena.others) (cur :: others)]
    · simp
    · simp [hc.2, h.otherChunks]
    · intro o ho
      rcases List.mem_cons.mp ho with rfl | ho
      · exact hc.1
      · exact h.nonempty o ho
    · intro o ho e he
      rcases List.mem_cons.mp ho with rfl | ho
      · exact hs e (by simp [he])
      · exact hs e (List.mem_append_left _ (List.mem_flatten.mpr ⟨o, ho, he⟩))

/-- Append a list of ranges. -/
def appendAll : RangeBuffer → List Entry → Option RangeBuffer
  | b, [] => some b
  | b, e :: es => (b.append e.left e.right e.samePtr).bind fun b' => appendAll b' es

theorem append_isSome (b : RangeBuffer) (e : Entry) (h : e.Storable) :
    ∃ b', b.append e.left e.right e.samePtr = some b' := by
  unfold RangeBuffer.append
  rw [if_pos ⟨by have := h.1; omega, .inr (by have := h.2.1; omega)⟩]
  exact ⟨_, rfl⟩

theorem holds_appendAll {b : RangeBuffer} {cur : List Entry} {others : List (List Entry)} (h : Holds b cur others)
    (es : List Entry) (hs : ∀ e ∈ es, e.Storable) :
    ∃ b' cur' others', appendAll b es = some b' ∧ Holds b' cur' others' ∧
      others'.flatten ++ cur' = others.flatten ++ cur ++ es := by
  induction es generalizing b cur others with
  | nil => exact ⟨b, cur, others, rfl, h, by simp⟩
  | cons e es ih =>
    obtain ⟨b1, hb1⟩ := append_isSome b e (hs e (by simp))
    obtain ⟨c1, o1, h1, he1⟩ := holds_append h e hb1
    obtain ⟨b2, c2, o2, h2, h3, he2⟩ := ih h1 (fun x hx => hs x (by simp [hx]))
    exact ⟨b2, c2, o2, by rw [appendAll, hb1]; exact h2, h3, by rw [he2, he1]; simp⟩

/-- The memory counter grows with every append. -/
theorem memory_append {b b' : RangeBuffer} (hb : ∀ c, b.arena.cur = some c → c.data.length ≤ c.size) {l r : Pt} {s : Bool}
    (h : b.append l r s = some b') :
    b.memory + 8 ≤ b'.memory ∧ ∀ c, b'.arena.cur = some c → c.data.length ≤ c.size := by
  unfold RangeBuffer.append at h
  split at h
  case isFalse => simp at h
  case isTrue =>
    simp only [Option.some.injEq] at h
    subst h
    have hr := record_length ⟨l, r, s⟩
    unfold Entry.bytes at hr
    simp only at hr
    generalize record l r s = bs at hr
    have hround : ∀ n, n ≤ roundToPage n := by intro n; unfold roundToPage; omega
    unfold RangeBuffer.memory Arena.inUse Arena.put
    cases hcur : b.arena.cur with
    | none =>
      simp only
      refine ⟨by omega, ?_⟩
      intro c hc
      simp only [Option.some.injEq] at hc
      subst hc
      simp only
      refine Nat.le_trans ?_ (hround _)
      split <;> omega
    | some c =>
      simp only
      have := hb c hcur
      split
      · simp only [List.map_append, List.map_cons, List.map_nil, List.sum_append, List.sum_cons, List.sum_nil]
        refine ⟨by omega, ?_⟩
        intro c hc
        simp only [Option.some.injEq] at hc
        subst hc
        simp only
        refine Nat.le_trans ?_ (hround _)
        split <;> omega
      · simp only [List.length_append]
        refine ⟨by omega, ?_⟩
        intro c hc
        simp only [Option.some.injEq] at hc
        subst hc
        simp only [List.length_append]
        omega

end Verif.Lt
