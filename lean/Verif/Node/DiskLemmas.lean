import Verif.Node.Disk
import Verif.Node.CompressLemmas
import Verif.Node.BnDisk
import Verif.Node.BnSpec
import Verif.Node.PivotLemmas
/-!
One partition, and the common part of a node, on disk and back.
-/
set_option linter.unusedVariables false
set_option linter.unusedSimpArgs false
namespace Verif.Node
open Verif.Ser BufSpec

theorem memory_lt (bs : List Nat) : memory bs < 2 ^ 32 := by
  show fold32 _ < _
  unfold fold32; omega

theorem sealW_ok {w : W} (h : w.out.length + 4 = w.size) : sealW w = .ok (W.push w (digits 4 (memory w.out))) := by
  rw [sealW, W.int0, W.put_ok (by simp [store32]; omega), R.bind_ok]
  rw [if_pos (by simp [store32]; omega)]
  rfl

/-- Bytes with their checksum behind them. -/
def sealed (d : List Nat) : List Nat := d ++ digits 4 (memory d)

theorem sealed_length (d : List Nat) : (sealed d).length = d.length + 4 := by simp [sealed, digits_length]

theorem sealed_bytes {d : List Nat} (h : Bytes d) : Bytes (sealed d) := Bytes.append.mpr ⟨h, digits_bytes _ _⟩

theorem sealW_init {w : W} {size : Nat} {d : List Nat} (hs : size = d.length + 4) : sealW (W.push (W.init size) d) = .ok (W.push (W.init size) (sealed d)) := by
  rw [sealW_ok (by simp [W.init, W.push]; omega), push_push]
  rfl

theorem verifySub_ok (d : List Nat) : verifySub (sealed d) = .ok true := by
  have hl := sealed_length d
  have e : (sealed d).length - 4 = d.length := by omega
  rw [verifySub, if_pos (by omega), e, sealed, List.drop_left, List.take_left, List.take_of_length_le (by rw [digits_length]; omega), le_digits,
    Nat.mod_eq_of_lt (memory_lt d)]
  simp

theorem sealed_take (d : List Nat) : (sealed d).take ((sealed d).length - 4) = d := by
  rw [sealed_length, Nat.add_sub_cancel, sealed, List.take_left]

/-! ### A partition -/

/-- What a partition holds: rows, or messages with the places of the fresh, the stale and the others. -/
inductive Content where
  | rows (l : List (List Nat × List Nat))
  | msgs (s : List (Msg × Bool)) (fresh stale bcast : List Nat)

/-- The size of a partition on disk before compression. -/
def Content.size : Content → Nat
  | .rows l => 23 + BnSpec.size l
  | .msgs s fresh stale bcast => 21 + (memOf s).length + 4 * fresh.length + 4 * stale.length + 4 * bcast.length

/-- Content that can be written. -/
inductive Content.Ok : Content → Prop
  | rows {l : List (List Nat × List Nat)} (h : BnSpec.Fits l) : Content.Ok (.rows l)
  | msgs {s : List (Msg × Bool)} {fresh stale bcast : List Nat} (hg : Good s) (h1 : Small fresh) (h2 : Small stale) (h3 : Small bcast)
      (hn : s.length < 2 ^ 31) (hs : (memOf s).length + 4 * fresh.length + 4 * stale.length + 4 * bcast.length < 2 ^ 31) : Content.Ok (.msgs s fresh stale bcast)

/-- The partition of a node of this height holds this. -/
inductive Part.Has : Nat → Part → Content → Prop
  | leaf {b : Bn} {msn : Nat} {l : List (List Nat × List Nat)} (h : b.Holds l) : Part.Has 0 (.leaf b msn) (.rows l)
  | inner {height : Nat} {c : Bnc} {s : List (Msg × Bool)} {fresh stale bcast : List Nat} (hh : 0 < height) (hm : c.b.mem = memOf s) (hn : c.b.n = s.length)
      (h1 : c.fresh = fresh) (h2 : c.stale = stale) (h3 : c.bcast = bcast) : Part.Has height (.inner c) (.msgs s fresh stale bcast)

/-- The message number of a basement node is this one. -/
def Part.Stamped (msn : Nat) : Part → Prop
  | .leaf _ m => m = msn
  | .inner _ => True

theorem size_split (rows : Rows) : BnSpec.size rows = keyRoom rows + (recs rows).length := by
  induction rows with
  | nil => rfl
  | cons r rows ih =>
    rw [keyRoom_cons, recs_cons, List.length_append]
    simp only [BnSpec.size, List.map_cons, List.sum_cons] at *
    omega

theorem bncBytes_bytes {s : List (Msg × Bool)} {fresh stale bcast : List Nat} (hg : Good s) (hn : s.length < 2 ^ 31) (h1 : Small fresh) (h2 : Small stale) (h3 : Small bcast) :
    Bytes (bncBytes s fresh stale bcast) := by
  have lay : ∀ fs : List Field, (∀ f ∈ fs, BufSpec.Valid f) → Bytes (BufSpec.layout fs) := by
    intro fs hf x hx
    obtain ⟨f, hm, hx⟩ := List.mem_flatMap.mp hx
    exact Valid.bytes (hf f hm) x hx
  unfold bncBytes
  refine Bytes.append.mpr ⟨by intro x hx; simp at hx; omega, Bytes.append.mpr ⟨Valid.bytes (f := .int s.length) (show s.length < 2 ^ 32 by omega), Bytes.append.mpr ⟨?_,
    Bytes.append.mpr ⟨lay _ (offsets_valid h1.off h1.len), Bytes.append.mpr ⟨lay _ (offsets_valid h2.off h2.len), lay _ (offsets_valid h3.off h3.len)⟩⟩⟩⟩⟩
  intro x hx
  obtain ⟨y, hy, hx⟩ := List.mem_flatMap.mp hx
  obtain ⟨v, a, b⟩ := hg y hy
  exact lay _ (Msg.fields_valid v a b) x hx

/-- A partition is written to exactly the space computed for it, and the bytes give it back. -/
theorem Part.Has.round {height : Nat} {p : Part} {ct : Content} (h : p.Has height ct) (ho : ct.Ok) :
    p.size height = .ok ct.size ∧ ∃ p' data, p.write height ct.size = .ok (p', data) ∧ p'.Has height ct ∧ data.length = ct.size ∧ Bytes data ∧
      ∀ f : Fields, f.height = height → ∃ q, readPart f data = .ok (some q) ∧ q.Has height ct ∧ q.Stamped f.msn := by
  cases h with
  | @leaf b msn l h =>
    obtain ⟨hf⟩ := ho
    obtain ⟨b', bs, hw, h', hl, hby, hr⟩ := h.round (by have := hf.1; rw [size_split] at this; omega) (by have := hf.1; rw [size_split] at this; omega) hf.2
    have hd := h.diskSize
    have hz := hf.1
    rw [size_split] at hz
    have hsz : (Content.rows l).size = 23 + (keyRoom l + (recs l).length) := by rw [Content.size, size_split]
    have hnum : b.num < 2 ^ 32 := by
      have : l.length ≤ keyRoom l := by
        clear * -
        induction l with
        | nil => simp
        | cons r l ih => rw [keyRoom_cons, List.length_cons]; omega
      rw [h.num]; omega
    have hd5 : ([0xaa] ++ (digits 4 b.num ++ bs)).length = 5 + bs.length := by simp [digits_length]; omega
    refine ⟨?_, .leaf b' msn, sealed ([0xaa] ++ (digits 4 b.num ++ bs)), ?_, .leaf h', ?_, ?_, ?_⟩
    · rw [Part.size, if_neg (by omega), hsz]
      congr 1
      unfold m32; omega
    · rw [Part.write, if_pos (by rw [hsz]; omega)]
      simp only
      rw [if_neg (by omega)]
      have c1 := Puts.char 0xaa (W.init (Content.rows l).size) (by simp [W.init]; omega)
      simp only at c1
      rw [c1, R.bind_ok]
      have c2 := Puts.int b.num (W.push (W.init (Content.rows l).size) [0xaa]) (by simp [W.init, digits_length]; omega)
      simp only at c2
      rw [c2, R.bind_ok, hw _ (by simp [W.init, digits_length]; omega), R.bind_ok]
      simp only
      rw [push_push, push_push, sealW_init (w := W.init 0) (by rw [hd5]; omega), R.bind_ok]
      simp [W.push, W.init, R.pure_ok]
    · rw [sealed_length, hd5]; omega
    · refine sealed_bytes (Bytes.append.mpr ⟨by intro x hx; simp at hx; omega, Bytes.append.mpr ⟨digits_bytes _ _, hby⟩⟩)
    · intro f hfh
      have a0 : At ⟨[0xaa] ++ (digits 4 b.num ++ bs), 0⟩ ([0xaa] ++ (digits 4 b.num ++ bs)) := At.start _
      have a1 := a0.char_adv
      have a2 := a1.int_adv
      obtain ⟨b2, e2, h2⟩ := hr _ [] (by rw [List.append_nil]; exact a2)
      refine ⟨.leaf b2 f.msn, ?_, .leaf h2, rfl⟩
      rw [readPart, verifySub_ok, R.bind_ok]
      simp only [if_true]
      rw [sealed_take, a0.char, R.bind_ok]
      simp only
      rw [if_neg (by omega), if_true, a1.int hnum, R.bind_ok]
      simp only [sealed_length, hd5, adv_ndone]
      rw [h.num] at *
      rw [show 5 + bs.length + 4 - 4 - (0 + 1 + 4) = bs.length by omega, e2, R.bind_ok]
      simp only [adv_ndone]
      exact (if_pos (by omega)).trans rfl
  | @inner _ c s fresh stale bcast hh hm hn h1 h2 h3 =>
    obtain _ | ⟨hg, g1, g2, g3, gn, gs⟩ := ho
    subst h1 h2 h3
    have hl := bncBytes_length s c.fresh c.stale c.bcast
    have hsz : (Content.msgs s c.fresh c.stale c.bcast).size = (bncBytes s c.fresh c.stale c.bcast).length + 4 := by rw [Content.size, hl]; omega
    refine ⟨?_, .inner c, sealed (bncBytes s c.fresh c.stale c.bcast), ?_, .inner hh hm hn rfl rfl rfl, ?_, ?_, ?_⟩
    · rw [Part.size, if_pos hh, hsz, hl, Bnc.partitionSize, hm]
      congr 1
      unfold m32; omega
    · rw [Part.write, if_pos (by rw [hsz]; omega)]
      try simp only
      rw [if_pos hh, Bnc.serialize_ok hm hn gn hg g1 g2 g3 (by simp [W.init]; omega), R.bind_ok]
      have := sealW_init (w := W.init 0) (size := (Content.msgs s c.fresh c.stale c.bcast).size) (d := bncBytes s c.fresh c.stale c.bcast) hsz
      simp only [W.push, W.init, List.nil_append] at this ⊢
      rw [this, R.bind_ok]
      rfl
    · rw [sealed_length, hsz]
    · exact sealed_bytes (bncBytes_bytes hg gn g1 g2 g3)
    · intro f hfh
      obtain ⟨size, ed⟩ := Bnc.deserialize_ok gn hg g1 g2 g3 [] []
      simp only [List.nil_append, List.append_nil, List.length_nil] at ed
      refine ⟨.inner ⟨⟨memOf s, s.length, size⟩, c.fresh, [], c.stale, c.bcast⟩, ?_, .inner hh rfl rfl rfl rfl rfl, trivial⟩
      · rw [readPart, verifySub_ok, R.bind_ok]
        simp only [if_true]
        rw [sealed_take]
        have a0 : At ⟨bncBytes s c.fresh c.stale c.bcast, 0⟩ ([0xbb] ++ (bncBytes s c.fresh c.stale c.bcast).tail) := by
          have : bncBytes s c.fresh c.stale c.bcast = [0xbb] ++ (bncBytes s c.fresh c.stale c.bcast).tail := by simp [bncBytes]
          rw [← this]; exact At.start _
        rw [a0.char, R.bind_ok]
        simp only
        rw [if_pos (by omega), if_true]
        simp only [Rd.adv]
        rw [ed, R.bind_ok]
        simp only [sealed_length, Nat.zero_add, Nat.add_sub_cancel, if_true]
        rfl

end Verif.Node
