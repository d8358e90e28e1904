import Verif.Ser.BufLemmas
/-!
C33: what is written to a buffer is what is read back, and the checksum kept while writing is the checksum of the bytes.
C50: reading a damaged buffer.
-/
namespace Verif.Ser
open XSpec BufSpec

/-! ### The checksum does not depend on how it is computed -/

/-- The checksum of a string added in any pieces is the checksum of the string. -/
theorem C33_checksum_of_pieces (pieces : List (List Nat)) (hb : ∀ p ∈ pieces, ∀ b ∈ p, b < 256) :
    (pieces.foldl X.add X.init).finish = checksum pieces.flatten := by
  have key : ∀ (ps : List (List Nat)) (l : X) (bs : List Nat), St bs l.sum l.input l.n → l.n < 8 → Bytes bs → (∀ p ∈ ps, Bytes p) →
      (ps.foldl X.add l).finish = checksum (bs ++ ps.flatten) := by
    intro ps
    induction ps with
    | nil => intro l bs h hn _ _; simpa using finish_spec h hn
    | cons p ps ih =>
      intro l bs h hn hbs hps
      have := X.add_st h hn hbs (hps p (by simp))
      have := ih (l.add p) (bs ++ p) this.1 this.2 (Bytes.append.mpr ⟨hbs, hps p (by simp)⟩) (fun q hq => hps q (by simp [hq]))
      simpa using this
  have := key pieces X.init [] St.zero (by decide) (by simp [Bytes]) hb
  simpa using this

example : ([[1, 2, 3], [4], [5, 6], [], [7, 8, 9, 10, 11, 12, 13, 14, 15, 16, 17, 18]].foldl X.add X.init).finish = checksum [1, 2, 3, 4, 5, 6, 7, 8, 9, 10, 11, 12, 13, 14, 15, 16, 17, 18] :=
  C33_checksum_of_pieces _ (by decide)

/-- The checksum of a string in memory is the same, by the fast loop and by the simple one. -/
theorem C33_checksum_in_memory (bs : List Nat) (hb : ∀ b ∈ bs, b < 256) : memory bs = checksum bs ∧ memorySimple bs = checksum bs :=
  ⟨memory_spec hb, memorySimple_spec hb⟩

example : memory (List.replicate 45 7) = checksum (List.replicate 45 7) := (C33_checksum_in_memory _ (by decide)).1

/-! ### Round trip -/

/-- Any sequence of fields that fits is written as its layout, the checksum kept meanwhile is the one the reader computes over
those bytes, and reading the same kinds of fields gives the values back and ends at the end. -/
theorem C33_written_fields_are_read_back (fs : List Field) (size : Nat) (hv : ∀ f ∈ fs, Valid f) (hfit : (layout fs).length ≤ size) :
    ∃ w, (W.init size).fields fs = .ok w ∧ w.out = layout fs ∧ w.x.finish = memory (layout fs) ∧
      ∀ post, Rd.fields ⟨w.out ++ post, 0⟩ (fs.map Field.kind) = .ok (fs, ⟨w.out ++ post, w.out.length⟩) := by
  obtain ⟨w, e, h, o, s⟩ := W.fields_ok (W.OK.init size) hv (by simpa [W.init] using hfit)
  have ho : w.out = layout fs := by rw [o]; simp [W.init]
  refine ⟨w, e, ho, ?_, ?_⟩
  · rw [memory_spec (ho ▸ h.bytes), ← ho]
    exact finish_spec h.st h.n8
  · intro post
    have := Rd.fields_ok hv [] post
    rw [ho]
    simpa using this

/-- The writers without a checksum write the same bytes. -/
theorem C33_same_bytes_without_checksum (fs : List Field) (size : Nat) (hv : ∀ f ∈ fs, Valid f) (hfit : (layout fs).length ≤ size) :
    (W.init size).fields0 fs = .ok { W.init size with out := layout fs } := by
  have := W.fields0_ok (w := W.init size) hv (by simpa [W.init] using hfit)
  simpa [W.init] using this

/-- What does not fit stops the process; nothing is ever written past the end (for less than 4 GiB in all). -/
theorem C33_fits_or_stops (fs : List Field) (size : Nat) (hv : ∀ f ∈ fs, Valid f) (hlen : (layout fs).length < 2 ^ 32) :
    (size < (layout fs).length → (W.init size).fields fs = .abort) ∧ (W.init size).fields fs ≠ .outside := by
  have hab : size < (layout fs).length → (W.init size).fields fs = .abort := fun h =>
    W.fields_abort (W.OK.init size) hv (by simp [W.init]) (by simpa [W.init] using h) (by simpa [W.init] using hlen)
  refine ⟨hab, ?_⟩
  by_cases h : size < (layout fs).length
  · rw [hab h]; simp
  · obtain ⟨w, e, _⟩ := C33_written_fields_are_read_back fs size hv (by omega)
    rw [e]; simp

def sampleFields : List Field := [.literal [116, 111, 107, 117], .networkInt 29, .int 4000000000, .ull 0x1122334455667788, .bool true, .bytes [9, 8, 7, 6, 5], .char 255]

example : (∀ f ∈ sampleFields, Valid f) ∧ (layout sampleFields).length = 31 := by
  refine ⟨?_, by decide⟩
  simp [sampleFields, Valid]
example : layout sampleFields = [116, 111, 107, 117, 0, 0, 0, 29, 0, 40, 107, 238, 0x44, 0x33, 0x22, 0x11, 0x88, 0x77, 0x66, 0x55, 1, 5, 0, 0, 0, 9, 8, 7, 6, 5, 255] := by decide

/-! ### The checksum is weak -/

/-- Two strings that differ in one bit, and have the same checksum. -/
theorem C33_one_bit_can_go_unnoticed : ∃ a b : List Nat, a.length = 16 ∧ (∀ x ∈ a, x < 256) ∧ b = a.set 8 1 ∧ a[8]? = some 0 ∧ checksum a = checksum b := by
  refine ⟨[15, 15, 15, 15, 15, 15, 15, 143, 0, 0, 0, 0, 0, 0, 0, 0], ([15, 15, 15, 15, 15, 15, 15, 143, 0, 0, 0, 0, 0, 0, 0, 0] : List Nat).set 8 1, by decide, by decide, rfl, by decide, ?_⟩
  rw [← memorySimple_spec (by unfold Bytes; decide), ← memorySimple_spec (by unfold Bytes; decide)]
  decide +kernel

/-! ### C50: a damaged buffer -/

/-- Reading, whatever the bytes, stays inside the buffer or stops the process, unless the buffer holds (or the caller gives) a
length so close to 2^32 that adding the buffer's size to it wraps around.
Missing: that case, in which the test passes and the bytes after the buffer are read. -/
theorem C50_reading_stays_inside_partial (buf : List Nat) (ks : List Kind) (hs : buf.length + 4 < 2 ^ 32)
    (hlen : ∀ i, i + 4 ≤ buf.length → buf.length + le ((buf.drop i).take 4) < 2 ^ 32) (hlit : ∀ n, Kind.literal n ∈ ks → buf.length + n < 2 ^ 32) :
    Rd.fields ⟨buf, 0⟩ ks ≠ .outside := by
  intro h
  rcases Rd.fields_cases ks ⟨buf, 0⟩ (Nat.zero_le _) hs h with ⟨n, i, h1, h2, h3⟩ | ⟨n, h1, h2⟩
  · have := hlen i h1
    simp only at h2 h3
    omega
  · have := hlit n h1
    simp only at h2
    omega

example : (∀ i, i + 4 ≤ [200, 1, 0, 0, 7].length → [200, 1, 0, 0, 7].length + le (([200, 1, 0, 0, 7].drop i).take 4) < 2 ^ 32) ∧
    Rd.fields ⟨[200, 1, 0, 0, 7], 0⟩ [.bytes] = .abort := by
  refine ⟨?_, by decide⟩
  intro i hi
  have : i = 0 ∨ i = 1 := by simp at hi; omega
  rcases this with rfl | rfl <;> decide

/-- The excepted case: the length 0xFFFFFFFC in a buffer of four bytes passes the test. -/
theorem C50_a_damaged_length_reads_outside : Rd.fields ⟨[0xFC, 0xFF, 0xFF, 0xFF], 0⟩ [.bytes] = .outside := by decide

end Verif.Ser
