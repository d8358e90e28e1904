import Verif.Ser.HeaderInv

/-!
The two headers of a dictionary file (C32) and headers of older versions (C51).  The histories are in HeaderSpec: checkpoints, crashes
in the middle of a header write that leave any mixture of old and new bytes, and reopenings.  `readHeader max f` is what opening the
file finds; `max` is the limit recovery may put on the checkpoint (the largest number otherwise).
-/
namespace Verif.Ser
open HeaderSpec

/-- Two consecutive headers of a dictionary, for the examples. -/
def exHeader (n : Nat) : Header := ⟨1, n, 100 * n, 4194304, 8192, 512, 5, 0, 29, 1, 7, 8, 9, 131072, 0, 3, 50, 0, 0, 0, 0, 8, 2 ^ 62, 2 ^ 62, 16, 3⟩

theorem exHeader_valid {n : Nat} (h : n < 1000) : Valid (exHeader n) := by
  constructor
  · refine ⟨?_, ?_, ?_, ?_, ?_, ?_, ?_, ?_, ?_, ?_, ?_, ?_, ?_, ?_, ?_⟩ <;> simp only [exHeader] <;> omega
  · refine ⟨?_, ?_, ?_, ?_, ?_, ?_, ?_, ?_⟩ <;> simp only [exHeader] <;> omega
  · simp only [exHeader]; omega
  · refine ⟨?_, ?_, ?_, ?_⟩ <;> simp only [exHeader] <;> omega

theorem exHeader_count (n : Nat) : (exHeader n).count = n := rfl

/-- A dictionary file that does not exist yet. -/
theorem exReach0 : Reach (.opened ⟨[], []⟩ (exHeader 0)) := .fresh _ _ (by intro b hb; cases hb) (by intro b hb; cases hb) rfl rfl rfl

/-- The file after its first checkpoint. -/
def exFile : File := ⟨overwrite [] (pad512 (exHeader 1).bytes), []⟩

theorem exWrite : writeHeader ⟨[], []⟩ (exHeader 1) = .ok exFile := writeHeader_ok (exHeader_valid (by decide))

theorem exReach1 : Reach (.opened exFile (exHeader 1)) := .checkpoint _ _ _ _ exReach0 (exHeader_valid (by decide)) rfl exWrite

/-- C32: what a header says is what is read from it. -/
theorem C32_header_round_trip (h : Header) (hv : Valid h) : ∃ bs, h.serialize = .ok bs ∧ bs.length = 197 ∧ parseHeader 29 bs = .ok (.ok h) :=
  ⟨h.bytes, h.serialize_ok hv, h.bytes_length, parse_written hv⟩

example : ∃ bs, (exHeader 1).serialize = .ok bs ∧ bs.length = 197 ∧ parseHeader 29 bs = .ok (.ok (exHeader 1)) := C32_header_round_trip _ (exHeader_valid (by decide))

/-- C32: a checkpoint can always write its header, and opening the file then finds exactly that header. -/
theorem C32_completed_checkpoint_is_found {f : File} {h h' : Header} {max : Nat} (hr : Reach (.opened f h)) (hv : Valid h') (hc : h'.count = h.count + 1) (hmax : h'.lsn ≤ max) :
    ∃ f', writeHeader f h' = .ok f' ∧ readHeader max f' = .ok (.ok h') := by
  have hi : FInv f ∧ Own f h := Inv.reach hr
  have hw := writeHeader_ok (f := f) hv
  refine ⟨_, hw, ?_⟩
  generalize (if atFirst h'.count then { f with s0 := overwrite f.s0 (pad512 h'.bytes) } else { f with s1 := overwrite f.s1 (pad512 h'.bytes) } : File) = f' at hw
  obtain ⟨e1, e2⟩ := written_same hv hw
  obtain ⟨hi', _⟩ := hi.1.written hi.2 hv hc hw
  have hg : Holds (f'.slot (atFirst h'.count)) ⟨h'.count, h'.lsn, 29, h'.bytes⟩ := by rw [e2]; exact written_slot hv _
  refine readHeader_picks hi' (atFirst h'.count) hg hmax ?_ (parse_written hv)
  intro g' hg' _
  rw [e1] at hg'
  have hfl : (!atFirst h'.count) = atFirst h.count := by rw [hc, atFirst_succ]; simp
  rw [hfl] at hg'
  simp only
  rcases hi.2 with ⟨_, n0, n1⟩ | ⟨g, hg2, _, hcc, _⟩
  · unfold File.slot at hg'
    split at hg'
    · exact absurd hg' (n0 g')
    · exact absurd hg' (n1 g')
  · rw [held_unique hg' hg2]; omega

example : ∃ f', writeHeader exFile (exHeader 2) = .ok f' ∧ readHeader (2 ^ 64 - 1) f' = .ok (.ok (exHeader 2)) :=
  C32_completed_checkpoint_is_found exReach1 (exHeader_valid (by decide)) rfl (by decide)

/-- C32: a crash in the middle of writing the next header leaves a file that opens with the header in use before, or with the new
one; never with anything else, and never not at all. -/
theorem C32_interrupted_checkpoint_is_all_or_nothing {f f' t : File} {h h' : Header} {max : Nat} (hr : Reach (.opened f h)) (hread : readHeader max f = .ok (.ok h))
    (hv : Valid h') (hc : h'.count = h.count + 1) (hw : writeHeader f h' = .ok f') (ht : Interrupted f f' t) :
    readHeader max t = .ok (.ok h) ∨ (h'.lsn ≤ max ∧ readHeader max t = .ok (.ok h')) := by
  have hi : FInv f ∧ Own f h := Inv.reach hr
  obtain ⟨b1, b2, e1, e2, e3⟩ := interrupted_slots hi.1 hv hw ht
  have hit : FInv t := hi.1.next hi.2 hv hc b1 b2 e1 e2 e3
  have hfl : (!atFirst h'.count) = atFirst h.count := by rw [hc, atFirst_succ]; simp
  have hfl2 : atFirst h'.count = !atFirst h.count := by rw [hc, atFirst_succ]
  rw [hfl] at e1
  -- the header that is read from `f`
  rcases hi.1.read max with ⟨b, g, h2, hg, hl, ho, hp, hcc, _, hrd⟩ | ⟨hn, ⟨e, hrd⟩ | ⟨g0, g1, hg0, hg1⟩⟩
  · rw [hread] at hrd
    cases hrd
    have hb : b = atFirst h.count := by rw [hcc]; exact (hi.1.place b hg).1.symm
    subst hb
    have hgt : Holds (t.slot (atFirst h.count)) g := by rw [e1]; exact hg
    by_cases hnew : Holds (t.slot (!atFirst h.count)) ⟨h'.count, h'.lsn, 29, h'.bytes⟩ ∧ h'.lsn ≤ max
    · refine Or.inr ⟨hnew.2, ?_⟩
      refine readHeader_picks hit (!atFirst h.count) hnew.1 hnew.2 ?_ (parse_written hv)
      intro g' hg' _
      rw [Bool.not_not] at hg'
      rw [held_unique hg' hgt]
      simp only
      omega
    · refine Or.inl (readHeader_picks hit (atFirst h.count) hgt hl ?_ hp)
      intro g' hg' hl'
      rw [hfl2] at e3
      rcases e3 g' hg' with h1 | h1
      · exact ho g' h1 hl'
      · subst h1
        exact absurd ⟨hg', hl'⟩ hnew
  · rw [hread] at hrd; cases hrd
  · exfalso
    have hx := hn true g0 hg0
    have hy := hn false g1 hg1
    unfold readHeader at hread
    unfold Holds at hg0 hg1
    rw [hg0, R.bind_ok, hg1, R.bind_ok, choose_abort hx hy, R.bind_abort] at hread
    cases hread

/-- The write of the second header stopped after 100 of its 197 bytes: the file opens with the first. -/
def exTornSlot : List Nat := (pad512 (exHeader 2).bytes).take 100 ++ List.replicate 412 0

theorem exTorn : Interrupted exFile ⟨exFile.s0, overwrite [] (pad512 (exHeader 2).bytes)⟩ ⟨exFile.s0, exTornSlot⟩ := by
  have hl : (overwrite [] (pad512 (exHeader 2).bytes)).length = 512 := by unfold overwrite; rw [List.length_append, pad_length]; rfl
  have hl2 : exTornSlot.length = 512 := by unfold exTornSlot; rw [List.length_append, List.length_take, pad_length, List.length_replicate]; rfl
  have hl1 : exFile.s0.length = 512 := by unfold exFile overwrite; rw [List.length_append, pad_length]; rfl
  refine ⟨⟨by simp only; omega, Nat.le_refl _, Nat.le_refl _, fun i b hb => Or.inl hb⟩, ⟨by simp only; omega, Nat.zero_le _, by simp only; omega, ?_⟩, fun _ => Or.inl rfl, ?_⟩
  · intro i b hb
    by_cases hi : i < 100
    · refine Or.inr (Or.inl ?_)
      simp only [exTornSlot] at hb
      rw [List.getElem?_append_left (by rw [List.length_take, pad_length]; omega), List.getElem?_take_of_lt hi] at hb
      simp only [overwrite]
      rw [List.getElem?_append_left (by rw [pad_length]; omega)]
      exact hb
    · refine Or.inr (Or.inr ⟨rfl, ?_⟩)
      simp only [exTornSlot] at hb
      rw [List.getElem?_append_right (by rw [List.length_take, pad_length]; omega)] at hb
      have := List.mem_of_getElem? hb
      exact (List.mem_replicate.mp this).2
  · intro hc
    exfalso
    have hsf : sizeField exTornSlot = 197 := by decide +kernel
    simp only [hsf] at hc
    unfold Checked at hc
    have hb : Bytes (exTornSlot.take 193) := by unfold Bytes; decide +kernel
    have hlen : (exTornSlot.take 197).length = 197 := by rw [List.length_take, hl2]; rfl
    rw [hlen, List.take_take] at hc
    have hc' : XSpec.checksum (exTornSlot.take 193) = le ((exTornSlot.take 197).drop 193) := hc
    rw [← memory_spec hb] at hc'
    exact absurd hc' (by decide +kernel)

example : readHeader 1000 ⟨exFile.s0, exTornSlot⟩ = .ok (.ok (exHeader 1)) ∨
    ((exHeader 2).lsn ≤ 1000 ∧ readHeader 1000 ⟨exFile.s0, exTornSlot⟩ = .ok (.ok (exHeader 2))) := by
  obtain ⟨f', hw, hread⟩ := C32_completed_checkpoint_is_found exReach0 (exHeader_valid (by decide : 1 < 1000)) rfl (max := 1000) (by decide)
  rw [exWrite] at hw
  cases hw
  exact C32_interrupted_checkpoint_is_all_or_nothing exReach1 hread (exHeader_valid (by decide : 2 < 1000)) rfl
    (writeHeader_ok (exHeader_valid (by decide))) exTorn

/-- C32: a crash in the middle of writing the very first header leaves a file without a header (reported as an error, not a crash), or
with the new one. -/
theorem C32_interrupted_first_checkpoint {f f' t : File} {h h' : Header} {max : Nat} (hr : Reach (.opened f h)) (h0 : h.count = 0)
    (hv : Valid h') (hc : h'.count = 1) (hw : writeHeader f h' = .ok f') (ht : Interrupted f f' t) :
    (∃ e, readHeader max t = .ok (.error e)) ∨ (h'.lsn ≤ max ∧ readHeader max t = .ok (.ok h')) := by
  have hi : FInv f ∧ Own f h := Inv.reach hr
  obtain ⟨b1, b2, e1, e2, e3⟩ := interrupted_slots hi.1 hv hw ht
  have hc' : h'.count = h.count + 1 := by omega
  have hit : FInv t := hi.1.next hi.2 hv hc' b1 b2 e1 e2 e3
  have hempty : (∀ g, ¬ Holds f.s0 g) ∧ ∀ g, ¬ Holds f.s1 g := by
    rcases hi.2 with ⟨_, n0, n1⟩ | ⟨g, hg, _, hcc, _⟩
    · exact ⟨n0, n1⟩
    · have := (hi.1.place _ hg).2
      omega
  have hf1 : atFirst h'.count = true := by rw [hc]; rfl
  rw [hf1] at e1 e2 e3
  simp only [File.slot, Bool.not_true, Bool.false_eq_true, if_false, if_true] at e1 e2 e3
  rcases hit.read max with ⟨b, g, h2, hg, hl, ho, hp, hcc, _, hrd⟩ | ⟨hn, ⟨e, hrd⟩ | ⟨g0, g1, hg0, hg1⟩⟩
  · cases b with
    | false =>
      simp only [File.slot, Bool.false_eq_true, if_false] at hg
      rw [e1] at hg
      exact absurd hg (hempty.2 g)
    | true =>
      simp only [File.slot, if_true] at hg
      rcases e3 g hg with h3 | h3
      · exact absurd h3 (hempty.1 g)
      · subst h3
        simp only at hp hl
        rw [parse_written hv] at hp
        cases hp
        exact Or.inr ⟨hl, hrd⟩
  · exact Or.inl ⟨e, hrd⟩
  · rw [e1] at hg1
    exact absurd hg1 (hempty.2 g1)

example : (∃ e, readHeader 1000 ⟨[], []⟩ = .ok (.error e)) ∨ ((exHeader 1).lsn ≤ 1000 ∧ readHeader 1000 ⟨[], []⟩ = .ok (.ok (exHeader 1))) :=
  C32_interrupted_first_checkpoint exReach0 rfl (exHeader_valid (by decide)) rfl exWrite
    ⟨⟨rfl, Nat.le_refl _, Nat.zero_le _, fun i b hb => by simp at hb⟩, ⟨rfl, Nat.le_refl _, Nat.le_refl _, fun i b hb => by simp at hb⟩, fun _ => Or.inl rfl, fun _ => Or.inl rfl⟩

/-- C32: whatever the history, opening a file with no limit on the checkpoint ends, with a header or with an error. -/
theorem C32_opening_never_stops_the_program {f : File} (hr : Reach (.closed f)) : ∃ r, readHeader (2 ^ 64 - 1) f = .ok r := by
  have hi : FInv f := Inv.reach hr
  rcases hi.read (2 ^ 64 - 1) with ⟨_, _, h, _, _, _, _, _, _, hrd⟩ | ⟨hn, ⟨e, hrd⟩ | ⟨g0, _, hg0, _⟩⟩
  · exact ⟨_, hrd⟩
  · exact ⟨_, hrd⟩
  · have := held_lsn_lt hg0 (hi.bytes true)
    have := hn true g0 hg0
    omega

example : ∃ r, readHeader (2 ^ 64 - 1) ⟨[], []⟩ = .ok r :=
  C32_opening_never_stops_the_program (.stop _ _ exReach0)

/-- C32: the header that is found is one of the two in the file, is not later than the limit, and is the newest such. -/
theorem C32_newest_usable_header {f : File} {h : Header} {max : Nat} (hr : Reach (.closed f)) (hread : readHeader max f = .ok (.ok h)) :
    h.lsn ≤ max ∧ (∃ g, (Holds f.s0 g ∨ Holds f.s1 g) ∧ parseHeader g.version g.bytes = .ok (.ok h)) ∧
      ∀ g, Holds f.s0 g ∨ Holds f.s1 g → g.lsn ≤ max → g.count ≤ h.count := by
  have hi : FInv f := Inv.reach hr
  rcases hi.read max with ⟨b, g, h2, hg, hl, ho, hp, hcc, hll, hrd⟩ | ⟨hn, ⟨e, hrd⟩ | ⟨g0, g1, hg0, hg1⟩⟩
  · rw [hread] at hrd
    cases hrd
    refine ⟨by omega, ⟨g, ?_, hp⟩, ?_⟩
    · cases b
      · exact Or.inr hg
      · exact Or.inl hg
    · intro g' hg' hl'
      cases b with
      | true =>
        rcases hg' with h1 | h1
        · rw [held_unique h1 hg]; omega
        · have := ho g' h1 hl'; omega
      | false =>
        rcases hg' with h1 | h1
        · have := ho g' h1 hl'; omega
        · rw [held_unique h1 hg]; omega
  · rw [hread] at hrd; cases hrd
  · exfalso
    have hx := hn true g0 hg0
    have hy := hn false g1 hg1
    unfold readHeader at hread
    unfold Holds at hg0 hg1
    rw [hg0, R.bind_ok, hg1, R.bind_ok, choose_abort hx hy, R.bind_abort] at hread
    cases hread

example : ∃ h, readHeader 1000 exFile = .ok (.ok h) ∧ h.lsn ≤ 1000 := by
  obtain ⟨f', hw, hread⟩ := C32_completed_checkpoint_is_found exReach0 (exHeader_valid (by decide : 1 < 1000)) rfl (max := 1000) (by decide)
  rw [exWrite] at hw
  cases hw
  exact ⟨_, hread, (C32_newest_usable_header (.stop _ _ exReach1) hread).1⟩

/-! ### Older versions -/

/-- C51 (partial: not versions 17 and 18, for which it is false, see below): a header of a supported version, of the size of that
version, with a checksum that matches and a block table that has a place, is read. -/
theorem C51_older_headers_are_read_partial {s : List Nat} {g : Found} (hs : Holds s g) (hv : g.version ≠ 17 ∧ g.version ≠ 18) (hsize : minSize g.version = some g.bytes.length)
    (ht : tablePlaced (ullOf (g.bytes.drop 48)) (ullOf (g.bytes.drop 56))) : ∃ h, parseHeader g.version g.bytes = .ok (.ok h) ∧ h.count = g.count ∧ h.lsn = g.lsn := by
  obtain ⟨h1, h2, _⟩ := held_facts hs
  exact parse_held hs (widths_eq h1 h2 hv.1 hv.2 hsize) ht

/-- C51 does not hold: no header of version 17 can be used, whatever it contains: one that passes the test of the size is longer than
what is then read from it. -/
theorem C51_version_17_is_never_read {s : List Nat} {g : Found} (hs : Holds s g) (hv : g.version = 17) (h : Header) : parseHeader g.version g.bytes ≠ .ok (.ok h) := by
  obtain ⟨_, _, ⟨n, hn, hle⟩, _⟩ := held_facts hs
  rw [hv] at hn ⊢
  have : minSize 17 = some 156 := by decide
  rw [this] at hn
  cases hn
  exact parse_long (by have : widths (headerReads 17) = 140 := by decide
                       omega) h

/-- C51 does not hold: a header of version 18 of the size of that version stops the program. -/
theorem C51_version_18_stops_the_program {s : List Nat} {g : Found} (_ : Holds s g) (hv : g.version = 18) (hsize : minSize g.version = some g.bytes.length) :
    parseHeader g.version g.bytes = .abort := by
  rw [hv] at hsize ⊢
  have : minSize 18 = some 168 := by decide
  rw [this] at hsize
  have hl := Option.some.inj hsize
  have : widths (headerReads 18) = 184 := by decide
  exact parse_short (by omega) (by omega)

/-- A header of version `v` and `size` bytes, most of them 1, with its checksum. -/
def exOld (v size : Nat) : List Nat :=
  let b := magic ++ [0, 0, 0, v, 0, 0, 0, 1, 0, 0, 0, size] ++ byteOrder ++ List.replicate (size - 32) 1
  b ++ store32 (memory b) ++ List.replicate (512 - size) 0

def exFound (v size : Nat) : Found := ⟨72340172838076673, 72340172838076673, v, (exOld v size).take size⟩

theorem isHeld {s : List Nat} {g : Found} (h : (match readSlot s with | .ok (.ok x) => decide (x = g) | _ => false) = true) : Holds s g := by
  unfold Holds
  split at h
  · rename_i x hx
    rw [hx, of_decide_eq_true h]
  · cases h

theorem exHeld16 : Holds (exOld 16 140) (exFound 16 140) := isHeld (by decide +kernel)
theorem exHeld17 : Holds (exOld 17 156) (exFound 17 156) := isHeld (by decide +kernel)
theorem exHeld18 : Holds (exOld 18 168) (exFound 18 168) := isHeld (by decide +kernel)

theorem exSize16 : minSize (exFound 16 140).version = some (exFound 16 140).bytes.length := by
  have h : (exFound 16 140).bytes.length = 140 := by decide +kernel
  rw [h]; decide

theorem exSize18 : minSize (exFound 18 168).version = some (exFound 18 168).bytes.length := by
  have h : (exFound 18 168).bytes.length = 168 := by decide +kernel
  rw [h]; decide

example : ∃ h, parseHeader (exFound 16 140).version (exFound 16 140).bytes = .ok (.ok h) ∧ h.count = (exFound 16 140).count ∧ h.lsn = (exFound 16 140).lsn :=
  C51_older_headers_are_read_partial exHeld16 (by decide) exSize16 (by decide +kernel)

example (h : Header) : parseHeader (exFound 17 156).version (exFound 17 156).bytes ≠ .ok (.ok h) := C51_version_17_is_never_read exHeld17 rfl h

example : parseHeader (exFound 18 168).version (exFound 18 168).bytes = .abort := C51_version_18_stops_the_program exHeld18 rfl exSize18

end Verif.Ser
