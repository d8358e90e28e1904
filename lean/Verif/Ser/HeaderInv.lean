import Verif.Ser.HeaderOld

namespace Verif.Ser
open HeaderSpec

/-! ### The choice -/

theorem worst_none {e0 e1 : Option Err} (h : worst e0 e1 = none) : e0 = none ∧ e1 = none := by
  unfold worst at h
  split at h
  · cases h
  · split at h
    · cases h
    · split at h
      · cases h
      · split at h
        · cases h
        · cases e0 with
          | some e => cases h
          | none => exact ⟨rfl, h⟩

/-- Two headers that can stand in the two places. -/
def Pair (g0 g1 : Found) : Prop := (g0.count = g1.count + 1 ∧ g1.version ≤ g0.version) ∨ (g1.count = g0.count + 1 ∧ g0.version ≤ g1.version)

theorem choose_left {max : Nat} {g0 : Found} {f1 : Except Err Found} (h0 : g0.lsn ≤ max) (h1 : acceptable max f1 = none) (h2 : errOf f1 ≠ some .tooNew) :
    choose max (.ok g0) f1 = .ok (.ok g0) := by
  unfold choose
  simp only [acceptable, h0, if_true]
  simp only [acceptable] at h1
  rw [if_neg (by simp [errOf]; exact h2)]
  cases f1 with
  | error e => rfl
  | ok g1 =>
    simp only at h1 ⊢
    rw [h1]

theorem choose_right {max : Nat} {g1 : Found} {f0 : Except Err Found} (h1 : g1.lsn ≤ max) (h0 : acceptable max f0 = none) (h2 : errOf f0 ≠ some .tooNew) :
    choose max f0 (.ok g1) = .ok (.ok g1) := by
  unfold choose
  simp only [acceptable, h1, if_true]
  simp only [acceptable] at h0
  rw [if_neg (by simp [errOf]; exact h2)]
  cases f0 with
  | error e => rfl
  | ok g0 =>
    simp only at h0 ⊢
    rw [h0]

theorem choose_both {max : Nat} {g0 g1 : Found} (h0 : g0.lsn ≤ max) (h1 : g1.lsn ≤ max) (hp : Pair g0 g1) :
    choose max (.ok g0) (.ok g1) = .ok (.ok (if g1.count < g0.count then g0 else g1)) := by
  unfold choose
  simp only [acceptable, h0, h1, if_true]
  rw [if_neg (by simp [errOf])]
  rcases hp with ⟨hc, hv⟩ | ⟨hc, hv⟩
  · rw [if_pos (by omega), if_pos ⟨hc, hv⟩, if_pos (by omega)]
  · rw [if_neg (by omega), if_pos ⟨hc, hv⟩, if_neg (by omega)]

theorem choose_none {max : Nat} {f0 f1 : Except Err Found} (h0 : acceptable max f0 = none) (h1 : acceptable max f1 = none)
    (hb : ¬ ∃ g0 g1, f0 = .ok g0 ∧ f1 = .ok g1) : ∃ e, choose max f0 f1 = .ok (.error e) := by
  unfold choose
  simp only [h0, h1]
  rw [if_pos (by simp)]
  cases hw : worst (errOf f0) (errOf f1) with
  | none =>
    obtain ⟨a, b⟩ := worst_none hw
    cases f0 with
    | error e => simp [errOf] at a
    | ok g0 =>
      cases f1 with
      | error e => simp [errOf] at b
      | ok g1 => exact absurd ⟨g0, g1, rfl, rfl⟩ hb
  | some e =>
    cases f0 with
    | error e0 => exact ⟨e, rfl⟩
    | ok g0 =>
      cases f1 with
      | error e1 => exact ⟨e, rfl⟩
      | ok g1 => exact absurd ⟨g0, g1, rfl, rfl⟩ hb

theorem choose_abort {max : Nat} {g0 g1 : Found} (l0 : max < g0.lsn) (l1 : max < g1.lsn) : choose max (.ok g0) (.ok g1) = .abort := by
  have a0 : acceptable max (.ok g0) = none := by simp only [acceptable]; rw [if_neg (by omega)]
  have a1 : acceptable max (.ok g1) = none := by simp only [acceptable]; rw [if_neg (by omega)]
  unfold choose
  simp only [a0, a1]
  rw [if_pos (by simp)]
  have : worst (errOf (.ok g0)) (errOf (.ok g1)) = none := by simp [errOf, worst]
  rw [this]

/-! ### The invariant of the file -/

/-- The slot of a count. -/
def File.slot (f : File) (first : Bool) : List Nat := if first then f.s0 else f.s1

/-- What is read from one place. -/
structure SlotOK (s : List Nat) (first : Bool) : Prop where
  known : KnownVersion s
  place : ∀ g, Holds s g → atFirst g.count = first ∧ 0 < g.count
  parse : ∀ g, Holds s g → ∃ h, parseHeader g.version g.bytes = .ok (.ok h) ∧ h.count = g.count ∧ h.lsn = g.lsn

structure FInv (f : File) : Prop where
  bytes : ∀ b, Bytes (f.slot b)
  sectors : ∀ b, (f.slot b).length % 512 = 0
  s0 : SlotOK f.s0 true
  s1 : SlotOK f.s1 false
  two : ∀ g0 g1, Holds f.s0 g0 → Holds f.s1 g1 → Pair g0 g1

/-- The header in memory is the one in its place (if it is not the first). -/
def Own (f : File) (h : Header) : Prop :=
  (h.count = 0 ∧ (∀ g, ¬ Holds f.s0 g) ∧ ∀ g, ¬ Holds f.s1 g) ∨
    ∃ g, Holds (f.slot (atFirst h.count)) g ∧ parseHeader g.version g.bytes = .ok (.ok h) ∧ g.count = h.count ∧ g.lsn = h.lsn

def Inv : State → Prop
  | .opened f h => FInv f ∧ Own f h
  | .closed f => FInv f

theorem atFirst_succ (n : Nat) : atFirst (n + 1) = !atFirst n := by
  unfold atFirst
  have : n % 2 = 0 ∨ n % 2 = 1 := by omega
  rcases this with h | h
  · have : (n + 1) % 2 = 1 := by omega
    simp [h, this]
  · have : (n + 1) % 2 = 0 := by omega
    simp [h, this]

theorem zeros_not_held {s : List Nat} (hz : ∀ b ∈ s, b = 0) (g : Found) : ¬ Holds s g := by
  intro h
  unfold Holds readSlot at h
  by_cases h512 : (s.take 512).length = 512
  · rw [if_neg (by simp [h512])] at h
    have hs : 512 ≤ s.length := by rw [List.length_take] at h512; omega
    have h20 : (s.take 20).length = 20 := by rw [List.length_take]; omega
    rw [Rd.literal, Rd.get_fit (by simp only; omega), R.bind_ok] at h
    simp only at h
    have hne : ((s.take 20).drop 0).take 8 ≠ magic := by
      intro he
      have : s[0]? = some 116 := by
        have := congrArg (fun l => l[0]?) he
        simpa [magic, List.getElem?_take] using this
      have := hz 116 (List.mem_of_getElem? this)
      omega
    rw [if_pos hne] at h
    cases h
  · rw [if_pos h512] at h; cases h

theorem zeros_known {s : List Nat} (hz : ∀ b ∈ s, b = 0) : KnownVersion s := by
  intro i b hb
  have := hz b (List.mem_of_getElem? hb)
  exact ⟨fun _ _ => this, fun _ => by omega⟩

/-- The place after a completed write. -/
theorem written_slot {h : Header} (hv : Valid h) (old : List Nat) : Holds (overwrite old (pad512 h.bytes)) ⟨h.count, h.lsn, 29, h.bytes⟩ := by
  unfold Holds overwrite pad512
  rw [List.append_assoc]
  apply readSlot_written hv
  rw [h.bytes_length]
  have : roundup512 197 = 512 := by decide
  rw [this, List.length_append, List.length_replicate]
  omega

theorem pad_length (h : Header) : (pad512 h.bytes).length = 512 := by
  unfold pad512
  have : roundup512 197 = 512 := by decide
  rw [List.length_append, h.bytes_length, List.length_replicate, this]

theorem pad_known (h : Header) (old : List Nat) (i b : Nat) (hb : (overwrite old (pad512 h.bytes))[i]? = some b) (hi : i < 12) : (8 ≤ i → i < 11 → b = 0) ∧ (i = 11 → b ≤ 29) := by
  have hl := h.bytes_length
  have e : (overwrite old (pad512 h.bytes))[i]? = (magic ++ [0, 0, 0, 29])[i]? := by
    unfold overwrite pad512
    rw [List.append_assoc, List.getElem?_append_left (by omega), h.bytes_eq, List.getElem?_append_left (by rw [h.layout_length]; omega), h.layout_split, ← List.append_assoc,
      List.getElem?_append_left (by simp [magic, digits_length]; omega)]
    rfl
  rw [e] at hb
  have : i = 0 ∨ i = 1 ∨ i = 2 ∨ i = 3 ∨ i = 4 ∨ i = 5 ∨ i = 6 ∨ i = 7 ∨ i = 8 ∨ i = 9 ∨ i = 10 ∨ i = 11 := by omega
  rcases this with rfl | rfl | rfl | rfl | rfl | rfl | rfl | rfl | rfl | rfl | rfl | rfl <;> simp [magic] at hb <;> omega

theorem known_written (h : Header) (old : List Nat) : KnownVersion (overwrite old (pad512 h.bytes)) := by
  intro i b hb
  by_cases hi : i < 12
  · exact pad_known h old i b hb hi
  · exact ⟨fun h1 h2 => by omega, fun h1 => by omega⟩

theorem known_torn {old new s : List Nat} (ho : KnownVersion old) (hn : KnownVersion new) (ht : Torn old new s) : KnownVersion s := by
  intro i b hb
  rcases ht.each i b hb with h | h | ⟨_, h⟩
  · exact ho i b h
  · exact hn i b h
  · exact ⟨fun _ _ => h, fun _ => by omega⟩

theorem torn_same {old s : List Nat} (ht : Torn old old s) : s = old := by
  have hl : s.length = old.length := Nat.le_antisymm ht.shorter ht.longer
  apply List.ext_getElem?
  intro i
  by_cases hi : i < s.length
  · have hs := List.getElem?_eq_getElem hi
    rcases ht.each i _ hs with h | h | ⟨h, _⟩
    · rw [hs, h]
    · rw [hs, h]
    · rw [List.getElem?_eq_getElem (by omega)] at h; cases h
  · rw [List.getElem?_eq_none (by omega), List.getElem?_eq_none (by omega)]

theorem held_unique {s : List Nat} {g g' : Found} (h : Holds s g) (h' : Holds s g') : g = g' := by
  unfold Holds at h h'
  rw [h] at h'
  cases h'; rfl

theorem writeHeader_ok {f : File} {h : Header} (hv : Valid h) :
    writeHeader f h = .ok (if atFirst h.count then { f with s0 := overwrite f.s0 (pad512 h.bytes) } else { f with s1 := overwrite f.s1 (pad512 h.bytes) }) := by
  unfold writeHeader
  rw [h.serialize_ok hv]
  rfl

/-- The invariant when one place is replaced by what may be there after a complete or interrupted write. -/
theorem SlotOK.of {s old : List Nat} {first : Bool} {h : Header} (hv : Valid h) (hc : 0 < h.count) (hf : atFirst h.count = first) (ho : SlotOK old first) (hk : KnownVersion s)
    (hor : ∀ g, Holds s g → Holds old g ∨ g = ⟨h.count, h.lsn, 29, h.bytes⟩) : SlotOK s first := by
  refine ⟨hk, ?_, ?_⟩
  · intro g hg
    rcases hor g hg with h1 | h1
    · exact ho.place g h1
    · subst h1; exact ⟨hf, hc⟩
  · intro g hg
    rcases hor g hg with h1 | h1
    · exact ho.parse g h1
    · subst h1; exact ⟨h, parse_written hv, rfl, rfl⟩

theorem version_le {s : List Nat} {g : Found} (h : Holds s g) : g.version ≤ 29 := by
  obtain ⟨x, e, _, hv⟩ := readSlot_total s
  unfold Holds at h
  rw [h] at e
  cases e
  exact hv g rfl

/-- After any part of the next header is written. -/
theorem FInv.next {f t : File} {h h' : Header} (hi : FInv f) (ho : Own f h) (hv : Valid h') (hc : h'.count = h.count + 1) (hbt : ∀ b, Bytes (t.slot b)) (hlt : ∀ b, (t.slot b).length % 512 = 0)
    (hsame : t.slot (!atFirst h'.count) = f.slot (!atFirst h'.count)) (hk : KnownVersion (t.slot (atFirst h'.count)))
    (hor : ∀ g, Holds (t.slot (atFirst h'.count)) g → Holds (f.slot (atFirst h'.count)) g ∨ g = ⟨h'.count, h'.lsn, 29, h'.bytes⟩) : FInv t := by
  have hown : ∀ g, Holds (f.slot (atFirst h.count)) g → g.count = h.count := by
    intro g hg
    rcases ho with ⟨h0, hn0, hn1⟩ | ⟨g', hg', _, hcc, _⟩
    · unfold File.slot at hg
      split at hg
      · exact absurd hg (hn0 g)
      · exact absurd hg (hn1 g)
    · rw [held_unique hg hg']; exact hcc
  have hfl : atFirst h'.count = !atFirst h.count := by rw [hc, atFirst_succ]
  cases hb : atFirst h'.count with
  | true =>
    rw [hb] at hsame hk hor
    have hb2 : atFirst h.count = false := by rw [hb] at hfl; cases h2 : atFirst h.count <;> simp [h2] at hfl ⊢
    rw [hb2] at hown
    simp only [File.slot, Bool.not_true, if_true, Bool.false_eq_true, if_false] at hsame hk hor hown
    refine ⟨hbt, hlt, SlotOK.of hv (by omega) hb hi.s0 hk hor, by rw [hsame]; exact hi.s1, ?_⟩
    intro g0 g1 h0 h1
    rw [hsame] at h1
    rcases hor g0 h0 with h2 | h2
    · exact hi.two g0 g1 h2 h1
    · subst h2
      have := hown g1 h1
      exact Or.inl ⟨by simp only; omega, version_le h1⟩
  | false =>
    rw [hb] at hsame hk hor
    have hb2 : atFirst h.count = true := by rw [hb] at hfl; cases h2 : atFirst h.count <;> simp [h2] at hfl ⊢
    rw [hb2] at hown
    simp only [File.slot, Bool.not_false, if_true, Bool.false_eq_true, if_false] at hsame hk hor hown
    refine ⟨hbt, hlt, by rw [hsame]; exact hi.s0, SlotOK.of hv (by omega) hb hi.s1 hk hor, ?_⟩
    intro g0 g1 h0 h1
    rw [hsame] at h0
    rcases hor g1 h1 with h2 | h2
    · exact hi.two g0 g1 h0 h2
    · subst h2
      have := hown g0 h0
      exact Or.inr ⟨by simp only; omega, version_le h0⟩

theorem written_same {f : File} {h : Header} (hv : Valid h) {f' : File} (he : writeHeader f h = .ok f') :
    f'.slot (!atFirst h.count) = f.slot (!atFirst h.count) ∧ f'.slot (atFirst h.count) = overwrite (f.slot (atFirst h.count)) (pad512 h.bytes) := by
  rw [writeHeader_ok hv] at he
  cases he
  cases hb : atFirst h.count <;> simp [File.slot]

theorem slot_cases {f f' : File} {h : Header} (e1 : f'.slot (!atFirst h.count) = f.slot (!atFirst h.count)) (e2 : f'.slot (atFirst h.count) = overwrite (f.slot (atFirst h.count)) (pad512 h.bytes)) (b : Bool) :
    f'.slot b = f.slot b ∨ f'.slot b = overwrite (f.slot b) (pad512 h.bytes) := by
  cases hb : atFirst h.count <;> rw [hb] at e1 e2 <;> cases b
  · exact Or.inr e2
  · exact Or.inl e1
  · exact Or.inl e1
  · exact Or.inr e2

theorem header_bytes {h : Header} (hv : Valid h) : Bytes h.bytes := by
  unfold Header.bytes
  have := h.all_valid hv
  intro b hb
  unfold BufSpec.layout at hb
  obtain ⟨f, hf, hb⟩ := List.mem_flatMap.mp hb
  exact Valid.bytes (this f hf) b hb

theorem written_bytes {h : Header} (hv : Valid h) {old new : List Nat} (hb : Bytes old) (hl : old.length % 512 = 0) (he : new = old ∨ new = overwrite old (pad512 h.bytes)) :
    Bytes new ∧ new.length % 512 = 0 := by
  rcases he with rfl | rfl
  · exact ⟨hb, hl⟩
  · constructor
    · intro b hm
      unfold overwrite pad512 at hm
      rcases List.mem_append.mp hm with hm | hm
      · rcases List.mem_append.mp hm with hm | hm
        · exact header_bytes hv b hm
        · rw [(List.mem_replicate.mp hm).2]; decide
      · exact hb b (List.mem_of_mem_drop hm)
    · unfold overwrite
      rw [List.length_append, pad_length, List.length_drop]
      omega

theorem torn_bytes {old new s : List Nat} (ht : Torn old new s) (ho : Bytes old) (hn : Bytes new) : Bytes s := by
  intro b hb
  obtain ⟨i, hi⟩ := List.getElem?_of_mem hb
  rcases ht.each i b hi with h | h | ⟨_, h⟩
  · exact ho b (List.mem_of_getElem? h)
  · exact hn b (List.mem_of_getElem? h)
  · omega

theorem FInv.written {f f' : File} {h h' : Header} (hi : FInv f) (ho : Own f h) (hv : Valid h') (hc : h'.count = h.count + 1) (he : writeHeader f h' = .ok f') : FInv f' ∧ Own f' h' := by
  obtain ⟨e1, e2⟩ := written_same hv he
  have hcases : ∀ b, f'.slot b = f.slot b ∨ f'.slot b = overwrite (f.slot b) (pad512 h'.bytes) := fun b => slot_cases e1 e2 b
  refine ⟨hi.next ho hv hc (fun b => (written_bytes hv (hi.bytes b) (hi.sectors b) (hcases b)).1) (fun b => (written_bytes hv (hi.bytes b) (hi.sectors b) (hcases b)).2) e1 (by rw [e2]; exact known_written _ _) ?_, Or.inr ⟨⟨h'.count, h'.lsn, 29, h'.bytes⟩, ?_, parse_written hv, rfl, rfl⟩⟩
  · intro g hg
    rw [e2] at hg
    exact Or.inr (held_unique hg (written_slot hv _))
  · rw [e2]; exact written_slot hv _

theorem interrupted_slot {f f' t : File} (h : Interrupted f f' t) (b : Bool) : Torn (f.slot b) (f'.slot b) (t.slot b) ∧ Noticed (f.slot b) (f'.slot b) (t.slot b) := by
  cases b
  · exact ⟨h.torn1, h.noticed1⟩
  · exact ⟨h.torn0, h.noticed0⟩

theorem FInv.known {f : File} (hi : FInv f) (b : Bool) : KnownVersion (f.slot b) := by
  cases b
  · exact hi.s1.known
  · exact hi.s0.known

/-- An interrupted write: the other place is untouched, and this one is as before, or new, or unreadable. -/
theorem interrupted_slots {f f' t : File} {h' : Header} (hi : FInv f) (hv : Valid h') (he : writeHeader f h' = .ok f') (ht : Interrupted f f' t) :
    (∀ b, Bytes (t.slot b)) ∧ (∀ b, (t.slot b).length % 512 = 0) ∧ t.slot (!atFirst h'.count) = f.slot (!atFirst h'.count) ∧ KnownVersion (t.slot (atFirst h'.count)) ∧
      ∀ g, Holds (t.slot (atFirst h'.count)) g → Holds (f.slot (atFirst h'.count)) g ∨ g = ⟨h'.count, h'.lsn, 29, h'.bytes⟩ := by
  obtain ⟨e1, e2⟩ := written_same hv he
  have hs := interrupted_slot ht (!atFirst h'.count)
  rw [e1] at hs
  have hs2 := interrupted_slot ht (atFirst h'.count)
  have hw : ∀ b, Bytes (f'.slot b) ∧ (f'.slot b).length % 512 = 0 := fun b => written_bytes hv (hi.bytes b) (hi.sectors b) (slot_cases e1 e2 b)
  have hbt : ∀ b, Bytes (t.slot b) := fun b => torn_bytes (interrupted_slot ht b).1 (hi.bytes b) (hw b).1
  refine ⟨hbt, fun b => (interrupted_slot ht b).1.sectors, torn_same hs.1, known_torn (hi.known _) (by rw [e2]; exact known_written _ _) hs2.1, ?_⟩
  intro g hg
  rcases noticed_held hs2.2 (hbt _) (hi.sectors _) (hw _).2 hg with h1 | h1
  · exact Or.inl h1
  · rw [e2] at h1
    exact Or.inr (held_unique h1 (written_slot hv _))

/-! ### Reading a file that satisfies the invariant -/

theorem errOf_none {s : List Nat} {x : Except Err Found} (hx : readSlot s = .ok x) (hk : KnownVersion s) : errOf x ≠ some .tooNew := by
  obtain ⟨y, e, h1, _⟩ := readSlot_total s
  rw [hx] at e
  cases e
  exact h1 hk

theorem readHeader_of_choice {max : Nat} {f : File} {x0 x1 : Except Err Found} {g : Found} {h : Header} (h0 : readSlot f.s0 = .ok x0) (h1 : readSlot f.s1 = .ok x1)
    (hc : choose max x0 x1 = .ok (.ok g)) (hp : parseHeader g.version g.bytes = .ok (.ok h)) : readHeader max f = .ok (.ok h) := by
  unfold readHeader
  rw [h0, R.bind_ok, h1, R.bind_ok, hc, R.bind_ok]
  exact hp

theorem acc_none {max : Nat} {s : List Nat} {x : Except Err Found} (hx : readSlot s = .ok x) (hn : ∀ g, Holds s g → max < g.lsn) : acceptable max x = none := by
  cases x with
  | error e => rfl
  | ok g =>
    have := hn g hx
    simp only [acceptable]
    rw [if_neg (by omega)]

/-- The header in place `b` is chosen if it may be and the other may not, or is of the checkpoint before. -/
theorem readHeader_picks {max : Nat} {f : File} (hi : FInv f) (b : Bool) {g : Found} {h : Header} (hg : Holds (f.slot b) g) (hl : g.lsn ≤ max)
    (hother : ∀ g', Holds (f.slot (!b)) g' → g'.lsn ≤ max → g'.count < g.count) (hp : parseHeader g.version g.bytes = .ok (.ok h)) : readHeader max f = .ok (.ok h) := by
  cases b with
  | true =>
    simp only [File.slot, Bool.not_true, if_true, Bool.false_eq_true, if_false] at hg hother
    obtain ⟨x1, e1, _, _⟩ := readSlot_total f.s1
    refine readHeader_of_choice hg e1 ?_ hp
    by_cases hacc : ∃ g1, x1 = .ok g1 ∧ g1.lsn ≤ max
    · obtain ⟨g1, rfl, hl1⟩ := hacc
      have hlt := hother g1 e1 hl1
      rw [choose_both hl hl1 (hi.two g g1 hg e1), if_pos hlt]
    · exact choose_left hl (acc_none e1 (fun g1 hg1 => by
        apply Decidable.byContradiction
        intro hle
        unfold Holds at hg1
        rw [e1] at hg1
        cases hg1
        exact hacc ⟨g1, rfl, by omega⟩)) (errOf_none e1 hi.s1.known)
  | false =>
    simp only [File.slot, Bool.not_false, if_true, Bool.false_eq_true, if_false] at hg hother
    obtain ⟨x0, e0, _, _⟩ := readSlot_total f.s0
    refine readHeader_of_choice e0 hg ?_ hp
    by_cases hacc : ∃ g0, x0 = .ok g0 ∧ g0.lsn ≤ max
    · obtain ⟨g0, rfl, hl0⟩ := hacc
      have hlt := hother g0 e0 hl0
      rw [choose_both hl0 hl (hi.two g0 g e0 hg), if_neg (by omega)]
    · exact choose_right hl (acc_none e0 (fun g0 hg0 => by
        apply Decidable.byContradiction
        intro hle
        unfold Holds at hg0
        rw [e0] at hg0
        cases hg0
        exact hacc ⟨g0, rfl, by omega⟩)) (errOf_none e0 hi.s0.known)

theorem FInv.pair_ne {f : File} (hi : FInv f) (b : Bool) {g g' : Found} (hg : Holds (f.slot b) g) (hg' : Holds (f.slot (!b)) g') : g.count ≠ g'.count := by
  cases b with
  | true =>
    have := hi.two g g' hg hg'
    rcases this with ⟨h, _⟩ | ⟨h, _⟩ <;> omega
  | false =>
    have := hi.two g' g hg' hg
    rcases this with ⟨h, _⟩ | ⟨h, _⟩ <;> omega

theorem FInv.parse {f : File} (hi : FInv f) (b : Bool) {g : Found} (hg : Holds (f.slot b) g) : ∃ h, parseHeader g.version g.bytes = .ok (.ok h) ∧ h.count = g.count ∧ h.lsn = g.lsn := by
  cases b
  · exact hi.s1.parse g hg
  · exact hi.s0.parse g hg

theorem FInv.place {f : File} (hi : FInv f) (b : Bool) {g : Found} (hg : Holds (f.slot b) g) : atFirst g.count = b ∧ 0 < g.count := by
  cases b
  · exact hi.s1.place g hg
  · exact hi.s0.place g hg

/-- What is read from a file that satisfies the invariant. -/
theorem FInv.read {f : File} (hi : FInv f) (max : Nat) :
    (∃ b g h, Holds (f.slot b) g ∧ g.lsn ≤ max ∧ (∀ g', Holds (f.slot (!b)) g' → g'.lsn ≤ max → g'.count < g.count) ∧ parseHeader g.version g.bytes = .ok (.ok h) ∧ h.count = g.count ∧ h.lsn = g.lsn ∧ readHeader max f = .ok (.ok h)) ∨
      ((∀ b g, Holds (f.slot b) g → max < g.lsn) ∧ ((∃ e, readHeader max f = .ok (.error e)) ∨ ∃ g0 g1, Holds f.s0 g0 ∧ Holds f.s1 g1)) := by
  obtain ⟨x0, e0, _, _⟩ := readSlot_total f.s0
  obtain ⟨x1, e1, _, _⟩ := readSlot_total f.s1
  have key : ∀ b g, Holds (f.slot b) g → g.lsn ≤ max → (∀ g', Holds (f.slot (!b)) g' → g'.lsn ≤ max → g'.count < g.count) →
      ∃ b g h, Holds (f.slot b) g ∧ g.lsn ≤ max ∧ (∀ g', Holds (f.slot (!b)) g' → g'.lsn ≤ max → g'.count < g.count) ∧ parseHeader g.version g.bytes = .ok (.ok h) ∧ h.count = g.count ∧ h.lsn = g.lsn ∧ readHeader max f = .ok (.ok h) := by
    intro b g hg hl ho
    obtain ⟨h, hp, hc, hll⟩ := hi.parse b hg
    exact ⟨b, g, h, hg, hl, ho, hp, hc, hll, readHeader_picks hi b hg hl ho hp⟩
  by_cases h0 : ∃ g0, Holds f.s0 g0 ∧ g0.lsn ≤ max
  · obtain ⟨g0, hg0, hl0⟩ := h0
    by_cases h1 : ∃ g1, Holds f.s1 g1 ∧ g1.lsn ≤ max
    · obtain ⟨g1, hg1, hl1⟩ := h1
      have hne := hi.pair_ne true (g := g0) (g' := g1) hg0 hg1
      by_cases hlt : g1.count < g0.count
      · exact Or.inl (key true g0 hg0 hl0 (fun g' hg' _ => by rw [held_unique hg' hg1]; exact hlt))
      · exact Or.inl (key false g1 hg1 hl1 (fun g' hg' _ => by rw [held_unique hg' hg0]; omega))
    · exact Or.inl (key true g0 hg0 hl0 (fun g' hg' hl' => absurd ⟨g', hg', hl'⟩ h1))
  · by_cases h1 : ∃ g1, Holds f.s1 g1 ∧ g1.lsn ≤ max
    · obtain ⟨g1, hg1, hl1⟩ := h1
      exact Or.inl (key false g1 hg1 hl1 (fun g' hg' hl' => absurd ⟨g', hg', hl'⟩ h0))
    · refine Or.inr ⟨?_, ?_⟩
      · intro b g hg
        apply Decidable.byContradiction
        intro hle
        cases b with
        | true => exact h0 ⟨g, hg, by omega⟩
        | false => exact h1 ⟨g, hg, by omega⟩
      · by_cases hb : ∃ g0 g1, Holds f.s0 g0 ∧ Holds f.s1 g1
        · exact Or.inr hb
        · refine Or.inl ?_
          obtain ⟨e, he⟩ := choose_none (max := max) (f0 := x0) (f1 := x1) (acc_none e0 (fun g hg => by
              apply Decidable.byContradiction
              intro hle
              exact h0 ⟨g, hg, by omega⟩)) (acc_none e1 (fun g hg => by
              apply Decidable.byContradiction
              intro hle
              exact h1 ⟨g, hg, by omega⟩)) (fun ⟨g0, g1, r0, r1⟩ => hb ⟨g0, g1, by unfold Holds; rw [e0, r0], by unfold Holds; rw [e1, r1]⟩)
          refine ⟨e, ?_⟩
          unfold readHeader
          rw [e0, R.bind_ok, e1, R.bind_ok, he, R.bind_ok]
          rfl

theorem Inv.reach {s : State} (hr : Reach s) : Inv s := by
  induction hr with
  | fresh f h z0 z1 l0 l1 hc =>
    refine ⟨⟨fun b => by
        cases b
        · intro x hx; rw [z1 x hx]; decide
        · intro x hx; rw [z0 x hx]; decide, fun b => by cases b <;> assumption, ⟨zeros_known z0, fun g hg => absurd hg (zeros_not_held z0 g), fun g hg => absurd hg (zeros_not_held z0 g)⟩,
      ⟨zeros_known z1, fun g hg => absurd hg (zeros_not_held z1 g), fun g hg => absurd hg (zeros_not_held z1 g)⟩,
      fun g0 g1 h0 _ => absurd h0 (zeros_not_held z0 g0)⟩, Or.inl ⟨hc, fun g => zeros_not_held z0 g, fun g => zeros_not_held z1 g⟩⟩
  | existing f he =>
    exact ⟨fun b => by cases b; exact he.bytes.2; exact he.bytes.1, fun b => by cases b; exact he.sectors.2; exact he.sectors.1, ⟨he.v0, fun g hg => ⟨by unfold atFirst; simp [(he.p0 g hg).1], by have := (he.p0 g hg).1; omega⟩, fun g hg => (he.p0 g hg).2⟩,
      ⟨he.v1, fun g hg => ⟨by unfold atFirst; simp [(he.p1 g hg).1], (he.p1 g hg).2.1⟩, fun g hg => (he.p1 g hg).2.2⟩, he.two⟩
  | checkpoint f f' h h' _ hv hc he ih => exact ih.1.written ih.2 hv hc he
  | stop f h _ ih => exact ih.1
  | crash f f' t h h' _ hv hc he ht ih =>
    obtain ⟨b1, b2, e1, e2, e3⟩ := interrupted_slots ih.1 hv he ht
    exact ih.1.next ih.2 hv hc b1 b2 e1 e2 e3
  | «open» f h max _ he ih =>
    refine ⟨ih, ?_⟩
    have ih' : FInv f := ih
    rcases ih'.read max with ⟨b, g, h2, hg, hl, ho, hp, hc, hll, hr⟩ | ⟨hn, ⟨e, hr⟩ | ⟨g0, g1, h0, h1⟩⟩
    · rw [hr] at he
      cases he
      refine Or.inr ⟨g, ?_, hp, hc.symm, hll.symm⟩
      rw [hc, (ih'.place b hg).1]
      exact hg
    · rw [hr] at he; cases he
    · -- both too late: the program stops
      exfalso
      have l0 := hn true g0 h0
      have l1 := hn false g1 h1
      unfold readHeader at he
      unfold Holds at h0 h1
      rw [h0, R.bind_ok, h1, R.bind_ok] at he
      rw [choose_abort l0 l1, R.bind_abort] at he
      cases he

end Verif.Ser
