import Verif.Undo.Disk
/-!
C76: undo records that have left memory come back as they were.
-/
set_option linter.unusedVariables false
set_option linter.unusedSimpArgs false
namespace Verif.Undo
open Verif.Ser Verif.Log Verif.Node BufSpec

theorem R.ok_of_bind {α β : Type} {x : R α} {f : α → R β} {b : β} (h : x >>= f = .ok b) : ∃ a, x = .ok a ∧ f a = .ok b := by
  cases x with
  | ok a => exact ⟨a, rfl, h⟩
  | abort => cases h
  | outside => cases h

theorem versions {v : Nat} (h : v = 25 ∨ v = 26 ∨ v = 27 ∨ v = 29) : unpackable v = true ∧ readable v = true ∧ 13 ≤ v ∧ v ≤ 29 := by
  rcases h with rfl | rfl | rfl | rfl <;> decide

/-- The node that a program of version 25, 26, 27 or 29 wrote is read back: its owner, its place in the chain, its records in their order, whatever their number,
types, sizes and bytes, the compression method and the place in the file. -/
theorem C76_comes_back {L : Lib} (hL : L.Ok) (m : Method) {n : RNode} (h : Spec.Ok n) (hv : n.version = 25 ∨ n.version = 26 ∨ n.version = 27 ∨ n.version = 29)
    {build arena : Nat} (hb : build < 2 ^ 32) (ha : arena < 2 ^ 64) :
    ∃ block, toDisk L m n.version build arena n = .ok block ∧ block.length % 512 = 0 ∧ 0 < block.length ∧
      ∀ before behind, fromDisk L n.blocknum (before ++ block ++ behind) before.length block.length = .ok (some n) := by
  obtain ⟨block, e, hm, hl, ht, hu⟩ := toDisk_ok hL m h hb ha
  obtain ⟨v1, v2, v3⟩ := versions hv
  refine ⟨block, e, hm, by omega, fun before behind => ?_⟩
  rw [fromDisk_ok h hm hl ht hu v3, if_pos v1, if_pos v2]
  exact fromBuf_ok h hb ha v2

/-- The size that is counted when a record is saved is the number of bytes it takes. -/
theorem C76_size {r : Rec} (h : Spec.Good r) (hs : Spec.recSize r < 2 ^ 32) : r.fsize = .ok (Spec.recSize r) := fsize_ok h hs

/-- A node that belongs to no transaction is not written, and is read as an empty one. -/
theorem C76_unused (L : Lib) (b : Nat) (file : List Nat) (off : Nat) : fromDisk L b file off 0 = .ok (some ⟨29, 29, 0, 0, 0, b, 0, 0, []⟩) := rfl

theorem save_ok {n : RNode} (h : Spec.Ok n) {r : Rec} (hr : Spec.Good r) (hs : n.bytes + Spec.recSize r ≤ Spec.most) :
    n.save r = .ok { n with newest := r :: n.newest, bytes := n.bytes + Spec.recSize r } ∧ Spec.Ok { n with newest := r :: n.newest, bytes := n.bytes + Spec.recSize r } := by
  have hm : Spec.most < 2 ^ 32 := by decide
  refine ⟨by rw [RNode.save, fsize_ok hr (by omega), R.bind_ok]; rfl, ?_⟩
  exact {
    version := h.version
    original := h.original
    parent := h.parent
    child := h.child
    seq := h.seq
    blocknum := h.blocknum
    prev := h.prev
    good := by
      intro x hx
      rcases List.mem_cons.mp hx with rfl | hx
      · exact hr
      · exact h.good x hx
    bytes := by
      have : Spec.total (r :: n.newest) = Spec.recSize r + Spec.total n.newest := rfl
      have := h.bytes
      show n.bytes + Spec.recSize r = Spec.total (r :: n.newest)
      omega
    most := hs }

/-- While a transaction runs, records are saved in a node, and the node leaves memory and comes back any number of times, in any order: in the end it holds what was
saved, newest first, on top of what it held, and nothing else of it has changed. -/
theorem C76_any_trips {L : Lib} (hL : L.Ok) (es : List Spec.Event) : ∀ {n : RNode}, Spec.Ok n → n.version = 29 → n.parent ≠ 0 → (∀ e ∈ es, Spec.Numbers e) →
    n.bytes + Spec.total (Spec.saved es) ≤ Spec.most →
    Spec.run L n es = .ok (some { n with newest := Spec.saved es ++ n.newest, bytes := n.bytes + Spec.total (Spec.saved es) }) := by
  induction es with
  | nil => intro n h hv hp hn hs; rfl
  | cons e es ih =>
    intro n h hv hp hn hs
    have hn' : ∀ e ∈ es, Spec.Numbers e := fun e he => hn e (by simp [he])
    have hne := hn e (by simp)
    cases e with
    | save r =>
      have ht : Spec.total (Spec.saved (.save r :: es)) = Spec.total (Spec.saved es) + Spec.recSize r := by
        simp only [Spec.saved, Spec.total, List.map_append, List.sum_append, List.map_cons, List.map_nil, List.sum_cons, List.sum_nil, Nat.add_zero]
      rw [ht] at hs ⊢
      obtain ⟨e1, h1⟩ := save_ok h (r := r) hne (by omega)
      rw [Spec.run, e1, R.bind_ok, ih h1 hv hp hn' (by dsimp only; omega)]
      congr 2
      dsimp only
      have a : Spec.saved es ++ r :: n.newest = Spec.saved (.save r :: es) ++ n.newest := by simp only [Spec.saved, List.append_assoc, List.singleton_append]
      have b : n.bytes + Spec.recSize r + Spec.total (Spec.saved es) = n.bytes + (Spec.total (Spec.saved es) + Spec.recSize r) := by omega
      rw [a, b]
    | trip m build arena before behind =>
      obtain ⟨block, e1, _, _, e2⟩ := C76_comes_back hL m h (Or.inr (Or.inr (Or.inr hv))) hne.1 hne.2
      rw [hv] at e1
      have e3 : Spec.trip L current m build arena before behind n = .ok (some n) := by
        rw [Spec.trip, if_neg hp]
        show (toDisk L m 29 build arena n >>= _) = _
        rw [e1, R.bind_ok]
        exact e2 before behind
      rw [Spec.run, e3, R.bind_ok]
      exact ih h hv hp hn' hs

/-- A block is read for the number it was written for, and for no other. -/
theorem C76_wrong_number {L : Lib} (hL : L.Ok) (m : Method) {n : RNode} (h : Spec.Ok n) (hv : n.version = 25 ∨ n.version = 26 ∨ n.version = 27 ∨ n.version = 29)
    {build arena : Nat} (hb : build < 2 ^ 32) (ha : arena < 2 ^ 64) {b : Nat} (hne : b ≠ n.blocknum) (before behind : List Nat) :
    ∃ block, toDisk L m n.version build arena n = .ok block ∧ ∀ n', fromDisk L b (before ++ block ++ behind) before.length block.length ≠ .ok (some n') := by
  obtain ⟨block, e, hm, hl, ht, hu⟩ := toDisk_ok hL m h hb ha
  obtain ⟨v1, v2, v3⟩ := versions hv
  refine ⟨block, e, fun n' hc => ?_⟩
  rw [fromDisk_ok h hm hl ht hu v3, if_pos v1, if_pos v2] at hc
  have h1 := fromBuf_ok h hb ha v2
  clear e hm hl ht hu
  generalize nodeBytes n build arena = buf at h1 hc
  unfold fromBuf at h1 hc
  obtain ⟨⟨_, r1⟩, e1, h1⟩ := R.ok_of_bind h1
  rw [e1, R.bind_ok] at hc
  dsimp only at h1 hc
  split at h1
  case isFalse => cases h1
  rename_i hmag
  rw [if_pos hmag] at hc
  obtain ⟨⟨_, r2⟩, e2, h1⟩ := R.ok_of_bind h1
  rw [e2, R.bind_ok] at hc
  dsimp only at h1 hc
  split at h1
  case isFalse => cases h1
  rename_i hver
  rw [if_pos hver] at hc
  obtain ⟨⟨_, r3⟩, e3, h1⟩ := R.ok_of_bind h1
  rw [e3, R.bind_ok] at hc
  dsimp only at h1 hc
  obtain ⟨⟨_, r4⟩, e4, h1⟩ := R.ok_of_bind h1
  rw [e4, R.bind_ok] at hc
  dsimp only at h1 hc
  obtain ⟨⟨_, r5⟩, e5, h1⟩ := R.ok_of_bind h1
  rw [e5, R.bind_ok] at hc
  dsimp only at h1 hc
  obtain ⟨⟨_, r6⟩, e6, h1⟩ := R.ok_of_bind h1
  rw [e6, R.bind_ok] at hc
  dsimp only at h1 hc
  obtain ⟨⟨_, r7⟩, e7, h1⟩ := R.ok_of_bind h1
  rw [e7, R.bind_ok] at hc
  dsimp only at h1 hc
  obtain ⟨⟨_, r8⟩, e8, h1⟩ := R.ok_of_bind h1
  rw [e8, R.bind_ok] at hc
  dsimp only at h1 hc
  split at h1
  case isFalse => cases h1
  rename_i hbn
  rw [if_neg (by rw [hbn]; exact fun he => hne he.symm)] at hc
  cases hc

/-! ### What is returned was checked -/

theorem expandAll_right {L : Lib} : ∀ (n : Nat) (h d data : List Nat), Bytes d → expandAll L (readSubs n h) d = .ok (some data) → Spec.PiecesRight n h d := by
  intro n
  induction n with
  | zero => intro h d data _ _; trivial
  | succ n ih =>
    intro h d data hb he
    rw [readSubs, expandAll] at he
    split at he
    case isFalse => cases he
    obtain ⟨a, e1, he⟩ := R.ok_of_bind he
    obtain ⟨rest, e2, he⟩ := R.ok_of_bind he
    cases rest with
    | none => cases a <;> cases he
    | some rest =>
      refine ⟨?_, ih _ _ rest (hb.drop _) e2⟩
      rw [expandOne] at e1
      split at e1
      · rename_i hm
        rw [memory_spec (hb.take _)] at hm
        exact hm
      · cases e1; cases he

/-- A node that is read from a block of a file has the number it was asked for, and the block holds the right checksums: of its header, and of each piece. -/
theorem C76_returned_checked {L : Lib} {b : Nat} {file : List Nat} {off size : Nat} {n : RNode} (hf : Bytes file) (hs : size ≠ 0)
    (h : fromDisk L b file off size = .ok (some n)) : n.blocknum = b ∧ Spec.Right ((file.drop off).take size) := by
  rw [fromDisk, if_neg hs] at h
  obtain ⟨raw, er, h⟩ := R.ok_of_bind h
  have eraw : raw = (file.drop off).take size := by
    rw [readBlock] at er
    split at er
    · cases er
      rw [pread, List.take_take]
      congr 1
      unfold roundup512; omega
    · cases er
  have hraw : Bytes raw := by rw [eraw]; exact (hf.drop _).take _
  rw [← eraw]
  clear er eraw hs
  rw [decodeBlock] at h
  split at h
  · cases h
  split at h
  · cases h
  dsimp only at h
  split at h
  · cases h
  split at h
  case isFalse => cases h
  obtain ⟨buf, eu, h⟩ := R.ok_of_bind h
  cases buf with
  | none => cases h
  | some buf =>
    dsimp only at h
    split at h
    case isFalse => cases h
    split at h
    case isFalse => cases h
    constructor
    · clear eu
      unfold fromBuf at h
      obtain ⟨⟨_, r1⟩, e1, h⟩ := R.ok_of_bind h
      dsimp only at h
      split at h
      case isFalse => cases h
      obtain ⟨⟨_, r2⟩, e2, h⟩ := R.ok_of_bind h
      dsimp only at h
      split at h
      case isFalse => cases h
      obtain ⟨⟨_, r3⟩, e3, h⟩ := R.ok_of_bind h
      obtain ⟨⟨_, r4⟩, e4, h⟩ := R.ok_of_bind h
      obtain ⟨⟨_, r5⟩, e5, h⟩ := R.ok_of_bind h
      obtain ⟨⟨_, r6⟩, e6, h⟩ := R.ok_of_bind h
      obtain ⟨⟨_, r7⟩, e7, h⟩ := R.ok_of_bind h
      obtain ⟨⟨bn, r8⟩, e8, h⟩ := R.ok_of_bind h
      dsimp only at h
      split at h
      case isFalse => cases h
      rename_i hbn
      obtain ⟨⟨_, r9⟩, e9, h⟩ := R.ok_of_bind h
      obtain ⟨⟨_, r10⟩, e10, h⟩ := R.ok_of_bind h
      obtain ⟨⟨_, r11⟩, e11, h⟩ := R.ok_of_bind h
      dsimp only at h
      split at h
      case isFalse => cases h
      obtain ⟨es, e12, h⟩ := R.ok_of_bind h
      cases es with
      | none => cases h
      | some es => cases h; exact hbn
    · rw [unpack] at eu
      dsimp only at eu
      split at eu
      case isFalse => cases eu
      split at eu
      case isFalse => cases eu
      split at eu
      case isFalse => cases eu
      split at eu
      case isFalse => cases eu
      rename_i hm
      split at eu
      case isFalse => cases eu
      obtain ⟨data, ed, eu⟩ := R.ok_of_bind eu
      cases data with
      | none => cases eu
      | some data =>
        refine ⟨?_, expandAll_right _ _ _ data (hraw.drop _) ed⟩
        rw [memory_spec (hraw.take _)] at hm
        exact hm

/-! ### Older programs -/

/-- Undo records that a program of version 28 left behind cannot be read: the process stops, for every node, although a start after a crash of such a program goes on
to recovery. -/
theorem C76_version_28_refuted {L : Lib} (hL : L.Ok) (m : Method) {n : RNode} (h : Spec.Ok n) (hv : n.version = 28) {build arena : Nat} (hb : build < 2 ^ 32)
    (ha : arena < 2 ^ 64) (before behind : List Nat) :
    maybeUpgrade true 28 false = .recover ∧
    ∃ block, toDisk L m 28 build arena n = .ok block ∧ fromDisk L n.blocknum (before ++ block ++ behind) before.length block.length = .abort := by
  obtain ⟨block, e, hm, hl, ht, hu⟩ := toDisk_ok hL m h hb ha
  refine ⟨by decide, block, hv ▸ e, ?_⟩
  rw [fromDisk_ok h hm hl ht hu (by omega), hv]
  rfl

/-- After a crash, the logs of programs from 25 to 29 are recovered, and no others. -/
theorem C76_recovered_versions (v : Nat) : (maybeUpgrade true v false = .recover ∨ maybeUpgrade true v false = .asIs) ↔ 25 ≤ v ∧ v ≤ 29 := by
  unfold maybeUpgrade current
  constructor
  · intro h
    by_cases h1 : 29 < v
    · simp [h1] at h
    by_cases h2 : v < 13
    · simp [h1, h2] at h
    by_cases h3 : v = 29
    · omega
    by_cases h4 : 25 ≤ v ∧ v ≤ 29
    · exact h4
    · simp [h1, h2, h3, h4] at h
  · intro h
    by_cases h3 : v = 29
    · right; subst h3; decide
    · left
      rw [if_neg (by decide), if_neg (by omega), if_neg (by omega), if_neg h3, if_neg (by decide), if_pos h]

/-- A node that an older program wrote is read, but once a record is saved in it, it can never be written again: the process stops. -/
theorem C76_old_node_refuted {L : Lib} (hL : L.Ok) (m m' : Method) {n : RNode} (h : Spec.Ok n) (hv : n.version = 25 ∨ n.version = 26 ∨ n.version = 27)
    {build arena build' arena' : Nat} (hb : build < 2 ^ 32) (ha : arena < 2 ^ 64) {r : Rec} (hr : Spec.Good r) (hs : n.bytes + Spec.recSize r ≤ Spec.most)
    (before behind : List Nat) :
    ∃ block n', toDisk L m n.version build arena n = .ok block ∧ fromDisk L n.blocknum (before ++ block ++ behind) before.length block.length = .ok (some n) ∧
      n.save r = .ok n' ∧ toDisk L m' current build' arena' n' = .abort := by
  obtain ⟨block, e, _, _, e2⟩ := C76_comes_back hL m h (by omega) hb ha
  obtain ⟨e3, h3⟩ := save_ok h hr hs
  refine ⟨block, _, e, e2 before behind, e3, ?_⟩
  have hm := h3.most
  unfold Spec.most at hm
  obtain ⟨k, s, ec, _⟩ := choose_ok (total := nodeSize { n with newest := r :: n.newest, bytes := n.bytes + Spec.recSize r } - 20) (by simp only [nodeSize]; omega)
    (by simp only [nodeSize]; dsimp only at hm; omega)
  rw [toDisk, ec, R.bind_ok]
  dsimp only
  have : toBuf current build' arena' { n with newest := r :: n.newest, bytes := n.bytes + Spec.recSize r } = .abort := by
    rw [toBuf, if_neg]
    show n.version ≠ 29
    omega
  rw [this]
  rfl

/-! ### Concrete nodes -/

/-- An insert, the name of a new file, and the log of a child transaction. -/
def recs3 : List Rec :=
  [⟨'r'.toNat, [.pair 7 9, .num 2, .num 40, .num 41]⟩, ⟨'i'.toNat, [.num 5, .bytes [107, 101, 121]]⟩, ⟨'F'.toNat, [.num 5, .bytes [97, 46, 100, 98]]⟩]

def node3 (v : Nat) : RNode := ⟨v, v, 7, 0, 1, 33, 32, 78, recs3⟩

theorem node3_ok {v : Nat} (h : v < 2 ^ 32) : Spec.Ok (node3 v) where
  version := h
  original := h
  parent := (by decide : 7 < 2 ^ 64)
  child := (by decide : 0 < 2 ^ 64)
  seq := (by decide : 1 < 2 ^ 64)
  blocknum := (by decide : 33 < 2 ^ 64)
  prev := (by decide : 32 < 2 ^ 64)
  good := by
    intro r hr
    simp only [node3, recs3, List.mem_cons, List.not_mem_nil, or_false] at hr
    rcases hr with rfl | rfl | rfl
    · exact ⟨[.pair, .u64, .blocknum, .blocknum], by decide, by decide, by decide, by decide, by decide, trivial⟩
    · exact ⟨[.filenum, .bytes], by decide, by decide, by decide, trivial⟩
    · exact ⟨[.filenum, .bytes], by decide, by decide, by decide, trivial⟩
  bytes := by show (78 : Nat) = Spec.total recs3; decide
  most := by show 78 ≤ Spec.most; decide

example {L : Lib} (hL : L.Ok) : ∃ block, toDisk L .quicklz 29 1 4096 (node3 29) = .ok block ∧ block.length % 512 = 0 ∧ 0 < block.length ∧
    ∀ before behind, fromDisk L 33 (before ++ block ++ behind) before.length block.length = .ok (some (node3 29)) :=
  C76_comes_back hL .quicklz (node3_ok (v := 29) (by decide)) (by decide) (by decide) (by decide)

/-- A run with two trips. -/
example {L : Lib} (hL : L.Ok) : ∃ n, Spec.run L (node3 29) [.trip .zlib 1 100 [1, 2] [3], .save ⟨'U'.toNat, [.num 5]⟩, .trip .lzma 1 200 [] [], .save ⟨'n'.toNat, [.bytes [1], .bytes []]⟩] =
    .ok (some n) ∧ n.newest = ⟨'n'.toNat, [.bytes [1], .bytes []]⟩ :: ⟨'U'.toNat, [.num 5]⟩ :: recs3 ∧ n.bytes = 78 + 14 + 9 := by
  refine ⟨_, C76_any_trips hL _ (node3_ok (v := 29) (by decide)) rfl (by decide) ?_ (by decide), rfl, by decide⟩
  intro e he
  simp only [List.mem_cons, List.not_mem_nil, or_false] at he
  rcases he with rfl | rfl | rfl | rfl
  · exact ⟨by decide, by decide⟩
  · exact ⟨[.filenum], by decide, by decide, trivial⟩
  · exact ⟨by decide, by decide⟩
  · exact ⟨[.bytes, .bytes], by decide, by decide, by decide, trivial⟩

example {L : Lib} (hL : L.Ok) : maybeUpgrade true 28 false = .recover ∧
    ∃ block, toDisk L .zlib 28 1 4096 (node3 28) = .ok block ∧ fromDisk L 33 ([] ++ block ++ []) 0 block.length = .abort :=
  C76_version_28_refuted hL .zlib (node3_ok (v := 28) (by decide)) rfl (by decide) (by decide) [] []

example {L : Lib} (hL : L.Ok) : ∃ block n', toDisk L .zlib 27 1 4096 (node3 27) = .ok block ∧ fromDisk L 33 ([] ++ block ++ []) 0 block.length = .ok (some (node3 27)) ∧
    (node3 27).save ⟨'U'.toNat, [.num 5]⟩ = .ok n' ∧ toDisk L .zlib current 1 4096 n' = .abort :=
  C76_old_node_refuted hL .zlib .zlib (node3_ok (v := 27) (by decide)) (by decide) (by decide) (by decide) (r := ⟨'U'.toNat, [.num 5]⟩) ⟨[.filenum], by decide, by decide, trivial⟩ (by decide) [] []

/-- A node of two megabytes is cut in four pieces, one of twenty megabytes in eight. -/
example : choose (2 * 1024 * 1024 + 100) 8 = .ok (4, 524320) := by decide +kernel
example : (choose (20 * 1024 * 1024 + 76) 8) = .ok (8, 2621472) ∧ pieceSizes (20 * 1024 * 1024 + 76) 8 2621472 = [2621472, 2621472, 2621472, 2621472, 2621472, 2621472, 2621472, 2621292] := by
  decide +kernel

/-- Close to two gigabytes the product of size and number does not fit in an `int`. -/
example : choose (2 ^ 31 - 8) 8 = .outside := by decide +kernel

end Verif.Undo
