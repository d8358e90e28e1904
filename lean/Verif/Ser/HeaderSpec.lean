import Verif.Ser.Header
import Verif.Ser.XSpec
/-!
Histories of a dictionary file as far as its header is concerned: checkpoints, crashes between and in the middle of header
writes, and reopenings.
-/
namespace Verif.Ser.HeaderSpec
open Verif.Ser

/-- The fields hold values of their C types; the block table has a place. -/
structure Valid (h : Header) : Prop where
  u64 : h.count < 2 ^ 64 ∧ h.lsn < 2 ^ 64 ∧ h.root < 2 ^ 64 ∧ h.timeCreated < 2 ^ 64 ∧ h.timeModified < 2 ^ 64 ∧ h.xidCreated < 2 ^ 64 ∧ h.timeVerified < 2 ^ 64 ∧
    h.numRows < 2 ^ 64 ∧ h.numBytes < 2 ^ 64 ∧ h.optimizeBegin < 2 ^ 64 ∧ h.optimizeEnd < 2 ^ 64 ∧ h.optimizeMsn < 2 ^ 64 ∧ h.upgradeMsn < 2 ^ 64 ∧ h.maxMsn < 2 ^ 64 ∧ h.logicalRows < 2 ^ 64
  u32 : h.buildId < 2 ^ 32 ∧ h.nodesize < 2 ^ 32 ∧ h.flags < 2 ^ 32 ∧ h.versionOriginal < 2 ^ 32 ∧ h.buildIdOriginal < 2 ^ 32 ∧ h.basementSize < 2 ^ 32 ∧ h.optimizeCount < 2 ^ 32 ∧ h.fanout < 2 ^ 32
  u8 : h.compression < 256
  table : 0 < h.transAddr ∧ h.transAddr < 2 ^ 63 ∧ 0 < h.transSize ∧ h.transSize < 2 ^ 63

/-- What a crash in the middle of replacing `old` by `new` may leave: every byte is the old one, the new one, or (past the old end)
a zero.  Files grow by whole sectors. -/
structure Torn (old new s : List Nat) : Prop where
  sectors : s.length % 512 = 0
  longer : old.length ≤ s.length
  shorter : s.length ≤ new.length
  each : ∀ (i b : Nat), s[i]? = some b → old[i]? = some b ∨ new[i]? = some b ∨ (old[i]? = none ∧ b = 0)

/-- The length a header says it has: the big-endian number at offset 16. -/
def sizeField (s : List Nat) : Nat :=
  match (s.drop 16).take 4 with
  | [a, b, c, d] => ((a * 256 + b) * 256 + c) * 256 + d
  | _ => 0

/-- The last four bytes are the checksum of the others. -/
def Checked (b : List Nat) : Prop := XSpec.checksum (b.take (b.length - 4)) = le (b.drop (b.length - 4))

/-- The checksum does its work: if a mixture of old and new bytes has a matching checksum, then it is not a mixture. -/
def Noticed (old new s : List Nat) : Prop := Checked (s.take (sizeField s)) → s.take (sizeField s) = old.take (sizeField s) ∨ s.take (sizeField s) = new.take (sizeField s)

/-- A crash between the states `f` and `f'` of the file. -/
structure Interrupted (f f' t : File) : Prop where
  torn0 : Torn f.s0 f'.s0 t.s0
  torn1 : Torn f.s1 f'.s1 t.s1
  noticed0 : Noticed f.s0 f'.s0 t.s0
  noticed1 : Noticed f.s1 f'.s1 t.s1

/-- The bytes of the version number in a place are those of a version up to 29, or not written. -/
def KnownVersion (s : List Nat) : Prop := ∀ (i b : Nat), s[i]? = some b → (8 ≤ i → i < 11 → b = 0) ∧ (i = 11 → b ≤ 29)

/-- A place holds a header that can be used. -/
def Holds (s : List Nat) (g : Found) : Prop := readSlot s = .ok (.ok g)

/-- A file left by an earlier run (perhaps of an earlier version of the program): each header is in its place and can be parsed, and
if there are two then they are of consecutive checkpoints. -/
structure Existing (f : File) : Prop where
  bytes : (∀ b ∈ f.s0, b < 256) ∧ ∀ b ∈ f.s1, b < 256
  sectors : f.s0.length % 512 = 0 ∧ f.s1.length % 512 = 0
  v0 : KnownVersion f.s0
  v1 : KnownVersion f.s1
  p0 : ∀ g, Holds f.s0 g → g.count % 2 = 1 ∧ ∃ h, parseHeader g.version g.bytes = .ok (.ok h) ∧ h.count = g.count ∧ h.lsn = g.lsn
  p1 : ∀ g, Holds f.s1 g → g.count % 2 = 0 ∧ 0 < g.count ∧ ∃ h, parseHeader g.version g.bytes = .ok (.ok h) ∧ h.count = g.count ∧ h.lsn = g.lsn
  two : ∀ g0 g1, Holds f.s0 g0 → Holds f.s1 g1 → (g0.count = g1.count + 1 ∧ g1.version ≤ g0.version) ∨ (g1.count = g0.count + 1 ∧ g0.version ≤ g1.version)

/-- The state of a dictionary: open, with the header in memory, or not open. -/
inductive State where
  | opened (f : File) (h : Header)
  | closed (f : File)

inductive Reach : State → Prop
  /-- A new dictionary: nothing but zeros where the headers will be (`ft_header_create`, ft/ft.cc:366-398). -/
  | fresh (f : File) (h : Header) : (∀ b ∈ f.s0, b = 0) → (∀ b ∈ f.s1, b = 0) → f.s0.length % 512 = 0 → f.s1.length % 512 = 0 → h.count = 0 → Reach (.opened f h)
  | existing (f : File) : Existing f → Reach (.closed f)
  /-- A checkpoint (or close) writes the next header (`ft_checkpoint`, ft/ft.cc:183-211). -/
  | checkpoint (f f' : File) (h h' : Header) : Reach (.opened f h) → Valid h' → h'.count = h.count + 1 → writeHeader f h' = .ok f' → Reach (.opened f' h')
  | stop (f : File) (h : Header) : Reach (.opened f h) → Reach (.closed f)
  | crash (f f' t : File) (h h' : Header) : Reach (.opened f h) → Valid h' → h'.count = h.count + 1 → writeHeader f h' = .ok f' → Interrupted f f' t → Reach (.closed t)
  | open (f : File) (h : Header) (max : Nat) : Reach (.closed f) → readHeader max f = .ok (.ok h) → Reach (.opened f h)

end Verif.Ser.HeaderSpec
