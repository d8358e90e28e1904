import Verif.Undo.Model
import Verif.Log.Spec
import Verif.Ser.XSpec
/-!
Specification: which undo records and nodes a program may have in memory, and what a transaction expects of them.
-/
namespace Verif.Undo.Spec
open Verif.Undo Verif.Log Verif.Ser Verif.Node

/-- A record that may be saved: a known command, one value of the right type per field. -/
def Good (r : Rec) : Prop := ∃ tys, undoFields r.cmd = some tys ∧ Verif.Log.Spec.FitsAll tys r.vals

/-- The bytes a field takes. -/
def width : Ty → Val → Nat
  | .filenum, _ => 4
  | .u64, _ => 8
  | .blocknum, _ => 8
  | .bool, _ => 1
  | .pair, _ => 16
  | .bytes, .bytes bs => 4 + bs.length
  | .filenums, .nums ns => 4 + 4 * ns.length
  | _, _ => 0

def widths : List Ty → List Val → Nat
  | t :: ts, v :: vs => width t v + widths ts vs
  | _, _ => 0

/-- The bytes a record takes: a length, a command, the fields. -/
def recSize (r : Rec) : Nat := 5 + widths ((undoFields r.cmd).getD []) r.vals

def total (rs : List Rec) : Nat := (rs.map recSize).sum

/-- The largest number of bytes of records in a node that the theorems cover: a kilobyte less than two gigabytes. -/
def most : Nat := 2 ^ 31 - 1024

/-- A node in memory: numbers of the right size, good records, and their size. -/
structure Ok (n : RNode) : Prop where
  version : n.version < 2 ^ 32
  original : n.original < 2 ^ 32
  parent : n.parent < 2 ^ 64
  child : n.child < 2 ^ 64
  seq : n.seq < 2 ^ 64
  blocknum : n.blocknum < 2 ^ 64
  prev : n.prev < 2 ^ 64
  good : ∀ r ∈ n.newest, Good r
  bytes : n.bytes = total n.newest
  most : n.bytes ≤ most

/-- What happens to a node while a transaction runs: a record is saved, or the node leaves memory and comes back.  It is written with some compression
method, some number for its arena, to some place of a file with anything before and behind; a node that belongs to no transaction is not written. -/
inductive Event where
  | save (r : Rec)
  | trip (m : Method) (build arena : Nat) (before behind : List Nat)

/-- `toku_rollback_flush_callback` and `toku_rollback_fetch_callback`, ft/txn/rollback-ct-callbacks.cc:83-165, one after the other: written by a program of version
`prog`, read by this one.  The block table gives size 0 for a node that was not written. -/
def trip (L : Lib) (prog : Nat) (m : Method) (build arena : Nat) (before behind : List Nat) (n : RNode) : R (Option RNode) :=
  if n.parent = 0 then fromDisk L n.blocknum (before ++ behind) before.length 0
  else do
    let block ← toDisk L m prog build arena n
    fromDisk L n.blocknum (before ++ block ++ behind) before.length block.length

def run (L : Lib) (n : RNode) : List Event → R (Option RNode)
  | [] => .ok (some n)
  | .save r :: es => do
    let n ← n.save r
    run L n es
  | .trip m build arena before behind :: es => do
    match ← trip L current m build arena before behind n with
    | none => pure none
    | some n => run L n es

/-- The records saved, newest first. -/
def saved : List Event → List Rec
  | [] => []
  | .save r :: es => saved es ++ [r]
  | .trip .. :: es => saved es

/-- The build numbers and the arena sizes have the size of their C types. -/
def Numbers : Event → Prop
  | .save r => Good r
  | .trip _ build arena _ _ => build < 2 ^ 32 ∧ arena < 2 ^ 64

/-! ### Blocks whose checksums are right -/

/-- Of each of the `n` pieces that the header `h` describes (12 bytes each: size, size when expanded, checksum), one behind the other from `d` on, the
checksum is the stored one. -/
def PiecesRight : Nat → List Nat → List Nat → Prop
  | 0, _, _ => True
  | n + 1, h, d => XSpec.checksum (d.take (le (h.take 4))) = le ((h.drop 8).take 4) ∧ PiecesRight n (h.drop 12) (d.drop (le (h.take 4)))

/-- The number of pieces is behind the first 20 bytes; behind the header of the pieces is the checksum of everything before. -/
def Right (raw : List Nat) : Prop :=
  let n := le ((raw.drop 20).take 4)
  XSpec.checksum (raw.take (24 + n * 12)) = le ((raw.drop (24 + n * 12)).take 4) ∧ PiecesRight n (raw.drop 24) (raw.drop (24 + n * 12 + 4))

end Verif.Undo.Spec
