import Verif.Log.Cursor
import Verif.Ser.BufSpec
import Verif.Ser.XSpec
/-!
Specification of log records: which values a field of each type may hold, and what the record written with a timestamp of
zero contains.
-/
namespace Verif.Log.Spec
open Verif.Log Verif.Ser

/-- The value belongs to the C type of the field; an XA identifier has a 32-bit format number, lengths of at most 64 and that
many bytes. -/
def Fits : Ty → Val → Prop
  | .u8, .num v => v < 2 ^ 8
  | .u32, .num v => v < 2 ^ 32
  | .filenum, .num v => v < 2 ^ 32
  | .u64, .num v => v < 2 ^ 64
  | .stamp, .num v => v < 2 ^ 64
  | .blocknum, .num v => v < 2 ^ 64
  | .lsn, .num v => v < 2 ^ 64
  | .txnid, .num v => v < 2 ^ 64
  | .bool, .bool _ => True
  | .pair, .pair p c => p < 2 ^ 64 ∧ c < 2 ^ 64
  | .xid, .xid x => (0 ≤ x.formatID ∧ x.formatID < 2 ^ 32) ∧ (0 ≤ x.gtrid ∧ x.gtrid ≤ 64) ∧ (0 ≤ x.bqual ∧ x.bqual ≤ 64) ∧
      (x.data.length : Int) = x.gtrid + x.bqual ∧ ∀ b ∈ x.data, b < 2 ^ 8
  | .bytes, .bytes bs => bs.length < 2 ^ 30 ∧ ∀ b ∈ bs, b < 2 ^ 8
  | .filenums, .nums ns => ns.length < 2 ^ 28 ∧ ∀ n ∈ ns, n < 2 ^ 32
  | _, _ => False

instance (t : Ty) (v : Val) : Decidable (Fits t v) := by
  cases t <;> cases v <;> (dsimp only [Fits]; infer_instance)

/-- One value per field. -/
def FitsAll : List Ty → List Val → Prop
  | [], [] => True
  | t :: ts, v :: vs => Fits t v ∧ FitsAll ts vs
  | _, _ => False

/-- A record that the caller may log. -/
def Good (e : Entry) : Prop := ∃ tys, fieldsOf e.cmd = some tys ∧ e.lsn < 2 ^ 64 ∧ FitsAll tys e.vals

/-- A field as it is in the log: a timestamp of zero stands for the time at which the record is written. -/
def stamp (now : Nat) : Ty → Val → Val
  | .stamp, .num 0 => .num now
  | _, v => v

def stamped (now : Nat) : List Ty → List Val → List Val
  | t :: ts, v :: vs => stamp now t v :: stamped now ts vs
  | _, _ => []

/-- The record as it is in the log. -/
def logged (now : Nat) (e : Entry) : Entry := { e with vals := stamped now ((fieldsOf e.cmd).getD []) e.vals }

/-! ### The bytes of a record -/

open Verif.Ser.BufSpec

/-- A number of 64 bits: the high 32 bits, then the low 32 bits, each least significant byte first. -/
def wide (v : Nat) : List Nat := digits 4 (v / 2 ^ 32) ++ digits 4 (v % 2 ^ 32)

/-- The bytes `bs` stand for the value `v` of a field of type `t`.  Any byte but zero stands for `true`. -/
def Shows : Ty → Val → List Nat → Prop
  | .u8, .num v, bs => bs = [v]
  | .u32, .num v, bs => bs = digits 4 v
  | .filenum, .num v, bs => bs = digits 4 v
  | .u64, .num v, bs => bs = wide v
  | .stamp, .num v, bs => bs = wide v
  | .blocknum, .num v, bs => bs = wide v
  | .lsn, .num v, bs => bs = wide v
  | .txnid, .num v, bs => bs = wide v
  | .bool, .bool b, bs => ∃ c, bs = [c] ∧ (b = true ↔ c ≠ 0)
  | .pair, .pair p c, bs => bs = wide p ++ wide c
  | .xid, .xid x, bs => ∃ f g b : Nat, x = ⟨f, g, b, x.data⟩ ∧ x.data.length = g + b ∧ bs = digits 4 f ++ [g, b] ++ x.data
  | .bytes, .bytes s, bs => bs = digits 4 s.length ++ s
  | .filenums, .nums ns, bs => bs = digits 4 ns.length ++ ns.flatMap (digits 4)
  | _, _, _ => False

def ShowsAll : List Ty → List Val → List Nat → Prop
  | [], [], bs => bs = []
  | t :: ts, v :: vs, bs => ∃ a b, bs = a ++ b ∧ Shows t v a ∧ ShowsAll ts vs b
  | _, _, _ => False

/-- The bytes `bs` are a record holding `e`, whole and undamaged as far as can be told: the total length, the command, the
sequence number, the fields, the checksum of all that, and the total length again. -/
def Sealed (e : Entry) (bs : List Nat) : Prop :=
  ∃ tys fs, fieldsOf e.cmd = some tys ∧ ShowsAll tys e.vals fs ∧
    bs = digits 4 bs.length ++ [e.cmd] ++ wide e.lsn ++ fs ++ digits 4 (XSpec.checksum (digits 4 bs.length ++ [e.cmd] ++ wide e.lsn ++ fs)) ++ digits 4 bs.length

/-! ### Log files -/

/-- What one log file holds: a header and records, each with its bytes; or the first few bytes of a header. -/
inductive Seg where
  | full (version : Nat) (recs : List (Entry × List Nat))
  | torn (version n : Nat)

def Seg.recs : Seg → List (Entry × List Nat)
  | .full _ rs => rs
  | .torn _ _ => []

def Seg.bytes : Seg → List Nat
  | .full v rs => header v ++ rs.flatMap (·.2)
  | .torn v n => (header v).take n

/-- A record and its bytes, as some earlier run wrote them. -/
def Written (r : Entry × List Nat) : Prop :=
  ∃ now e, now < 2 ^ 64 ∧ Good e ∧ write now e = .ok r.2 ∧ r.1 = logged now e ∧ r.2.length < 2 ^ 31

/-- The file was written by a supported version; a torn header is shorter than 12 bytes. -/
def Seg.Ok : Seg → Prop
  | .full v rs => 13 ≤ v ∧ v ≤ 29 ∧ ∀ r ∈ rs, Written r
  | .torn _ n => n < 12

/-- All entries of a log, in order. -/
def entries (segs : List Seg) : List Entry := (segs.flatMap Seg.recs).map (·.1)

/-- Each sequence number is one more than the one before. -/
def Consecutive : List Entry → Prop
  | a :: b :: l => b.lsn = a.lsn + 1 ∧ Consecutive (b :: l)
  | _ => True

/-! ### Walking over the entries -/

inductive Move where
  | next
  | prev
deriving Repr, DecidableEq

/-- Nowhere, or at entry number `i`; `fresh` tells that the walk has just begun there. -/
inductive Place where
  | out
  | on (i : Nat) (fresh : Option Move)
deriving Repr, DecidableEq

/-- One step: from nowhere `next` goes to the first entry and `prev` to the last; from an entry they go to its neighbour; past
either end there is nothing, and the walk is nowhere again. -/
def Place.move (es : List Entry) : Place → Move → Place
  | .out, .next => if es.length = 0 then .out else .on 0 (some .next)
  | .out, .prev => if es.length = 0 then .out else .on (es.length - 1) (some .prev)
  | .on i _, .next => if i + 1 < es.length then .on (i + 1) none else .out
  | .on i _, .prev => if i = 0 then .out else .on (i - 1) none

/-- The entry at a place. -/
def Place.entry (es : List Entry) : Place → Option Entry
  | .out => none
  | .on i _ => es[i]?

/-- The second step of a walk turns around. -/
def Place.sharp : Place → Move → Bool
  | .on _ (some .next), .prev => true
  | .on _ (some .prev), .next => true
  | _, _ => false

/-- No sharp turn happens on the way. -/
def smooth (es : List Entry) : Place → List Move → Bool
  | _, [] => true
  | p, m :: ms => !p.sharp m && smooth es (p.move es m) ms

/-- The answers to a sequence of steps. -/
def answers (es : List Entry) : Place → List Move → List (Option Entry)
  | _, [] => []
  | p, m :: ms => (p.move es m).entry es :: answers es (p.move es m) ms

/-- How a call tells its answer: the entry, or that there is none. -/
def told : Option Entry → Ret
  | some e => .ok e
  | none => .notfound

end Verif.Log.Spec

namespace Verif.Log
open Spec

/-- One call. -/
def Cur.step (c : Cur) : Move → Cur × Ret
  | .next => c.next
  | .prev => c.prev

/-- A sequence of calls. -/
def Cur.steps : Cur → List Move → Cur × List Ret
  | c, [] => (c, [])
  | c, m :: ms =>
    let (c, r) := c.step m
    let (c, rs) := c.steps ms
    (c, r :: rs)

end Verif.Log
