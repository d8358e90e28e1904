import Verif.Logger.Model
import Verif.Log.Spec
/-!
Specification of the log as its callers see it: which calls are made, the records that were logged, and what a crash may leave
of the log files.
-/
namespace Verif.Logger.Spec
open Verif.Logger Verif.Log Verif.Log.Spec

/-- What a caller may log: fields that belong to the types of the record, and at most 2^29 bytes in all. -/
def JobOk (j : Job) : Prop :=
  j.now < 2 ^ 64 ∧ ∀ lsn < 2 ^ 64, Good ⟨j.cmd, lsn, j.vals⟩ ∧ ∀ bs, write j.now ⟨j.cmd, lsn, j.vals⟩ = .ok bs → bs.length ≤ 2 ^ 29

def CallOk : Call → Prop
  | .log j _ => JobOk j
  | _ => True

/-- A thread makes a call or runs on. -/
inductive Act where
  | call (c : Call)
  | go

def act (cfg : Cfg) (s : St) (t : Tid) : Act → Res
  | .call c => s.call t c
  | .go => step cfg s t

def Act.Ok : Act → Prop
  | .call c => CallOk c
  | .go => True

/-- The executions: from the state `s0`, any threads act in any order; the state reached and what was seen on the way.  The
sequence numbers, and the next one, fit in 64 bits. -/
inductive Run (cfg : Cfg) (s0 : St) : St → List Event → Prop
  | start : Run cfg s0 s0 []
  | step {s s' : St} {evs : List Event} {t : Tid} {a : Act} {ev : Option Event} :
    Run cfg s0 s evs → a.Ok → act cfg s t a = .ok s' ev → s'.lsn + 1 < 2 ^ 64 → Run cfg s0 s' (evs ++ ev.toList)

/-- The record that an event put into the log, with its bytes. -/
def Event.rec? : Event → Option (Entry × List Nat)
  | .put _ j lsn bs => some (logged j.now ⟨j.cmd, lsn, j.vals⟩, bs)
  | _ => none

/-- The records logged, in the order of their being logged. -/
def recs (evs : List Event) : List (Entry × List Nat) := evs.filterMap Event.rec?

/-- What a crash may leave of a file: the bytes that were there at the last fsync, and after them anything; nothing is lost of a
file that was not written to since. -/
def Leaves (f : File) (b : List Nat) : Prop := f.bytes.take f.synced <+: b ∧ (f.synced = f.bytes.length → b = f.bytes)

inductive LeavesAll : List File → List (List Nat) → Prop
  | nil : LeavesAll [] []
  | cons {f : File} {b : List Nat} {fs : List File} {bs : List (List Nat)} : Leaves f b → LeavesAll fs bs → LeavesAll (f :: fs) (b :: bs)

/-- The record is in the log files `img`: one of them begins with a header and whole records, of which it is the last. -/
def Survives (img : List (List Nat)) (r : Entry × List Nat) : Prop :=
  ∃ b ∈ img, ∃ rs : List (Entry × List Nat), (∀ x ∈ rs, Written x) ∧ Seg.bytes (.full logVersion (rs ++ [r])) <+: b

/-- Somebody asked for the log to be trimmed up to a number above `n`. -/
def TrimmedAbove (evs : List Event) (n : Nat) : Prop := ∃ u l, Event.call u (.trim l) ∈ evs ∧ n < l

/-- The record logged under the number `n`, if any, is on disk for good: whatever a crash leaves of the files, the record is
there, unless the log was trimmed above it. -/
def Durable (s : St) (evs : List Event) (n : Nat) : Prop :=
  ∀ r ∈ recs evs, r.1.lsn = n → ∀ img, LeavesAll s.files img → Survives img r ∨ TrimmedAbove evs n

/-- The files found when the log is opened: all on disk, and none has records above the given number. -/
def OldOk (old : List File) (lsn : Nat) : Prop := ∀ f ∈ old, f.synced = f.bytes.length ∧ f.info ≤ lsn

end Verif.Logger.Spec
