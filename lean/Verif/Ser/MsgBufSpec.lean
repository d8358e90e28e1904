import Verif.Ser.MsgBuf
/-!
What a message buffer is for: a list of messages, each either not yet seen by a query (fresh) or seen.
-/
namespace Verif.Ser.MsgBufSpec
open Verif.Ser

/-- What happens to a child's buffer: a message arrives; a query applies the `i`-th message to a leaf; the messages queries have applied are filed
under stale. -/
inductive Op where
  | add (m : Msg) (fresh : Bool)
  | apply (i : Nat)
  | settle
deriving Repr, DecidableEq

/-- A message in the buffer, whether it is fresh, and whether it is filed under stale. -/
structure Slot where
  m : Msg
  fresh : Bool
  filed : Bool
deriving Repr, DecidableEq

def step (s : List Slot) : Op → List Slot
  | .add m fresh => s ++ [⟨m, fresh, !fresh⟩]
  | .apply i => match s[i]? with
    | some x => s.set i { x with fresh := false }
    | none => s
  | .settle => s.map fun x => { x with filed := !x.fresh }

/-- The messages after a history, in the order they arrived. -/
def run (ops : List Op) : List Slot := ops.foldl step []

/-- The same history on the code: the calls made, with the offsets the messages were given. -/
def drive (cmp : List Nat → List Nat → Ordering) (s : Bnc × List Nat) : Op → R (Bnc × List Nat)
  | .add m fresh => do
    let (c, off) ← s.1.insert cmp m fresh
    pure (c, s.2 ++ [off])
  | .apply i => match s.2[i]? with
    | some off => do let c ← s.1.applied off; pure (c, s.2)
    | none => .ok s
  | .settle => do let c ← s.1.moveToStale cmp; pure (c, s.2)

/-- A history of calls on an empty buffer. -/
def driveAll (cmp : List Nat → List Nat → Ordering) : Bnc × List Nat → List Op → R (Bnc × List Nat)
  | s, [] => .ok s
  | s, op :: ops => do let s ← drive cmp s op; driveAll cmp s ops

/-- The buffer a history leaves. -/
def bufferAfter (cmp : List Nat → List Nat → Ordering) (ops : List Op) : R Bnc := do
  let s ← driveAll cmp (Bnc.empty, []) ops
  pure s.1

/-- The types for one key. -/
def single : List Nat := [1, 2, 4, 6, 11, 14]

/-- The types for every key, and the type that does nothing. -/
def every : List Nat := [0, 8, 9, 10, 12, 13, 15]

/-- The fields of a message hold values of their C types, its type is one of `enum ft_msg_type`, and it has fewer than 254 transactions. -/
structure Valid (m : Msg) : Prop where
  typ : m.typ ∈ single ∨ m.typ ∈ every
  msn : m.msn < 2 ^ 64
  depth : m.xids.length < 254
  xids : ∀ x ∈ m.xids, x < 2 ^ 64
  key : ∀ x ∈ m.key, x < 256
  val : ∀ x ∈ m.val, x < 256

/-- The order of a tree: by key, then by number. -/
def Before (cmp : List Nat → List Nat → Ordering) (a b : Msg) : Prop := cmp a.key b.key = .lt ∨ cmp a.key b.key = .eq ∧ a.msn < b.msn

/-- The messages a history adds. -/
def added (ops : List Op) : List Msg := ops.filterMap fun | .add m _ => some m | _ => none

/-- What a history must keep to: valid messages, no two for one key with one number, and one gigabyte in all. -/
structure Legal (cmp : List Nat → List Nat → Ordering) (ops : List Op) : Prop where
  valid : ∀ m ∈ added ops, Valid m
  distinct : (added ops).Pairwise fun a b => a.typ ∈ single → b.typ ∈ single → Before cmp a b ∨ Before cmp b a
  size : ((added ops).map fun m => 19 + 8 * m.xids.length + m.key.length + m.val.length).sum ≤ 2 ^ 30

/-- The messages at a list of offsets. -/
def readAll (b : MB) : List Nat → R (List Msg)
  | [] => .ok []
  | o :: os => do
    let m ← b.getMessage o
    let ms ← readAll b os
    pure (m :: ms)

/-- A child's buffer shows the given messages: they come out in the order they arrived, each as fresh or not; the two trees hold the messages for one
key that are not, and that are, filed under stale, in order of key and number; the list of broadcasts holds the others, in the order they arrived. -/
structure Shows (cmp : List Nat → List Nat → Ordering) (c : Bnc) (s : List Slot) : Prop where
  all : ∃ it, c.b.iterate = .ok it ∧ it.map (·.2) = s.map fun x => (x.m, x.fresh)
  count : c.b.n = s.length
  fresh : ∃ l, readAll c.b c.fresh = .ok l ∧ l.Pairwise (Before cmp) ∧ ∀ m, m ∈ l ↔ ∃ x ∈ s, x.m = m ∧ m.typ ∈ single ∧ x.filed = false
  stale : ∃ l, readAll c.b c.stale = .ok l ∧ l.Pairwise (Before cmp) ∧ ∀ m, m ∈ l ↔ ∃ x ∈ s, x.m = m ∧ m.typ ∈ single ∧ x.filed = true
  bcast : readAll c.b c.bcast = .ok ((s.map Slot.m).filter fun m => m.typ ∉ single)

/-- Two buffers with the same messages, of the same freshness, at the same offsets, with the same trees. -/
structure Same (c d : Bnc) : Prop where
  all : d.b.iterate = c.b.iterate
  count : d.b.n = c.b.n
  get : ∀ o, d.b.getMessage o = c.b.getMessage o
  getFresh : ∀ o, d.b.getFreshness o = c.b.getFreshness o
  fresh : d.fresh = c.fresh
  stale : d.stale = c.stale
  bcast : d.bcast = c.bcast

end Verif.Ser.MsgBufSpec
