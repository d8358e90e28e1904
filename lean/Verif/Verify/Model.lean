/-!
# Verifying a dictionary

Model of DB->verify_with_progress: toku_verify_ft_with_progress, toku_verify_ftnode and toku_verify_ftnode_internal
(ft/ft-verify.cc:326-519).  A dictionary is a table of nodes by block number.  Keys are natural numbers in their order, for keys
in the order of the comparison function.  Left out: the sorted trees over a buffer's messages and their marks
(ft/ft-verify.cc:134-238, 289-319, 375-403), and the second pass over a node after its messages were moved between them.
-/

namespace Verif.Verify

/-- Kinds of messages; `toAll` stands for those that go to all children. -/
inductive Ty
  | insert
  | insertNoOverwrite
  | deleteAny
  | abortAny
  | commitAny
  | update
  | toAll
deriving DecidableEq, Repr

structure Msg where
  key : Nat
  msn : Nat
  ty : Ty
deriving DecidableEq, Repr

/-- A child of an inner node with the messages waiting for it, or a part of a leaf with its keys. -/
structure Part where
  child : Nat
  msgs : List Msg
  keys : List Nat
deriving DecidableEq, Repr

structure Node where
  height : Nat
  msn : Nat
  pivots : List Nat
  parts : List Part
deriving DecidableEq, Repr

/-- The parts with the pivots to their left and right (ft/ft-verify.cc:370-371, 480-481). -/
def segs (lo hi : Option Nat) : List Nat → List Part → List (Option Nat × Option Nat × Part)
  | p :: ps, x :: y :: xs => (lo, some p, x) :: segs (some p) hi ps (y :: xs)
  | _, [x] => [(lo, hi, x)]
  | _, _ => []

/-- `lo < k ≤ hi` as in ft/ft-verify.cc:356-366, 410-417. -/
def inB (lo hi : Option Nat) (k : Nat) : Bool :=
  (match lo with | some l => decide (l < k) | none => true) && (match hi with | some u => decide (k ≤ u) | none => true)

/-- Adjacent keys in order, ft/ft-verify.cc:350-354, 418-422. -/
def ascB : List Nat → Bool
  | a :: b :: l => decide (a < b) && ascB (b :: l)
  | _ => true

/-- The kinds whose keys are compared with the pivots, ft/ft-verify.cc:74-80. -/
def bounded : Ty → Bool
  | .insert | .insertNoOverwrite | .deleteAny | .abortAny | .commitAny => true
  | _ => false

/-- The messages of one buffer, ft/ft-verify.cc:70-96, 283-288: places, and numbers that go up within the node's. -/
def msgsB (lo hi : Option Nat) (max : Nat) : Nat → List Msg → Bool
  | _, [] => true
  | last, m :: ms =>
    decide (m.msn ≠ 0) && (!bounded m.ty || inB lo hi m.key) && decide (last < m.msn) && decide (m.msn ≤ max) &&
      msgsB lo hi max m.msn ms

/-- What toku_verify_ftnode_internal looks at in one node, ft/ft-verify.cc:343-425; `above`: messages wait in an ancestor's buffer
on this path, the nearest in a node with number `pmsn`. -/
def nodeB (root pmsn : Nat) (above : Bool) (n : Node) (lo hi : Option Nat) : Bool :=
  (!(decide (0 < n.height) && above) || decide (n.msn ≤ pmsn)) && ascB n.pivots && n.pivots.all (inB lo hi) &&
  (segs lo hi n.pivots n.parts).all fun (l, u, x) =>
    if 0 < n.height then msgsB l u n.msn 0 x.msgs
    else (x.keys.isEmpty || decide (n.msn ≤ root)) && x.keys.all (inB l u) && ascB x.keys

/-- The result: 0; TOKUDB_NEEDS_REPAIR; a number the caller's callback returned; a failed assertion. -/
inductive V
  | ok
  | repair
  | user (c : Nat)
  | crash
deriving DecidableEq, Repr

/-- The loop over the children, ft/ft-verify.cc:469-489; `f` verifies one and consumes answers of the callback. -/
def children (kg : Bool) (f : Option Nat × Option Nat × Part → List Nat → V × List Nat) :
    List (Option Nat × Option Nat × Part) → V → List Nat → V × List Nat
  | [], res, cbs => (res, cbs)
  | x :: xs, res, cbs =>
    match f x cbs with
    | (.ok, cbs) => children kg f xs res cbs
    | (.repair, cbs) => if kg then children kg f xs .repair cbs else (.repair, cbs)
    | (r, cbs) => (r, cbs)

/-- The end of a node, ft/ft-verify.cc:491-498: the callback is asked if all was well; `cbs` are its answers to come (0 when
there are none left). -/
def finish (r : V) (cbs : List Nat) : V × List Nat :=
  match r, cbs with
  | .ok, c :: cbs => (if c = 0 then .ok else .user c, cbs)
  | _, _ => (r, cbs)

/-- toku_verify_ftnode, ft/ft-verify.cc:434-499, for the node in block `b` that should have height `h`. -/
def verify (nodes : Nat → Node) (kg : Bool) (root : Nat) :
    Nat → Nat → Bool → Nat → Option Nat → Option Nat → List Nat → V × List Nat
  | 0, pmsn, above, b, lo, hi, cbs =>
    let n := nodes b
    if n.height ≠ 0 then (.crash, cbs)
    else finish (if nodeB root pmsn above n lo hi then .ok else .repair) cbs
  | h + 1, pmsn, above, b, lo, hi, cbs =>
    let n := nodes b
    if n.height ≠ h + 1 then (.crash, cbs)
    else
      let r : V := if nodeB root pmsn above n lo hi then .ok else .repair
      if r = .repair ∧ kg = false then (r, cbs)
      else
        let (r, cbs) := children kg (fun (l, u, x) =>
          verify nodes kg root h (if x.msgs.isEmpty then pmsn else n.msn) (above || !x.msgs.isEmpty) x.child l u)
          (segs lo hi n.pivots n.parts) r cbs
        finish r cbs

/-- toku_verify_ft_with_progress, ft/ft-verify.cc:501-519; `max` is the number of the last message of the dictionary. -/
def verifyFt (nodes : Nat → Node) (kg : Bool) (max root : Nat) (cbs : List Nat) : V :=
  (verify nodes kg max (nodes root).height max false root none none cbs).1

/-- The part of a node that may hold a key: toku_ftnode_which_child, ft/node.cc:1778-1807 (there with a binary search). -/
def route (k : Nat) : List Nat → List Part → Option Part
  | p :: ps, x :: y :: xs => if k ≤ p then some x else route k ps (y :: xs)
  | _, x :: _ => some x
  | _, [] => none

/-- Looking a key up in the leaves. -/
def search (nodes : Nat → Node) (k : Nat) : Nat → Nat → Bool
  | 0, b => match route k (nodes b).pivots (nodes b).parts with
    | some x => x.keys.contains k
    | none => false
  | h + 1, b => match route k (nodes b).pivots (nodes b).parts with
    | some x => search nodes k h x.child
    | none => false

end Verif.Verify
