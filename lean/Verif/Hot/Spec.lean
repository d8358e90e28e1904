import Verif.Hot.Model
import Verif.Ule.Lemmas

/-! What an index should show of a row that has versions. -/
namespace Verif.Hot
open Verif.Ule

/-- The value under key `h` of the index rows computed from a source value: the last one computed, if any. -/
def look (g : Gen) (h : Bytes) (v : Option Bytes) : Option Bytes :=
  v.bind fun v => ((g.put v).reverse.find? fun kv => kv.1 = h).map (·.2)

/-- The two callbacks are about the same rows, and no value is too long to be stored. -/
structure Gen.Ok (g : Gen) : Prop where
  agree : ∀ v k, k ∈ g.del v ↔ k ∈ (g.put v).map (·.1)
  short : ∀ v, ∀ kv ∈ g.put v, kv.2.length < 2 ^ 31

/-- The source row without what is being undone: a transaction that is aborting takes its own provisional
version and all those inside it away. -/
def settled (u : Ule) (states : List TxState) : Ule :=
  ⟨u.cux, strip (u.pux.take (states.takeWhile (· ≠ .aborting)).length)⟩

/-- Inside an open transaction: open ones, then finished or finishing ones; an inner one cannot be
prepared.  What is inside an aborting one does not matter. -/
def innerLegal : Bool → List TxState → Prop
  | _, [] => True
  | _, .aborting :: _ => True
  | true, .live :: r => innerLegal true r
  | false, .live :: _ => False
  | _, .preparing :: _ => False
  | _, .committing :: r => innerLegal false r
  | _, .retired :: r => innerLegal false r

/-- The states the transactions of a row's provisional versions can be in, outermost first. -/
def legal : List TxState → Prop
  | [] => True
  | .live :: r => innerLegal true r
  | .aborting :: _ => True
  | _ :: r => ∀ s ∈ r, s = .retired

/-- The reader's decisions go along with the order of the versions (newest first): who accepts a version accepts
the ones below it, and everyone accepts the oldest one. -/
def Closed (acc : Txnid → Bool) : List Txnid → Prop
  | [] => True
  | [x] => x = 0 ∨ acc x = true
  | x :: y :: l => (acc x = true → y = 0 ∨ acc y = true) ∧ Closed acc (y :: l)

/-- The outermost ids of the versions, newest first. -/
def versionIds (u : Ule) : List Txnid := (u.pux.head?.map (·.xid)).toList ++ u.cux.map (·.xid)

/-- A source row as the leaf entry code makes them. -/
structure RowOk (u : Ule) (states : List TxState) : Prop where
  wf : Wf u
  /-- only the oldest version can have been written without a transaction -/
  ids : ∀ r ∈ u.cux.dropLast, r.xid ≠ 0
  len : states.length = u.pux.length
  legal : legal states

/-- The transactions of the row that may still be undone, outermost first. -/
def openChain (u : Ule) (states : List TxState) : Xids :=
  (u.pux.take (states.takeWhile fun s => s = .live ∨ s = .preparing).length).map (·.xid)

end Verif.Hot
