import Verif.Sort.Model
import Verif.Tree.Model

/-!
The comparisons with which buffered messages are sorted.  The code sorts offsets into a message buffer and looks up the messages at two
offsets to compare them; here the messages themselves are sorted.
-/
namespace Verif.Sort
open Verif.Tree
variable {K B : Type} [LinearOrder K]

/-- The comparison of two sequence numbers, ft/node.cc:201-207 and 1682-1688. -/
def cmpMsn (x y : Nat) : Int := if y < x then 1 else if x < y then -1 else 0

/-- `msg_buffer_offset_msn_cmp`, ft/node.cc:196-209. -/
def cmpByMsn (x y : Ent K B) : Int := cmpMsn x.msg.msn y.msg.msn

/-- `toku_msg_buffer_key_msn_cmp` and `key_msn_cmp`, ft/node.cc:1678-1705: by key, then by sequence number.  Only messages for one key
are compared; the last three cases make the function total. -/
def cmpByKey (x y : Ent K B) : Int :=
  match x.msg.kind, y.msg.kind with
  | .once kx, .once ky => if kx < ky then -1 else if ky < kx then 1 else cmpMsn x.msg.msn y.msg.msn
  | .once _, _ => 1
  | _, .once _ => -1
  | _, _ => cmpMsn x.msg.msn y.msg.msn

end Verif.Sort
