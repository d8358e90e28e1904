/-!
Model of rollback logs: what a transaction records to be able to undo its actions, in main memory and in rollback nodes.

Modelled: ft/txn/rollback.cc, ft/txn/rollback-apply.cc, ft/txn/rollback_log_node_cache.cc, `toku_apply_rollinclude` of
ft/txn/roll.cc and the generated `toku_logger_save_rollback_*` (ft/logger/logformat.cc:642-703).

Simplifications: a call is one step (it runs under the lock of its transaction, and only the cache of unused nodes is shared
with other transactions); the cachetable is a map from block numbers to nodes; undoing or completing an action succeeds, and
what it does is left open — the model records which actions are undone or completed, in which order.  The list of entries of a
node is a value, newest first (`newest_logentry` and the `prev` links); `oldest_logentry` is its last element.
-/
namespace Verif.Roll

abbrev Blk := Nat
abbrev Tid := Nat

/-- `TXNID_PAIR`. -/
structure Xid where
  parent : Nat
  child : Nat
deriving Repr, DecidableEq

/-- `struct roll_entry`, generated from logformat.cc:85-134: a `rollinclude`, or any other with its size in bytes. -/
inductive Entry (α : Type) where
  | act (a : α) (size : Nat)
  | incl (xid : Xid) (num : Nat) (head tail : Blk)
deriving Repr, DecidableEq

/-- `toku_logger_rollback_fsize`, logformat.cc:733-743 (the size of a `rollinclude`: command, length, a pair of transaction ids, a
count and two block numbers). -/
def Entry.size {α : Type} : Entry α → Nat
  | .act _ n => n
  | .incl .. => 1 + 4 + 16 + 8 + 8 + 8

/-- `struct rollback_log_node`, rollback.h:96-115. -/
structure Node (α : Type) where
  owner : Xid
  seq : Nat
  prev : Blk
  newest : List (Entry α)
  bytes : Nat
deriving Repr, DecidableEq

/-- `rollback_empty_log_init`, rollback.cc:109-127. -/
def Node.unused {α : Type} : Node α := ⟨⟨0, 0⟩, 0, 0, [], 0⟩

/-- `struct txn_roll_info`, txn.h:99-128, with the fields of the transaction that matter here. -/
structure Info where
  xid : Xid
  parent : Option Tid
  num : Nat
  total : Nat
  done : Nat
  raw : Nat
  head : Blk
  tail : Blk
  cur : Blk
deriving Repr, DecidableEq

/-- `class rollback_log_node_cache`, rollback_log_node_cache.h: a ring of block numbers. -/
structure Ring where
  slots : Nat → Blk
  first : Nat
  num : Nat
  max : Nat

/-- The outcome of a call: done, a failed assertion, or the bound on the number of steps was too small. -/
inductive R (β : Type) where
  | ok (b : β)
  | crash
  | more
deriving Repr, DecidableEq

def R.bind {β γ : Type} (x : R β) (f : β → R γ) : R γ :=
  match x with
  | .ok b => f b
  | .crash => .crash
  | .more => .more

instance : Monad R where
  pure := .ok
  bind := R.bind

def ensure (b : Bool) : R Unit := if b then .ok () else .crash

/-- The rollback file (a block number stands for a node or is free), the cache of unused nodes, the size above which a node is
spilled (`write_block_size`), the transactions. -/
structure St (α : Type) where
  nodes : Blk → Option (Node α)
  ring : Ring
  limit : Nat
  txns : Tid → Option Info

variable {α : Type}

def St.setNode (s : St α) (b : Blk) (n : Option (Node α)) : St α := { s with nodes := fun x => if x = b then n else s.nodes x }
def St.setTxn (s : St α) (t : Tid) (i : Option Info) : St α := { s with txns := fun x => if x = t then i else s.txns x }

/-- The transaction handle. -/
def St.txn (s : St α) (t : Tid) : R Info :=
  match s.txns t with
  | some i => .ok i
  | none => .crash

/-- `toku_get_and_pin_rollback_log`, rollback.cc:274-296: reading a node that is not there fails. -/
def St.pin (s : St α) (b : Blk) : R (Node α) :=
  match s.nodes b with
  | some n => .ok n
  | none => .crash

/-- `toku_rollback_verify_contents`, rollback.cc:266-272; `num` is the sequence number plus one. -/
def verify (n : Node α) (xid : Xid) (num : Nat) : R Unit := ensure (n.owner = xid && n.seq + 1 = num)

/-- `give_rollback_log_node`, rollback_log_node_cache.cc:66-90: whether there is room, and the ring afterwards. -/
def Ring.give (r : Ring) (b : Blk) : Bool × Ring :=
  if r.num < r.max then
    let index := r.first + r.num
    let index := if index ≥ r.max then index - r.max else index
    (true, { r with slots := fun i => if i = index then b else r.slots i, num := r.num + 1 })
  else (false, r)

/-- `get_rollback_log_node`, rollback_log_node_cache.cc:95-112: the block number, if any, and the ring afterwards. -/
def Ring.get (r : Ring) : Option Blk × Ring :=
  if r.num > 0 then
    (some (r.slots r.first), { r with num := r.num - 1, first := if r.first + 1 ≥ r.max then 0 else r.first + 1 })
  else (none, r)

/-- `rollback_initialize_for_txn`, rollback.cc:129-144, for the transaction `i`. -/
def Info.fresh (i : Info) (prev : Blk) : Node α := ⟨i.xid, i.num, prev, [], 0⟩

/-- `toku_get_and_pin_rollback_log_for_new_entry`, rollback.cc:298-334.  `fresh` is the block number that `allocate_blocknum` returns
if a node has to be made. -/
def St.pinForNew (s : St α) (t : Tid) (fresh : Blk) : R (St α × Blk) := do
  let i ← s.txn t
  if i.cur ≠ 0 then
    let n ← s.pin i.cur
    verify n i.xid i.num
    return (s, i.cur)
  else
    let (got, ring) := if i.tail = 0 then s.ring.get else (none, s.ring)
    match got with
    | some b =>
      if b ≠ 0 then
        let n ← s.pin b
        ensure (n.owner.parent = 0)
        return (({ s with ring := ring }.setNode b (some (i.fresh i.tail))).setTxn t (some { i with num := i.num + 1, cur := b }), b)
      else
        ensure (fresh ≠ 0)
        return (({ s with ring := ring }.setNode fresh (some (i.fresh i.tail))).setTxn t (some { i with num := i.num + 1, cur := fresh }), fresh)
    | none =>
      ensure (fresh ≠ 0)
      return ((s.setNode fresh (some (i.fresh i.tail))).setTxn t (some { i with num := i.num + 1, cur := fresh }), fresh)

/-- `toku_maybe_spill_rollbacks`, rollback.cc:189-204, for the node `b`. -/
def St.maybeSpill (s : St α) (t : Tid) (b : Blk) : R (St α) := do
  let n ← s.pin b
  if n.bytes > s.limit then
    let i ← s.txn t
    ensure (b = i.cur)
    return s.setTxn t (some { i with head := if i.tail = 0 then i.cur else i.head, tail := i.cur, cur := 0 })
  else return s

/-- `toku_logger_save_rollback_*`, logformat.cc:642-703. -/
def St.save (s : St α) (t : Tid) (e : Entry α) (fresh : Blk) : R (St α) := do
  let (s, b) ← s.pinForNew t fresh
  let n ← s.pin b
  let i ← s.txn t
  let s := (s.setNode b (some { n with newest := e :: n.newest, bytes := n.bytes + e.size })).setTxn t (some { i with raw := i.raw + e.size, total := i.total + 1 })
  s.maybeSpill t b

/-- `num_rollentries_processed++` in `toku_commit_rollback_item` and `toku_abort_rollback_item`, rollback-apply.cc:52-72. -/
def St.count (s : St α) (t : Tid) : R (St α) := do
  let i ← s.txn t
  return s.setTxn t (some { i with done := i.done + 1 })

/-- `toku_rollback_log_unpin_and_remove`, rollback.cc:48-59. -/
def St.remove (s : St α) (b : Blk) : St α := s.setNode b none

mutual
/-- The loop over the entries of a node, rollback-apply.cc:108-112 and roll.cc:472-476: the actions, in the order in which they are
undone (or completed). -/
def items : Nat → St α → Tid → List (Entry α) → R (St α × List α)
  | 0, _, _, _ => .more
  | _ + 1, s, _, [] => .ok (s, [])
  | n + 1, s, t, .act a _ :: l => do
    let s ← s.count t
    let (s, as) ← items n s t l
    return (s, a :: as)
  | n + 1, s, t, .incl xid num head tail :: l => do
    ensure (tail ≠ 0)
    let (s, as) ← included n s t xid head tail num false
    let s ← s.count t
    let (s, bs) ← items n s t l
    return (s, as ++ bs)

/-- The loop of `toku_apply_rollinclude`, roll.cc:463-495.  `next` is the node at hand, `last` the sequence number of the one
before it. -/
def included : Nat → St α → Tid → Xid → Blk → Blk → Nat → Bool → R (St α × List α)
  | 0, _, _, _, _, _, _, _ => .more
  | n + 1, s, t, xid, head, next, last, found =>
    if next = 0 then .ok (s, [])
    else do
      let log ← s.pin next
      verify log xid last
      let (s, as) ← items n s t log.newest
      let here : Bool := next = head
      ensure (!here || (!found && log.seq = 0))
      let found := found || here
      ensure (!found || log.prev = 0)
      let (s, bs) ← included n (s.remove next) t xid (if found then log.prev else head) log.prev log.seq found
      return (s, as ++ bs)
end

/-- Give the node back to the cache, or remove it, rollback-apply.cc:133-144, rollback_log_node_cache.cc:84-89. -/
def St.giveOrRemove (s : St α) (b : Blk) : St α :=
  let (given, ring) := s.ring.give b
  if given then { s with ring := ring }.setNode b (some .unused) else s.remove b

/-- The loop of `apply_txn`, rollback-apply.cc:97-146. -/
def applyLoop : Nat → St α → Tid → Blk → Nat → Bool → Bool → R (St α × List α)
  | 0, _, _, _, _, _, _ => .more
  | n + 1, s, t, next, last, isCur, found =>
    if next = 0 then .ok (s, [])
    else do
      let i ← s.txn t
      let log ← s.pin next
      verify log i.xid last
      let (s, as) ← items n s t log.newest
      let i ← s.txn t
      let here : Bool := next = i.head
      ensure (!here || (!found && log.seq = 0))
      let found := found || here
      let i := if isCur then { i with cur := 0 } else { i with tail := log.prev }
      ensure (!found || log.prev = 0)
      let i := if found then { i with head := log.prev } else i
      let s := s.setTxn t (some i)
      let s := if log.prev = 0 then s.giveOrRemove next else s.remove next
      let (s, bs) ← applyLoop n s t log.prev log.seq false found
      return (s, as ++ bs)

/-- `apply_txn`, rollback-apply.cc:81-148. -/
def applyTxn (n : Nat) (s : St α) (t : Tid) : R (St α × List α) := do
  let i ← s.txn t
  applyLoop n s t (if i.cur ≠ 0 then i.cur else i.tail) i.num (i.cur ≠ 0) false

/-- `toku_rollback_commit` for a child, the nodes it has spilled, rollback-apply.cc:160-173. -/
def St.promoteSpilled (s : St α) (t p : Tid) (fresh : Blk) : R (St α) := do
  let i ← s.txn t
  if i.tail ≠ 0 then do
    let num := if i.cur ≠ 0 then i.num - 1 else i.num
    let s ← s.save p (.incl i.xid num i.head i.tail) fresh
    return s.setTxn t (some { i with head := 0, tail := 0 })
  else return s

/-- `toku_rollback_commit` for a child, its current node, rollback-apply.cc:177-224. -/
def St.promoteCurrent (s : St α) (t p : Tid) (fresh : Blk) : R (St α) := do
  let i ← s.txn t
  if i.cur ≠ 0 then do
    let (s, pb) ← s.pinForNew p fresh
    let c ← s.pin i.cur
    verify c i.xid i.num
    let pn ← s.pin pb
    let pi ← s.txn p
    let s := if c.newest = [] then s
      else (s.setNode pb (some { pn with newest := c.newest ++ pn.newest, bytes := pn.bytes + c.bytes })).setTxn p (some { pi with raw := pi.raw + i.raw })
    let s := (s.giveOrRemove i.cur).setTxn t (some { i with cur := 0 })
    s.maybeSpill p pb
  else return s

/-- `toku_rollback_commit` for a child, rollback-apply.cc:155-235. -/
def St.promote (s : St α) (t p : Tid) (fresh1 fresh2 : Blk) : R (St α) := do
  let s ← s.promoteSpilled t p fresh1
  let s ← s.promoteCurrent t p fresh2
  let pi ← s.txn p
  let i ← s.txn t
  return s.setTxn p (some { pi with total := pi.total + i.total })

/-- `toku_txn_complete_txn`, txn.cc:557-560, and the end of the transaction. -/
def St.close (s : St α) (t : Tid) : R (St α) := do
  let i ← s.txn t
  ensure (i.head = 0 && i.tail = 0 && i.cur = 0)
  return s.setTxn t none

/-- `toku_rollback_commit`, rollback-apply.cc:152-238, and closing the transaction: the completed actions. -/
def St.commit (n : Nat) (s : St α) (t : Tid) (fresh1 fresh2 : Blk) : R (St α × List α) := do
  let i ← s.txn t
  match i.parent with
  | some p => do
    let s ← s.promote t p fresh1 fresh2
    let s ← s.close t
    return (s, [])
  | none => do
    let (s, as) ← applyTxn n s t
    let s ← s.close t
    return (s, as)

/-- `toku_rollback_abort`, rollback-apply.cc:240-245, and closing the transaction: the undone actions. -/
def St.abort (n : Nat) (s : St α) (t : Tid) : R (St α × List α) := do
  let (s, as) ← applyTxn n s t
  let s ← s.close t
  return (s, as)

/-- `toku_txn_create_txn`, txn.cc:219-227. -/
def St.begin (s : St α) (t : Tid) (xid : Xid) (parent : Option Tid) : St α := s.setTxn t (some ⟨xid, parent, 0, 0, 0, 0, 0, 0, 0⟩)

/-- An empty rollback file, and a cache for `max` unused nodes. -/
def St.init (limit max : Nat) : St α := ⟨fun _ => none, ⟨fun _ => 0, 0, 0, max⟩, limit, fun _ => none⟩

end Verif.Roll
