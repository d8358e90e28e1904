import Verif.Lt.Locktree

/-!
Waiting lock requests and deadlock detection: `wfg` (locktree/wfg.cc) and the parts of `lock_request`
(locktree/lock_request.cc) that run under the request mutex.

Simplifications.  Pending requests and graph nodes are arrays sorted by transaction id; they are lists in that order.
`get_conflicts` also rebalances the tree it searches; only its answer is kept (`search_spec` shows that the stored
locks stay the same).  Keys are values, so `copy_keys` is the identity.  Start times, counters and test callbacks are left
out.  Recursion depth is bounded by an explicit counter; running out of it is a failure (`none`), and is shown not to
happen.
-/
namespace Verif.Lt
variable {cfg : Cfg}

/-! ### The waits-for graph -/

/-- `wfg`: nodes with their edge sets, sorted by id (locktree/wfg.h). -/
abbrev Graph := List (Txn × List Txn)

/-- `wfg::node_exists`, locktree/wfg.cc:90-93. -/
def Graph.has (g : Graph) (t : Txn) : Bool := g.any fun n => n.1 = t

/-- A node's edge set; a missing node has none. -/
def Graph.edges : Graph → Txn → List Txn
  | [], _ => []
  | (u, es) :: g, t => if u = t then es else Graph.edges g t

/-- `wfg::find_create_node`, locktree/wfg.cc:176-187. -/
def Graph.create : Graph → Txn → Graph
  | [], t => [(t, [])]
  | (u, es) :: g, t => if u < t then (u, es) :: Graph.create g t else if u = t then (u, es) :: g else (t, []) :: (u, es) :: g

/-- Add to a node's edge set (`txnid_set::add`, locktree/txnid_set.cc:87-90). -/
def Graph.addTo : Graph → Txn → Txn → Graph
  | [], _, _ => []
  | (u, es) :: g, a, b => if u = a then (u, addTxn es b) :: g else (u, es) :: Graph.addTo g a b

/-- `wfg::add_edge`, locktree/wfg.cc:82-86. -/
def Graph.addEdge (g : Graph) (a b : Txn) : Graph := ((g.create a).create b).addTo a b

/-- The loop over the edges in `wfg::cycle_exists_from_node`, locktree/wfg.cc:99-109; `self` is the recursive call. -/
def cycleEdges (g : Graph) (target : Txn) (self : List Txn → Txn → Option Bool) (path : List Txn) : List Txn → Option Bool
  | [] => some false
  | e :: es =>
    if target = e then some true
    else if g.has e ∧ e ∉ path then
      (self path e).bind fun found => if found then some true else cycleEdges g target self path es
    else cycleEdges g target self path es

/-- `wfg::cycle_exists_from_node`, locktree/wfg.cc:95-112.  `path` lists the nodes whose `visited` flag is set: a
flag is set for the duration of the call only. -/
def cycleFrom (g : Graph) (target : Txn) : Nat → List Txn → Txn → Option Bool
  | 0, _, _ => none
  | fuel + 1, path, head => cycleEdges g target (cycleFrom g target fuel) (head :: path) (g.edges head)

/-- `wfg::cycle_exists_from_txnid`, locktree/wfg.cc:116-123. -/
def cycleExists (g : Graph) (t : Txn) : Option Bool :=
  if g.has t then cycleFrom g t (g.length + 1) [] t else some false

/-! ### Lock requests -/

/-- A pending request: its transaction and range. -/
abbrev Req := Txn × (Pt × Pt)

/-- `find_lock_request`, locktree/lock_request.cc:431-438. -/
def findReq (t : Txn) : List Req → Option (Pt × Pt)
  | [] => none
  | (u, p) :: rest => if u = t then some p else findReq t rest

/-- `insert_into_lock_requests`, locktree/lock_request.cc:441-451: a transaction has at most one pending request. -/
def insertReq (q : Req) : List Req → Option (List Req)
  | [] => some [q]
  | (u, p) :: rest =>
    if u < q.1 then (insertReq q rest).map ((u, p) :: ·)
    else if u = q.1 then none
    else some (q :: (u, p) :: rest)

/-- `remove_from_lock_requests`, locktree/lock_request.cc:453-464. -/
def removeReq (t : Txn) (rs : List Req) : Option (List Req) :=
  if rs.any (·.1 = t) then some (rs.filter (·.1 ≠ t)) else none

/-- `locktree::get_conflicts`, locktree/locktree.cc:429-455: searches the tree only, not the buffer of the
single-transaction optimisation. -/
def getConflicts (lt : LockTable cfg) (t : Txn) (l r : Pt) : Option (List Txn) :=
  (lkrAcquire lt.tree (mkRange l r)).bind fun q =>
  (lkrIterate q.1 q.2 (mkRange l r) collect []).map fun w => conflicting w.2 t

/-- The loop over the conflicts in `lock_request::build_wait_graph`, locktree/lock_request.cc:143-159; `self` is the
recursive call. -/
def waitEdges (lt : LockTable cfg) (reqs : List Req) (self : Graph → Txn → List Txn → Option Graph) :
    Graph → Txn → List Txn → Option Graph
  | g, _, [] => some g
  | g, a, b :: bs =>
    if a = b then none
    else
      match findReq b reqs with
      | none => waitEdges lt reqs self g a bs
      | some p =>
        if g.has b then waitEdges lt reqs self (g.addEdge a b) a bs
        else
          (getConflicts lt b p.1 p.2).bind fun cs =>
          (self (g.addEdge a b) b cs).bind fun g' => waitEdges lt reqs self g' a bs

/-- `lock_request::build_wait_graph`, locktree/lock_request.cc:140-161. -/
def buildWaitGraph (lt : LockTable cfg) (reqs : List Req) : Nat → Graph → Txn → List Txn → Option Graph
  | 0, g, a, cs => waitEdges lt reqs (fun _ _ _ => none) g a cs
  | fuel + 1, g, a, cs => waitEdges lt reqs (buildWaitGraph lt reqs fuel) g a cs

/-- `lock_request::deadlock_exists`, locktree/lock_request.cc:165-174. -/
def deadlockExists (lt : LockTable cfg) (reqs : List Req) (t : Txn) (conflicts : List Txn) : Option Bool :=
  (buildWaitGraph lt reqs (reqs.length + 1) [] t conflicts).bind fun g => cycleExists g t

/-! ### Requests over the lock table -/

/-- The lock table with the pending requests, and the requests that were refused and not yet put among the pending
ones, with the conflicts they were told. -/
structure WSys (cfg : Cfg) where
  sys : Sys cfg
  reqs : List Req
  refused : List (Req × List Txn)

/-- What a step answers. -/
inductive Answer where
  | granted
  | waiting
  | deadlock
  | timedOut
  | none
deriving Repr, DecidableEq

/-- What can happen.  `attempt` and `enqueue` are the two halves of `lock_request::start`
(locktree/lock_request.cc:177-214): the first runs without the request mutex, the second under it. -/
inductive WEv (cfg : Cfg) where
  | attempt (t : Txn) (l r : Pt) (samePtr : Bool)
  | enqueue (t : Txn)
  /-- `lock_request::retry`, locktree/lock_request.cc:310-338, by the waiter or by a releasing thread. -/
  | retry (t : Txn) (samePtr : Bool)
  /-- The wait times out or is killed, locktree/lock_request.cc:236-240, 257-268 and 410-414. -/
  | giveUp (t : Txn)
  /-- Anything else that happens to the lock table. -/
  | other (e : Ev cfg)

/-- No request of `t` is under way. -/
def quiet (s : WSys cfg) (t : Txn) : Bool := (findReq t s.reqs).isNone && !s.refused.any (·.1.1 = t)

def findRefused (t : Txn) : List (Req × List Txn) → Option (Req × List Txn)
  | [] => none
  | q :: rest => if q.1.1 = t then some q else findRefused t rest

/-- A transaction whose request is under way does nothing else. -/
def Ev.actor : Ev cfg → Option Txn
  | .acquire t .. => some t
  | .tryAcquire t .. => some t
  | .note t _ => some t
  | .escalate .. => none
  | .retire t => some t
  | .relStart t => some t
  | .relStep t => some t
  | .relEnd t => some t

/-- One step. -/
def wstep (s : WSys cfg) : WEv cfg → Option (WSys cfg × Answer)
  | .attempt t l r sp =>
    if quiet s t && idle s.sys t then
      (step s.sys (.acquire t l r sp)).map fun q =>
        match q.2 with
        | .notGranted cs => ({ s with sys := q.1, refused := ((t, (l, r)), cs) :: s.refused }, .none)
        | _ => ({ s with sys := q.1 }, .granted)
    else some (s, .none)
  | .enqueue t =>
    match findRefused t s.refused with
    | some (q, cs) =>
      (insertReq q s.reqs).bind fun reqs =>
      (deadlockExists s.sys.lt reqs t cs).bind fun d =>
        let refused := s.refused.filter (·.1.1 ≠ t)
        if d then (removeReq t reqs).map fun reqs => ({ s with reqs := reqs, refused := refused }, .deadlock)
        else some ({ s with reqs := reqs, refused := refused }, .waiting)
    | none => some (s, .none)
  | .retry t sp =>
    match findReq t s.reqs with
    | some p =>
      (step s.sys (.acquire t p.1 p.2 sp)).bind fun q =>
        match q.2 with
        | .granted => (removeReq t s.reqs).map fun reqs => ({ s with sys := q.1, reqs := reqs }, .granted)
        | _ => some ({ s with sys := q.1 }, .waiting)
    | none => some (s, .none)
  | .giveUp t =>
    match findReq t s.reqs with
    | some _ => (removeReq t s.reqs).map fun reqs => ({ s with reqs := reqs }, .timedOut)
    | none => some (s, .none)
  | .other e =>
    match e with
    | .acquire .. => some (s, .none)
    | .tryAcquire .. => some (s, .none)
    | e =>
      if e.actor.all (quiet s) then (step s.sys e).map fun q => ({ s with sys := q.1 }, .none) else some (s, .none)

def wrun (s : WSys cfg) : List (WEv cfg) → Option (WSys cfg × List Answer)
  | [] => some (s, [])
  | e :: es => (wstep s e).bind fun q => (wrun q.1 es).map fun w => (w.1, q.2 :: w.2)

def WSys.init (mem : Nat) : WSys cfg := ⟨.init mem, [], []⟩

end Verif.Lt
