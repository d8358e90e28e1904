/-!
# Work on the parts of a node by several threads

`ft/serialize/workset.h`, and how `ft/serialize/sub_block.cc` and `ft/serialize/ft_node-serialize.cc` use it: the parts of a node are compressed or
decompressed by the calling thread and by threads of a pool; the set of parts is on the stack of the caller.  A step is what a thread does under
the lock of the set, or its work on one part.  The pool is free to give any number of threads up to the number asked for, and those run when
they like.
-/

namespace Verif.Par

/-- Where a thread is in `compress_worker` (sub_block.cc:223-234), `decompress_worker` (329-340) or `serialize_and_compress_worker`
(ft_node-serialize.cc:555-567): about to get work, working on a part, out of work, done. -/
inductive W where
  | idle
  | has (i : Nat)
  | out
  | gone
deriving DecidableEq, Repr

/-- Where the caller is in `compress_all_sub_blocks`, sub_block.cc:236-291 (and 342-392, ft_node-serialize.cc:569-610): starting threads, about to
count them, working, about to look whether all are done, asleep, returned. -/
inductive C where
  | run
  | add
  | work (w : W)
  | join
  | wait
  | ret
deriving DecidableEq, Repr

/-- `struct workset`, workset.h:51-57, the parts done in order, the threads started, the caller; `max` the number of threads asked for. -/
structure St where
  max : Nat
  todo : List Nat
  refs : Int
  done : List Nat
  ths : List W
  caller : C
deriving DecidableEq, Repr

/-- The number of threads asked for, sub_block.cc:251-255, 350-354: one less than cores and parts. -/
def threadsFor (cores parts : Nat) : Nat := (if cores > parts then parts else cores) - 1

/-- `workset_init` and the parts put in, workset.h:59-64, 81-85, sub_block.cc:257-272. -/
def St.init (n max : Nat) : St := ⟨max, List.range n, 1, [], [], .run⟩

/-- `workset_get`, workset.h:96-107. -/
def get (todo : List Nat) : W × List Nat :=
  match todo with
  | [] => (.out, [])
  | i :: rest => (.has i, rest)

/-- `workset_release_ref`, workset.h:117-125: the references left, and whether sleepers are woken. -/
def release (refs : Int) : Int × Bool := (refs - 1, decide (refs - 1 = 0))

/-- A sleeper is woken. -/
def C.wake (c : C) (b : Bool) : C := if b ∧ c = .wait then .join else c

/-- One step of a worker: where it is, the set, the parts done; the last component: whether sleepers are woken. -/
def work (w : W) (todo : List Nat) (refs : Int) (done : List Nat) : Option (W × List Nat × Int × List Nat × Bool) :=
  match w with
  | .idle => some ((get todo).1, (get todo).2, refs, done, false)
  | .has i => some (.idle, todo, refs, done ++ [i], false)
  | .out => some (.gone, todo, (release refs).1, done, (release refs).2)
  | .gone => none

/-- The steps: the caller starts one more thread (`toku_thread_pool_run`, util/threadpool.cc:277-289) or has no more; counts them (`workset_add_ref`,
workset.h:109-115, after they were started); a thread works; the caller works and then waits (`workset_join`, workset.h:127-135). -/
inductive Step : St → St → Prop
  | start (s : St) : s.caller = .run → s.ths.length < s.max → Step s { s with ths := s.ths ++ [.idle] }
  | started (s : St) : s.caller = .run → Step s { s with caller := .add }
  | add (s : St) : s.caller = .add → Step s { s with refs := s.refs + s.ths.length, caller := .work .idle }
  | thread (s : St) (a b : List W) (w w' : W) (todo' : List Nat) (refs' : Int) (done' : List Nat) (woken : Bool) : s.ths = a ++ w :: b →
      Par.work w s.todo s.refs s.done = some (w', todo', refs', done', woken) →
      Step s { s with ths := a ++ w' :: b, todo := todo', refs := refs', done := done', caller := s.caller.wake woken }
  | caller (s : St) (w w' : W) (todo' : List Nat) (refs' : Int) (done' : List Nat) (woken : Bool) : s.caller = .work w →
      Par.work w s.todo s.refs s.done = some (w', todo', refs', done', woken) →
      Step s { s with todo := todo', refs := refs', done := done', caller := if w' = .gone then .join else .work w' }
  | wait (s : St) : s.caller = .join → s.refs ≠ 0 → Step s { s with caller := .wait }
  | ret (s : St) : s.caller = .join → s.refs = 0 → Step s { s with caller := .ret }

/-- A sleeper may also be woken for no reason. -/
inductive Spurious : St → St → Prop
  | mk (s : St) : s.caller = .wait → Spurious s { s with caller := .join }

/-- States reached from a set of `n` parts with at most `max` threads. -/
inductive Reach (n max : Nat) : St → Prop
  | init : Reach n max (.init n max)
  | step {s s' : St} : Reach n max s → Step s s' → Reach n max s'
  | spurious {s s' : St} : Reach n max s → Spurious s s' → Reach n max s'

/-- The error of `decompress_all_sub_blocks`, sub_block.cc:383-388: the errors are looked at in order; one that was not worked on has error 0. -/
def code (f : Nat → Int) (done : List Nat) : List Nat → Int
  | [] => 0
  | i :: is => if (if i ∈ done then f i else 0) ≠ 0 then f i else code f done is

end Verif.Par
