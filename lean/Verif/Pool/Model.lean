/-!
# The pool of threads

`util/threadpool.cc`, as the engine uses it: callers that do not wait for a thread (`dowait` is 0 in sub_block.cc:275, 375 and
ft_node-serialize.cc:598).  A step is what is done under the lock of the pool, or the beginning or end of a thread's work.  A call for several threads is one for each, one
after the other (`toku_thread_pool_get`, 263-275).  Not modelled: the end of the pool (`toku_thread_pool_destroy`).
-/

namespace Verif.Pool

/-- Where a thread is in `toku_thread_run_internal`, threadpool.cc:136-160: created and not yet at its first signal, looking for work or asleep
until it gets some, at work. -/
inductive T where
  | fresh
  | ready
  | busy
deriving DecidableEq, Repr

/-- `struct toku_thread`, threadpool.cc:56-65; `f`: the call whose work it is to do. -/
structure Th where
  id : Nat
  st : T
  f : Option Nat
deriving DecidableEq, Repr

/-- Where a call is in `toku_thread_pool_get_one` and `toku_thread_run`, threadpool.cc:235-261, 108-115: at the head of the loop, asleep, has thread
`t`, has given it its work, refused. -/
inductive R where
  | entry
  | asleep
  | got (t : Nat)
  | ran
  | refused
deriving DecidableEq, Repr

/-- A call for one thread, threadpool.cc:236-261. -/
structure Req where
  id : Nat
  st : R
deriving DecidableEq, Repr

/-- `struct toku_thread_pool`, threadpool.cc:67-77, the calls, the work done. -/
structure St where
  max : Nat
  free : List Nat
  ths : List Th
  reqs : List Req
  done : List Nat
deriving DecidableEq, Repr

/-- `toku_thread_pool_create`, threadpool.cc:162-180. -/
def St.init (max : Nat) : St := ⟨max, [], [], [], []⟩

/-- Whether one more thread may be made, threadpool.cc:244. -/
def St.mayAdd (s : St) : Prop := s.max = 0 ∨ s.ths.length < s.max

/-- `toku_cond_signal(&pool->wait_free)`: one of those asleep, if any, goes on. -/
inductive Signal : List Req → List Req → Prop
  | wakes (a b : List Req) (k : Nat) : Signal (a ++ ⟨k, .asleep⟩ :: b) (a ++ ⟨k, .entry⟩ :: b)
  | nobody (l : List Req) : (∀ r ∈ l, r.st ≠ .asleep) → Signal l l

/-- What is not up to the pool: a new call; a sleep ends for no reason. -/
inductive Env : St → St → Prop
  | call (s : St) : Env s { s with reqs := s.reqs ++ [⟨s.reqs.length, .entry⟩] }
  | spurious (s : St) (a b : List Req) (k : Nat) : s.reqs = a ++ ⟨k, .asleep⟩ :: b → Env s { s with reqs := a ++ ⟨k, .entry⟩ :: b }

/-- The steps of calls and threads, threadpool.cc:108-115, 136-160, 222-289. -/
inductive Step : St → St → Prop
  /-- a free thread is taken from the head of the list, 242-243, 253-256 -/
  | take (s : St) (a b : List Req) (k t : Nat) (rest : List Nat) : s.reqs = a ++ ⟨k, .entry⟩ :: b → s.free = t :: rest →
      Step s { s with free := rest, reqs := a ++ ⟨k, .got t⟩ :: b }
  /-- none is free: one is made (`toku_thread_pool_add`, 222-233, which signals), and the call sleeps, 244-251 -/
  | make (s : St) (a b : List Req) (k : Nat) (a' b' : List Req) : s.reqs = a ++ ⟨k, .entry⟩ :: b → s.free = [] → s.mayAdd →
      Signal (a ++ ⟨k, .entry⟩ :: b) (a' ++ ⟨k, .entry⟩ :: b') →
      Step s { s with free := [s.ths.length], ths := s.ths ++ [⟨s.ths.length, .fresh, none⟩], reqs := a' ++ ⟨k, .asleep⟩ :: b' }
  /-- none is free and none may be made, or making it fails: refused, 246-249 -/
  | refuse (s : St) (a b : List Req) (k : Nat) : s.reqs = a ++ ⟨k, .entry⟩ :: b → s.free = [] →
      Step s { s with reqs := a ++ ⟨k, .refused⟩ :: b }
  /-- `toku_thread_run`, 108-115 -/
  | run (s : St) (a b : List Req) (k t : Nat) (c d : List Th) (x : T) (f : Option Nat) : s.reqs = a ++ ⟨k, .got t⟩ :: b →
      s.ths = c ++ ⟨t, x, f⟩ :: d → Step s { s with reqs := a ++ ⟨k, .ran⟩ :: b, ths := c ++ ⟨t, x, some k⟩ :: d }
  /-- a new thread runs for the first time and signals, 140-142 -/
  | first (s : St) (c d : List Th) (t : Nat) (f : Option Nat) (reqs' : List Req) : s.ths = c ++ ⟨t, .fresh, f⟩ :: d → Signal s.reqs reqs' →
      Step s { s with ths := c ++ ⟨t, .ready, f⟩ :: d, reqs := reqs' }
  /-- it sees its work, 144-152 -/
  | sees (s : St) (c d : List Th) (t k : Nat) : s.ths = c ++ ⟨t, .ready, some k⟩ :: d → Step s { s with ths := c ++ ⟨t, .busy, some k⟩ :: d }
  /-- it is done, goes to the end of the list of free threads and signals, 155-157, 142 -/
  | fin (s : St) (c d : List Th) (t k : Nat) (reqs' : List Req) : s.ths = c ++ ⟨t, .busy, some k⟩ :: d → Signal s.reqs reqs' →
      Step s { s with ths := c ++ ⟨t, .ready, none⟩ :: d, free := s.free ++ [t], done := s.done ++ [k], reqs := reqs' }

/-- The states of a pool that may have `max` threads (0: any number). -/
inductive Reach (max : Nat) : St → Prop
  | init : Reach max (.init max)
  | step {s s' : St} : Reach max s → Step s s' → Reach max s'
  | env {s s' : St} : Reach max s → Env s s' → Reach max s'

end Verif.Pool
