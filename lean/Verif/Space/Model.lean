/-!
# The reserve of disk space

Model of the watch over free disk space: every five seconds the file systems of the environment are looked at and insertions are
refused while one has less than a set share of its space left (src/ydb.cc:206-313, src/ydb_write.cc:102-112, 1067-1129).
Simplified: events are atomic; counters of refusals and looks do not wrap; statvfs does not fail (the code asserts).
-/

namespace Verif.Space

/-- toku_get_filesystem_sizes, portability/portability.cc:411-428. -/
structure Fs where
  avail : Nat
  total : Nat
deriving DecidableEq, Repr

/-- fs_redzone_state, buildheader/make_tdb.cc:704-709. -/
inductive Zone
  | green
  | yellow
  | red
deriving DecidableEq, Repr

/-- The names of the home, data and log directories. -/
structure Dirs where
  home : Nat
  data : Nat
  log : Nat
deriving DecidableEq, Repr

/-- The fields of the environment, src/ydb-internal.h:119-124. -/
structure Env where
  opened : Bool
  zone : Zone
  seq : Nat
  lastRed : Nat
  lastYellow : Nat
  redzone : Int
  ctr : Nat
deriving DecidableEq, Repr

/-- env_fs_init, src/ydb.cc:307-313, over zeroed memory (src/ydb.cc:2955). -/
def fresh : Env := ⟨false, .green, 0, 0, 0, 5, 0⟩

/-- env_fs_redzone, src/ydb.cc:222-225: 64-bit unsigned, the `int` is converted first. -/
def limit (z : Int) (total : Nat) : Nat := total * (z % 18446744073709551616).toNat % 18446744073709551616 / 100

/-- The directories looked at, src/ydb.cc:241-261. -/
def looked (d : Dirs) : List Nat :=
  [d.home] ++ (if d.home ≠ d.data then [d.data] else []) ++ (if d.home ≠ d.log ∧ d.data ≠ d.log then [d.log] else [])

/-- `in_yellow` and `in_red`, src/ydb.cc:244-260: how many file systems are below twice the limit, and below the limit. -/
def inYellow (z : Int) (l : List Fs) : Nat := (l.filter fun f => decide (f.avail < 2 * limit z f.total)).length
def inRed (z : Int) (l : List Fs) : Nat := (l.filter fun f => decide (f.avail < limit z f.total)).length

/-- env_fs_poller, src/ydb.cc:263-303: the new state, and the warning written, if any. -/
def pollZone (e : Env) (l : List Fs) : Env × Option Zone :=
  let y := inYellow e.redzone l
  let r := inRed e.redzone l
  let now := e.seq + 1
  let e := { e with seq := now }
  match e.zone with
  | .red =>
    if r = 0 then
      if y ≠ 0 then ({ e with zone := .yellow }, none) else ({ e with zone := .green }, none)
    else (e, none)
  | .yellow =>
    if r ≠ 0 then
      ({ e with zone := .red, lastRed := now }, if now - e.lastRed > 12 ∨ now < 12 then some .red else none)
    else if y = 0 then ({ e with zone := .green }, none)
    else (e, none)
  | .green =>
    if r ≠ 0 then
      ({ e with zone := .red, lastRed := now }, if now - e.lastRed > 12 ∨ now < 12 then some .red else none)
    else if y ≠ 0 then
      ({ e with zone := .yellow, lastYellow := now }, if now - e.lastYellow > 12 ∨ now < 12 then some .yellow else none)
    else (e, none)

def poll (e : Env) (d : Dirs) (f : Nat → Fs) : Env × Option Zone := pollZone e ((looked d).map f)

/-- Calls of the user; `indexRow` is the writing of one row by a hot indexer, `other` a read, commit, abort or anything else. -/
inductive Op
  | put
  | update
  | updateBroadcast
  | putMultiple
  | updateMultiple
  | indexRow
  | del
  | other
deriving DecidableEq, Repr

/-- The calls of env_check_avail_fs_space: src/ydb_write.cc:1072, 1090, 1105, 1117, src/indexer-undo-do.cc:539-638. -/
def checked : Op → Bool
  | .put => true
  | .update => true
  | .updateBroadcast => true
  | .putMultiple => true
  | .indexRow => true
  | .updateMultiple => false
  | .del => false
  | .other => false

/-- What becomes of a call, or of set_redzone: it goes on, or is refused. -/
inductive Out
  | goes
  | enospc
  | einval
  | warned (w : Option Zone)
deriving DecidableEq, Repr

inductive Event
  | setRedzone (z : Int)
  /-- opening the environment, which looks at the file systems once -/
  | openEnv (f : Nat → Fs)
  /-- the periodic look, once it is open -/
  | look (f : Nat → Fs)
  | call (op : Op)

/-- env_set_redzone, src/ydb.cc:1982-1993; env_open, src/ydb.cc:1119-1120; env_check_avail_fs_space, src/ydb_write.cc:104-112. -/
def step (d : Dirs) (e : Env) : Event → Env × Out
  | .setRedzone z => if e.opened then (e, .einval) else ({ e with redzone := z }, .goes)
  | .openEnv f => if e.opened then (e, .einval) else
    let p := poll { e with opened := true } d f
    (p.1, .warned p.2)
  | .look f => if e.opened then
      let p := poll e d f
      (p.1, .warned p.2)
    else (e, .goes)
  | .call op =>
    if checked op then
      if e.zone = .red then ({ e with ctr := e.ctr + 1 }, .enospc) else (e, .goes)
    else (e, .goes)

/-- The environment after a history of events, and the outcomes. -/
def run (d : Dirs) : Env → List Event → Env × List Out
  | e, [] => (e, [])
  | e, v :: vs =>
    let p := step d e v
    let q := run d p.1 vs
    (q.1, p.2 :: q.2)

end Verif.Space
