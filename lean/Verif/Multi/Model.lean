/-!
# Writing one row to several dictionaries at once

`put_multiple`, `del_multiple` and `update_multiple` of `src/ydb_write.cc`, the
records they write to the log, and what recovery does with those records
(`ft/logger/recover.cc`).

A caller keeps a source dictionary and any number of further dictionaries whose
rows are computed from a row of the source by two callbacks.  One call changes
all of them.  The log holds the source row only: recovery runs the callbacks
again.

A dictionary is here what a reader of it sees: for a key that is asked for, its
value.  Keys are bytes, ordered by a comparator that may call two different
spellings equal; which of them a stored row carries is left out (the first one put,
as `bn_data::get_space_for_overwrite`, `ft/bndata.cc:387-423`, leaves the key as it
is).  How a dictionary stores its rows is the subject
of the directories `Tree`, `Ule` and `Node`; that a transaction that aborts
leaves nothing behind is the subject of `Txn`, `Roll` and `Ule`, and is taken
here as given.  Not modelled: an index that is being built while the call runs
(`toku_db_get_indexer` gives nothing here), the counters, and the check for free
disk space.
-/

namespace Verif.Multi

/-- Keys and values (`DBT`, `buildheader/make_tdb.cc:644`). -/
abbrev Bytes := List Nat

/-- A row: a key and its value. -/
abbrev Row := Bytes × Bytes

/-- A dictionary (`DB*`), named by its file number.  Simplification: two handles
    of one dictionary are the same here; the code compares handles
    (`src/ydb_write.cc:528`, `:700`, `:841`). -/
abbrev Db := Nat

/-- What a dictionary shows: the value found for a key. -/
abbrev Dict := Bytes → Option Bytes

/-- All dictionaries. -/
abbrev State := Db → Dict

/-- What the environment and the callbacks give.
    * `cmp`: the comparator of a dictionary (`toku_db_get_comparator`).
    * `genPut`, `genDel`: `generate_row_for_put` and `generate_row_for_del`
      (`buildheader/make_tdb.cc:752-753`); `none` is a return code other than 0.
      Simplification: the two arrays of keys and values have one length, which the
      code checks (`src/ydb_write.cc:608`, `ft/logger/recover.cc:1124`), and the
      keys do not depend on whether values are asked for.
    * `ovAny`, `ovMultiple`: `toku_log_enq_delete_any_overhead` and
      `toku_log_enq_delete_multiple_overhead` (`ft/logger/logformat.cc:431-433`). -/
structure Env where
  cmp : Db → Bytes → Bytes → Ordering
  genPut : Db → Option Db → Bytes → Bytes → Option (List Row)
  genDel : Db → Option Db → Bytes → Bytes → Option (List Bytes)
  ovAny : Nat
  ovMultiple : Nat

/-- `klimit` of `toku_ft_get_maximum_advised_key_value_lengths`
    (`ft/ft-ops.cc:3200-3205`). -/
def klimit : Nat := 32 * 1024

/-- `vlimit` of the same. -/
def vlimit : Nat := 32 * 1024 * 1024

/-- `DB_NOOVERWRITE` (`buildheader/db-4.6.19.h:1420`). -/
def noOverwrite : Nat := 20

/-- `DB_NOOVERWRITE_NO_ERROR`: the first number from 1 on that is not taken
    (`buildheader/make_tdb.cc:127-136`, `:199`). -/
def noError : Nat := 1

/-- `DB_DELETE_ANY` (`buildheader/make_tdb.cc:221`). -/
def deleteAny : Nat := 65536

/-- The flags given for one dictionary: whether the caller holds the write locks
    already (`DB_PRELOCKED_WRITE`), and the number left when the two bits about locks
    are taken out (`get_prelocked_flags`, `src/ydb_write.cc:88-92`).  The other bit,
    `DB_PRELOCKED`, changes nothing here: the reads below ask for write locks
    (`src/ydb_cursor.cc:159-163`). -/
structure Flags where
  prelockedWrite : Bool
  rest : Nat
  deriving DecidableEq

/-- One entry of `db_array` with its entry of `flags_array`. -/
structure Target where
  db : Db
  flags : Flags
  deriving DecidableEq

/-- Return codes other than 0. -/
inductive Err where
  | einval | enomem | keyExist | notFound | lock | gen
  deriving DecidableEq

/-- How a call ends: returns 0, returns a code, or stops the process at a failed
    `invariant`. -/
inductive Outcome where
  | ok | err (e : Err) | crash
  deriving DecidableEq

/-- A record of the log.  `begin`, `commit` and `abort` stand for `xbegin`,
    `xcommit` and `xabort`; transactions are nested and one thread runs them, so
    that the transaction ids are left out. -/
inductive Rec where
  | begin | commit | abort
  /-- `enq_delete_any` -/
  | del (db : Db) (key : Bytes)
  /-- `enq_delete_multiple` -/
  | delMulti (src : Option Db) (dbs : List Db) (key val : Bytes)
  /-- `enq_insert_multiple` -/
  | putMulti (src : Option Db) (dbs : List Db) (key val : Bytes)
  deriving DecidableEq

/-! ## Reads and writes of one dictionary -/

/-- The comparator calls the keys equal. -/
def Env.same (E : Env) (d : Db) (a b : Bytes) : Bool := E.cmp d a b == .eq

/-- `toku_ft_maybe_insert` with `FT_INSERT` (`ft/ft-ops.cc:2422-2446`): the value
    found for every spelling of the key is the new one. -/
def Env.put (E : Env) (s : State) (d : Db) (row : Row) : State :=
  fun d' x => if d' = d then (if E.same d x row.1 then some row.2 else s d x) else s d' x

/-- `toku_ft_maybe_delete` (`ft/ft-ops.cc:2600-2630`). -/
def Env.del (E : Env) (s : State) (d : Db) (key : Bytes) : State :=
  fun d' x => if d' = d then (if E.same d x key then none else s d x) else s d' x

/-- `db_put_check_size_constraints` (`src/ydb_write.cc:116-130`). -/
def sizeBad (row : Row) : Bool := row.1.length > klimit || row.2.length > vlimit

/-- `toku_db_get_point_write_lock` where it is called: `db->i->lt &&
    !(lock_flags & DB_PRELOCKED_WRITE)` (`src/ydb_write.cc:733-737` and the like), and
    the lock that `db_getf_set` takes with `DB_SERIALIZABLE | DB_RMW`
    (`src/ydb_cursor.cc:159-163`).  `grant` says which keys can be locked now. -/
def locked (grant : Db → Bytes → Bool) (t : Target) (key : Bytes) : Bool :=
  t.flags.prelockedWrite || grant t.db key

/-! ## put_multiple -/

/-- The rows for one dictionary: the source row itself if it is the source
    (`src/ydb_write.cc:699-717`). -/
def rowsFor (E : Env) (src : Option Db) (d : Db) (k v : Bytes) : Except Err (List Row) :=
  if src = some d then .ok [(k, v)]
  else match E.genPut d src k v with
    | some rows => .ok rows
    | none => .error .gen

/-- The checks of one row (`src/ydb_write.cc:718-738`). -/
def checkPutRow (grant : Db → Bytes → Bool) (t : Target) (row : Row) : Except Err Unit :=
  if sizeBad row then .error .einval
  else if t.flags.rest = noError then .error .einval
  else if locked grant t row.1 then .ok ()
  else .error .lock

/-- The same for every row of one dictionary, in order. -/
def checkPutRows (grant : Db → Bytes → Bool) (t : Target) : List Row → Except Err Unit
  | [] => .ok ()
  | row :: rows =>
    match checkPutRow grant t row with
    | .error e => .error e
    | .ok _ => checkPutRows grant t rows

/-- The first loop of `env_put_multiple_internal` (`src/ydb_write.cc:693-740`): every
    row is computed and checked before anything is written. -/
def buildPut (E : Env) (grant : Db → Bytes → Bool) (src : Option Db) (k v : Bytes) :
    List Target → Except Err (List (Target × List Row))
  | [] => .ok []
  | t :: ts =>
    match rowsFor E src t.db k v with
    | .error e => .error e
    | .ok rows =>
      match checkPutRows grant t rows with
      | .error e => .error e
      | .ok _ =>
        match buildPut E grant src k v ts with
        | .error e => .error e
        | .ok more => .ok ((t, rows) :: more)

/-- `db_put` without logging (`src/ydb_write.cc:203-226`), with
    `toku_ft_insert_unique` (`ft/ft-ops.cc:2239-2271`) for `DB_NOOVERWRITE`.  The
    branch for `DB_NOOVERWRITE_NO_ERROR` cannot be reached from here: the caller stops
    at `src/ydb_write.cc:636`. -/
def dbPut (E : Env) (s : State) (d : Db) (row : Row) (flags : Nat) : State × Outcome :=
  if flags = noOverwrite then
    match s d row.1 with
    | some _ => (s, .err .keyExist)
    | none => (E.put s d row, .ok)
  else if flags ≠ 0 then (s, .err .einval)
  else (E.put s d row, .ok)

/-- The inner loop of `do_put_multiple` (`src/ydb_write.cc:632-642`), with the
    `invariant` on the flags.  `flags` is `none` when `remaining_flags` is the null
    pointer. -/
def putRows (E : Env) (d : Db) (flags : Option Nat) : State → List Row → State × Outcome
  | s, [] => (s, .ok)
  | s, row :: rows =>
    if (flags.getD 0) % 2 = 1 then (s, .crash)
    else match dbPut E s d row (flags.getD 0) with
      | (s', .ok) => putRows E d flags s' rows
      | (s', o) => (s', o)

/-- `do_put_multiple` (`src/ydb_write.cc:602-648`) for dictionaries that are not being
    built. -/
def doPut (E : Env) : State → List (Db × Option Nat × List Row) → State × Outcome
  | s, [] => (s, .ok)
  | s, (d, flags, rows) :: more =>
    match putRows E d flags s rows with
    | (s', .ok) => doPut E s' more
    | (s', o) => (s', o)

/-- `log_put_multiple` (`src/ydb_write.cc:591-598`) and `toku_ft_log_put_multiple`
    (`ft/ft-ops.cc:2370-2387`). -/
def logPut (src : Option Db) (k v : Bytes) (dbs : List Db) : List Rec :=
  if dbs.length > 0 then [.putMulti src dbs k v] else []

/-- `env_put_multiple_internal` (`src/ydb_write.cc:650-771`): what is left in the
    dictionaries, the records, and how it ends. -/
def putMultiple (E : Env) (s : State) (grant : Db → Bytes → Bool) (src : Option Db)
    (k v : Bytes) (targets : List Target) : State × List Rec × Outcome :=
  if targets.length = 0 then (s, [], .err .einval)
  else match buildPut E grant src k v targets with
    | .error e => (s, [], .err e)
    | .ok plan =>
      match doPut E s (plan.map fun p => (p.1.db, some p.1.flags.rest, p.2)) with
      | (s', .ok) => (s', logPut src k v (plan.map fun p => p.1.db), .ok)
      | (s', o) => (s', [], o)

/-! ## del_multiple -/

/-- The keys for one dictionary (`src/ydb_write.cc:528-539`). -/
def keysFor (E : Env) (src : Option Db) (d : Db) (k v : Bytes) : Except Err (List Bytes) :=
  if src = some d then .ok [k]
  else match E.genDel d src k v with
    | some keys => .ok keys
    | none => .error .gen

/-- The checks of one key (`src/ydb_write.cc:545-558`): either it must be there, which
    takes the lock, or only the lock is taken. -/
def checkDelKey (s : State) (grant : Db → Bytes → Bool) (t : Target) (key : Bytes) :
    Except Err Unit :=
  if t.flags.rest ≠ deleteAny then
    if locked grant t key then
      (if (s t.db key).isSome then .ok () else .error .notFound)
    else .error .lock
  else if locked grant t key then .ok ()
  else .error .lock

/-- The same for every key of one dictionary, in order. -/
def checkDelKeys (s : State) (grant : Db → Bytes → Bool) (t : Target) :
    List Bytes → Except Err Unit
  | [] => .ok ()
  | key :: keys =>
    match checkDelKey s grant t key with
    | .error e => .error e
    | .ok _ => checkDelKeys s grant t keys

/-- The first loop of `env_del_multiple` (`src/ydb_write.cc:523-560`). -/
def buildDel (E : Env) (s : State) (grant : Db → Bytes → Bool) (src : Option Db)
    (k v : Bytes) : List Target → Except Err (List (Db × List Bytes))
  | [] => .ok []
  | t :: ts =>
    match keysFor E src t.db k v with
    | .error e => .error e
    | .ok keys =>
      if t.flags.rest ≠ 0 ∧ t.flags.rest ≠ deleteAny then .error .einval
      else match checkDelKeys s grant t keys with
        | .error e => .error e
        | .ok _ =>
          match buildDel E s grant src k v ts with
          | .error e => .error e
          | .ok more => .ok ((t.db, keys) :: more)

/-- The loop over the keys of one dictionary (`src/ydb_write.cc:434-438`). -/
def delKeys (E : Env) (d : Db) : State → List Bytes → State
  | s, [] => s
  | s, key :: keys => delKeys E d (E.del s d key) keys

/-- `do_del_multiple` (`src/ydb_write.cc:405-441`) for dictionaries that are not being
    built. -/
def doDel (E : Env) : State → List (Db × List Bytes) → State
  | s, [] => s
  | s, (d, keys) :: more => doDel E (delKeys E d s keys) more

/-- `sum_size` (`src/ydb_write.cc:366-375`), in 32 bits. -/
def sumSize (overhead : Nat) (plan : List (Db × List Bytes)) : Nat :=
  (plan.flatMap fun p => p.2.map fun key => key.length + overhead).sum % 2 ^ 32

/-- `log_del_multiple` (`src/ydb_write.cc:377-394`): one record for each key if that is
    shorter, otherwise one record with the source row.  `sizeof (uint32_t)` is 4. -/
def logDel (E : Env) (src : Option Db) (k v : Bytes) (plan : List (Db × List Bytes)) :
    List Rec :=
  if plan.length > 0 then
    if sumSize E.ovAny plan
        < (k.length + v.length + plan.length * 4 + E.ovMultiple) % 2 ^ 32 then
      plan.flatMap fun p => p.2.map fun key => Rec.del p.1 key
    else [.delMulti src (plan.map Prod.fst) k v]
  else []

/-- `env_del_multiple` (`src/ydb_write.cc:483-589`). -/
def delMultiple (E : Env) (s : State) (grant : Db → Bytes → Bool) (src : Option Db)
    (k v : Bytes) (targets : List Target) : State × List Rec × Outcome :=
  match buildDel E s grant src k v targets with
  | .error e => (s, [], .err e)
  | .ok plan => (doDel E s plan, logDel E src k v plan, .ok)

/-! ## update_multiple -/

/-- `swap_dbts` on two places of an array (`src/ydb_write.cc:773-778`). -/
def swapAt {α} (l : List α) (i j : Nat) : List α :=
  match l[i]?, l[j]? with
  | some a, some b => (l.set i b).set j a
  | _, _ => l

/-- The variables of the loop that goes through the old and the new keys of one
    dictionary side by side (`src/ydb_write.cc:879-887`). -/
structure Merge where
  old : List Bytes
  new : List Row
  idxOld : Nat
  idxNew : Nat
  usedOld : Nat
  usedNew : Nat
  numSkip : Nat
  numDel : Nat
  numPut : Nat

/-- `db_put_check_overwrite_constraint` (`src/ydb_write.cc:132-158`). -/
def checkOverwrite (s : State) (grant : Db → Bytes → Bool) (t : Target) (key : Bytes) :
    Except Err Unit :=
  if t.flags.rest = 0 then .ok ()
  else if t.flags.rest = noOverwrite then
    if locked grant t key then
      (if (s t.db key).isSome then .error .keyExist else .ok ())
    else .error .lock
  else if t.flags.rest = noError then .ok ()
  else .error .einval

/-- The size and the lock of a row that is to be put (`src/ydb_write.cc:945-954`);
    `held`: `locked_new_key`. -/
def checkMergePut (grant : Db → Bytes → Bool) (t : Target) (held : Bool) (row : Row) :
    Except Err Unit :=
  if sizeBad row then .error .einval
  else if held || locked grant t row.1 then .ok ()
  else .error .lock

/-- The new row is moved down to the rows that will be put (`src/ydb_write.cc:966-980`). -/
def Merge.takePut (m : Merge) (both : Bool) : Merge :=
  { m with
    numPut := m.numPut + 1
    new := if m.idxNew ≠ m.usedNew then swapAt m.new m.usedNew m.idxNew else m.new
    idxNew := m.idxNew + 1
    usedNew := m.usedNew + 1
    idxOld := if both then m.idxOld + 1 else m.idxOld }

/-- The old key is moved down to the keys that will be deleted
    (`src/ydb_write.cc:981-993`). -/
def Merge.takeDel (m : Merge) : Merge :=
  { m with
    numDel := m.numDel + 1
    old := if m.idxOld ≠ m.usedOld then swapAt m.old m.usedOld m.idxOld else m.old
    idxOld := m.idxOld + 1
    usedOld := m.usedOld + 1 }

/-- Neither is touched (`src/ydb_write.cc:958-965`). -/
def Merge.takeSkip (m : Merge) : Merge :=
  { m with numSkip := m.numSkip + 1, idxOld := m.idxOld + 1, idxNew := m.idxNew + 1 }

/-- A new key that is not among the old ones (`src/ydb_write.cc:908-925`). -/
def mergeNew (s : State) (grant : Db → Bytes → Bool) (t : Target) (m : Merge) (row : Row) :
    Except Err Merge :=
  match checkOverwrite s grant t row.1 with
  | .error e => .error e
  | .ok _ =>
    if t.flags.rest = noError then .error .einval
    else match checkMergePut grant t (t.flags.rest = noOverwrite) row with
      | .error e => .error e
      | .ok _ => .ok (m.takePut false)

/-- An old key that is not among the new ones (`src/ydb_write.cc:926-933`). -/
def mergeOld (grant : Db → Bytes → Bool) (t : Target) (m : Merge) (key : Bytes) :
    Except Err Merge :=
  if locked grant t key then .ok m.takeDel else .error .lock

/-- A key that is in both arrays (`src/ydb_write.cc:934-939`): put if the new value has
    bytes or the spelling is another, otherwise left alone. -/
def mergeBoth (grant : Db → Bytes → Bool) (t : Target) (m : Merge) (key : Bytes) (row : Row) :
    Except Err Merge :=
  if row.2.length > 0 ∨ key ≠ row.1 then
    match checkMergePut grant t false row with
    | .error e => .error e
    | .ok _ => .ok (m.takePut true)
  else .ok m.takeSkip

/-- One turn of the loop (`src/ydb_write.cc:888-994`). -/
def mergeStep (E : Env) (s : State) (grant : Db → Bytes → Bool) (t : Target) (m : Merge) :
    Except Err Merge :=
  match m.old[m.idxOld]?, m.new[m.idxNew]? with
  | none, none => .ok m
  | some key, none => mergeOld grant t m key
  | none, some row => mergeNew s grant t m row
  | some key, some row =>
    match E.cmp t.db key row.1 with
    | .gt => mergeNew s grant t m row
    | .lt => mergeOld grant t m key
    | .eq => mergeBoth grant t m key row

/-- The loop (`src/ydb_write.cc:888-994`), for at most the given number of turns; there
    are never more than the two arrays have entries. -/
def mergeLoop (E : Env) (s : State) (grant : Db → Bytes → Bool) (t : Target) :
    Nat → Merge → Except Err Merge
  | 0, m => .ok m
  | n + 1, m =>
    if m.idxOld < m.old.length ∨ m.idxNew < m.new.length then
      match mergeStep E s grant t m with
      | .error e => .error e
      | .ok m' => mergeLoop E s grant t n m'
    else .ok m

/-- The start of the loop for one dictionary (`src/ydb_write.cc:875-887`). -/
def mergeStart (old : List Bytes) (new : List Row) : Merge :=
  ⟨old, new, 0, 0, 0, 0, 0, 0, 0⟩

/-- What the first part of `env_update_multiple` leaves for the second: the keys to
    delete and the rows to put, for each dictionary that has any
    (`src/ydb_write.cc:821-830`). -/
structure Plan where
  dels : List (Db × List Bytes)
  puts : List (Db × List Row)

/-- The end of the turn for one dictionary (`src/ydb_write.cc:995-1014`). -/
def Plan.add (p : Plan) (d : Db) (m : Merge) : Plan :=
  ⟨if m.numDel > 0 then p.dels ++ [(d, m.old.take m.usedOld)] else p.dels,
   if m.numPut > 0 ∨ (m.numDel > 0 ∧ m.numSkip > 0) then
     p.puts ++ [(d, m.new.take m.usedNew)] else p.puts⟩

/-- The loop over the dictionaries (`src/ydb_write.cc:835-1015`). -/
def buildUpdate (E : Env) (s : State) (grant : Db → Bytes → Bool) (src : Option Db)
    (ok ov nk nv : Bytes) : List Target → Plan → Except Err Plan
  | [], p => .ok p
  | t :: ts, p =>
    match rowsFor E src t.db ok ov with
    | .error e => .error e
    | .ok oldRows =>
      match rowsFor E src t.db nk nv with
      | .error e => .error e
      | .ok newRows =>
        match mergeLoop E s grant t (oldRows.length + newRows.length)
            (mergeStart (oldRows.map Prod.fst) newRows) with
        | .error e => .error e
        | .ok m => buildUpdate E s grant src ok ov nk nv ts (p.add t.db m)

/-- `env_update_multiple` (`src/ydb_write.cc:782-1057`).  The branches `r == 0` before
    the log records are always taken: nothing before them fails once the plan is
    made. -/
def updateMultiple (E : Env) (s : State) (grant : Db → Bytes → Bool) (src : Option Db)
    (ok ov nk nv : Bytes) (numKeys numVals : Nat) (targets : List Target) :
    State × List Rec × Outcome :=
  if targets.length + targets.length > numKeys ∨ targets.length > numVals then
    (s, [], .err .enomem)
  else match buildUpdate E s grant src ok ov nk nv targets ⟨[], []⟩ with
    | .error e => (s, [], .err e)
    | .ok p =>
      let log := logDel E src ok ov p.dels ++ logPut src nk nv (p.puts.map Prod.fst)
      match doPut E (doDel E s p.dels) (p.puts.map fun q => (q.1, none, q.2)) with
      | (s', o) => (s', log, o)

/-! ## Histories -/

/-- A call. -/
inductive Call where
  | put (grant : Db → Bytes → Bool) (src : Option Db) (k v : Bytes) (targets : List Target)
  | del (grant : Db → Bytes → Bool) (src : Option Db) (k v : Bytes) (targets : List Target)
  | update (grant : Db → Bytes → Bool) (src : Option Db) (ok ov nk nv : Bytes)
      (numKeys numVals : Nat) (targets : List Target)

/-- The call carried out. -/
def Call.run (E : Env) (s : State) : Call → State × List Rec × Outcome
  | .put grant src k v ts => putMultiple E s grant src k v ts
  | .del grant src k v ts => delMultiple E s grant src k v ts
  | .update grant src ok ov nk nv n m ts => updateMultiple E s grant src ok ov nk nv n m ts

/-- What a program does, in order.  Simplification: one thread with nested
    transactions, as row locks let the work of others be put before or after. -/
inductive Ev where
  | begin | commit | abort | call (c : Call)

/-- The dictionaries as the innermost transaction sees them, and for every open
    transaction, innermost first, what they held when it began. -/
structure World where
  cur : State
  saved : List State

/-- An event, with the records it adds to the log; `none`: the process stops at a
    failed check.  A call needs a transaction (`src/ydb_write.cc:508-511`, `:678-681`,
    `:801-804`).  Commit and abort restate what a reader sees afterwards; how they come
    about is modelled in `Txn` and `Roll`. -/
def step (E : Env) (w : World) : Ev → Option (World × List Rec)
  | .begin => some (⟨w.cur, w.cur :: w.saved⟩, [.begin])
  | .commit =>
    match w.saved with
    | [] => some (w, [])
    | _ :: up => some (⟨w.cur, up⟩, [.commit])
  | .abort =>
    match w.saved with
    | [] => some (w, [])
    | s :: up => some (⟨s, up⟩, [.abort])
  | .call c =>
    match w.saved with
    | [] => some (w, [])
    | _ :: _ =>
      match c.run E w.cur with
      | (_, _, .crash) => none
      | (s', recs, _) => some (⟨s', w.saved⟩, recs)

/-- A history, with the log it writes. -/
def run (E : Env) : World → List Ev → Option (World × List Rec)
  | w, [] => some (w, [])
  | w, e :: es =>
    match step E w e with
    | none => none
    | some (w', recs) =>
      match run E w' es with
      | none => none
      | some (w'', more) => some (w'', recs ++ more)

/-! ## Recovery -/

/-- `file_map_find` for the source of a record (`ft/logger/recover.cc:1090-1101`,
    `:1155-1167`): no source, or a source whose file recovery has found.  `here`: the
    files that were there to be opened (`ft/logger/recover.cc:335-346`). -/
def srcHere (here : Db → Bool) : Option Db → Bool
  | none => true
  | some d => here d

/-- The rows one record puts into one dictionary (`ft/logger/recover.cc:1109-1137`);
    `none` is `assert(r==0)`. -/
def redoPutDb (E : Env) (here : Db → Bool) (src : Option Db) (k v : Bytes) (s : State)
    (d : Db) : Option State :=
  if here d then
    if src = some d then some (E.put s d (k, v))
    else match E.genPut d src k v with
      | none => none
      | some rows => some (rows.foldl (fun s row => E.put s d row) s)
  else some s

/-- The keys one record deletes from one dictionary
    (`ft/logger/recover.cc:1174-1195`). -/
def redoDelDb (E : Env) (here : Db → Bool) (src : Option Db) (k v : Bytes) (s : State)
    (d : Db) : Option State :=
  if here d then
    if src = some d then some (E.del s d k)
    else match E.genDel d src k v with
      | none => none
      | some keys => some (delKeys E d s keys)
  else some s

/-- One record read by recovery.  `toku_recover_enq_insert_multiple`
    (`ft/logger/recover.cc:1083-1141`), `toku_recover_enq_delete_multiple`
    (`:1148-1199`), `toku_recover_enq_delete_any` (`:1062-1076`): nothing is done for a
    record whose source is gone. -/
def redo (E : Env) (here : Db → Bool) (w : World) : Rec → Option World
  | .begin => some ⟨w.cur, w.cur :: w.saved⟩
  | .commit =>
    match w.saved with
    | [] => none
    | _ :: up => some ⟨w.cur, up⟩
  | .abort =>
    match w.saved with
    | [] => none
    | s :: up => some ⟨s, up⟩
  | .del d key => some (if here d then ⟨E.del w.cur d key, w.saved⟩ else w)
  | .delMulti src dbs k v =>
    if srcHere here src then
      (dbs.foldlM (redoDelDb E here src k v) w.cur).map (⟨·, w.saved⟩)
    else some w
  | .putMulti src dbs k v =>
    if srcHere here src then
      (dbs.foldlM (redoPutDb E here src k v) w.cur).map (⟨·, w.saved⟩)
    else some w

/-- The log read forwards. -/
def redoAll (E : Env) (here : Db → Bool) (w : World) (recs : List Rec) : Option World :=
  recs.foldlM (redo E here) w

/-- The transactions that are still open at the end are aborted
    (`ft/logger/recover.cc:1397-1410`). -/
def World.settle (w : World) : State :=
  match w.saved.getLast? with
  | some s => s
  | none => w.cur

end Verif.Multi
