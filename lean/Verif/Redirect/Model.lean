/-!
# Bulk loads and the files behind a dictionary

Model of how a bulk load replaces the file of a dictionary, and of how that is made final or undone: the directory row
(src/ydb_db.cc:1195-1274), the redirection of all open handles (ft/ft.cc:580-771), the rollback entries `load` and
`dictionary_redirect` (ft/txn/roll.cc:521-650), reference counts (ft/ft.cc:462-490, 773-794, 922-956), and the deletion
of a file when its last user is gone (ft/cachetable/cachetable.cc:529-575, 2947-2955).

One dictionary: a loader takes a lock on the whole table (src/loader.cc:238-245), so one transaction at a time
works on it, and files are not shared between dictionaries.  Names of files are numbers; a new name was never used
before (src/ydb_db.cc:create_iname puts the transaction's id in it).  Left out: child transactions (a loader's own child
transaction commits into its parent at once, src/loader.cc:317), recovery after a crash, loaders of several
dictionaries, opening with DB_CREATE while a loader is open.
-/

namespace Verif.Redirect

/-- Entries of the rollback log (ft/logger/logformat.cc): a row put into a file, `load` (the old file, the new name) and
`dictionary_redirect` (old and new file). -/
inductive Entry
  | put (f : Nat) (r : Nat)
  | load (old new : Nat)
  | redirect (old new : Nat)
deriving DecidableEq, Repr

/-- A live transaction: its rollback log, newest entry first; the directory row to go back to; the files it touched
(`open_fts`, ft/txn/rollback.cc:219-233), each of which counts one reference. -/
structure T where
  log : List Entry
  savedDir : Nat
  refs : List Nat
deriving DecidableEq, Repr

/-- The dictionary: the file its directory row names; the files on disk and their rows; the open handles and the file each
refers to (`live_ft_handles`); the files to be deleted when closed (`unlink_on_close`); the files pinned by a checkpoint;
the live transaction; its open loaders, each with the handle it was given and the name of its new file; the next
name. -/
structure S where
  dir : Nat
  disk : Nat → Option (List Nat)
  handles : List (Nat × Nat)
  marked : Nat → Bool
  pinned : List Nat
  txn : Option T
  pending : List (Nat × Nat)
  next : Nat

/-- An empty dictionary that was just created and has no open handle. -/
def init : S :=
  { dir := 0, disk := fun f => if f = 0 then some [] else none, handles := [], marked := fun _ => false, pinned := [],
    txn := none, pending := [], next := 1 }

def refsOf (s : S) : List Nat := match s.txn with | some t => t.refs | none => []

/-- toku_ft_needed_unlocked (ft/ft.cc:471-485): handles, transactions, checkpoint. -/
def needed (s : S) (f : Nat) : Bool :=
  s.handles.any (·.2 == f) || (refsOf s).contains f || s.pinned.contains f

def setDisk (s : S) (f : Nat) (c : Option (List Nat)) : S :=
  { s with disk := fun g => if g = f then c else s.disk g }

def mark (s : S) (f : Nat) : S := { s with marked := fun g => g == f || s.marked g }

/-- toku_ft_remove_reference and cachefile close (ft/ft.cc:922-956, cachetable.cc:529-570): files that nobody needs are
closed, and those marked are deleted. -/
def reap (s : S) : S :=
  { s with disk := fun f => if s.marked f && !needed s f then none else s.disk f }

/-- The loop of dictionary_redirect_internal (ft/ft.cc:636-648): all handles of `src` now refer to `dst`. -/
def moveAll (s : S) (src dst : Nat) : S :=
  { s with handles := s.handles.map fun p => if p.2 = src then (p.1, dst) else p }

/-- The file of an open handle. -/
def fileOf (s : S) (h : Nat) : Option Nat := (s.handles.find? (·.1 == h)).map (·.2)

/-- What a read through the handle `h` sees: the rows of the file it refers to. -/
def read (s : S) (h : Nat) : Option (List Nat) := (fileOf s h).bind s.disk

/-- toku_dictionary_redirect (ft/ft.cc:706-771): `none` is a failed assertion; a target that is open already is EINVAL,
which the caller (redirect_loader_to_empty_dictionaries, src/loader.cc:408-424) would turn into another attempt; it is
`none` here.  The old and the new file are noted in the transaction. -/
def redirect (s : S) (t : T) (old new : Nat) : Option S :=
  if needed s new then none
  else
    let s := { s with txn := some { t with refs := old :: t.refs } }
    let s := moveAll s old new
    if needed s old then
      some { s with txn := some { t with refs := new :: old :: t.refs, log := .redirect old new :: t.log } }
    else none

/-- load_inames (src/ydb_db.cc:1195-1257): a new name, the directory row, the entry in the rollback log. -/
def loadNames (s : S) (t : T) (old : Nat) : S :=
  { s with dir := s.next, next := s.next + 1, txn := some { t with log := .load old s.next :: t.log } }

/-- toku_commit_load (ft/txn/roll.cc:521-562) for every entry, oldest first; the other entries do nothing on commit.
`none`: a failed assertion, the old file is not open. -/
def commitLog (s : S) : List Entry → Option S
  | [] => some s
  | .load old _ :: l =>
    match commitLog s l with
    | none => none
    | some s => if needed s old then some (mark s old) else none
  | _ :: l => commitLog s l

/-- The rollback of each entry, newest first: the row is taken out (roll.cc:359-378);
toku_rollback_dictionary_redirect (roll.cc:627-650) with toku_dictionary_redirect_abort (ft/ft.cc:663-685);
toku_rollback_load (roll.cc:566-593) with the assertion of toku_cachefile_unlink_on_close (cachetable.cc:2947-2951).
`none`: a failed assertion. -/
def undoLog (s : S) : List Entry → Option S
  | [] => some s
  | .put f r :: l =>
    if needed s f then
      match s.disk f with
      | some rows => undoLog (setDisk s f (some (rows.erase r))) l
      | none => none
    else none
  | .redirect old new :: l =>
    if needed s new && needed s old && (old != new) && !s.handles.any (·.2 == old) then
      let s := moveAll s new old
      if needed s new then undoLog s l else none
    else none
  | .load _ new :: l =>
    if needed s new then
      if s.marked new then none else undoLog (mark s new) l
    else undoLog (setDisk s new none) l

/-- What a program, the loader and the checkpointer do. -/
inductive Ev
  /-- DB->open without DB_CREATE, by the live transaction or with none live. -/
  | openH (h : Nat)
  | closeH (h : Nat)
  | begin
  | put (h : Nat) (r : Nat)
  /-- DB_ENV->create_loader for the dictionary of handle `h`. -/
  | loadBegin (h : Nat)
  /-- DB_LOADER->close; the rows that were put into the loader. -/
  | loadEnd (h : Nat) (rows : List Nat)
  /-- DB_LOADER->close that fails, or DB_LOADER->abort; what there is of the new file by then. -/
  | loadFail (h : Nat) (part : Option (List Nat))
  /-- A checkpoint begins: it pins all open files. -/
  | pin
  | unpin
  | commit
  | abort
deriving DecidableEq, Repr

inductive Ans
  | ok
  | notEmpty
  | noEnt
deriving DecidableEq, Repr

/-- The files that are open. -/
def opened (s : S) : List Nat := s.handles.map (·.2) ++ refsOf s ++ s.pinned

/-- One step.  `none`: a program that keeps the rules does not do this now (a handle that is not open or is open
already; no transaction; a loader or handle still in use; a transaction ended before its loaders).  `some none`: a
failed assertion. -/
def step (s : S) : Ev → Option (Option (S × Ans))
  | .openH h =>
    if s.handles.any (·.1 == h) then none
    else match s.disk s.dir with
      | some _ => some (some ({ s with handles := (h, s.dir) :: s.handles }, .ok))
      | none => some (some (s, .noEnt))
  | .closeH h =>
    if s.handles.any (·.1 == h) && !s.pending.any (·.1 == h) then
      some (some (reap { s with handles := s.handles.filter (·.1 != h) }, .ok))
    else none
  | .begin => if s.txn.isSome then none else some (some ({ s with txn := some ⟨[], s.dir, []⟩ }, .ok))
  | .put h r =>
    match s.txn, fileOf s h with
    | some t, some f =>
      match s.disk f with
      | some rows =>
        some (some (setDisk { s with txn := some { t with log := .put f r :: t.log, refs := f :: t.refs } } f
          (some (r :: rows)), .ok))
      | none => some none
    | _, _ => none
  | .loadBegin h =>
    match s.txn, fileOf s h with
    | some t, some f =>
      match s.disk f with
      | some [] => some (some ({ loadNames s t f with pending := (h, s.next) :: s.pending }, .ok))
      | some _ => some (some (s, .notEmpty))
      | none => some none
    | _, _ => none
  | .loadEnd h rows =>
    match s.txn, fileOf s h, s.pending.find? (·.1 == h) with
    | some t, some f, some (_, n) =>
      some ((redirect (setDisk { s with pending := s.pending.filter (·.2 != n) } n (some rows)) t f n).map (·, .ok))
    | _, _, _ => none
  | .loadFail h part =>
    match s.txn, fileOf s h, s.pending.find? (·.1 == h) with
    | some t, some f, some (_, n) =>
      let s := setDisk { s with pending := s.pending.filter (·.2 != n) } n part
      let s' := setDisk (loadNames s t f) s.next (some [])
      some ((redirect s' { t with log := .load f s.next :: t.log } f s.next).map (·, .ok))
    | _, _, _ => none
  | .pin => if s.pinned.isEmpty then some (some ({ s with pinned := opened s }, .ok)) else none
  | .unpin => some (some (reap { s with pinned := [] }, .ok))
  | .commit =>
    match s.txn with
    | some t =>
      if s.pending.isEmpty then some ((commitLog s t.log).map fun s => (reap { s with txn := none }, .ok)) else none
    | none => none
  | .abort =>
    match s.txn with
    | some t =>
      if s.pending.isEmpty then
        some ((undoLog s t.log).map fun s => (reap { s with txn := none, dir := t.savedDir }, .ok))
      else none
    | none => none

/-- A run from a state. -/
def run (s : S) : List Ev → Option (Option S)
  | [] => some (some s)
  | e :: es =>
    match step s e with
    | none => none
    | some none => some none
    | some (some (s, _)) => run s es

end Verif.Redirect
