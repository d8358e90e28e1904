import Verif.Desc.Spec

/-!
# Changing a descriptor: the code

One dictionary, with any number of transactions.  The file's header (which carries the descriptor)
is written by checkpoints and when the file is closed; every change is logged with the old and the
new descriptor and put on the changing transaction's rollback list; recovery opens the file with
the header it finds, replays the log from the last complete checkpoint, and aborts what was not
prepared.

Simplifications, beside the ones noted at each definition.
* A transaction is known by its outermost ancestor, and its open levels are a stack: a transaction
  has at most one live child (ft/txn/txn.h `child`), and only the innermost level does anything.
* A transaction's `xbegin` is logged when it begins; the code logs it with the transaction's first
  change (ft/txn/txn.cc `toku_maybe_log_begin_txn_for_write_operation`).
* Writing a header is one step: an interrupted write leaves the previous header valid, because the
  two header slots alternate (ft/serialize/ft-serialize.cc `toku_serialize_ft_to_wbuf`, property of
  the header slots elsewhere in this project).
* `DB_IS_HOT_INDEX`, with which the table lock is not taken, is not modelled.
-/

namespace Verif.Desc

/-- The log records that matter here.  `settled o` stands for the checkpoint at the end of a
recovery (ft/logger/recover.cc:1636): it is put in the log when that checkpoint is complete, and
`o` says whether the file is still open then. -/
inductive Rec (D : Type) where
  | begin (r : Nat)
  | change (r : Nat) (old new : D) (cmp : Bool)
  | prepare (r : Nat)
  | commit (r : Nat)
  | abort (r : Nat)
  | fopen
  | fclose
  | settled (o : Bool)
  deriving DecidableEq, Repr

variable {D : Type}

/-- The operation a record stands for. -/
def Rec.ev : Rec D → Option (Ev D)
  | .begin r => some (.begin r)
  | .change r _ new _ => some (.change r new)
  | .prepare r => some (.prepare r)
  | .commit r => some (.commit r)
  | .abort r => some (.abort r)
  | .fopen => none
  | .fclose => none
  | .settled _ => none

/-- The operations a log stands for. -/
def ops (l : List (Rec D)) : List (Ev D) := l.filterMap Rec.ev

/-- An open file in memory: `ft->descriptor`, `ft->cmp_descriptor`, `ft->h->dirty`
(ft/ft-internal.h:130-215). -/
structure Ft (D : Type) where
  desc : D
  cmp : D
  dirty : Bool
  deriving DecidableEq, Repr

/-- ft/serialize/ft-serialize.cc:389-395: a file read from disk compares with its descriptor. -/
def openFt (h : D) : Ft D := ⟨h, h, false⟩

/-- ft/ft.cc:850-878 `toku_ft_update_descriptor`; the descriptor moves to a new block, which makes
the header dirty (ft/serialize/block_table.cc:1017-1033). -/
def updateDesc (f : Ft D) (d : D) : Ft D := { f with desc := d, dirty := true }

/-- ft/ft.cc:880-884 `toku_ft_update_cmp_descriptor`. -/
def updateCmp (f : Ft D) : Ft D := { f with cmp := f.desc }

/-- ft/ft-ops.cc:2925-2934, the end of `toku_ft_change_descriptor`. -/
def changeFt (f : Ft D) (new : D) (cmp : Bool) : Ft D :=
  if cmp then updateCmp (updateDesc f new) else updateDesc f new

/-- ft/txn/roll.cc:662-690 `toku_rollback_change_fdescriptor`, for the entries of one level, newest
first (ft/txn/rollback-apply.cc:80-130). -/
def rollbackFt (f : Ft D) (l : List D) : Ft D := l.foldl updateDesc f

/-- ft/ft.cc:216-271 `ft_close`: the header is written if it is dirty. -/
def closedHdr (hdr : D) (f : Ft D) : D := if f.dirty then f.desc else hdr

/-- The live transactions: for each outermost one the rollback entries of its open levels,
innermost first and newest first in each; an outermost transaction that is not live has no level. -/
structure Tx (D : Type) where
  undo : Nat → List (List D)
  prep : Nat → Bool

/-- ft/txn/txn.cc:121-160 `toku_txn_begin_with_xid`. -/
def Tx.begin (t : Tx D) (r : Nat) : Tx D := { t with undo := put t.undo r ([] :: t.undo r) }

/-- ft/ft-ops.cc:2905-2910: the old descriptor goes on the rollback list. -/
def Tx.save (t : Tx D) (r : Nat) (old : D) : Tx D :=
  match t.undo r with
  | [] => t
  | l :: ls => { t with undo := put t.undo r ((old :: l) :: ls) }

/-- ft/txn/txn.cc:491-512 `toku_txn_prepare_txn`. -/
def Tx.prepare (t : Tx D) (r : Nat) : Tx D := { t with prep := put t.prep r true }

/-- ft/txn/rollback-apply.cc:155-243 `toku_rollback_commit`: a child's entries go to its parent; an
outermost transaction's are dropped (ft/txn/roll.cc:652-660: nothing to do). -/
def Tx.commit (t : Tx D) (r : Nat) : Tx D :=
  match t.undo r with
  | [] => t
  | [_] => { undo := put t.undo r [], prep := put t.prep r false }
  | l :: m :: ls => { t with undo := put t.undo r ((l ++ m) :: ls) }

/-- ft/txn/rollback-apply.cc:245-256 `toku_rollback_abort`: the innermost level ends. -/
def Tx.abort (t : Tx D) (r : Nat) : Tx D :=
  match t.undo r with
  | [] => t
  | [_] => { undo := put t.undo r [], prep := put t.prep r false }
  | _ :: m :: ls => { t with undo := put t.undo r (m :: ls) }

/-- The entries of the innermost level. -/
def Tx.top (t : Tx D) (r : Nat) : List D := (t.undo r).headD []

/-- No entry anywhere. -/
def Tx.Clean (t : Tx D) : Prop := ∀ r l, l ∈ t.undo r → l = []

/-- What replaying works on: the file if it is open, the header on disk, the transactions. -/
structure RSt (D : Type) where
  ft : Option (Ft D)
  hdr : D
  tx : Tx D

/-- ft/logger/recover.cc: `toku_recover_xbegin` 685-700, `toku_recover_change_fdescriptor` 857-886
(no comparison of sequence numbers; skipped when the file is not open), `toku_recover_xprepare`
748-760, `toku_recover_xcommit` 726-742, `toku_recover_xabort` 767-785, `toku_recover_fopen` 833-850,
`toku_recover_fclose` 894-908.  A transaction that is not live has an empty stack and the functions
on `Tx` leave it alone (the code asserts it is there). -/
def replay1 (s : RSt D) : Rec D → RSt D
  | .begin r => { s with tx := s.tx.begin r }
  | .change r old new c =>
    match s.ft with
    | none => s
    | some f => { s with ft := some (changeFt f new c), tx := s.tx.save r old }
  | .prepare r => { s with tx := s.tx.prepare r }
  | .commit r => { s with tx := s.tx.commit r }
  | .abort r => { s with ft := s.ft.map (rollbackFt · (s.tx.top r)), tx := s.tx.abort r }
  | .fopen => { s with ft := some (openFt s.hdr) }
  | .fclose =>
    match s.ft with
    | none => s
    | some f => { s with ft := none, hdr := closedHdr s.hdr f }
  | .settled _ => s

/-- Replaying a stretch of the log. -/
def replay (s : RSt D) (l : List (Rec D)) : RSt D := l.foldl replay1 s

/-- A complete checkpoint as the log has it: where it began, the transactions live then
(`xstillopen`, `xstillopenprepared`), and whether the file was open (`fassociate`)
(ft/cachetable/cachetable.cc:4515-4600). -/
structure Ck (D : Type) where
  pos : Nat
  tx : Tx D
  isOpen : Bool

/-- A checkpoint in progress; `todo` is the descriptor in the copied header if that was dirty and
is not written yet (ft/ft.cc:85-152). -/
structure CkRun (D : Type) where
  ck : Ck D
  todo : Option D

/-- `up`: normal use.  `down`: after a crash, recovery not yet past the end of the log.
`aborting`: the log has been replayed (recover.cc:1597) and live transactions are being aborted.
`closed`: the dictionaries have been closed (recover.cc:1624), the checkpoint is not complete. -/
inductive Mode where
  | up | down | aborting | closed
  deriving DecidableEq, Repr

/-- Everything.  `synced`: how many records of the log are on disk.  `lock`: the outermost
transaction that holds the table lock.  `old`: prepared transactions a recovery found, not yet
resolved: these hold no lock. -/
structure World (D : Type) where
  ft : Option (Ft D)
  hdr : D
  tx : Tx D
  log : List (Rec D)
  synced : Nat
  lock : Option Nat
  old : Nat → Bool
  ck : Option (CkRun D)
  last : Ck D
  mode : Mode

/-- The transactions when there are none. -/
def Tx.none : Tx D := ⟨fun _ => [], fun _ => false⟩

/-- A dictionary with descriptor `d0`, closed, just after a checkpoint. -/
def World.init (d0 : D) : World D :=
  { ft := .none, hdr := d0, tx := Tx.none, log := [], synced := 0, lock := .none,
    old := fun _ => false, ck := .none, last := ⟨0, Tx.none, false⟩, mode := .up }

/-- What recovery starts replaying with (ft/logger/recover.cc:448-480, 620-680). -/
def World.start (w : World D) : RSt D :=
  ⟨if w.last.isOpen then some (openFt w.hdr) else .none, w.hdr, w.last.tx⟩

/-- The lock after the innermost level of `r` ended. -/
def unlock (w : World D) (t : Tx D) (r : Nat) : Option Nat :=
  if t.undo r = [] ∧ w.lock = some r then .none else w.lock

/-- The recovered prepared transactions after the innermost level of `r` ended. -/
def resolve (w : World D) (t : Tx D) (r : Nat) : Nat → Bool :=
  if t.undo r = [] then put w.old r false else w.old

/-- One step.  `good` restricts the descriptors used, and `strict` says whether applications keep
to the rule that nothing is done after a recovery until the prepared transactions it found have
been resolved (src/ydb.cc:1785-1789). -/
inductive Step (strict : Bool) (good : D → Prop) : World D → World D → Prop where
  /-- `txn_begin`, of an outermost transaction or of a child. -/
  | begin (w : World D) (r : Nat) (hm : w.mode = .up) (hp : w.tx.prep r = false) :
      Step strict good w { w with tx := w.tx.begin r, log := w.log ++ [.begin r] }
  /-- `change_descriptor` (src/ydb_db.cc:575-605, ft/ft-ops.cc:2888-2935): the table lock, the
  rollback entry, the log record, the file. -/
  | change (w : World D) (r : Nat) (f : Ft D) (new : D) (c : Bool) (hm : w.mode = .up)
      (hf : w.ft = some f) (hl : w.lock = none ∨ w.lock = some r)
      (hu : w.tx.undo r ≠ []) (hp : w.tx.prep r = false)
      (ho : strict = true → ∀ i, w.old i = false) (hg : good new) :
      Step strict good w { w with
        ft := some (changeFt f new c), tx := w.tx.save r f.desc,
        log := w.log ++ [.change r f.desc new c], lock := some r }
  /-- `prepare`, of an outermost transaction without live children. -/
  | prepare (w : World D) (r : Nat) (l : List D) (hm : w.mode = .up)
      (hu : w.tx.undo r = [l]) :
      Step strict good w { w with tx := w.tx.prepare r, log := w.log ++ [.prepare r] }
  /-- `commit` of the innermost level. -/
  | commit (w : World D) (r : Nat) (hm : w.mode = .up) (hu : w.tx.undo r ≠ []) :
      Step strict good w { w with
        tx := w.tx.commit r, log := w.log ++ [.commit r],
        lock := unlock w (w.tx.commit r) r, old := resolve w (w.tx.commit r) r }
  /-- `abort` of the innermost level: by the application, or, in recovery, of what is not prepared
  (recover.cc:1380-1412). -/
  | abort (w : World D) (r : Nat)
      (hm : w.mode = .up ∨ w.mode = .aborting ∧ w.tx.prep r = false) (hu : w.tx.undo r ≠ []) :
      Step strict good w { w with
        ft := w.ft.map (rollbackFt · (w.tx.top r)),
        tx := w.tx.abort r, log := w.log ++ [.abort r],
        lock := unlock w (w.tx.abort r) r, old := resolve w (w.tx.abort r) r }
  /-- The file is opened. -/
  | fopen (w : World D) (hm : w.mode = .up) (hf : w.ft = none) :
      Step strict good w { w with ft := some (openFt w.hdr), log := w.log ++ [.fopen] }
  /-- The file is closed: no transaction that changed it is live, and no checkpoint that includes
  it is running (both hold references to it: ft/txn/txn.cc `toku_txn_maybe_note_ft`, ft/ft.cc
  `ft_note_pin_by_checkpoint`). -/
  | fclose (w : World D) (f : Ft D) (hm : w.mode = .up) (hf : w.ft = some f) (hc : w.tx.Clean)
      (hk : ∀ c, w.ck = some c → c.ck.isOpen = false) :
      Step strict good w { w with
        ft := none, hdr := closedHdr w.hdr f, log := w.log ++ [.fclose],
        synced := if f.dirty then w.log.length + 1 else w.synced }
  /-- A checkpoint begins (ft/ft.cc:141-152); not while a descriptor is being changed
  (src/ydb_db.cc:889-893). -/
  | ckBegin (w : World D) (hm : w.mode = .up) (hc : w.ck = none) :
      Step strict good w { w with
        ft := w.ft.map ({ · with dirty := false }),
        ck := some ⟨⟨w.log.length, w.tx, w.ft.isSome⟩,
          w.ft.bind fun f => if f.dirty then some f.desc else none⟩ }
  /-- The copied header is written, after the log up to the checkpoint (ft/ft.cc:183-214). -/
  | ckWrite (w : World D) (c : CkRun D) (d : D) (hm : w.mode = .up) (hc : w.ck = some c)
      (hd : c.todo = some d) :
      Step strict good w { w with
        hdr := d, synced := max w.synced c.ck.pos, ck := some { c with todo := none } }
  /-- The checkpoint ends: the end is logged and the log synced. -/
  | ckEnd (w : World D) (c : CkRun D) (hm : w.mode = .up) (hc : w.ck = some c)
      (hd : c.todo = none) :
      Step strict good w { w with ck := none, last := c.ck, synced := w.log.length }
  /-- The log is synced. -/
  | sync (w : World D) (hm : w.mode ≠ .down) :
      Step strict good w { w with synced := w.log.length }
  /-- A crash: of the log, what was synced is left, and perhaps more. -/
  | crash (w : World D) (n : Nat) (hn : w.synced ≤ n) (hl : n ≤ w.log.length) :
      Step strict good w { w with
        ft := none, tx := Tx.none, log := w.log.take n, synced := n, lock := none,
        old := fun _ => false, ck := none, mode := .down }
  /-- Recovery replays part of the log and then there is another crash: headers written when the
  file was closed stay. -/
  | partly (w : World D) (k : Nat) (hm : w.mode = .down) :
      Step strict good w { w with
        hdr := (replay w.start ((w.log.drop w.last.pos).take k)).hdr }
  /-- Recovery replays the log to its end. -/
  | replayed (w : World D) (hm : w.mode = .down) :
      Step strict good w
        (let s := replay w.start (w.log.drop w.last.pos)
         { w with ft := s.ft, hdr := s.hdr, tx := s.tx, mode := .aborting })
  /-- Recovery closes the file, unless a prepared transaction refers to it (recover.cc:1618-1624);
  with a sequence number of its own (`oplsn`), so that nothing is logged and the log is not
  synced. -/
  | recClose (w : World D) (hm : w.mode = .aborting)
      (hu : ∀ r, w.tx.undo r ≠ [] → w.tx.prep r = true) (hc : w.tx.Clean) :
      Step strict good w { w with
        ft := none, hdr := match w.ft with | some f => closedHdr w.hdr f | none => w.hdr,
        mode := .closed }
  | recKeep (w : World D) (hm : w.mode = .aborting)
      (hu : ∀ r, w.tx.undo r ≠ [] → w.tx.prep r = true) (hc : ¬ w.tx.Clean) :
      Step strict good w { w with mode := .closed }
  /-- Recovery's own checkpoint writes the header of a file that is still open, if it is dirty. -/
  | recWrite (w : World D) (f : Ft D) (hm : w.mode = .closed) (hf : w.ft = some f) :
      Step strict good w { w with
        ft := some { f with dirty := false }, hdr := closedHdr w.hdr f }
  /-- Recovery's own checkpoint is complete (recover.cc:1636). -/
  | recDone (w : World D) (hm : w.mode = .closed) (hd : ∀ f, w.ft = some f → f.dirty = false) :
      Step strict good w { w with
        log := w.log ++ [.settled w.ft.isSome], synced := w.log.length + 1,
        last := ⟨w.log.length + 1, w.tx, w.ft.isSome⟩,
        old := fun r => w.tx.prep r, mode := .up }

/-- The states a run from `World.init d0` passes through. -/
inductive Reach (strict : Bool) (good : D → Prop) (d0 : D) : World D → Prop where
  | init : Reach strict good d0 (World.init d0)
  | step {w w' : World D} : Reach strict good d0 w → Step strict good w w' →
      Reach strict good d0 w'

end Verif.Desc
