import Verif.Files.Spec

/-! Creating, removing and renaming dictionaries, checkpoints, crash and recovery.

Model of `toku_db_open` (src/ydb_db.cc:281-365), `env_dbremove`, `env_dbrename` (src/ydb.cc:3150-3360), `ft_handle_open`,
`toku_ft_unlink_on_commit`, `toku_ft_rename_iname` (ft/ft-ops.cc:2955-3109, 5059-5137), `ft_close`
(ft/ft.cc:228-280), `toku_cachefile_close` (ft/cachetable/cachetable.cc:511-570), the rollback entries of
ft/txn/roll.cc:68-285, and of ft/logger/recover.cc:300-960.

Simplifications: a file keeps its number for all of its openings; the records one call writes are one record, and what it
does to the disk happens with it, the log being written out later; every call is made in a flat transaction (a call that
fails has a transaction of its own, which aborts); rows are appended, and those of a transaction that did not commit are
not visible (C41 has rows and rollback in full); a file is written on every close; there is one crash. -/
namespace Verif.Files

/-- A file on disk: its identity, its rows, and the log position (`checkpoint_lsn`) up to which they are there. -/
structure Img where
  id : File
  rows : List (Tx × Nat)
  lsn : Nat
  deriving DecidableEq

/-- An open file (`CACHEFILE`): its name; the name recovery has noted for it (`file_map_tuple.iname`);
`unlink_on_close`; `skip_log_recover_on_close`. -/
structure Open where
  name : File
  tup : File
  doom : Bool
  skip : Bool
  deriving DecidableEq

/-- Files on disk by name, open files by number. -/
structure Disk where
  fs : File → Option Img
  opn : File → Option Open

def upd {α : Type} (m : File → α) (f : File) (a : α) : File → α := fun x => if x = f then a else m x

def Live (L : List Rec) (t : Tx) : Prop := Rec.begin t ∈ L ∧ Rec.commit t ∉ L ∧ Rec.abort t ∉ L

instance (L : List Rec) (t : Tx) : Decidable (Live L t) := by unfold Live; infer_instance

/-- The transaction has changed the directory's row of `d`, and so has it locked. -/
def touches (t : Tx) (d : Name) : Rec → Bool
  | .create u e _ => u = t && e = d
  | .remove u e _ => u = t && e = d
  | .rename u e e' _ => u = t && (e = d || e' = d)
  | .frename u e e' _ _ _ => u = t && (e = d || e' = d)
  | _ => false

/-- The directory's row of `d` is not locked by another transaction. -/
def LockFree (L : List Rec) (t : Tx) (d : Name) : Prop :=
  ∀ u, u ≠ t → Live L u → ∀ r ∈ L, touches u d r = false

/-- The directory as `t` sees it. -/
def view (L : List Rec) (t : Tx) : Name → Option File := dirv (fun u => isCom L u || u = t) L

/-- The transaction holds on to the file (`toku_txn_maybe_note_ft`). -/
def holds (t : Tx) (f : File) : Rec → Bool
  | .create u _ g => u = t && g = f
  | .remove u _ g => u = t && g = f
  | .frename u _ _ g _ _ => u = t && g = f
  | .put u g _ => u = t && g = f
  | _ => false

def Held (L : List Rec) (f : File) : Prop := ∃ t, Live L t ∧ ∃ r ∈ L, holds t f r = true

/-- Nobody else has a row lock in the file: `toku_db_pre_acquire_table_lock`. -/
def TableFree (L : List Rec) (t : Tx) (f : File) : Prop := ∀ u v, Rec.put u f v ∈ L → Live L u → u = t

/-- The file is marked, once (`assert(!cf->unlink_on_close)`, ft/cachetable/cachetable.cc:2947); a file that is not open
is passed over (ft/txn/roll.cc:79-83, 143-147). -/
def doom (s : Bool) (f : File) (k : Disk) : Option Disk :=
  match k.opn f with
  | none => some k
  | some o => if o.doom then none else some { k with opn := upd k.opn f (some { o with doom := true, skip := o.skip || s }) }

/-- Rename a file on disk from `i` to `j`: what was at `j` is deleted; no file at `i`, nothing done. -/
def Disk.move (k : Disk) (i j : File) : Disk :=
  match k.fs i with
  | none => k
  | some img => { k with fs := upd (upd k.fs i none) j (some img) }

/-- An open file gets another name. -/
def Disk.called (k : Disk) (f j : File) : Disk :=
  match k.opn f with
  | none => k
  | some o => { k with opn := upd k.opn f (some { o with name := j }) }

/-- `toku_rollback_frename` (ft/txn/roll.cc:178-280): the file goes back to its name, an open file too, and its close will
not be logged. -/
def unrename (f i j : File) (k : Disk) : Disk :=
  let k := k.move j i
  match k.opn f with
  | none => k
  | some o => if o.name = j then { k with opn := upd k.opn f (some { o with name := i, skip := true }) } else k

/-- Commit: `toku_commit_fdelete` for every file removed. -/
def commitAll (t : Tx) : List Rec → Disk → Option Disk
  | [], k => some k
  | .remove u _ f :: l, k => if u = t then (commitAll t l k).bind (doom false f) else commitAll t l k
  | _ :: l, k => commitAll t l k

def removedBy (t : Tx) : Rec → Bool
  | .remove u _ _ => u = t
  | _ => false

/-- Abort: newest entry first, `toku_rollback_fcreate` and `toku_rollback_frename`. -/
def abortAll (t : Tx) : List Rec → Disk → Option Disk
  | [], k => some k
  | .create u _ f :: l, k => if u = t then (abortAll t l k).bind (doom true f) else abortAll t l k
  | .frename u _ _ f i j :: l, k => if u = t then (abortAll t l k).map (unrename f i j) else abortAll t l k
  | _ :: l, k => abortAll t l k

/-! Running -/

/-- The log, what of it is on disk, where the last complete checkpoint begins; the disk; a checkpoint in progress with
where it began and the files it has still to write. -/
structure World where
  log : List Rec
  synced : Nat
  ck : Nat
  disk : Disk
  pin : Option (Nat × List File)

/-- `dpd`: the option `dir_per_db`, with which renaming a dictionary renames its file. -/
inductive Step (dpd : Bool) : World → World → Prop where
  | «begin» (w t) : Rec.begin t ∉ w.log → Step dpd w { w with log := w.log ++ [.begin t] }
  /-- a new dictionary (src/ydb_db.cc:325-365, ft/ft-ops.cc:2984-2993) -/
  | create (w t d f) : Live w.log t → LockFree w.log t d → view w.log t d = none → ¬ Created w.log f →
      w.disk.fs f = none → w.disk.opn f = none →
      Step dpd w { w with log := w.log ++ [.create t d f], disk :=
        ⟨upd w.disk.fs f (some ⟨f, [], 0⟩), upd w.disk.opn f (some ⟨f, f, false, false⟩)⟩ }
  /-- open a file by its name (ft/ft-ops.cc:3037-3041) -/
  | fopen (w t d i img) : Live w.log t → LockFree w.log t d → view w.log t d = some i → w.disk.fs i = some img →
      w.disk.opn img.id = none →
      Step dpd w { w with log := w.log ++ [.fopen img.id i], disk :=
        { w.disk with opn := upd w.disk.opn img.id (some ⟨i, i, false, false⟩) } }
  | put (w t d f o v) : Live w.log t → LockFree w.log t d → w.disk.opn f = some o → view w.log t d = some o.name →
      Step dpd w { w with log := w.log ++ [.put t f v] }
  /-- `env_dbremove` (src/ydb.cc:3150-3240); the call has opened the file -/
  | remove (w t d f o) : Live w.log t → LockFree w.log t d → w.disk.opn f = some o → view w.log t d = some o.name →
      TableFree w.log t f → Step dpd w { w with log := w.log ++ [.remove t d f] }
  /-- `env_dbrename` without `dir_per_db` (src/ydb.cc:3264-3360) -/
  | rename (w t d d' f o) : dpd = false → Live w.log t → LockFree w.log t d → LockFree w.log t d' →
      w.disk.opn f = some o → view w.log t d = some o.name → view w.log t d' = none → TableFree w.log t f →
      Step dpd w { w with log := w.log ++ [.rename t d d' o.name] }
  /-- with it: the file is renamed at once (`toku_ft_rename_iname`, ft/ft-ops.cc:5088-5137); the log is not written out
  before that -/
  | frename (w t d d' f i j) : dpd = true → Live w.log t → LockFree w.log t d → LockFree w.log t d' →
      view w.log t d = some i → view w.log t d' = none → TableFree w.log t f →
      (∃ img, w.disk.fs i = some img ∧ img.id = f) → w.disk.fs j = none → ¬ Created w.log j →
      Step dpd w { w with log := w.log ++ [.frename t d d' f i j], disk :=
        (w.disk.move i j).called f j }
  /-- another transaction has a row lock in the dictionary: the call fails after all of that, and its transaction is
  aborted (src/ydb.cc:3330-3350, 1574-1585) -/
  | frenameFails (w t d d' f o i j) : dpd = true → Rec.begin t ∉ w.log → LockFree w.log t d → LockFree w.log t d' →
      view w.log t d = some i → view w.log t d' = none → ¬ TableFree w.log t f →
      w.disk.opn f = some o → o.name = i → w.disk.fs i ≠ none → w.disk.fs j = none → ¬ Created w.log j →
      Step dpd w { w with log := w.log ++ [.begin t, .frename t d d' f i j, .abort t], disk :=
        { w.disk with opn := upd w.disk.opn f (some { o with skip := true }) } }
  /-- a commit that removes files writes the log out first (ft/txn/roll.cc:88-101) -/
  | commit (w t k) : Live w.log t → commitAll t w.log w.disk = some k →
      Step dpd w ⟨w.log ++ [.commit t], if w.log.any (removedBy t) then w.log.length + 1 else w.synced, w.ck, k, w.pin⟩
  | abort (w t k) : Live w.log t → abortAll t w.log w.disk = some k →
      Step dpd w { w with log := w.log ++ [.abort t], disk := k }
  /-- the log is written out -/
  | sync (w n) : w.synced ≤ n → n ≤ w.log.length → Step dpd w { w with synced := n }
  /-- the last handle is closed and no transaction holds on to the file: it is written, or unlinked
  (ft/ft.cc:228-280, ft/cachetable/cachetable.cc:511-556) -/
  | fclose (w f o) : w.disk.opn f = some o → ¬ Held w.log f → (∀ p l, w.pin = some (p, l) → f ∉ l) → o.skip = false →
      Step dpd w { w with log := w.log ++ [.fclose f o.name], synced := w.log.length + 1, disk :=
        ⟨upd w.disk.fs o.name (if o.doom then none else some ⟨f, rowsOf w.log f, w.log.length + 1⟩),
          upd w.disk.opn f none⟩ }
  /-- ... without a record, and then with log position 0 (ft/ft.cc:246-274) -/
  | fcloseSkip (w f o) : w.disk.opn f = some o → ¬ Held w.log f → (∀ p l, w.pin = some (p, l) → f ∉ l) → o.skip = true →
      Step dpd w { w with disk :=
        ⟨upd w.disk.fs o.name (if o.doom then none else some ⟨f, rowsOf w.log f, 0⟩), upd w.disk.opn f none⟩ }
  /-- a checkpoint begins: the open files are logged (`ft_log_fassociate_during_checkpoint`, ft/ft.cc:124-136) -/
  | ckBegin (w l) : w.pin = none → (∀ f i u, (f, i, u) ∈ l ↔ ∃ o, w.disk.opn f = some o ∧ o.name = i ∧ o.doom = u) →
      (l.map (·.1)).Nodup →
      Step dpd w { w with log := w.log ++ [.assoc l], pin := some (w.log.length, l.map (·.1)) }
  /-- ... writes one of them as it was at the beginning, the log first (ft/ft.cc:183-212) -/
  | ckFile (w p l f o) : w.pin = some (p, l) → f ∈ l → w.disk.opn f = some o → p ≤ w.synced →
      Step dpd w { w with pin := some (p, l.filter (· ≠ f)), disk :=
        { w.disk with fs := upd w.disk.fs o.name (some ⟨f, rowsOf (w.log.take p) f, p⟩) } }
  /-- ... and ends -/
  | ckEnd (w p) : w.pin = some (p, []) → Step dpd w { w with pin := none, ck := p, synced := w.log.length }

def World.start : World := ⟨[], 0, 0, ⟨fun _ => none, fun _ => none⟩, none⟩

inductive Reach (dpd : Bool) : World → Prop where
  | start : Reach dpd .start
  | step (w w') : Reach dpd w → Step dpd w w' → Reach dpd w'

/-! Recovery -/

/-- `toku_recover_fassociate` for one file (ft/logger/recover.cc:448-499): at the checkpoint recovery starts from, the
file is opened if it is there; later the name is compared. -/
def recAssoc (first : Bool) : List (File × File × Bool) → Disk → Option Disk
  | [], k => some k
  | (f, i, u) :: l, k =>
    if first then
      if k.opn f ≠ none then none
      else recAssoc first l (if k.fs i = none then k else { k with opn := upd k.opn f (some ⟨i, i, u, false⟩) })
    else match k.opn f with
      | none => recAssoc first l k
      | some o => if o.tup = i then recAssoc first l k else none

/-- One record, at position `n` of the log `L` (up to there); `ck` is where recovery starts.  `none`: recovery stops at a
failed assertion. -/
def recover1 (L : List Rec) (ck n : Nat) (k : Disk) : Rec → Option Disk
  | .begin _ => some k
  | .rename _ _ _ _ => some k
  -- `toku_recover_fcreate` (:812-847): unlinked if it is there, and created
  | .create _ _ f => if k.opn f ≠ none then none else
      some ⟨upd k.fs f (some ⟨f, [], 0⟩), upd k.opn f (some ⟨f, f, false, false⟩)⟩
  -- `toku_recover_fopen` (:856-873): a missing file is passed over
  | .fopen f i => if k.opn f ≠ none then none else
      some (if k.fs i = none then k else { k with opn := upd k.opn f (some ⟨i, i, false, false⟩) })
  -- `toku_recover_fclose` (:907-921); the log position does not go back (ft/ft.cc:238-245)
  | .fclose f i => match k.opn f with
    | none => some k
    | some o => if o.tup ≠ i then none else
      some ⟨upd k.fs o.name (if o.doom then none else (k.fs o.name).map fun img => { img with lsn := max img.lsn (n + 1) }),
        upd k.opn f none⟩
  -- `toku_recover_enq_insert` (:1014-1030): a file that is not open is passed over, a row already there too
  -- (ft/ft-ops.cc:2425-2429)
  | .put t f v => match k.opn f with
    | none => some k
    | some o => some ⟨upd k.fs o.name
        ((k.fs o.name).map fun img => if n < img.lsn then img else { img with rows := img.rows ++ [(t, v)] }), k.opn⟩
  | .remove _ _ _ => some k
  -- `toku_recover_frename` (:940-1008)
  | .frename _ _ _ f i j =>
    let k := k.move i j
    some (match k.opn f with
      | none => k
      | some o => { k with opn := upd k.opn f (some { o with tup := j, name := if o.name = i then j else o.name }) })
  | .assoc l => recAssoc (n = ck) l k
  | .commit t => commitAll t L k
  | .abort t => abortAll t L k

/-- The records from `n` on. -/
def replay (ck : Nat) : List Rec → Nat → List Rec → Disk → Option Disk
  | _, _, [], k => some k
  | L, n, r :: rs, k => (recover1 L ck n k r).bind (replay ck (L ++ [r]) (n + 1) rs)

/-- Transactions still open are aborted at the end (`recover_abort_all_live_txns`). -/
def liveList (L P : List Rec) : List Rec :=
  L.filterMap fun r => match r with
    | .begin t => if Live P t then some (.abort t) else none
    | _ => none

/-- In the end all files are closed, and those that are marked unlinked. -/
def Disk.closeAll (k : Disk) (i : File) : Option (List (Tx × Nat)) :=
  match k.fs i with
  | none => none
  | some img => match k.opn img.id with
    | none => some img.rows
    | some o => if o.doom ∧ o.name = i then none else some img.rows

/-- Recovery with what is on disk, the log `P` that is there, and the last complete checkpoint: the files by name, and their
rows. -/
def recover (fs : File → Option Img) (P : List Rec) (ck : Nat) : Option (File → Option (List (Tx × Nat))) :=
  (replay ck (P.take ck) ck (P.drop ck ++ liveList P P) ⟨fs, fun _ => none⟩).map Disk.closeAll

end Verif.Files
