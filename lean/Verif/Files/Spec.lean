/-! Dictionaries that come and go: what a log of calls says about names and rows. -/
namespace Verif.Files

/-- Transactions, names of dictionaries, and files.  A file has a number (`FILENUM`) and a name (`iname`). -/
abbrev Tx := Nat
abbrev Name := Nat
abbrev File := Nat

/-- What is logged, one record for what one call does. -/
inductive Rec where
  | «begin» (t : Tx)
  /-- a new dictionary: its row in the directory, and `fcreate`; the file's name is new too -/
  | create (t : Tx) (d : Name) (f : File)
  /-- the directory's row deleted, and `fdelete` -/
  | remove (t : Tx) (d : Name) (f : File)
  /-- a rename that keeps the file's name: two rows of the directory -/
  | rename (t : Tx) (d d' : Name) (i : File)
  /-- a rename that renames the file from `i` to `j` (`frename`) -/
  | frename (t : Tx) (d d' : Name) (f i j : File)
  | put (t : Tx) (f : File) (v : Nat)
  | fopen (f i : File)
  | fclose (f i : File)
  /-- the beginning of a checkpoint: the open files, their names, and which are to be unlinked -/
  | assoc (l : List (File × File × Bool))
  | commit (t : Tx)
  | abort (t : Tx)
  deriving DecidableEq

/-- The directory as someone sees it who sees the transactions in `S`. -/
def dirStep (S : Tx → Bool) (m : Name → Option File) : Rec → Name → Option File
  | .create t d f => if S t then fun x => if x = d then some f else m x else m
  | .remove t d _ => if S t then fun x => if x = d then none else m x else m
  | .rename t d d' i => if S t then fun x => if x = d' then some i else if x = d then none else m x else m
  | .frename t d d' _ _ j => if S t then fun x => if x = d' then some j else if x = d then none else m x else m
  | _ => m

def dirv (S : Tx → Bool) (L : List Rec) : Name → Option File := L.foldl (dirStep S) fun _ => none

def isCom (L : List Rec) (t : Tx) : Bool := decide (Rec.commit t ∈ L)

/-- The directory of the committed transactions. -/
def directory (L : List Rec) : Name → Option File := dirv (isCom L) L

/-- The rows put into a file, in order, with the transaction that did. -/
def rowOf (f : File) : Rec → Option (Tx × Nat)
  | .put t g v => if g = f then some (t, v) else none
  | _ => none

def rowsOf (L : List Rec) (f : File) : List (Tx × Nat) := L.filterMap (rowOf f)

/-- The file was created at some time. -/
def Created (L : List Rec) (f : File) : Prop := ∃ t d, Rec.create t d f ∈ L

end Verif.Files
