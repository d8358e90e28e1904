import Verif.Log.Format
/-!
Model of the log cursor, ft/logger/logcursor.cc.

The log directory is the list of the contents of its files in the order of `toku_logger_find_logfiles`.  Opening a file never
fails for lack of permission or descriptors, and no file is removed while the cursor exists.
-/
namespace Verif.Log
open Verif.Ser

/-- "tokulogg" and the version, most significant byte first: `open_logfile`, logger.cc:725-727. -/
def header (version : Nat) : List Nat :=
  "tokulogg".toList.map Char.toNat ++ [version / 2 ^ 24 % 256, version / 2 ^ 16 % 256, version / 2 ^ 8 % 256, version % 256]

/-- `TOKU_LOG_VERSION`, ft/logger/logger.h:58, ft/serialize/ft_layout_version.h. -/
def logVersion : Nat := 29

/-- `TOKU_LOG_MIN_SUPPORTED_VERSION`, ft/logger/logger.h:59, ft/serialize/ft_layout_version.h. -/
def logMinVersion : Nat := 13

/-- `toku_read_logmagic`, logger.cc:1219-1239, at the start of a file; `none` stands for `DB_BADFORMAT`. -/
def readMagic (f : List Nat) : Option Nat :=
  if f.take 8 ≠ "tokulogg".toList.map Char.toNat then none
  else match f.drop 8 with
    | a :: b :: c :: d :: _ => some (a * 2 ^ 24 + b * 2 ^ 16 + c * 2 ^ 8 + d)
    | _ => none

/-- `enum lc_direction`, logcursor.cc:44. -/
inductive Dir where
  | forward | backward | first | last
deriving Repr, DecidableEq

/-- `is_open` and the position in the open file.  After a record that could not be read the position is not modelled. -/
inductive Pos where
  | closed
  | at (n : Nat)
  | lost
deriving Repr, DecidableEq

/-- `struct toku_logcursor`, logcursor.cc:46-59, with the files themselves; the entry is part of what a call returns. -/
structure Cur where
  files : List (List Nat)
  idx : Nat
  pos : Pos
  valid : Bool
  lsn : Nat
  dir : Dir
deriving Repr, DecidableEq

/-- What a call returns: an entry, `DB_NOTFOUND`, `DB_BADFORMAT`, `DB_RUNRECOVERY`, another error, a failed assertion, a write
outside an array, or what the model leaves open. -/
inductive Ret where
  | ok (e : Entry)
  | notfound
  | badformat
  | runrecovery
  | err
  | crash
  | smash
  | lost
deriving Repr, DecidableEq

/-- `lc_create`, logcursor.cc:156-186, and `toku_logcursor_create`, 190-204. -/
def Cur.create (files : List (List Nat)) : Cur := ⟨files, 0, .closed, false, 0, .first⟩

/-- The contents of the file the cursor is in. -/
def Cur.file (c : Cur) : List Nat := c.files[c.idx]?.getD []

/-- The part of `lc_open_logfile`, logcursor.cc:108-133, that depends on the file: the position after opening it. -/
def openPos (files : List (List Nat)) (k : Nat) : Except Ret Nat :=
  match files[k]? with
  | none => .error .notfound
  | some f =>
    if 12 ≤ f.length then
      match readMagic f with
      | none => .error .badformat
      | some v => if v < logMinVersion ∨ v > logVersion then .error .badformat else .ok 12
    else .ok 0

/-- `lc_check_lsn`, logcursor.cc:135-150, on an entry that was read. -/
def Cur.check (c : Cur) (dir : Dir) (e : Entry) : Option Cur :=
  if (dir = .forward ∧ e.lsn ≠ (c.lsn + 1) % 2 ^ 64) ∨ (dir = .backward ∧ e.lsn ≠ (c.lsn + 2 ^ 64 - 1) % 2 ^ 64) then none
  else some { c with lsn := e.lsn }

/-- The end of the four calls, e.g. logcursor.cc:310-315. -/
def Cur.finish (c : Cur) (dir : Dir) (r : Ret) : Cur × Ret :=
  match r with
  | .ok e =>
    match c.check dir e with
    | none => (c, .runrecovery)
    | some c => ({ c with dir := dir, valid := true }, .ok e)
  | r => (c, r)

/-- `lc_log_read`, logcursor.cc:241-267; `n` bounds the number of files opened. -/
def Cur.read : Nat → Cur → Cur × Ret
  | 0, c => (c, .lost)
  | n + 1, c =>
    match c.pos with
    | .at p =>
      match fread (c.file.drop p) with
      | .ok (e, rest) => ({ c with pos := .at (c.file.length - rest.length) }, .ok e)
      | .eof =>
        if c.idx = c.files.length - 1 then ({ c with pos := .closed }, .notfound)
        else
          match openPos c.files (c.idx + 1) with
          | .error r => ({ c with idx := c.idx + 1, pos := .closed }, r)
          | .ok p => Cur.read n { c with idx := c.idx + 1, pos := .at p }
      | .bad => ({ c with pos := .lost }, .badformat)
      | .smash => (c, .smash)
    | _ => (c, .lost)

/-- `lc_log_read_backward`, logcursor.cc:269-300. -/
def Cur.readBack : Nat → Cur → Cur × Ret
  | 0, c => (c, .lost)
  | n + 1, c =>
    match c.pos with
    | .at p =>
      match freadBackward c.file p with
      | .ok e p => ({ c with pos := .at p }, .ok e)
      | .top =>
        if c.idx = 0 then ({ c with pos := .closed }, .notfound)
        else
          match openPos c.files (c.idx - 1) with
          | .error r => ({ c with idx := c.idx - 1, pos := .closed }, r)
          | .ok _ => Cur.readBack n { c with idx := c.idx - 1, pos := .at (c.files[c.idx - 1]?.getD []).length }
      | .err => ({ c with pos := .lost }, .err)
      | .smash => (c, .smash)
    | _ => (c, .lost)

/-- The loop of `lc_fix_bad_logfile`, logcursor.cc:474-483: the position after the last good record; `none` if memory is
overwritten on the way. -/
def scanGood : Nat → List Nat → Nat → Option Nat
  | 0, _, p => some p
  | n + 1, f, p =>
    match fread f with
    | .ok (_, rest) => scanGood n rest (p + (f.length - rest.length))
    | .smash => none
    | _ => some p

/-- `truncate`: a longer size fills with zeros. -/
def truncateTo (f : List Nat) (n : Nat) : List Nat := f.take n ++ List.replicate (n - f.length) 0

/-- `lc_fix_bad_logfile`, logcursor.cc:459-504: the records are counted in the current file, and the last file is truncated
and opened.  The index of the current file is not changed. -/
def Cur.fix (c : Cur) : Except Ret (Cur × List Nat × Nat) :=
  match readMagic c.file with
  | none => .error .badformat
  | some v =>
    if v ≠ logVersion then .error .badformat
    else
      match scanGood c.file.length (c.file.drop 12) 12 with
      | none => .error .smash
      | some p =>
        let k := c.files.length - 1
        let files := c.files.set k (truncateTo (c.files[k]?.getD []) p)
        match openPos files k with
        | .error _ => .error .badformat
        | .ok _ =>
          let g := files[k]?.getD []
          .ok ({ c with files := files, pos := .at g.length }, g, g.length)

/-- The loop of `toku_logcursor_last`, logcursor.cc:399-437.  After a repair the open file is the last one, whatever the index
says; if the index says otherwise, the position is left open. -/
def Cur.lastLoop : Nat → Cur → Cur × Ret
  | 0, c => (c, .lost)
  | n + 1, c =>
    let previous (c : Cur) : Cur × Ret :=
      if c.idx = 0 then ({ c with pos := .closed }, .notfound)
      else
        match openPos c.files (c.idx - 1) with
        | .error r => ({ c with idx := c.idx - 1, pos := .closed }, r)
        | .ok _ => Cur.lastLoop n { c with idx := c.idx - 1 }
    match freadBackward c.file c.file.length with
    | .ok e p => ({ c with pos := .at p }, .ok e)
    | .top => previous c
    | .err =>
      match c.fix with
      | .error .smash => (c, .smash)
      | .error _ => ({ c with pos := .closed }, .badformat)
      | .ok (c, g, len) =>
        match freadBackward g len with
        | .ok e p => ({ c with pos := if c.idx = c.files.length - 1 then .at p else .lost }, .ok e)
        | .smash => (c, .smash)
        | _ => previous c
    | .smash => (c, .smash)

/-- `toku_logcursor_first`, logcursor.cc:350-379. -/
def Cur.first (c : Cur) : Cur × Ret :=
  let c := { c with valid := false }
  let c := if c.idx ≠ 0 then { c with pos := .closed } else c
  let r := if c.pos = .closed then
      match openPos c.files 0 with
      | .error r => .error r
      | .ok p => .ok { c with idx := 0, pos := .at p }
    else (.ok c : Except Ret Cur)
  match r with
  | .error r => (c, r)
  | .ok c =>
    let (c, r) := c.read (c.files.length + 1)
    c.finish .first r

/-- `toku_logcursor_last`, logcursor.cc:382-444. -/
def Cur.last (c : Cur) : Cur × Ret :=
  let c := { c with valid := false }
  let c := if c.idx ≠ c.files.length - 1 then { c with pos := .closed } else c
  let r := if c.pos = .closed then
      match openPos c.files (c.files.length - 1) with
      | .error r => .error r
      | .ok _ => .ok { c with idx := c.files.length - 1 }
    else (.ok c : Except Ret Cur)
  match r with
  | .error r => (c, r)
  | .ok c =>
    let (c, r) := c.lastLoop (c.files.length + 1)
    c.finish .last r

/-- `toku_logcursor_next`, logcursor.cc:302-324. -/
def Cur.next (c : Cur) : Cur × Ret :=
  if c.valid then
    let c := { c with valid := false }
    let r := if c.dir = .backward then
        match c.pos with
        | .at p =>
          match fread (c.file.drop p) with
          | .ok (_, rest) => .ok { c with pos := .at (c.file.length - rest.length) }
          | .smash => .error .smash
          | _ => .error .crash
        | _ => .error .lost
      else (.ok c : Except Ret Cur)
    match r with
    | .error r => (c, r)
    | .ok c =>
      let (c, r) := c.read (c.files.length + 1)
      c.finish .forward r
  else c.first

/-- `toku_logcursor_prev`, logcursor.cc:326-348. -/
def Cur.prev (c : Cur) : Cur × Ret :=
  if c.valid then
    let c := { c with valid := false }
    let r := if c.dir = .forward then
        match c.pos with
        | .at p =>
          match freadBackward c.file p with
          | .ok _ p => .ok { c with pos := .at p }
          | .smash => .error .smash
          | _ => .error .crash
        | _ => .error .lost
      else (.ok c : Except Ret Cur)
    match r with
    | .error r => (c, r)
    | .ok c =>
      let (c, r) := c.readBack (c.files.length + 1)
      c.finish .backward r
  else c.last

end Verif.Log
