/-!
# Opening an environment

Model of DB_ENV->open with DB_INIT_LOG and DB_INIT_TXN (src/ydb.cc:836-1147): the log of an older version is replaced
(ft/logger/log_upgrade.cc:229-294), the presence of the environment's own files is validated (src/ydb.cc:647-792), the log is
recovered, and missing things are made.  An opening is the list of states of the directories it goes through: a crash leaves one
of them.  Simplified: each change is on disk at once, in order; of the log only the last record of each file is kept; recovery
itself is one step that succeeds for logs of versions 25 and later that have a record; the environment dictionary and the
directory of dictionaries are filled when the latter is made.
-/

namespace Verif.Open

/-- The last record of a log file: that of a clean shutdown (with the code it had up to version 19, or the later one), or another. -/
inductive Rec
  | shutdown
  | shutdown19
  | other
deriving DecidableEq, Repr

structure LogFile where
  ver : Nat
  last : Option Rec
deriving DecidableEq, Repr

/-- Log files in the order of their versions and numbers (ft/logger/logger.cc:624-646); the rollback file; the environment
dictionary with the version stored in it; the directory of dictionaries. -/
structure Disk where
  logs : List LogFile
  rollback : Bool
  env : Option Nat
  fileops : Bool
deriving DecidableEq, Repr

inductive Err
  | noent
  | tooNew
  | tooOld
  | upgradeFailure
  | runRecovery
deriving DecidableEq, Repr

/-- `unknown`: recovery of a log of a version before 25, not modelled; `crash`: a failed assertion. -/
inductive Res
  | ok
  | err (e : Err)
  | unknown
  | crash
deriving DecidableEq, Repr

/-- FT_LAYOUT_VERSION and FT_LAYOUT_MIN_SUPPORTED_VERSION, ft/serialize/ft_layout_version.h:71-74. -/
def cur : Nat := 29
def oldest : Nat := 13

/-- toku_get_version_of_logs_on_disk, ft/logger/logger.cc:1400-1435: the highest version. -/
def maxVer : List LogFile → Nat
  | [] => 0
  | f :: fs => max f.ver (maxVer fs)

/-- toku_logcursor_last, ft/logger/logcursor.cc:377-433: the last record of the last file that has one. -/
def lastRec : List LogFile → Option Rec
  | [] => none
  | f :: fs => match lastRec fs with
    | some e => some e
    | none => f.last

/-- verify_clean_shutdown_of_log_version_old, ft/logger/log_upgrade.cc:94-163: only the newest file is looked at. -/
def cleanOld (logs : List LogFile) (v : Nat) : Bool :=
  match logs.getLast? with
  | some f => if v ≤ 19 then f.last == some .shutdown19 else f.last == some .shutdown
  | none => false

/-- toku_maybe_upgrade_log up to the upgrade itself, ft/logger/log_upgrade.cc:247-280: whether to upgrade. -/
def decideUpgrade (d : Disk) : Except Err Bool :=
  if d.logs.isEmpty then .ok false
  else
    let v := maxVer d.logs
    if cur < v then .error .tooNew
    else if v < oldest then .error .tooOld
    else if v = cur then .ok false
    else if cleanOld d.logs v then .ok true
    else if 25 ≤ v then .ok false
    else .error .upgradeFailure

/-- The last record of the file being written. -/
def markLast (e : Rec) : List LogFile → List LogFile
  | [] => []
  | [f] => [{ f with last := some e }]
  | f :: fs => f :: markLast e fs

def appendLog (d : Disk) : Disk := { d with logs := d.logs ++ [⟨cur, none⟩] }
def mark (e : Rec) (d : Disk) : Disk := { d with logs := markLast e d.logs }
def dropOldest (d : Disk) : Disk := { d with logs := d.logs.drop 1 }
def unlinkRollback (d : Disk) : Disk := { d with rollback := false }
def mkRollback (d : Disk) : Disk := { d with rollback := true }
def setEnv (d : Disk) : Disk := { d with env := some cur }
def mkFileops (d : Disk) : Disk := { d with fileops := true }

/-- The states gone through. -/
def steps : Disk → List (Disk → Disk) → List Disk
  | _, [] => []
  | d, f :: fs => f d :: steps (f d) fs

/-- toku_checkpoint as to the log, ft/cachetable/checkpoint.cc:252-297, ft/logger/logger.cc:750-778: its records, then the older
ones of the `n` files are deleted. -/
def ckpt (n : Nat) : List (Disk → Disk) := mark .other :: List.replicate (n - 1) dropOldest

/-- upgrade_log, ft/logger/log_upgrade.cc:187-225, and the deletion of the rollback file, src/ydb.cc:951-962. -/
def upgradeSteps (d : Disk) : List (Disk → Disk) :=
  appendLog :: (ckpt (d.logs.length + 1) ++ [mark .shutdown, unlinkRollback])

/-- validate_env, src/ydb.cc:647-792: all there, or nothing there (a new environment). -/
def validate (d : Disk) (needRollback : Bool) : Except Err Bool :=
  let new := d.env.isNone
  if needRollback && d.rollback == new then .error .noent
  else if d.fileops == new then .error .noent
  else if d.logs.isEmpty != new then .error .noent
  else .ok new

/-- Recovery if the log does not end with a clean shutdown, or opening the logger: src/ydb.cc:976-1003,
ft/logger/recover.cc:1317-1342, 1449-1465, 1622-1641, 1686.  Gives the steps and the result so far. -/
def recovery (recover : Bool) (d : Disk) : Res × List (Disk → Disk) :=
  match lastRec d.logs with
  | some .shutdown => (.ok, [appendLog])
  | none => if recover then (.err .runRecovery, [appendLog]) else (.ok, [appendLog])
  | some _ =>
    if recover = false then (.err .runRecovery, [])
    else if d.logs.all fun f => decide (25 ≤ f.ver) then (.ok, appendLog :: ckpt (d.logs.length + 1))
    else (.unknown, [])

/-- maybe_upgrade_persistent_environment_dictionary, src/ydb.cc:511-573: another version than the supported fails an assertion
(src/ydb.cc:1093-1094). -/
def envOk (d : Disk) : Bool :=
  match d.env with
  | some v => decide (oldest ≤ v) && decide (v ≤ cur)
  | none => true

/-- The end of the opening of an environment that exists, src/ydb.cc:1037-1116: rollback file, environment dictionary, startup
checkpoint. -/
def finishSteps (up : Bool) (d : Disk) : List (Disk → Disk) :=
  (if up then [mkRollback] else []) ++ setEnv :: ckpt d.logs.length

/-- A new environment, src/ydb.cc:996-1116. -/
def createSteps : List (Disk → Disk) := [appendLog, mkRollback, setEnv, mkFileops ∘ mark .other]

/-- The rest of the opening of an environment that exists, src/ydb.cc:974-1116: recovery and the end. -/
def restOfOpen (recover up : Bool) (d : Disk) : Res × List Disk :=
  let r := recovery recover d
  let t := steps d r.2
  let d' := t.getLastD d
  if r.1 ≠ .ok then (r.1, t)
  else if envOk d' = false then (.crash, t)
  else (.ok, t ++ steps d' (finishSteps up d'))

/-- env_open from src/ydb.cc:943 on: the result and the states gone through. -/
def openEnv (recover : Bool) (d : Disk) : Res × List Disk :=
  match decideUpgrade d with
  | .error e => (.err e, [])
  | .ok up =>
    let t := if up then steps d (upgradeSteps d) else []
    let d' := t.getLastD d
    match validate d' (!up) with
    | .error e => (.err e, t)
    | .ok true => (.ok, t ++ steps d' createSteps)
    | .ok false => ((restOfOpen recover up d').1, t ++ (restOfOpen recover up d').2)

/-- env_close, as to these files: the record of a clean shutdown. -/
def close (d : Disk) : Disk := mark .shutdown d

/-- A log file is full while the environment is in use (ft/logger/logger.cc:695-740). -/
def rotate (d : Disk) : Disk := mark .other (appendLog d)

end Verif.Open
