import Verif.Log.Cursor
/-!
The log buffers and the log files while any number of threads log records, flush the log and trim it:
ft/logger/logger.cc, ft/logger/logfilemgr.cc and the generated functions `toku_log_*` (ft/logger/logformat.cc:426-503).

A thread is at one of the places `Pc`; `step` performs the code from there to the next place.  The code between two places
touches only data that the locks held there protect, or a single shared variable, so that other threads cannot tell whether
it runs at once.  A thread that waits for a lock or on the condition variable looks again whenever it is scheduled.  The
logger is one that writes log files (`write_log_files`); statistics and times are left out.
-/
namespace Verif.Logger
open Verif.Log Verif.Ser

abbrev Tid := Nat

/-- `lg_max`, `trim_log_files` and `LOGGER_MIN_BUF_SIZE`, log-internal.h:65, 101, 106 (the last is 2^24 in the code). -/
structure Cfg where
  lgMax : Nat
  trims : Bool
  minBuf : Nat
deriving Repr, DecidableEq

/-- The arguments of a function `toku_log_*`, logformat.cc:434-443: the type of the record, its fields, and the time of day that
`toku_get_timestamp` would return. -/
structure Job where
  cmd : Nat
  vals : List Val
  now : Nat
deriving Repr, DecidableEq

/-- What a thread may call: `toku_log_*` with or without `do_fsync`, `toku_logger_fsync` (the `log_flush` of the environment),
`toku_logger_fsync_if_lsn_not_fsynced` (used at commit), `toku_logger_maybe_trim_log`. -/
inductive Call where
  | log (j : Job) (sync : Bool)
  | flush
  | sync (lsn : Nat)
  | trim (lsn : Nat)
deriving Repr, DecidableEq

/-- `struct logbuf`, log-internal.h:85-90: the bytes in the buffer (`n_in_buf` is their number), `buf_size` and
`max_lsn_in_buf`. -/
structure Buf where
  bytes : List Nat
  size : Nat
  maxLsn : Nat
deriving Repr, DecidableEq

/-- A log file: its bytes, how many of them were there at the last fsync, and `maxlsn` of its `TOKULOGFILEINFO`,
logfilemgr.h:46-50.  The directory and the list of the `TOKULOGFILEMGR` (logfilemgr.cc:46-56) always name the same files. -/
structure File where
  bytes : List Nat
  synced : Nat
  info : Nat
deriving Repr, DecidableEq

/-- Where a thread is.  `fs` is its local variable `fsynced_lsn`. -/
inductive Pc where
  | idle
  /-- `toku_log_*`: before `ml_lock`, logformat.cc:482 -/
  | logLock (j : Job) (sync : Bool)
  /-- `toku_logger_make_space_in_inbuf`: before the first test, logger.cc:511 -/
  | space (j : Job) (sync : Bool)
  /-- before `grab_output`, logger.cc:516 -/
  | spaceGrab (j : Job) (sync : Bool)
  /-- before `ml_lock`, logger.cc:518 -/
  | spaceLock (j : Job) (sync : Bool) (fs : Nat)
  /-- before the second test, logger.cc:520 -/
  | spaceTest (j : Job) (sync : Bool) (fs : Nat)
  /-- before `write_outbuf_to_logfile`, logger.cc:529 -/
  | spill (j : Job) (sync : Bool) (fs : Nat)
  /-- in `write_outbuf_to_logfile` before the size of the file is looked at, logger.cc:493 -/
  | spillRoll (j : Job) (sync : Bool) (fs : Nat)
  /-- in `close_and_open_logfile` before the next file is opened, logger.cc:371 -/
  | spillOpen (j : Job) (sync : Bool) (fs : Nat)
  /-- before the buffer is made bigger, logger.cc:532 -/
  | grow (j : Job) (sync : Bool) (fs : Nat)
  /-- before `release_output`, logger.cc:521 or 539 -/
  | spaceDone (j : Job) (sync : Bool) (fs : Nat)
  /-- `toku_log_*` after the space was made, logformat.cc:484 -/
  | put (j : Job) (sync : Bool)
  /-- `toku_logger_maybe_fsync` with the input lock, logger.cc:805 -/
  | unlock (j : Job) (sync : Bool) (lsn : Nat)
  /-- before `wait_till_output_already_written_or_output_buffer_available`, logger.cc:811 -/
  | wait (c : Call) (lsn : Nat)
  /-- before `ml_lock`, logger.cc:818 -/
  | fsLock (c : Call) (lsn fs : Nat)
  /-- before `swap_inbuf_outbuf`, logger.cc:820 -/
  | fsSwap (c : Call) (lsn fs : Nat)
  /-- before `ml_unlock`, logger.cc:822 -/
  | fsUnlock (c : Call) (lsn fs : Nat)
  /-- before `write_outbuf_to_logfile`, logger.cc:824 -/
  | fsWrite (c : Call) (lsn fs : Nat)
  /-- in `write_outbuf_to_logfile` before the size of the file is looked at, logger.cc:493 -/
  | fsRoll (c : Call) (lsn fs : Nat)
  /-- in `close_and_open_logfile` before the next file is opened, logger.cc:371 -/
  | fsOpen (c : Call) (lsn fs : Nat)
  /-- before the test of the local `fsynced_lsn`, logger.cc:825 -/
  | fsSync (c : Call) (lsn fs : Nat)
  /-- before `toku_logfilemgr_update_last_lsn`, logger.cc:832 -/
  | fsNote (c : Call) (lsn fs : Nat)
  /-- before `release_output`, logger.cc:835 -/
  | fsRelease (c : Call) (lsn fs : Nat)
  /-- `toku_logger_fsync`: before `ml_lock`, logger.cc:549 -/
  | flushLock
  /-- before `max_lsn_in_buf` is read, logger.cc:550 -/
  | flushRead
  /-- before `ml_unlock`, logger.cc:551 -/
  | flushUnlock (lsn : Nat)
  /-- `toku_logger_maybe_trim_log`: before `grab_output`, logger.cc:755 -/
  | trimGrab (lsn : Nat)
  /-- before the test of the loop, logger.cc:762 -/
  | trimLoop (lsn fs : Nat)
  /-- before `release_output`, logger.cc:777 -/
  | trimRelease (lsn fs : Nat)
deriving Repr, DecidableEq

/-- `struct tokulogger`, log-internal.h:92-133.  `inLock` is the owner of `input_lock`; `files` are oldest first and the last
one is open. -/
structure St where
  lsn : Nat
  inbuf : Buf
  outbuf : Buf
  files : List File
  written : Nat
  fsynced : Nat
  nInFile : Nat
  outFree : Bool
  inLock : Option Tid
  pc : Tid → Pc

/-- What can be seen from outside: a call, the record that a call added to the log, its number and its bytes, the return of a call, with the
sequence number it was about (0 for `trim`). -/
inductive Event where
  | call (t : Tid) (c : Call)
  | put (t : Tid) (j : Job) (lsn : Nat) (bytes : List Nat)
  | ret (t : Tid) (c : Call) (lsn : Nat)
deriving Repr, DecidableEq

/-- The end of a step: the next state and what was seen; the thread has to wait; an assertion failed or bytes outside the
buffer were written. -/
inductive Res where
  | ok (s : St) (ev : Option Event)
  | wait
  | crash

/-- Thread `t` goes to `p`. -/
def St.goto (s : St) (t : Tid) (p : Pc) : St := { s with pc := fun u => if u = t then p else s.pc u }

/-- `buflen`, logformat.cc:476-481: the length of the record, an `unsigned int`. -/
def Job.len (j : Job) : R Nat :=
  match fieldsOf j.cmd with
  | some tys =>
    match sizes tys j.vals with
    | .ok s => .ok (m32 (4 + 1 + 8 + s + 8))
    | _ => .abort
  | none => .abort

/-- The parameter `int n_bytes_needed`, logger.cc:500. -/
def asInt (n : Nat) : Int := if n % 2 ^ 32 < 2 ^ 31 then (n % 2 ^ 32 : Nat) else (n % 2 ^ 32 : Nat) - (2 ^ 32 : Int)

/-- `logger->inbuf.n_in_buf + n_bytes_needed <= LOGGER_MIN_BUF_SIZE`, logger.cc:511 and 520.  The sum is not wrapped. -/
def roomy (cfg : Cfg) (b : Buf) (n : Nat) : Bool := decide ((b.bytes.length : Int) + asInt n ≤ cfg.minBuf)

/-- logger.cc:532-538: the size of the input buffer afterwards; `none` if an assertion fails. -/
def grown (size n : Nat) : Option Nat :=
  if asInt n > size then
    if asInt n < 2 ^ 30 then
      let new := if size * 2 > (asInt n).toNat then size * 2 else (asInt n).toNat
      if new < 2 ^ 30 then some new else none
    else none
  else some size

/-- `swap_inbuf_outbuf`, logger.cc:461-470; `none` if the assertion fails. -/
def St.swap (s : St) : Option St :=
  if s.outbuf.bytes.length = 0 then some { s with inbuf := s.outbuf, outbuf := s.inbuf } else none

/-- A change of the last file of the list, the open one; without a file nothing changes. -/
def onLast (f : File → File) : List File → List File
  | [] => []
  | [a] => [f a]
  | a :: l => a :: onLast f l

/-- The first part of `write_outbuf_to_logfile`, logger.cc:478-491; `none` if the assertion fails. -/
def St.writeOut (s : St) : Option St :=
  if s.outbuf.bytes.length > 0 then
    if s.outbuf.maxLsn > s.written then
      some { s with
        files := onLast (fun f => { f with bytes := f.bytes ++ s.outbuf.bytes }) s.files
        written := s.outbuf.maxLsn
        nInFile := s.nInFile + s.outbuf.bytes.length
        outbuf := { s.outbuf with bytes := [] } }
    else none
  else some s

/-- `toku_file_fsync_without_accounting(logger->fd)`. -/
def St.fsync (s : St) : St := { s with files := onLast (fun f => { f with synced := f.bytes.length }) s.files }

/-- `toku_logfilemgr_update_last_lsn`, logfilemgr.cc:190-194; `none` if the assertion fails. -/
def St.note (s : St) : Option St :=
  if s.files = [] then none else some { s with files := onLast (fun f => { f with info := s.written }) s.files }

/-- `open_logfile`, logger.cc:694-739, for a logger that writes files: the name of a new file is on disk at once (`fsync_logdir`),
its header is not. -/
def St.openFile (s : St) : St :=
  { s with files := s.files ++ [⟨header logVersion, 0, s.written⟩], fsynced := s.written, nInFile := 12 }

/-- `release_output`, logger.cc:446-459. -/
def St.release (s : St) (fs : Nat) : St := { s with outFree := true, fsynced := if s.fsynced < fs then fs else s.fsynced }

/-- The beginning of a call.  A sequence number passed to `sync` is one that a logging call has returned. -/
def St.call (s : St) (t : Tid) (c : Call) : Res :=
  if s.pc t = .idle then
    match c with
    | .log j sy => .ok (s.goto t (.logLock j sy)) (some (.call t c))
    | .flush => .ok (s.goto t .flushLock) (some (.call t c))
    | .sync l => if l ≤ s.lsn then .ok (s.goto t (.wait c l)) (some (.call t c)) else .wait
    | .trim l => .ok (s.goto t (.trimGrab l)) (some (.call t c))
  else .wait

/-- One step of thread `t`.  Each case cites the lines at `Pc`. -/
def step (cfg : Cfg) (s : St) (t : Tid) : Res :=
  match s.pc t with
  | .idle => .wait
  | .logLock j sy => if s.inLock = none then .ok ({ s with inLock := some t }.goto t (.space j sy)) none else .wait
  | .space j sy =>
    match j.len with
    | .ok n => if roomy cfg s.inbuf n then .ok (s.goto t (.put j sy)) none else .ok ({ s with inLock := none }.goto t (.spaceGrab j sy)) none
    | _ => .crash
  -- grab_output, logger.cc:402-415
  | .spaceGrab j sy => if s.outFree then .ok ({ s with outFree := false }.goto t (.spaceLock j sy s.fsynced)) none else .wait
  | .spaceLock j sy fs => if s.inLock = none then .ok ({ s with inLock := some t }.goto t (.spaceTest j sy fs)) none else .wait
  | .spaceTest j sy fs =>
    match j.len with
    | .ok n =>
      if roomy cfg s.inbuf n then .ok (s.goto t (.spaceDone j sy fs)) none
      else if s.inbuf.bytes.length > 0 then
        match s.swap with
        | some s => .ok (s.goto t (.spill j sy fs)) none
        | none => .crash
      else .ok (s.goto t (.grow j sy fs)) none
    | _ => .crash
  | .spill j sy fs =>
    match s.writeOut with
    | some s => .ok (s.goto t (.spillRoll j sy fs)) none
    | none => .crash
  -- logger.cc:493-496, 354-372
  | .spillRoll j sy fs =>
    if s.nInFile > cfg.lgMax then
      match s.fsync.note with
      | some s' => .ok (s'.goto t (.spillOpen j sy s.written)) none
      | none => .crash
    else .ok (s.goto t (.grow j sy fs)) none
  | .spillOpen j sy fs => .ok (s.openFile.goto t (.grow j sy fs)) none
  | .grow j sy fs =>
    match j.len with
    | .ok n =>
      match grown s.inbuf.size n with
      | some z => .ok ({ s with inbuf := { s.inbuf with size := z } }.goto t (.spaceDone j sy fs)) none
      | none => .crash
    | _ => .crash
  | .spaceDone j sy fs => .ok ((s.release fs).goto t (.put j sy)) none
  -- logformat.cc:484-502
  | .put j sy =>
    match write j.now ⟨j.cmd, s.lsn + 1, j.vals⟩ with
    | .ok bs =>
      if s.inbuf.bytes.length + bs.length ≤ s.inbuf.size then
        .ok ({ s with lsn := s.lsn + 1, inbuf := { s.inbuf with bytes := s.inbuf.bytes ++ bs, maxLsn := s.lsn + 1 } }.goto t (.unlock j sy (s.lsn + 1)))
          (some (.put t j (s.lsn + 1) bs))
      else .crash
    | _ => .crash
  | .unlock j sy l =>
    if sy then .ok ({ s with inLock := none }.goto t (.wait (.log j sy) l)) none
    else .ok ({ s with inLock := none }.goto t .idle) (some (.ret t (.log j sy) l))
  -- logger.cc:418-444
  | .wait c l =>
    if s.fsynced ≥ l then .ok (s.goto t .idle) (some (.ret t c l))
    else if s.outFree then .ok ({ s with outFree := false }.goto t (.fsLock c l s.fsynced)) none
    else .wait
  | .fsLock c l fs => if s.inLock = none then .ok ({ s with inLock := some t }.goto t (.fsSwap c l fs)) none else .wait
  | .fsSwap c l fs =>
    match s.swap with
    | some s => .ok (s.goto t (.fsUnlock c l fs)) none
    | none => .crash
  | .fsUnlock c l fs => .ok ({ s with inLock := none }.goto t (.fsWrite c l fs)) none
  | .fsWrite c l fs =>
    match s.writeOut with
    | some s => .ok (s.goto t (.fsRoll c l fs)) none
    | none => .crash
  | .fsRoll c l fs =>
    if s.nInFile > cfg.lgMax then
      match s.fsync.note with
      | some s' => .ok (s'.goto t (.fsOpen c l s.written)) none
      | none => .crash
    else .ok (s.goto t (.fsSync c l fs)) none
  | .fsOpen c l fs => .ok (s.openFile.goto t (.fsSync c l fs)) none
  -- logger.cc:825-830
  | .fsSync c l fs =>
    if fs < l then
      if fs ≤ s.written then .ok (s.fsync.goto t (.fsNote c l s.written)) none else .crash
    else .ok (s.goto t (.fsNote c l fs)) none
  | .fsNote c l fs =>
    match s.note with
    | some s => .ok (s.goto t (.fsRelease c l fs)) none
    | none => .crash
  | .fsRelease c l fs => .ok ((s.release fs).goto t .idle) (some (.ret t c l))
  | .flushLock => if s.inLock = none then .ok ({ s with inLock := some t }.goto t .flushRead) none else .wait
  | .flushRead => .ok (s.goto t (.flushUnlock s.inbuf.maxLsn)) none
  | .flushUnlock l => .ok ({ s with inLock := none }.goto t (.wait .flush l)) none
  | .trimGrab l => if s.outFree then .ok ({ s with outFree := false }.goto t (.trimLoop l s.fsynced)) none else .wait
  -- logger.cc:761-776
  | .trimLoop l fs =>
    if cfg.trims ∧ s.files.length > 1 then
      match s.files with
      | [] => .crash
      | f :: r => if f.info ≥ l then .ok (s.goto t (.trimRelease l fs)) none else .ok ({ s with files := r }.goto t (.trimLoop l fs)) none
    else .ok (s.goto t (.trimRelease l fs)) none
  | .trimRelease l fs => .ok ((s.release fs).goto t .idle) (some (.ret t (.trim l) 0))

/-- `toku_logger_open_with_last_xid`, logger.cc:188-221, in a directory with the log files `old`, whose last record has the number
`lsn`: both buffers are empty (logger.cc:136-137) and a new file has been opened. -/
def St.opened (cfg : Cfg) (old : List File) (lsn : Nat) : St :=
  let b : Buf := ⟨[], cfg.minBuf, lsn⟩
  St.openFile ⟨lsn, b, b, old, lsn, lsn, 0, true, none, fun _ => .idle⟩

end Verif.Logger
