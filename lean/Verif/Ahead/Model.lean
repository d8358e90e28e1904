/-!
# Reading ahead in the temporary files of a bulk load

Model of ft/loader/dbufio.cc: one thread reads the files in the background, each into the second of two buffers;
the merging thread takes bytes from the first buffer and swaps the two when it is used up.  Every stretch of code
under the mutex is one step.  A file is the list of its bytes after decompression (ft/loader/dbufio.cc:119-275
turns blocks into bytes; the check of its headers is not modelled).  One thread reads each file, maybe the same
one for all.
-/

namespace Verif.Ahead

/-- error_code: EOF, or an error of the operating system. -/
inductive Err
  | eof
  | fail (code : Nat)
deriving DecidableEq, Repr

/-- The thread that reads a file: not in dbufio_fileset_read; in it, with `want` bytes missing and `have` already
copied, about to take the mutex; the same, asleep on the condition variable. -/
inductive C
  | idle
  | asks (want : Nat) (have_ : List Nat)
  | sleeps (want : Nat) (have_ : List Nat)
deriving DecidableEq, Repr

/-- struct dbufio_file, ft/loader/dbufio.cc:55-73.  `rest`: the bytes the background thread has not read; `buf0`:
the bytes of the first buffer from offset_in_buf on; `buf1`: the second buffer.  `got` (bytes delivered by calls
that returned) and `orig` (all bytes of the file) are history variables, never read. -/
structure F where
  rest : List Nat
  buf0 : List Nat
  err0 : Option Err
  buf1 : List Nat
  err1 : Option Err
  ready : Bool
  ioDone : Bool
  c : C
  got : List Nat
  orig : List Nat
deriving DecidableEq, Repr

/-- The background thread: about to look (with the mutex, or about to take it); asleep; reading a file;
returned. -/
inductive Io
  | free
  | waiting
  | reading (f : Nat)
  | gone
deriving DecidableEq, Repr

/-- struct dbufio_fileset, ft/loader/dbufio.cc:77-95.  `queue`: the files that need reading, from `head` on. -/
structure S where
  fs : List F
  queue : List Nat
  notDone : Int
  io : Io
  panic : Bool
  bufsize : Nat
deriving DecidableEq, Repr

/-- How many bytes a read of a file may give: something unless the file is at its end, at most a buffer. -/
def fits (bufsize : Nat) (rest : List Nat) (k : Nat) : Bool :=
  if rest = [] then k == 0 else 0 < k && k ≤ bufsize && k ≤ rest.length

/-- One file in create_dbufio_fileset, ft/loader/dbufio.cc:403-441: the first read goes into the first buffer. -/
def openFile (bytes : List Nat) (k : Nat) : F :=
  if k = 0 then
    { rest := bytes, buf0 := [], err0 := some .eof, buf1 := [], err1 := none, ready := false, ioDone := true,
      c := .idle, got := [], orig := bytes }
  else
    { rest := bytes.drop k, buf0 := bytes.take k, err0 := none, buf1 := [], err1 := none, ready := false,
      ioDone := false, c := .idle, got := [], orig := bytes }

/-- create_dbufio_fileset, ft/loader/dbufio.cc:372-457, when no call of it fails: `files` are the bytes of each file with the result
of its first read. -/
def create (bufsize : Nat) (files : List (List Nat × Nat)) : Option S :=
  if files.all (fun p => fits bufsize p.1 p.2) then
    some {
      fs := files.map (fun p => openFile p.1 p.2)
      queue := (List.range files.length).filter (fun i => ((files.map (·.2))[i]?.getD 0) != 0)
      notDone := (files.map (fun p => if p.2 = 0 then (0 : Int) else 1)).sum
      io := .free
      panic := false
      bufsize := bufsize }
  else none

inductive Ev
  /-- dbufio_fileset_read is called for a file. -/
  | call (f count : Nat)
  /-- The thread in dbufio_fileset_read has the mutex. -/
  | look (f : Nat)
  /-- The background thread has the mutex. -/
  | io
  /-- Its read returns `k` bytes, and it has the mutex again. -/
  | ioRead (k : Nat)
  /-- Its read fails, and it has the mutex again. -/
  | ioFail (code : Nat)
  /-- A wait ends without a signal. -/
  | spurious (f : Nat)
  | ioSpurious
  /-- panic_dbufio_fileset. -/
  | panic
  /-- destroy_dbufio_fileset has joined the background thread; it frees everything and returns. -/
  | join
deriving DecidableEq, Repr

/-- What a call told its caller. -/
inductive Ans
  | none
  | data (bytes : List Nat)
  | err (e : Err)
  | joined
deriving DecidableEq, Repr

/-- toku_cond_broadcast, for the thread of one file. -/
def C.wake : C → C
  | .sleeps w h => .asks w h
  | c => c

def F.wake (f : F) : F := { f with c := f.c.wake }

def Io.wake : Io → Io
  | .waiting => .free
  | i => i

/-- toku_cond_broadcast. -/
def S.broadcast (s : S) : S := { s with fs := s.fs.map F.wake, io := s.io.wake }

/-- Taking `want` bytes, with `have_` already copied, from the first buffer: the first two cases of
dbufio_fileset_read, ft/loader/dbufio.cc:523-549; if it has less, all of it is copied and the call goes on to swap the buffers. -/
def F.consume (f : F) (want : Nat) (have_ : List Nat) : F × Ans :=
  if want ≤ f.buf0.length then
    ({ f with buf0 := f.buf0.drop want, c := .idle, got := f.got ++ (have_ ++ f.buf0.take want) },
      .data (have_ ++ f.buf0.take want))
  else ({ f with buf0 := [], c := .asks (want - f.buf0.length) (have_ ++ f.buf0) }, .none)

/-- The buffers are swapped, ft/loader/dbufio.cc:553-561. -/
def F.swap (f : F) : F := { f with buf0 := f.buf1, buf1 := f.buf0, err0 := f.err1, ready := false }

/-- The second buffer is filled by the background thread, ft/loader/dbufio.cc:337-346 and 363. -/
def F.fill (f : F) (k : Nat) : F :=
  if k = 0 then { f with err1 := some .eof, buf1 := [], ioDone := true, ready := true }
  else { f with err1 := none, buf1 := f.rest.take k, rest := f.rest.drop k, ready := true }

/-- Its read failed, ft/loader/dbufio.cc:331-336 and 363: `io_done` stays as it is. -/
def F.fillError (f : F) (code : Nat) : F := { f with err1 := some (.fail code), buf1 := [], ready := true }

/-- One step; `none`: not possible now; `some none`: an assertion fails. -/
def act (s : S) : Ev → Option (Option (S × Ans))
  -- dbufio_fileset_read up to the mutex, ft/loader/dbufio.cc:519-552
  | .call i count =>
    match s.fs[i]? with
    | some f =>
      if f.c = .idle then
        match f.err0 with
        | some e => some (some (s, .err e))
        | none => some (some ({ s with fs := s.fs.set i (f.consume count []).1 }, (f.consume count []).2))
      else none
    | none => none
  -- ft/loader/dbufio.cc:552-579
  | .look i =>
    match s.fs[i]? with
    | some f =>
      match f.c with
      | .asks want have_ =>
        if f.ready then
          let g := f.swap
          let s' := if f.ioDone then s else { s with queue := s.queue ++ [i] }
          let s' := s'.broadcast
          match g.err0 with
          | none =>
            if g.buf0 = [] then some none
            else some (some ({ s' with fs := s'.fs.set i (g.consume want have_).1 }, (g.consume want have_).2))
          | some e =>
            -- the callers up the recursion return what was copied, 541-549
            if have_ = [] then some (some ({ s' with fs := s'.fs.set i { g with c := .idle } }, .err e))
            else some (some ({ s' with fs := s'.fs.set i { g with c := .idle, got := g.got ++ have_ } }, .data have_))
        else some (some ({ s with fs := s.fs.set i { f with c := .sleeps want have_ } }, .none))
      | _ => none
    | none => none
  -- io_thread, ft/loader/dbufio.cc:281-320
  | .io =>
    if s.io = .free then
      if s.panic then some (some ({ s with io := .gone }, .none))
      else if s.notDone = 0 then some (some ({ s with io := .gone }, .none))
      else
        match s.queue with
        | [] => some (some ({ s with io := .waiting }, .none))
        | i :: q =>
          match s.fs[i]? with
          | some f =>
            if f.ready ∨ f.ioDone then some none
            else some (some ({ s with queue := q, io := .reading i }, .none))
          | none => some none
    else none
  -- ft/loader/dbufio.cc:321-366
  | .ioRead k =>
    match s.io with
    | .reading i =>
      match s.fs[i]? with
      | some f =>
        if fits s.bufsize f.rest k then
          if s.panic then
            -- the file is not marked ready: what was read, and an end of file noted outside the mutex, is never looked at
            some (some ({ s with io := .gone }, .none))
          else
            some (some (({ s with
              fs := s.fs.set i (f.fill k)
              notDone := if k = 0 then s.notDone - 1 else s.notDone
              io := .free } : S).broadcast, .none))
        else none
      | none => none
    | _ => none
  | .ioFail code =>
    match s.io with
    | .reading i =>
      match s.fs[i]? with
      | some f =>
        if s.panic then
          some (some ({ s with io := .gone }, .none))
        else
          some (some (({ s with
            fs := s.fs.set i (f.fillError code)
            notDone := s.notDone - 1
            io := .free } : S).broadcast, .none))
      | none => none
    | _ => none
  | .spurious i =>
    match s.fs[i]? with
    | some f =>
      match f.c with
      | .sleeps .. => some (some ({ s with fs := s.fs.set i f.wake }, .none))
      | _ => none
    | none => none
  | .ioSpurious => if s.io = .waiting then some (some ({ s with io := .free }, .none)) else none
  -- ft/loader/dbufio.cc:485-491
  | .panic => some (some (({ s with panic := true } : S).broadcast, .none))
  -- ft/loader/dbufio.cc:493-518
  | .join => if s.io = .gone then some (some (s, .joined)) else none

/-- Any number of steps, with what the calls told. -/
def run (s : S) : List Ev → Option (Option (S × List Ans))
  | [] => some (some (s, []))
  | e :: es =>
    match act s e with
    | none => none
    | some none => some none
    | some (some (s', a)) =>
      match run s' es with
      | some (some (r, as)) => some (some (r, a :: as))
      | x => x

/-! ## Rows -/

inductive RowErr
  | eof
  | noData
deriving DecidableEq, Repr

/-- A call of dbufio_fileset_read on what is left of a file (that it answers like this is what is proved of the
model above). -/
def readBytes (bytes : List Nat) (count : Nat) : Except RowErr (List Nat × List Nat) :=
  if bytes = [] ∧ count ≠ 0 then .error .eof else .ok (bytes.take count, bytes.drop count)

/-- A 32-bit number, low byte first. -/
def num : List Nat → Nat
  | [] => 0
  | b :: r => b + 256 * num r

/-- bl_read_dbt_from_dbufio, ft/loader/loader.cc:840-876: a length in four bytes, then as many bytes; the result
is the data and what is left. -/
def readDbt (bytes : List Nat) : Except RowErr (List Nat × List Nat) :=
  match readBytes bytes 4 with
  | .error e => .error e
  | .ok (l, rest) =>
    if l.length < 4 then .error .noData
    else
      match readBytes rest (num l) with
      | .error e => .error e
      | .ok (d, rest') => if d.length < num l then .error .noData else .ok (d, rest')

/-- loader_read_row_from_dbufio, ft/loader/loader.cc:931-950. -/
def readRow (bytes : List Nat) : Except RowErr ((List Nat × List Nat) × List Nat) :=
  match readDbt bytes with
  | .error e => .error e
  | .ok (k, rest) =>
    match readDbt rest with
    | .error e => .error e
    | .ok (v, rest') => .ok ((k, v), rest')

/-- How the merge reads one file, ft/loader/loader.cc:1784-1785, 1878-1885: row after row until EOF; `none` if an
error other than EOF comes up, or if `fuel` rows were not enough. -/
def readRows : Nat → List Nat → Option (List (List Nat × List Nat))
  | 0, _ => none
  | fuel + 1, bytes =>
    match readRow bytes with
    | .error .eof => some []
    | .error .noData => none
    | .ok (row, rest) => (readRows fuel rest).map (row :: ·)

/-- bl_write_dbt, ft/loader/loader.cc:810-822: a length in four bytes, then the bytes. -/
def writeDbt (d : List Nat) : List Nat :=
  [d.length % 256, d.length / 256 % 256, d.length / 65536 % 256, d.length / 16777216 % 256] ++ d

/-- loader_write_row, ft/loader/loader.cc:878-907. -/
def writeRow (r : List Nat × List Nat) : List Nat := writeDbt r.1 ++ writeDbt r.2

end Verif.Ahead
