/-!
# Writing to files and forcing them to disk

Model of the loops around write, pwrite and fsync in portability/file.cc.  The operating system is a list of answers, one
for each call: any number of bytes written (not more than asked for; possibly none), interrupted, no space, any other
error.  Buffers are lists of bytes; files are maps from positions to bytes.  The alignment assertions of the pwrite
functions (portability/file.cc:319-320, 359-363) concern the caller's buffer and are left out, as is the performance instrumentation.
-/

namespace Verif.FullWrite

abbrev File := Nat → Option Nat

/-- An answer of the operating system; a full disk is seen at a time in seconds. -/
inductive Ans
  | wrote (n : Nat)
  | intr
  | full (now : Nat)
  | err (e : Nat)
deriving DecidableEq, Repr

def EINTR : Nat := 4
def ENOSPC : Nat := 28

/-- The file; what of it is on disk; the counters of full disks (portability/file.cc:60-63) and the times of the reports
printed. -/
structure W where
  file : File
  durable : File
  total : Nat
  current : Nat
  lastReport : Nat
  reports : List Nat

/-- The system call: the bytes it took are in the file. -/
def put (f : File) (off : Nat) (bs : List Nat) : File :=
  fun p => if off ≤ p ∧ p < off + bs.length then bs[p - off]? else f p

/-- Difference of an `int64_t` and a `uint64_t`. -/
def sub64 (a b : Nat) : Nat := (a + 2 ^ 64 - b) % 2 ^ 64

/-- A full disk, portability/file.cc:101-131: counted, reported once a minute, waited for. -/
def noSpace (w : W) (now : Nat) : W :=
  let w := { w with total := w.total + 1, current := w.current + 1 }
  let w := if w.lastReport = 0 ∨ sub64 now w.lastReport ≥ 60 then
    { w with lastReport := now, reports := w.reports ++ [now] } else w
  { w with current := w.current - 1 }

/-- How a call ends: it returns (with the answers not used); the process is stopped; it waits for the operating system's
next answer, with these bytes left. -/
inductive Res
  | done (w : W) (rest : List Ans)
  | fail (w : W) (e : Nat)
  | crash (w : W)
  | running (w : W) (left : List Nat)

/-- toku_os_full_write and toku_os_full_pwrite with try_again_after_handling_write_error, portability/file.cc:239-274, 313-351,
77-139; `stop` is toku_assert_on_write_enospc. -/
def fullWrite (stop : Bool) (w : W) (off : Nat) (bs : List Nat) : List Ans → Res
  | [] => if bs = [] then .done w [] else .running w bs
  | a :: as =>
    if bs = [] then .done w (a :: as) else
    match a with
    | .wrote n =>
      if min n bs.length > 0 then
        fullWrite stop { w with file := put w.file off (bs.take n) } (off + min n bs.length) (bs.drop n) as
      else .crash w
    | .intr => fullWrite stop w off bs as
    | .full now => if stop then .crash w else fullWrite stop (noSpace w now) off bs as
    | .err _ => .crash w

/-- toku_os_write and toku_os_pwrite, portability/file.cc:276-311, 353-391. -/
def osWrite (w : W) (off : Nat) (bs : List Nat) : List Ans → Res
  | [] => if bs = [] then .done w [] else .running w bs
  | a :: as =>
    if bs = [] then .done w (a :: as) else
    match a with
    | .wrote n => osWrite { w with file := put w.file off (bs.take n) } (off + min n bs.length) (bs.drop n) as
    | .intr => .fail w EINTR
    | .full _ => .fail w ENOSPC
    | .err e => .fail w e

/-- file_fsync_internal, portability/file.cc:695-722: an answer `wrote` stands for success. -/
def fsync (w : W) : List Ans → Res
  | [] => .running w []
  | a :: as =>
    match a with
    | .wrote _ => .done { w with durable := w.file } as
    | .intr => fsync w as
    | _ => .crash w

/-! ## The report of a full disk -/

/-- A C string read from memory; `none` in memory is a byte never written; running into one, or past the end, is undefined
behaviour: `none`. -/
def readStr : List (Option Nat) → Option (List Nat)
  | [] => none
  | none :: _ => none
  | some 0 :: _ => some []
  | some c :: r => (readStr r).map (c :: ·)

/-- Storing a NUL; outside the array: `none`. -/
def storeNul (a : List (Option Nat)) (i : Nat) : Option (List (Option Nat)) :=
  if i < a.length then some (a.set i (some 0)) else none

/-- `symname` after readlink, portability/file.cc:114-117: 257 bytes, at most 256 written, no NUL. -/
def symname (path : List Nat) : List (Option Nat) :=
  (path.take 256).map some ++ List.replicate (257 - (path.take 256).length) none

/-- The time as printed by ctime_r, 26 bytes with the NUL, portability/file.cc:109-112. -/
def tstr (time : List Nat) : List (Option Nat) := (time.take 25).map some ++ List.replicate (25 - time.length) (some 32) ++ [some 0]

/-- The file name in the report, portability/file.cc:119-124: the NUL is stored in `tstr`. -/
def reportName (time path : List Nat) : Option (List Nat) :=
  match storeNul (tstr time) (path.take 256).length with
  | none => none
  | some _ => readStr (symname path)

end Verif.FullWrite
