import Verif.Logger.Spec
import Verif.Log.Walk
/-!
The invariant of the logger: where the records are, and what each thread may rely on.
-/
set_option linter.unusedVariables false
namespace Verif.Logger
open Verif.Log Verif.Log.Spec Verif.Ser Verif.Logger.Spec

abbrev Rec := Entry × List Nat

/-- Where the records are: in the closed files, in the open file and on disk or not, in the output buffer, in the input buffer.
`k` files have been deleted; `hdr` tells that the header of the open file is on disk; `info` belongs to the open file. -/
structure G where
  closed : List (List Rec)
  gs : List Rec
  gu : List Rec
  p : List Rec
  i : List Rec
  k : Nat
  hdr : Bool
  info : Nat
  size : Nat

variable (lsn0 : Nat)

def G.dur (g : G) : Nat := lsn0 + g.closed.flatten.length + g.gs.length
def G.wr (g : G) : Nat := g.dur lsn0 + g.gu.length
def G.out (g : G) : Nat := g.wr lsn0 + g.p.length
def G.lsn (g : G) : Nat := g.out lsn0 + g.i.length
def G.all (g : G) : List Rec := g.closed.flatten ++ g.gs ++ g.gu ++ g.p ++ g.i

def closedFiles : Nat → List (List Rec) → List File
  | _, [] => []
  | n, r :: rs => ⟨header logVersion ++ bytesOf r, (header logVersion ++ bytesOf r).length, n + r.length⟩ :: closedFiles (n + r.length) rs

def G.cur (g : G) : File := ⟨header logVersion ++ bytesOf (g.gs ++ g.gu), if g.hdr then 12 + (bytesOf g.gs).length else 0, g.info⟩

def numbered (n : Nat) : List Rec → Prop
  | [] => True
  | r :: l => r.1.lsn = n + 1 ∧ numbered (n + 1) l

def holdsIn : Pc → Bool
  | .space .. | .spaceTest .. | .spill .. | .spillRoll .. | .spillOpen .. | .grow .. | .spaceDone .. | .put .. | .unlock .. | .fsSwap .. | .fsUnlock ..
  | .flushRead | .flushUnlock .. => true
  | _ => false

def holdsOut : Pc → Bool
  | .spaceLock .. | .spaceTest .. | .spill .. | .spillRoll .. | .spillOpen .. | .grow .. | .spaceDone .. | .fsLock .. | .fsSwap .. | .fsUnlock ..
  | .fsWrite .. | .fsRoll .. | .fsOpen .. | .fsSync .. | .fsNote .. | .fsRelease .. | .trimLoop .. | .trimRelease .. => true
  | _ => false

/-- The output buffer may hold records. -/
def isPend : Pc → Bool
  | .spill .. | .fsUnlock .. | .fsWrite .. => true
  | _ => false

/-- There may be records that are written but not on disk though the input buffer is empty. -/
def isLate : Pc → Bool
  | .spill .. | .spillRoll .. | .spillOpen .. | .grow .. | .spaceDone .. | .put .. | .fsUnlock .. | .fsWrite .. | .fsRoll .. | .fsOpen .. | .fsSync .. => true
  | _ => false

/-- The open file may be too big. -/
def isRolling : Pc → Bool
  | .spillRoll .. | .spillOpen .. | .fsRoll .. | .fsOpen .. => true
  | _ => false

/-- A thread that will return from logging `j` has put the record into the log. -/
def PutBy (evs : List Event) (t : Tid) (c : Call) (l : Nat) : Prop :=
  match c with
  | .log j _ => ∃ bs, Event.put t j l bs ∈ evs
  | .sync n => l = n
  | _ => True

structure View where
  lsn : Nat
  dur : Nat
  wr : Nat
  out : Nat
  clean : Prop
  sealed : Prop
  inb : Nat
  size : Nat

def G.view (g : G) : View :=
  ⟨g.lsn lsn0, g.dur lsn0, g.wr lsn0, g.out lsn0, g.gu = [], g.gu = [] ∧ g.hdr = true ∧ g.info = g.wr lsn0, (bytesOf g.i).length, g.size⟩

/-- There is room for the record in the input buffer. -/
def Room (v : View) (j : Job) : Prop := ∃ n, j.len = .ok n ∧ v.inb + n ≤ v.size

/-- What thread `t` at `p` relies on. -/
def PcOk (v : View) (evs : List Event) (t : Tid) : Pc → Prop
  | .idle => True
  | .logLock j _ => JobOk j
  | .space j _ => JobOk j
  | .spaceGrab j _ => JobOk j
  | .spaceLock j _ fs => JobOk j ∧ fs ≤ v.dur
  | .spaceTest j _ fs => JobOk j ∧ fs ≤ v.dur
  | .spill j _ fs => JobOk j ∧ fs ≤ v.dur ∧ v.inb = 0
  | .spillRoll j _ fs => JobOk j ∧ fs ≤ v.dur ∧ v.inb = 0
  | .spillOpen j _ fs => JobOk j ∧ fs = v.wr ∧ v.inb = 0 ∧ v.sealed
  | .grow j _ fs => JobOk j ∧ fs ≤ v.dur ∧ v.inb = 0
  | .spaceDone j _ fs => JobOk j ∧ fs ≤ v.dur ∧ Room v j
  | .put j _ => JobOk j ∧ Room v j
  | .unlock j sy l => l ≤ v.lsn ∧ PutBy evs t (.log j sy) l
  | .wait c l => l ≤ v.lsn ∧ PutBy evs t c l
  | .fsLock c l fs => l ≤ v.lsn ∧ PutBy evs t c l ∧ fs < l ∧ fs ≤ v.dur
  | .fsSwap c l fs => l ≤ v.lsn ∧ PutBy evs t c l ∧ fs < l ∧ fs ≤ v.dur
  | .fsUnlock c l fs => l ≤ v.out ∧ PutBy evs t c l ∧ fs < l ∧ fs ≤ v.dur
  | .fsWrite c l fs => l ≤ v.out ∧ PutBy evs t c l ∧ fs < l ∧ fs ≤ v.dur
  | .fsRoll c l fs => l ≤ v.wr ∧ PutBy evs t c l ∧ fs < l ∧ fs ≤ v.dur
  | .fsOpen c l fs => l ≤ v.wr ∧ PutBy evs t c l ∧ fs = v.wr ∧ v.sealed
  | .fsSync c l fs => l ≤ v.wr ∧ PutBy evs t c l ∧ fs ≤ v.dur ∧ (fs < l ∨ v.clean)
  | .fsNote c l fs => l ≤ fs ∧ PutBy evs t c l ∧ fs ≤ v.dur ∧ v.clean
  | .fsRelease c l fs => l ≤ fs ∧ PutBy evs t c l ∧ fs ≤ v.dur ∧ v.clean
  | .flushLock => True
  | .flushRead => True
  | .flushUnlock l => l ≤ v.lsn
  | .trimGrab l => ∃ u, Event.call u (.trim l) ∈ evs
  | .trimLoop l fs => (∃ u, Event.call u (.trim l) ∈ evs) ∧ fs ≤ v.dur
  | .trimRelease l fs => fs ≤ v.dur

structure Data (cfg : Cfg) (old : List File) (g : G) (s : St) (evs : List Event) : Prop where
  all : recs evs = g.all
  num : numbered lsn0 g.all
  written : ∀ r ∈ g.all, Written r
  lsn : s.lsn = g.lsn lsn0
  wr : s.written = g.wr lsn0
  files : s.files = (old ++ closedFiles lsn0 g.closed).drop g.k ++ [g.cur]
  k : g.k ≤ (old ++ closedFiles lsn0 g.closed).length
  hdr : g.hdr = false → g.gs = []
  out : s.outbuf.bytes = bytesOf g.p
  inb : s.inbuf.bytes = bytesOf g.i
  outMax : g.p ≠ [] → s.outbuf.maxLsn = g.out lsn0
  inMax : g.i ≠ [] → s.inbuf.maxLsn = g.lsn lsn0
  inMaxLe : s.inbuf.maxLsn ≤ g.lsn lsn0
  outMaxLe : s.outbuf.maxLsn ≤ g.lsn lsn0
  fsynced : s.fsynced ≤ g.dur lsn0
  size : s.inbuf.size = g.size
  inMin : cfg.minBuf ≤ s.inbuf.size
  outMin : cfg.minBuf ≤ s.outbuf.size
  nIn : s.nInFile = g.cur.bytes.length
  trimmed : ∀ f ∈ (old ++ closedFiles lsn0 g.closed).take g.k, TrimmedAbove evs f.info

structure Locks (s : St) : Prop where
  inl : ∀ t, holdsIn (s.pc t) = true ↔ s.inLock = some t
  one : ∀ t u, holdsOut (s.pc t) = true → holdsOut (s.pc u) = true → t = u
  free : s.outFree = true ↔ ∀ t, holdsOut (s.pc t) = false

structure Inv (cfg : Cfg) (old : List File) (g : G) (s : St) (evs : List Event) : Prop where
  data : Data lsn0 cfg old g s evs
  locks : Locks s
  pcs : ∀ t, PcOk (g.view lsn0) evs t (s.pc t)
  pend : g.p = [] ∨ ∃ t, isPend (s.pc t) = true
  late : g.gu = [] ∨ g.i ≠ [] ∨ ∃ t, isLate (s.pc t) = true
  small : g.cur.bytes.length ≤ max cfg.lgMax 12 ∨ ∃ t, isRolling (s.pc t) = true

end Verif.Logger
