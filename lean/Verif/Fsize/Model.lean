/-!
# The size of a data file

Model of how a data file is made longer before blocks are written at its end, and shorter when blocks at its end are no
longer used: block_table::_ensure_safe_write_unlocked and _maybe_truncate_file (ft/serialize/block_table.cc:486-506,
204-237), toku_maybe_preallocate_in_file and toku_maybe_truncate_file (ft/serialize/ft_node-serialize.cc:117-196).  The
mutex of the block table makes steps atomic; it is let go during file operations and while a thread waits for the lock
of the file's size (`_safe_file_size_lock`, util/rwlock.h:263-303).  Which free space a new block gets is the
allocator's business (C28, C29): any that is not in use.  Sizes are natural numbers (no overflow of 64 bits); a block is
written in one step.
-/

namespace Verif.Fsize

/-- FILE_CHANGE_INCREMENT, ft_node-serialize.cc:109. -/
def incr : Nat := 16777216

/-- stripe_width, ft_node-serialize.cc:158. -/
def stripe : Nat := 4096

/-- alignup64, ft_node-serialize.cc:111-114. -/
def alignUp (a b : Nat) : Nat := ((a + b - 1) / b) * b

/-- The loop of toku_maybe_preallocate_in_file, ft_node-serialize.cc:176-178; `cur` is `file_size + to_write`. -/
def growLoop : Nat → Nat → Nat → Nat
  | 0, cur, _ => cur
  | k + 1, cur, size => if cur < size then growLoop k (cur + alignUp (min cur incr) stripe) size else cur

/-- `to_write`, ft_node-serialize.cc:171-178. -/
def toWrite (fsize size : Nat) : Nat := growLoop size (if fsize = 0 then stripe else fsize) size - fsize

/-- Where the zeros are written, and the new size, ft_node-serialize.cc:179-195. -/
def newSize (fsize size : Nat) : Nat :=
  if toWrite fsize size > 0 then alignUp fsize stripe + toWrite fsize size else fsize

/-- toku_maybe_truncate_file, ft_node-serialize.cc:117-143: the new size; `none` is a failed assertion. -/
def cutSize (fsize used : Nat) : Option Nat :=
  if fsize ≥ used + 2 * incr then
    if alignUp used (2 * incr) < fsize then some (alignUp used (2 * incr)) else none
  else some fsize

/-- How far the thread has got that was given the block: waiting for the lock of the size; making the file longer; it may
write the block. -/
inductive Phase
  | waiting
  | growing
  | ok
deriving DecidableEq, Repr

/-- A block in use. -/
structure B where
  off : Nat
  size : Nat
  phase : Phase
deriving DecidableEq, Repr

/-- The lock of the file's size: free; held by a thread that makes the file longer (for the block at `off`, up to `need`)
before and after its file operation; or by one that makes it shorter, before and after. -/
inductive Lock
  | free
  | grow (off need before : Nat)
  | grown (off after : Nat)
  | cut (limit before : Nat)
  | wasCut (after : Nat)
deriving DecidableEq, Repr

/-- The blocks in use; `_safe_file_size`; the file: its size and its bytes; the lock; the threads that wait for it to make
the file shorter, each with the limit it had computed. -/
structure S where
  blocks : List B
  safe : Nat
  fsize : Nat
  data : Nat → Option Nat
  lock : Lock
  shrinkers : List Nat

/-- AllocatedLimit (ft/serialize/block_allocator.cc:154-157): the end of the last block, at least the end of the two
headers. -/
def limit (bs : List B) : Nat := bs.foldr (fun b m => max (b.off + b.size) m) 8192

def find (s : S) (off : Nat) : Option B := s.blocks.find? (·.off == off)

def setPhase (s : S) (off : Nat) (p : Phase) : S :=
  { s with blocks := s.blocks.map fun b => if b.off = off then { b with phase := p } else b }

/-- What threads do. -/
inductive Ev
  /-- A block is allocated and its place in the file asked for (block_table.cc:508-521, 486-492). -/
  | alloc (off size : Nat)
  /-- A thread that waited for the lock gets it, and looks again (block_table.cc:493-494). -/
  | grab (off : Nat)
  /-- The file operation that makes the file longer (block_table.cc:495-499), with the assertions of
  ft_node-serialize.cc:170, 180. -/
  | growIO
  | growEnd
  | write (off v : Nat)
  | release (off : Nat)
  /-- _maybe_truncate_file with its argument: at the end of a checkpoint (block_table.cc:396) and whenever a handle is opened
  (ft/ft-ops.cc:3075-3080). -/
  | shrink (before : Nat)
  | shrinkGrab (l : Nat)
  | cutIO
  | cutEnd
deriving DecidableEq, Repr

/-- One step; `none`: not possible now; `some none`: a failed assertion. -/
def step (s : S) : Ev → Option (Option S)
  | .alloc off size =>
    if size = 0 ∨ s.blocks.any (fun b => decide (b.off < off + size) && decide (off < b.off + b.size)) then none
    else if off + size ≤ s.safe then some (some { s with blocks := ⟨off, size, .ok⟩ :: s.blocks })
    else match s.lock with
      | .free => some (some { s with blocks := ⟨off, size, .growing⟩ :: s.blocks, lock := .grow off (off + size) s.safe })
      | _ => some (some { s with blocks := ⟨off, size, .waiting⟩ :: s.blocks })
  | .grab off =>
    match s.lock, find s off with
    | .free, some b =>
      if b.phase = .waiting then
        if off + b.size > s.safe then some (some { setPhase s off .growing with lock := .grow off (off + b.size) s.safe })
        else some (some (setPhase s off .ok))
      else none
    | _, _ => none
  | .growIO =>
    match s.lock with
    | .grow off need before =>
      if before = s.fsize ∧ toWrite s.fsize need % 512 = 0 then
        some (some { s with
          lock := .grown off (newSize s.fsize need)
          fsize := newSize s.fsize need
          data := fun p => if s.fsize ≤ p ∧ p < newSize s.fsize need then some 0 else s.data p })
      else some none
    | _ => none
  | .growEnd =>
    match s.lock with
    | .grown off after => some (some { setPhase s off .ok with lock := .free, safe := after })
    | _ => none
  | .write off v =>
    match find s off with
    | some b =>
      if b.phase = .ok then
        some (some { s with
          data := fun p => if off ≤ p ∧ p < off + b.size then some v else s.data p
          fsize := max s.fsize (off + b.size) })
      else none
    | none => none
  | .release off =>
    match find s off with
    | some b => if b.phase = .ok then some (some { s with blocks := s.blocks.filter (·.off != off) }) else none
    | none => none
  | .shrink before =>
    let l := limit s.blocks
    if l < before ∧ l < s.safe then
      match s.lock with
      | .free => some (some { s with lock := .cut l s.safe, safe := l })
      | _ => some (some { s with shrinkers := l :: s.shrinkers })
    else some (some s)
  | .shrinkGrab l =>
    if s.lock = .free ∧ l ∈ s.shrinkers then
      let s := { s with shrinkers := s.shrinkers.erase l }
      if l < s.safe then some (some { s with lock := .cut l s.safe, safe := l }) else some (some s)
    else none
  | .cutIO =>
    match s.lock with
    | .cut l before =>
      if before = s.fsize then
        match cutSize s.fsize l with
        | some n => some (some { s with lock := .wasCut n, fsize := n, data := fun p => if p < n then s.data p else none })
        | none => some none
      else some none
    | _ => none
  | .cutEnd =>
    match s.lock with
    | .wasCut after => some (some { s with lock := .free, safe := after })
    | _ => none

def run (s : S) : List Ev → Option (Option S)
  | [] => some (some s)
  | e :: es =>
    match step s e with
    | none => none
    | some none => some none
    | some (some s) => run s es

end Verif.Fsize
