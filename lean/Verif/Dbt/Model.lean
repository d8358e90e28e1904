/-!
# Values handed to the caller

Model of toku_dbt_set (util/dbt.cc:199-261): how a key or value found by a get or by a cursor is put into the caller's
DBT, by its flags: memory of the caller (DB_DBT_USERMEM), fresh memory (DB_DBT_MALLOC), memory that grows and shrinks with
the values (DB_DBT_REALLOC), or memory of the cursor or handle (0).  The heap is a map from pointers to buffers; realloc
succeeds or fails as the operating system likes and always gives a new pointer; copying outside a buffer or to memory
already freed is undefined behaviour.
-/

namespace Verif.Dbt

inductive Flag
  | usermem
  | malloc
  | realloc
  | static
deriving DecidableEq, Repr

structure Buf where
  cap : Nat
  bytes : List Nat
deriving DecidableEq, Repr

/-- A DBT of the caller. -/
structure D where
  flag : Flag
  data : Option Nat
  size : Nat
  ulen : Nat
deriving DecidableEq, Repr

/-- The heap, the next pointer, the caller's DBTs, and the cursor's own buffer (`struct simple_dbt`). -/
structure S where
  heap : Nat → Option Buf
  next : Nat
  slots : Nat → D
  sdata : Option Nat
  slen : Nat

def ENOMEM : Nat := 12

/-- DB_BUFFER_SMALL, buildheader/make_tdb.cc (its absolute value). -/
def BUFFER_SMALL : Nat := 30999

/-- 32-bit multiplication. -/
def mul32 (a b : Nat) : Nat := a * b % 2 ^ 32

def setHeap (s : S) (p : Nat) (b : Option Buf) : S := { s with heap := fun q => if q = p then b else s.heap q }

def setSlot (s : S) (i : Nat) (d : D) : S := { s with slots := fun j => if j = i then d else s.slots j }

/-- memcpy to the start of a buffer; `none`: undefined behaviour. -/
def copy (s : S) (p : Option Nat) (v : List Nat) : Option S :=
  match p with
  | none => if v = [] then some s else none
  | some q =>
    match s.heap q with
    | none => none
    | some b => if v.length ≤ b.cap then some (setHeap s q (some ⟨b.cap, v ++ b.bytes.drop v.length⟩)) else none

/-- realloc that succeeds: the state and the new pointer; `none`: the old memory was freed before. -/
def grow (s : S) (p : Option Nat) (n : Nat) : Option (S × Nat) :=
  match p with
  | none => some ({ setHeap s s.next (some ⟨n, []⟩) with next := s.next + 1 }, s.next)
  | some q =>
    match s.heap q with
    | none => none
    | some b => some ({ setHeap (setHeap s q none) s.next (some ⟨n, b.bytes.take n⟩) with next := s.next + 1 }, s.next)

/-- The size to allocate, if any (util/dbt.cc:219-230, 239-246); `fresh` is the third case of the first. -/
def resize (ulen len : Nat) (fresh : Bool) : Option Nat :=
  if ulen < len then some (mul32 len 2)
  else if 16 < ulen ∧ mul32 len 4 < ulen then some (if mul32 len 2 < 16 then 16 else mul32 len 2)
  else if fresh then some len
  else none

/-- The case DB_DBT_REALLOC, util/dbt.cc:218-237, for a DBT `d` to be stored in slot `i`; `ok`: realloc succeeds. -/
def setRealloc (s : S) (i : Nat) (d : D) (v : List Nat) (ok : Bool) : Option (S × Nat) :=
  match resize d.ulen v.length d.data.isNone with
  | none => (copy s d.data v).map fun s => (setSlot s i { d with size := v.length }, 0)
  | some u =>
    if ok then
      match grow s d.data u with
      | none => none
      | some (s, p) => (copy s (some p) v).map fun s => (setSlot s i { d with data := some p, ulen := u, size := v.length }, 0)
    else some (setSlot s i { d with ulen := u }, ENOMEM)

/-- toku_dbt_set, util/dbt.cc:199-261; `none`: undefined behaviour. -/
def dbtSet (s : S) (i : Nat) (v : List Nat) (ok : Bool) : Option (S × Nat) :=
  let d := s.slots i
  match d.flag with
  | .usermem =>
    if d.ulen < v.length then some (setSlot s i { d with size := v.length }, BUFFER_SMALL)
    else (copy s d.data v).map fun s => (setSlot s i { d with size := v.length }, 0)
  | .malloc => setRealloc s i { d with data := none, ulen := 0 } v ok
  | .realloc => setRealloc s i d v ok
  | .static =>
    match resize s.slen v.length false with
    | none => (copy s s.sdata v).map fun s => (setSlot s i { d with data := s.sdata, size := v.length }, 0)
    | some u =>
      if ok then
        match grow s s.sdata u with
        | none => none
        | some (s, p) =>
          (copy s (some p) v).map fun s => ({ setSlot s i { d with data := some p, size := v.length } with
            sdata := some p, slen := u }, 0)
      else some ({ s with slen := u }, ENOMEM)

/-- Values handed to the caller one after the other: the DBT, the value, whether memory can be had. -/
def run (s : S) : List (Nat × List Nat × Bool) → Option S
  | [] => some s
  | (i, v, ok) :: es =>
    match dbtSet s i v ok with
    | none => none
    | some (s, _) => run s es

end Verif.Dbt
