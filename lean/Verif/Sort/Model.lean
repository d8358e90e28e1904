import Verif.Sort.Spec

/-!
`toku::sort`, util/sort.h, which puts buffered messages in order before they are applied (ft/node.cc:463-464) and when message
buffers of old versions are read (ft/serialize/ft_node-serialize.cc:854-863).

An array is a list; a part of an array, given by a pointer and a length, is the list of its elements.  `none` is an access outside the
array (or the part), or a loop or recursion that does not end: loops have as much fuel as could be needed.  Indices are numbers without a
limit (in the code `int`).
-/
namespace Verif.Sort
variable {α : Type}

/-- `tmp = a[i]; a[i] = a[j]; a[j] = tmp`. -/
def swap (a : List α) (i j : Nat) : Option (List α) := do
  let x ← a[i]?
  let y ← a[j]?
  some ((a.set i y).set j x)

/-- `i--`; the index does not get below zero. -/
def dec : Nat → Option Nat
  | 0 => none
  | i + 1 => some i

/-- The median of three, util/sort.h:172-180. -/
def medianOfThree (cmp : α → α → Int) (a : List α) (lo pivot hi : Nat) : Option (List α) := do
  let x ← a[lo]?
  let p ← a[pivot]?
  let a ← if 0 < cmp x p then swap a lo pivot else some a
  let p ← a[pivot]?
  let y ← a[hi]?
  if 0 < cmp p y then do
    let a ← swap a pivot hi
    let x ← a[lo]?
    let p ← a[pivot]?
    if 0 < cmp x p then swap a lo pivot else some a
  else some a

/-- `while (cmp(extra, a[li], a[pivot]) < 0) li++`, util/sort.h:183-185. -/
def scanUp (cmp : α → α → Int) (a : List α) (pivot : Nat) : Nat → Nat → Option Nat
  | 0, _ => none
  | fuel + 1, li => do
    let x ← a[li]?
    let p ← a[pivot]?
    if cmp x p < 0 then scanUp cmp a pivot fuel (li + 1) else some li

/-- `while (cmp(extra, a[pivot], a[ri]) < 0) ri--`, util/sort.h:186-188. -/
def scanDown (cmp : α → α → Int) (a : List α) (pivot : Nat) : Nat → Nat → Option Nat
  | 0, _ => none
  | fuel + 1, ri => do
    let p ← a[pivot]?
    let x ← a[ri]?
    if cmp p x < 0 then do
      let ri ← dec ri
      scanDown cmp a pivot fuel ri
    else some ri

/-- Where the pivot is after `a[li]` and `a[ri]` have changed places, util/sort.h:191-193. -/
def movedPivot (pivot li ri : Nat) : Nat := if pivot = li then ri else if pivot = ri then li else pivot

/-- The loop of `quicksort_r`, util/sort.h:181-200. -/
def partition (cmp : α → α → Int) : Nat → List α → Nat → Nat → Nat → Option (List α × Nat × Nat)
  | 0, _, _, _, _ => none
  | fuel + 1, a, pivot, li, ri =>
    if li ≤ ri then do
      let li ← scanUp cmp a pivot (a.length + 1) li
      let ri ← scanDown cmp a pivot (a.length + 1) ri
      if li < ri then do
        let a ← swap a li ri
        let ri' ← dec ri
        partition cmp fuel a (movedPivot pivot li ri) (li + 1) ri'
      else if li = ri then do
        let ri' ← dec ri
        partition cmp fuel a pivot (li + 1) ri'
      else partition cmp fuel a pivot li ri
    else some (a, li, ri)

/-- `quicksort_r`, util/sort.h:165-205. -/
def quicksort (cmp : α → α → Int) : Nat → List α → Option (List α)
  | 0, _ => none
  | fuel + 1, a =>
    if 1 < a.length then do
      let a1 ← medianOfThree cmp a 0 (a.length / 2) (a.length - 1)
      let ri ← dec (a.length - 1)
      let (a2, li, ri) ← partition cmp (a.length + 1) a1 (a.length / 2) 1 ri
      let l ← quicksort cmp fuel (a2.take (ri + 1))
      let a3 := l ++ a2.drop (ri + 1)
      let r ← quicksort cmp fuel (a3.drop li)
      some (a3.take li ++ r)
    else some a

/-- `dest[i] = x`. -/
def write (dest : List α) (i : Nat) (x : α) : Option (List α) := if i < dest.length then some (dest.set i x) else none

/-- `memcpy(&dest[i], src, …)`. -/
def copyAt (dest : List α) (i : Nat) (src : List α) : Option (List α) :=
  if i + src.length ≤ dest.length then some (dest.take i ++ src ++ dest.drop (i + src.length)) else none

/-- The loop of `merge_c`, util/sort.h:102-111. -/
def mergeLoop (cmp : α → α → Int) (a b : List α) : Nat → List α → Nat → Nat → Nat → Option (List α × Nat × Nat × Nat)
  | 0, _, _, _, _ => none
  | fuel + 1, dest, ai, bi, i =>
    if ai < a.length ∧ bi < b.length then do
      let x ← a[ai]?
      let y ← b[bi]?
      if cmp x y < 0 then do
        let dest ← write dest i x
        mergeLoop cmp a b fuel dest (ai + 1) bi (i + 1)
      else do
        let dest ← write dest i y
        mergeLoop cmp a b fuel dest ai (bi + 1) (i + 1)
    else some (dest, ai, bi, i)

/-- `merge_c`, util/sort.h:99-117. -/
def mergeC (cmp : α → α → Int) (dest a b : List α) : Option (List α) := do
  let (dest, ai, bi, i) ← mergeLoop cmp a b (a.length + b.length + 1) dest 0 0 0
  if ai < a.length then copyAt dest i (a.drop ai)
  else if bi < b.length then copyAt dest i (b.drop bi)
  else some dest

/-- `binsearch`, util/sort.h:119-143. -/
def binsearch (cmp : α → α → Int) (key : α) : Nat → List α → Nat → Option Nat
  | 0, _, _ => none
  | fuel + 1, a, before =>
    if a.length = 0 then some before
    else do
      let mid := a.length / 2
      let akey ← a[mid]?
      let c := cmp key akey
      if c < 0 then
        if a.length = 1 then some before else binsearch cmp key fuel (a.take mid) before
      else if 0 < c then
        if a.length = 1 then some (before + 1) else binsearch cmp key fuel (a.drop mid) (before + mid)
      else some (before + mid)

/-- `merge`, util/sort.h:145-163; `thr` is `single_threaded_threshold`. -/
def merge (cmp : α → α → Int) (thr : Nat) : Nat → List α → List α → List α → Option (List α)
  | 0, _, _, _ => none
  | fuel + 1, dest, a_, b_ =>
    if a_.length + b_.length < thr then mergeC cmp dest a_ b_
    else do
      let a := if a_.length < b_.length then b_ else a_
      let b := if a_.length < b_.length then a_ else b_
      let a2 := a.length / 2
      let akey ← a[a2]?
      let b2 ← binsearch cmp akey (b.length + 1) b 0
      let d1 ← merge cmp thr fuel dest (a.take a2) (b.take b2)
      let d2 ← merge cmp thr fuel (d1.drop (a2 + b2)) (a.drop a2) (b.drop b2)
      some (d1.take (a2 + b2) ++ d2)

/-- The two arrays `as[0]` and `as[1]`; `true` stands for 1. -/
structure Two (α : Type) where
  zero : List α
  one : List α

def Two.get (t : Two α) : Bool → List α
  | false => t.zero
  | true => t.one

def Two.set (t : Two α) (w : Bool) (a : List α) : Two α :=
  match w with
  | false => { t with zero := a }
  | true => { t with one := a }

/-- `mergesort_internal`, util/sort.h:75-97: sorts `as[which]`, with the result in one of the two. -/
def mergesortInternal (cmp : α → α → Int) (thr : Nat) : Nat → Two α → Bool → Option (Bool × Two α)
  | 0, _, _ => none
  | fuel + 1, as, which =>
    let n := as.zero.length
    if n ≤ 1 then some (which, as)
    else if n < thr then do
      let s ← quicksort cmp (n + 1) (as.get which)
      some (which, as.set which s)
    else do
      let mid := n / 2
      let (r1, l) ← mergesortInternal cmp thr fuel ⟨as.zero.take mid, as.one.take mid⟩ which
      let (r2, r) ← mergesortInternal cmp thr fuel ⟨as.zero.drop mid, as.one.drop mid⟩ which
      let as : Two α := ⟨l.zero ++ r.zero, l.one ++ r.one⟩
      let as := if r1 ≠ r2 then as.set r2 ((as.get r1).take mid ++ (as.get r2).drop mid) else as
      let dest := !r2
      let d ← merge cmp thr (n + 1) (as.get dest) ((as.get (!dest)).take mid) ((as.get (!dest)).drop mid)
      some (dest, as.set dest d)

/-- `mergesort_r`, util/sort.h:56-70, with the threshold as a parameter; `scratch` is what is in the memory allocated. -/
def mergesortThr (cmp : α → α → Int) (thr : Nat) (a scratch : List α) : Option (List α) := do
  let (which, as) ← mergesortInternal cmp thr (a.length + 1) ⟨a, if thr ≤ a.length then scratch else []⟩ false
  some (if which then as.one else as.zero)

/-- `mergesort_r`, util/sort.h:56-70, with `single_threaded_threshold` as in line 49. -/
def mergesort (cmp : α → α → Int) (a scratch : List α) : Option (List α) := mergesortThr cmp 10000 a scratch

end Verif.Sort
