/-!
# Cursors that fetch many rows at a time

Model of c_getf_next and c_getf_prev with a callback that may ask for more rows (TOKUDB_CURSOR_CONTINUE), of bounds set on a
cursor, and of locks that are waited for: src/ydb_cursor.cc:323-440, 674-721, ft/cursor.cc:111-137, 238-318, 348-360,
ft/ft-ops.cc:3337-3448, 3826-3954.  The rows are given as the basement nodes in the order of the move; `live` says whether the
reader sees the row.  Simplified: keys are numbers; descending the tree visits the basement nodes in order (C36, C54); the rows do
not change during a call.
-/

namespace Verif.Bulk

structure Row where
  key : Nat
  live : Bool
deriving DecidableEq, Repr

/-- What the user's callback answers: 0, TOKUDB_CURSOR_CONTINUE, or an error. -/
inductive Ans
  | stop
  | more
  | err
deriving DecidableEq, Repr

/-- struct ft_cursor, ft/cursor.h:45-60, once it has a position; `limited`: `out_of_range_error` is not 0. -/
structure Cursor where
  pos : Nat
  left : Nat
  right : Nat
  negInf : Bool
  posInf : Bool
  limited : Bool
deriving DecidableEq, Repr

/-- `outOfRange`: the error chosen with the bounds, DB_NOTFOUND or TOKUDB_OUT_OF_RANGE. -/
inductive Res
  | ok
  | notFound
  | outOfRange
  | notGranted
  | userErr
deriving DecidableEq, Repr

/-- c_set_bounds, src/ydb_cursor.cc:674-700, toku_ft_cursor_set_range_lock, ft/cursor.cc:112-137: `none` is infinity; the flags
are only ever set. -/
def setBounds (c : Cursor) (left right : Option Nat) : Cursor :=
  let c := match left with
    | none => { c with negInf := true, left := 0 }
    | some l => { c with left := l }
  let c := match right with
    | none => { c with posInf := true, right := 0 }
    | some r => { c with right := r }
  { c with limited := left.isSome || right.isSome }

/-- ft_cursor_compare_next and ft_cursor_compare_prev, ft/cursor.cc:189-192, 348-351. -/
def past (fwd : Bool) (p k : Nat) : Bool := if fwd then decide (p < k) else decide (k < p)

/-- toku_ft_cursor_check_restricted_range, ft/cursor.cc:238-254: only the bound ahead is looked at (`direction`). -/
def outside (fwd : Bool) (c : Cursor) (k : Nat) : Bool :=
  c.limited && (if fwd then !c.posInf && decide (c.right < k) else !c.negInf && decide (k < c.left))

/-- toku_ft_cursor_shortcut, ft/cursor.cc:256-306, with c_getf_next_callback (src/ydb_cursor.cc:350-378): lock, then the user's
callback.  The result, the key the cursor is given (ft/ft-ops.cc:3436-3441), and the rows given to the user. -/
def shortcut (fwd : Bool) (c : Cursor) (lock : Option Nat → Bool) (user : Nat → Ans) : Nat → List Row → Res × Nat × List Nat
  | last, [] => (.ok, last, [])
  | last, r :: rs =>
    if r.live = false then shortcut fwd c lock user last rs
    else if outside fwd c r.key then (.ok, r.key, [])
    else if lock (some r.key) = false then (.notGranted, r.key, [])
    else match user r.key with
      | .stop => (.ok, r.key, [r.key])
      | .err => (.userErr, r.key, [r.key])
      | .more =>
        let t := shortcut fwd c lock user r.key rs
        (t.1, t.2.1, r.key :: t.2.2)

/-- ft_search_basement_node on the first basement node that has a row, ft/ft-ops.cc:3357-3447, or the end, ft/ft-ops.cc:3931-3941. -/
def search (fwd : Bool) (c : Cursor) (lock : Option Nat → Bool) (user : Nat → Ans) : List (List Row) → Res × Nat × List Nat
  | [] => if lock none then (.notFound, c.pos, []) else (.notGranted, c.pos, [])
  | b :: bs =>
    match b.dropWhile (fun r => !(r.live && past fwd c.pos r.key)) with
    | [] => search fwd c lock user bs
    | r :: rs =>
      if outside fwd c r.key then (.outOfRange, c.pos, [])
      else if lock (some r.key) = false then (.notGranted, c.pos, [])
      else match user r.key with
        | .stop => (.ok, r.key, [r.key])
        | .err => (.userErr, c.pos, [r.key])
        | .more =>
          let t := shortcut fwd c lock user r.key rs
          (t.1, t.2.1, r.key :: t.2.2)

/-- c_getf_next and c_getf_prev, src/ydb_cursor.cc:323-346, 382-405: after a wait that was granted the search is done again from
the cursor.  One set of locks that can be had per attempt; after the last the wait is given up. -/
def move (fwd : Bool) (user : Nat → Ans) (parts : List (List Row)) : Cursor → List (Option Nat → Bool) → Res × Nat × List Nat
  | c, [] => (.notGranted, c.pos, [])
  | c, lock :: ls =>
    let t := search fwd c lock user parts
    if t.1 = .notGranted then
      let t' := move fwd user parts { c with pos := t.2.1 } ls
      (t'.1, t'.2.1, t.2.2 ++ t'.2.2)
    else t

end Verif.Bulk
