/-!
# DB->recount_rows: a cursor passes over the dictionary and sets the number of rows that is reported

The scan as `ft/ft-recount-rows.cc` makes it with `toku_ft_cursor_first` and `toku_ft_cursor_next`.
-/

namespace Verif.Recount

/-- A basement node: its rows in order, with whether there is a value for a reader of everything (`C_READ_ANY`, `le_val_is_del`), and its upper
bound (inclusive, `pivot_bounds::ubi`), which the last one of the dictionary does not have.  Keys are numbers in the order of the comparison. -/
structure Part where
  rows : List (Nat × Bool)
  hi : Option Nat

/-- `recount_rows_extra_t`, ft-recount-rows.cc:44-52; `log`: what the callback was told (count, deleted) and answered. -/
structure S where
  keys : Nat
  cancelled : Bool
  log : List (Nat × Nat × Int)

/-- A call of the callback, ft-recount-rows.cc:67-68, 73-74; `ans i` is the answer to call `i`.  Both functions keep only whether the answer
is 0. -/
def S.call (ans : Nat → Int) (s : S) (deleted : Nat) : S :=
  ⟨s.keys, ans s.log.length != 0, s.log ++ [(s.keys, deleted, ans s.log.length)]⟩

/-- `recount_rows_found` with a key, ft-recount-rows.cc:54-69: `lock_only` is not looked at. -/
def S.found (ans : Nat → Int) (s : S) : S := S.call ans { s with keys := s.keys + 1 } 0

/-- `ft_search_basement_node`, ft-ops.cc:3354-3411: the first row with a value from key `lo` on, and how many without one were passed.  (Without
`k_bound` `search_continue` is always true.) -/
def scan : List (Nat × Bool) → Nat → Nat × Option Nat
  | [], _ => (0, none)
  | (k, live) :: r, lo =>
    if k < lo then scan r lo else if live then (0, some k) else ((scan r lo).1 + 1, (scan r lo).2)

/-- Result of a search: a row at a key, or a code that ends the loop. -/
inductive Out where
  | row (k : Nat) (s : S)
  | stop (ret : Int) (s : S)

/-- DB_NOTFOUND of Berkeley DB (buildheader/make_tdb.cc:214 takes it from there; only that it is not 0 matters). -/
def notFound : Int := -30988

/-- TOKUDB_INTERRUPTED, buildheader/make_tdb.cc:157. -/
def interrupted : Int := -100018

/-- `toku_ft_search` from one basement node on to the right, ft-ops.cc:3826-3960 with `ft_search_node`, 3745-3822, and
`ft_search_basement_node`, 3338-3440.  Behind the end of a basement node with an upper bound the function that counts is called with that bound
and `lock_only`; at the end of the dictionary it is called without a key.  A cursor without bulk fetch.  Retries begin at the bound that was
saved, so no basement node is passed twice (3674-3682, 3700-3709). -/
def walk (ans : Nat → Int) : List Part → Nat → S → Out
  | [], _, s =>
    let s := s.call ans 0
    if s.cancelled then .stop 1 s else .stop notFound s
  | p :: rest, lo, s =>
    match scan p.rows lo with
    | (n, some k) =>
      -- the answer is not looked at, ft-ops.cc:3407-3408
      let s := if 0 < n then s.call ans n else s
      let s := s.found ans
      if s.cancelled then .stop 1 s else .row k s
    | (n, none) =>
      let s := if 0 < n then s.call ans n else s
      if 0 < n ∧ s.cancelled then .stop interrupted s
      else match p.hi with
        | none => walk ans rest lo s
        | some _ =>
          let s := s.found ans
          if s.cancelled then .stop 1 s else walk ans rest lo s

/-- `toku_ft_search_which_child`, ft-ops.cc:3642-3697: the first basement node whose upper bound is not before `lo`. -/
def start (d : List Part) (lo : Nat) : List Part :=
  d.dropWhile fun p => match p.hi with | some h => decide (h < lo) | none => false

/-- The loop, ft-recount-rows.cc:91-94, for `fuel` searches; `dict i` is the dictionary at search `i`. -/
def run (ans : Nat → Int) (dict : Nat → List Part) : Nat → Nat → Nat → S → Option (Int × S)
  | 0, _, _, _ => none
  | fuel + 1, i, lo, s =>
    match walk ans (start (dict i) lo) lo s with
    | .row k s => run ans dict fuel (i + 1) (k + 1) s
    | .stop r s => some (r, s)

/-- `toku_ft_recount_rows`, ft-recount-rows.cc:76-106: the value returned and the number of rows that is reported from then on; `old`: the
number at the end of the scan, with what others added meanwhile. -/
def recount (ans : Nat → Int) (dict : Nat → List Part) (fuel old : Nat) : Option (Int × Nat × List (Nat × Nat × Int)) :=
  match run ans dict fuel 0 0 ⟨0, false, []⟩ with
  | none => none
  | some (r, s) => if s.cancelled then some (r, old, s.log) else some (0, s.keys, s.log)

end Verif.Recount
