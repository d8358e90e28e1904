import Verif.Tree.RightLemmas
import Mathlib.Data.Nat.Basic
/-!
C62: puts do what their flags say, however the rows are routed, including straight to the last leaf.
-/
namespace Verif.Tree
set_option linter.unusedSectionVars false
variable {K R B V : Type} [LinearOrder K]

/-- Puts of any kind mixed with any other steps: nothing fails, every put returns what it should, and a query for any key
gives what the accepted puts and the other messages make of it.  Missing: puts with DB_NOOVERWRITE_NO_ERROR, and any
puts while the last leaf has an empty basement at one of its ends, at a time when the shortcut is tried (`Tame`); the
theorems below show that the property is false there. -/
theorem C62_puts_do_what_flags_say_partial (sem : Sem K R B) (w : Puts V R B) (ops : List (DOp K B V))
    (ht : Tame sem w Dict.empty ops) :
    ∃ s, drun sem w Dict.empty ops = some (s, (expectedRun sem w [] ops).2) ∧
      ∀ k, get sem s.tree k = .ok (rowAfter sem (expectedRun sem w [] ops).1 k) := by
  obtain ⟨s, h1, h2⟩ := drun_ok (w := w) (s := Dict.empty) (empty_ok sem) (fun h => by cases h) ht
  exact ⟨s, h1, fun k => get_ok h2 k⟩

/-- Whenever the shortcut may be taken, in any run at all, the last leaf is known, is not the root, and nothing waits in
the buffers above it. -/
theorem C62_nothing_waits_above_last_leaf (sem : Sem K R B) (w : Puts V R B) (ops : List (DOp K B V)) {s : Dict K R B}
    {rs : List Ret} (h : drun sem w Dict.empty ops = some (s, rs)) (hs : 0 < s.score) :
    s.known = true ∧ s.tree.h ≠ 0 ∧ (∃ l, lastLeaf s.tree.h s.tree.root = some l) ∧
      ∀ b ∈ buffersAbove s.tree.h s.tree.root, b = [] := by
  obtain ⟨h1, h2, h3⟩ := drun_path (s := Dict.empty) h (fun h => by cases h) hs
  refine ⟨h1, h2, ?_, h3.buffers⟩
  have gen : ∀ {h : Nat} {n : Node K R B h}, Clear h n → ∃ l, lastLeaf h n = some l := by
    intro h
    induction h with
    | zero => exact fun {n} _ => ⟨n, rfl⟩
    | succ h ih =>
      intro n ⟨c, c1, c2⟩
      obtain ⟨l, hl⟩ := ih c2
      refine ⟨l, ?_⟩
      unfold lastLeaf
      rw [c1]
      exact hl
  exact gen h3

/-! ### Examples -/

/-- Messages on rows that are numbers. -/
inductive Cell where
  | set (n : Nat)
  | setNew (n : Nat)
  | del
  deriving DecidableEq, Repr

def cells : Sem Nat Nat Cell where
  one := fun b _ v => match b with
    | .set n => some n
    | .setNew n => some (v.getD n)
    | .del => none
  each := fun _ _ r => some r
  cutSize := fun _ _ => 10
  splitSize := fun _ _ => 10

def cellPuts : Puts Nat Nat Cell := { ins := .set, insNo := .setNew, live := fun _ => true }

/-- A tree of two leaves, rows 1 to 3 and 4 to 8, the second in basements of two rows (4 and 6, then 8), and a hundred puts of key 8. -/
def warm : List (DOp Nat Cell Nat) :=
  [.put .over 1 10 0 true, .put .over 2 20 0 true, .put .over 3 30 0 true, .put .over 4 40 0 true, .put .unique 6 60 0 true,
   .put .over 8 80 0 true, .tree .newRoot, .tree (.split [] 0 .evenly), .tree (.write [1] 20)] ++
  List.replicate 100 (.put .over 8 80 1 true)

/-- A check for `Tame`. -/
def endsB (l : Leaf K R) : Bool :=
  decide (l.parts.length = 1) || (match l.parts[0]?, l.parts[l.parts.length - 1]? with
    | some p, some q => !(partRows p).isEmpty && !(partRows q).isEmpty
    | _, _ => false)

theorem endsB_ok {l : Leaf K R} (h : endsB l = true) : EndsFull l := by
  unfold endsB at h
  rcases Bool.or_eq_true_iff.1 h with h | h
  · exact Or.inl (of_decide_eq_true h)
  · right
    split at h
    · rename_i p q hp hq
      simp only [Bool.and_eq_true, Bool.not_eq_true', List.isEmpty_eq_false_iff] at h
      exact ⟨⟨p, hp, h.1⟩, q, hq, h.2⟩
    · cases h

def tameB (sem : Sem K R B) (w : Puts V R B) : Dict K R B → List (DOp K B V) → Bool
  | _, [] => true
  | s, op :: ops =>
    (match op with
      | .put how _ _ _ stable => decide (s.score < scoreThreshold) || !stable || (decide (how ≠ .silent) &&
        (match lastLeaf s.tree.h s.tree.root with
          | some l => endsB (loadLeaf l)
          | none => true))
      | .tree _ => true) &&
    match dstep sem w s op with
    | .ok (s', _) => tameB sem w s' ops
    | .skip => tameB sem w s ops
    | .crash => true

theorem tameB_ok {sem : Sem K R B} {w : Puts V R B} : ∀ {ops : List (DOp K B V)} {s : Dict K R B}, tameB sem w s ops = true →
    Tame sem w s ops
  | [], _, _ => trivial
  | op :: ops, s, h => by
    unfold tameB at h
    obtain ⟨h1, h2⟩ := Bool.and_eq_true_iff.1 h
    refine ⟨?_, ?_⟩
    · cases op with
      | tree op => trivial
      | put how k v depth stable =>
        intro hs hst
        simp only [Bool.or_eq_true, Bool.and_eq_true, decide_eq_true_eq, Bool.not_eq_true'] at h1
        rcases h1 with (h1 | h1) | h1
        · omega
        · rw [hst] at h1; cases h1
        · refine ⟨h1.1, fun l hl => ?_⟩
          rw [hl] at h1
          exact endsB_ok h1.2
    · split
      · rename_i s' r hq
        rw [hq] at h2
        exact tameB_ok h2
      · rename_i hq
        rw [hq] at h2
        exact tameB_ok h2
      · trivial

/-- After that the shortcut is taken: for a new last row, for a row that is there (refused), for one in between, for the first
row of the leaf. -/
def warmUse : List (DOp Nat Cell Nat) :=
  warm ++ [.put .over 9 90 0 true, .put .unique 9 91 0 true, .put .unique 5 50 0 true, .put .unique 5 51 0 true, .put .over 4 41 0 true,
    .put .unique 2 21 0 true, .put .over 8 81 0 false]

example : Tame cells cellPuts Dict.empty warmUse := tameB_ok (by decide +kernel)
example : (drun cells cellPuts Dict.empty warmUse).map (fun p => (p.2.drop 109, [2, 4, 5, 8, 9].map (get cells p.1.tree))) =
    some ([.done, .keyExist, .done, .keyExist, .done, .keyExist, .done],
      [.ok (some 20), .ok (some 41), .ok (some 50), .ok (some 81), .ok (some 90)]) := by decide +kernel
example : (drun cells cellPuts Dict.empty warm).map (fun p => (p.1.score, p.1.known)) = some (100, true) := by decide +kernel

/-! ### Where the property fails -/

/-- A put with DB_NOOVERWRITE_NO_ERROR that takes the shortcut replaces the row that is there. -/
theorem C62_silent_put_overwrites : ∃ s rs, drun cells cellPuts Dict.empty (warm ++ [.put .silent 8 777 0 true]) = some (s, rs) ∧
    rowAfter cells (expectedRun cells cellPuts [] (warm ++ [.put .silent 8 777 0 true])).1 8 = some 80 ∧
    get cells s.tree 8 = .ok (some 777) := by
  have h : (drun cells cellPuts Dict.empty (warm ++ [.put .silent 8 777 0 true])).map (fun p => get cells p.1.tree 8) =
      some (.ok (some 777)) := by decide +kernel
  obtain ⟨x, hx, e⟩ := Option.map_eq_some_iff.1 h
  exact ⟨x.1, x.2, hx, by decide +kernel, e⟩

/-- The last basement emptied by deletions, the shortcut then puts a row where no query looks for it: the put of key 5 is
accepted and the row is not there. -/
def emptied : List (DOp Nat Cell Nat) :=
  warm ++ [.tree (.put (.once 8) .del 1), .tree (.put (.once 6) .del 1)]

theorem C62_put_lost : ∃ s rs, drun cells cellPuts Dict.empty (emptied ++ [.put .over 5 50 0 true]) = some (s, rs ++ [.done]) ∧
    rowAfter cells (expectedRun cells cellPuts [] (emptied ++ [.put .over 5 50 0 true])).1 5 = some 50 ∧
    get cells s.tree 5 = .ok none := by
  have h : (drun cells cellPuts Dict.empty (emptied ++ [.put .over 5 50 0 true])).map (fun p => (get cells p.1.tree 5, p.2)) =
      some (.ok none, List.replicate 111 .done ++ [.done]) := by decide +kernel
  obtain ⟨x, hx, e⟩ := Option.map_eq_some_iff.1 h
  exact ⟨x.1, List.replicate 111 .done, by rw [hx, ← (Prod.mk.inj e).2], by decide +kernel, (Prod.mk.inj e).1⟩

/-- In the same state a put of the last row there is, key 4, changes nothing a query sees: the old row stays where queries
look and the new one goes to the last basement. -/
theorem C62_update_lost : ∃ s rs, drun cells cellPuts Dict.empty (emptied ++ [.put .over 4 44 0 true]) = some (s, rs) ∧
    rowAfter cells (expectedRun cells cellPuts [] (emptied ++ [.put .over 4 44 0 true])).1 4 = some 44 ∧
    get cells s.tree 4 = .ok (some 40) := by
  have h : (drun cells cellPuts Dict.empty (emptied ++ [.put .over 4 44 0 true])).map (fun p => get cells p.1.tree 4) =
      some (.ok (some 40)) := by decide +kernel
  obtain ⟨x, hx, e⟩ := Option.map_eq_some_iff.1 h
  exact ⟨x.1, x.2, hx, by decide +kernel, e⟩

end Verif.Tree
