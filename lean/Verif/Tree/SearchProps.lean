import Verif.Tree.SearchRun

/-!
C54: a cursor move returns the nearest visible row.
-/
namespace Verif.Tree
set_option linter.unusedSectionVars false
variable {K R B : Type} [LinearOrder K]

/-! ### What a move is meant to find -/

/-- The keys a move may land on. -/
def Goal.Wants : Goal K → K → Prop
  | .first, _ => True
  | .atLeast k _, x => k ≤ x
  | .after k, x => k < x
  | .last, _ => True
  | .atMost k, x => x ≤ k
  | .before k, x => x < k

/-- Which of two such keys the move prefers: the smaller going up, the larger going down. -/
def Goal.Prefers : Goal K → K → K → Prop
  | .first, x, y => x < y
  | .atLeast _ _, x, y => x < y
  | .after _, x, y => x < y
  | .last, x, y => y < x
  | .atMost _, x, y => y < x
  | .before _, x, y => y < x

/-- A move may be told not to look beyond a key. -/
def Goal.InRange : Goal K → K → Prop
  | .atLeast _ (some b), x => x ≤ b
  | _, _ => True

/-- The key has a row and the reader is allowed to see it. -/
def Shows (vis : K → R → Bool) (v : K → Option R) (x : K) : Prop := ∃ r, v x = some r ∧ vis x r = true

theorem wants_iff {g : Goal K} {x : K} : g.Wants x ↔ g.cmp x = true := by
  cases g <;> simp [Goal.Wants, Goal.cmp]

theorem prefers_iff {g : Goal K} {x y : K} : g.Prefers x y ↔ Before g x y := by
  cases g <;> simp [Goal.Prefers, Before, Goal.left]

theorem goalRange_iff {g : Goal K} {x : K} : g.InRange x ↔ Within g x := by
  unfold Within
  cases g with
  | atLeast k b => cases b <;> simp [Goal.InRange, Goal.bound]
  | first => simp [Goal.InRange, Goal.bound]
  | after => simp [Goal.InRange, Goal.bound]
  | last => simp [Goal.InRange, Goal.bound]
  | atMost => simp [Goal.InRange, Goal.bound]
  | before => simp [Goal.InRange, Goal.bound]

theorem shows_iff {vis : K → R → Bool} {v : K → Option R} {x : K} : Hidden vis v x ↔ ¬ Shows vis v x := by
  unfold Hidden Shows
  constructor
  · intro h ⟨r, h1, h2⟩
    rw [h r h1] at h2
    cases h2
  · intro h r hr
    cases hv : vis x r with
    | false => rfl
    | true => exact absurd ⟨r, hr, hv⟩ h

/-! ### C54 -/

/-- Left alone, or beside work that sends no message, a move on any tree that any history built finds the nearest row that shows: what it
returns is there, shows, is wanted, and nothing it would prefer shows.  If it finds nothing, nothing wanted in its range shows.  The
tree answers as before. -/
theorem C54_move_finds_nearest (sem : Sem K R B) (ops : List (Op K B)) {t : Tree K R B} (ht : run sem Tree.empty ops = some t)
    (vis : K → R → Bool) (g : Goal K) (work : List (List (Op K B))) (hw : ∀ seg ∈ work, sent seg = []) :
    ∃ res t', search sem vis g none t work = .ok (res, t') ∧
      (∀ k r, res = .found k r → rowAfter sem (sent ops) k = some r ∧ vis k r = true ∧ g.Wants k ∧
        ∀ x, g.Wants x → g.Prefers x k → ¬ Shows vis (rowAfter sem (sent ops)) x) ∧
      (res = .missing → ∀ x, g.Wants x → g.InRange x → ¬ Shows vis (rowAfter sem (sent ops)) x) ∧
      ∀ k, get sem t' k = .ok (rowAfter sem (sent ops) k) := by
  obtain ⟨u, h1, h2⟩ := run_ok (ops := ops) (empty_ok sem)
  rw [ht] at h1
  cases h1
  rw [List.nil_append] at h2
  have hnil : ∀ (l : List (List (Op K B))), (∀ seg ∈ l, sent seg = []) → sent l.flatten = [] := by
    intro l
    induction l with
    | nil => intro _; rfl
    | cons a l ih =>
      intro h
      rw [List.flatten_cons, sent_append, h a List.mem_cons_self, ih fun s hs => h s (List.mem_cons_of_mem _ hs)]
      rfl
  have hH : ∀ i, histAt (sent ops) work i = sent ops := by
    intro i
    unfold histAt
    rw [hnil _ fun s hs => hw s (List.mem_of_mem_take hs), List.append_nil]
  rcases search_ok (vis := vis) (g := g) (segs := work) none h2 with ⟨t', e, q⟩ | ⟨n, hn, res, t', e, q, hok⟩
  · refine ⟨_, t', e, fun _ _ h => (by cases h), fun h => (by cases h), fun k => ?_⟩
    rw [hnil _ hw, List.append_nil] at q
    exact get_ok q k
  · rw [hH] at q
    refine ⟨res, t', e, ?_, ?_, fun k => get_ok q k⟩
    · rintro k r rfl
      obtain ⟨w1, w2, w3, w4⟩ := hok
      simp only [hH] at w1 w4
      refine ⟨w1, w2, wants_iff.2 w3, fun x hx hp => shows_iff.1 ?_⟩
      obtain ⟨_, _, h⟩ := w4 x ⟨wants_iff.1 hx, fun _ h => (by cases h)⟩ (prefers_iff.1 hp)
      exact h
    · rintro rfl x hx hr
      obtain ⟨_, _, h⟩ := hok x ⟨wants_iff.1 hx, fun _ h => (by cases h)⟩ (goalRange_iff.1 hr)
      simp only [hH] at h
      exact shows_iff.1 h

/-- Left alone, a move ends: at most one attempt for each pivot of the tree and one more. -/
theorem C54_move_ends (sem : Sem K R B) (ops : List (Op K B)) {t : Tree K R B} (ht : run sem Tree.empty ops = some t)
    (vis : K → R → Bool) (g : Goal K) :
    ∃ res t', search sem vis g none t (List.replicate (t.pivots.length + 1) []) = .ok (res, t') ∧ res ≠ .again := by
  obtain ⟨u, h1, h2⟩ := run_ok (ops := ops) (empty_ok sem)
  rw [ht] at h1
  cases h1
  exact search_ends _ none h2 (List.length_filter_le _ _)

/-- Beside any work of others, messages included, before each attempt: a move never fails; the row it returns is there and shows at the
last attempt; and whatever it passed over did not show at some attempt, the last or an earlier one. -/
theorem C54_move_beside_other_work (sem : Sem K R B) (ops : List (Op K B)) {t : Tree K R B} (ht : run sem Tree.empty ops = some t)
    (vis : K → R → Bool) (g : Goal K) (work : List (List (Op K B))) :
    ∃ res t', search sem vis g none t work = .ok (res, t') ∧ (res = .again ∨ ∃ n, n < work.length ∧
      (∀ k r, res = .found k r → rowAfter sem (sent ops ++ sent (work.take (n + 1)).flatten) k = some r ∧ vis k r = true ∧ g.Wants k ∧
        ∀ x, g.Wants x → g.Prefers x k → ∃ i, i ≤ n ∧ ¬ Shows vis (rowAfter sem (sent ops ++ sent (work.take (i + 1)).flatten)) x) ∧
      (res = .missing → ∀ x, g.Wants x → g.InRange x →
        ∃ i, i ≤ n ∧ ¬ Shows vis (rowAfter sem (sent ops ++ sent (work.take (i + 1)).flatten)) x)) := by
  obtain ⟨u, h1, h2⟩ := run_ok (ops := ops) (empty_ok sem)
  rw [ht] at h1
  cases h1
  rw [List.nil_append] at h2
  rcases search_ok (vis := vis) (g := g) (segs := work) none h2 with ⟨t', e, q⟩ | ⟨n, hn, res, t', e, q, hok⟩
  · exact ⟨_, t', e, Or.inl rfl⟩
  · refine ⟨res, t', e, Or.inr ⟨n, hn, ?_, ?_⟩⟩
    · rintro k r rfl
      obtain ⟨w1, w2, w3, w4⟩ := hok
      refine ⟨w1, w2, wants_iff.2 w3, fun x hx hp => ?_⟩
      obtain ⟨i, hi, h⟩ := w4 x ⟨wants_iff.1 hx, fun _ h => (by cases h)⟩ (prefers_iff.1 hp)
      exact ⟨i, hi, shows_iff.1 h⟩
    · rintro rfl x hx hr
      obtain ⟨i, hi, h⟩ := hok x ⟨wants_iff.1 hx, fun _ h => (by cases h)⟩ (goalRange_iff.1 hr)
      exact ⟨i, hi, shows_iff.1 h⟩

/-- Two leaves, one of two basements; rows 1 to 5, of which 2 and 3 are below 100. -/
def someRows : List (Op Nat (Option Nat × Nat)) :=
  [.put (.once 1) (some 110, 0) 0, .put (.once 2) (some 20, 0) 0, .put (.once 3) (some 30, 0) 0, .put (.once 4) (some 140, 0) 0,
   .put (.once 5) (some 150, 0) 0, .newRoot, .split [] 0 .evenly, .put (.once 7) (some 170, 0) 0, .write [0] 15, .put (.once 5) (none, 0) 0]

/-- A reader that sees the rows from 100 up. -/
def big (_ : Nat) (r : Nat) : Bool := decide (100 ≤ r)

/-- The result of a search, without the tree. -/
def resOf {α β : Type} : Out (α × β) → Option α
  | .ok (a, _) => some a
  | _ => none

example : (do
    let t ← run numbers Tree.empty someRows
    some (t.pivots, ([.first, .after 1, .after 4, .after 7, .last, .before 4, .before 1, .atLeast 2 (some 3), .atLeast 3 none, .atMost 6]
      : List (Goal Nat)).map fun g => resOf (search numbers big g none t [[], [], [], [], []])))
  = some ([3, 1, 2], [some (.found 1 110), some (.found 4 140), some (.found 7 170), some .missing, some (.found 7 170), some (.found 1 110),
      some .missing, some .missing, some (.found 4 140), some (.found 4 140)]) := by
  decide +kernel

/-- A row sent between two attempts, beyond the bound, is found; behind it, passed over. -/
example : (do
    let t ← run numbers Tree.empty someRows
    some (resOf (search numbers big (.after 1) none t [[], [.put (.once 3) (some 300, 0) 0], []]),
      resOf (search numbers big (.after 1) none t [[], [.put (.once 2) (some 200, 0) 0], []])))
  = some (some (.found 3 300), some (.found 4 140)) := by
  decide +kernel

end Verif.Tree
