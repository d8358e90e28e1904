import Verif.Tree.RangeMain
import Verif.Tree.Props
import Mathlib.Data.Nat.Basic

/-! C72: counting the keys around two given keys. -/
namespace Verif.Tree
set_option linter.unusedSectionVars false
variable {K R B : Type} [LinearOrder K]

theorem reached {sem : Sem K R B} {ops : List (Op K B)} {t : Tree K R B} (ht : run sem Tree.empty ops = some t) :
    TreeOk sem (sent ops) t := by
  obtain ⟨u, h1, h2⟩ := run_ok (ops := ops) (empty_ok sem)
  rw [ht] at h1
  cases h1
  exact h2

theorem ends_none (left right : Option K) (may : Bool) : EndsIn none none left right may :=
  ⟨fun a _ => inB_none a, fun _ b _ => inB_none b⟩

/-- What the count comes down to. -/
theorem keysTwo_ok {sem : Sem K R B} {hist : List (Kind K × B)} {t : Tree K R B} (ht : TreeOk sem hist t) (numrows : Nat)
    (left right : Option K) :
    ∃ c, keysInternal left right t.h true numrows t.root = some c ∧ Shape left right c ∧
      ((keysTwo t numrows left right = some c ∧ (c.single = true ∨ right = none)) ∨
       ∃ k c2, right = some k ∧ c.single = false ∧ keysInternal (some k) none t.h false numrows t.root = some c2 ∧ Shape (some k) none c2 ∧
        keysTwo t numrows left right = some { c with
          mid := (if add64 c2.eqL c2.mid ≤ c.mid then c.mid - add64 c2.eqL c2.mid else 0), eqR := c2.eqL, greater := c2.mid }) := by
  obtain ⟨c, h1, h2⟩ := shape (est := numrows) ht (ends_none left right true)
  refine ⟨c, h1, h2, ?_⟩
  cases hr : right with
  | none =>
    left
    subst hr
    refine ⟨?_, Or.inr rfl⟩
    unfold keysTwo
    rw [h1]
    rfl
  | some k =>
    subst hr
    cases hs : c.single with
    | true =>
      left
      refine ⟨?_, Or.inl rfl⟩
      unfold keysTwo
      rw [h1]
      show (if c.single = true then some c else _) = _
      rw [if_pos hs]
    | false =>
      right
      obtain ⟨c2, g1, g2⟩ := shape (est := numrows) ht (ends_none (some k) none false)
      refine ⟨k, c2, rfl, rfl, g1, g2, ?_⟩
      have z1 := h2.zero (Or.inl hs)
      have z2 := g2.zero (Or.inr rfl)
      unfold keysTwo
      rw [h1]
      show (if c.single = true then some c else _) = _
      rw [if_neg (by rw [hs]; decide)]
      simp [guard, z1, z2, g1, hs]

/-- Counting never fails, whatever has been done to the dictionary and whatever the number of rows is thought to be. -/
theorem C72_counting_never_fails (sem : Sem K R B) (ops : List (Op K B)) {t : Tree K R B} (ht : run sem Tree.empty ops = some t)
    (rows : Int) (left right : Option K) : ∃ c, keysRange t rows left right = some c := by
  have ok := reached ht
  have two : ∀ left right, ∃ c, keysTwo t rows.toNat left right = some c := by
    intro left right
    obtain ⟨c, _, _, h | ⟨k, c2, _, _, _, _, h⟩⟩ := keysTwo_ok ok rows.toNat left right
    · exact ⟨_, h.1⟩
    · exact ⟨_, h⟩
  match left, right with
  | none, some k =>
    obtain ⟨c, h1, h2, h | ⟨k', c2, e, _⟩⟩ := keysTwo_ok ok rows.toNat (some k) none
    · have z := h2.zero (Or.inr rfl)
      exact ⟨{ less := 0, eqL := 0, mid := c.less, eqR := c.eqL, greater := c.mid, single := c.single }, by
        simp [keysRange, h.1, guard, z]⟩
    · cases e
  | some a, right => exact two (some a) right
  | none, none => exact two none none

/-- The two ways a count is done. -/
theorem keysRange_cases {sem : Sem K R B} {hist : List (Kind K × B)} {t : Tree K R B} (ok : TreeOk sem hist t) {rows : Int}
    {left right : Option K} {c : Counts} (hc : keysRange t rows left right = some c) :
    (keysTwo t rows.toNat left right = some c ∧ (left = none → right = none)) ∨
    ∃ k c1, left = none ∧ right = some k ∧ keysInternal (some k) none t.h true rows.toNat t.root = some c1 ∧ Shape (some k) none c1 ∧
      c = { less := 0, eqL := 0, mid := c1.less, eqR := c1.eqL, greater := c1.mid, single := c1.single } := by
  match left, right, hc with
  | none, some k, hc =>
    right
    obtain ⟨c1, h1, h2, h | ⟨k', c2, e, _⟩⟩ := keysTwo_ok ok rows.toNat (some k) none
    · have z := h2.zero (Or.inr rfl)
      unfold keysRange at hc
      simp only [h.1] at hc
      refine ⟨k, c1, rfl, rfl, h1, h2, ?_⟩
      simp [guard, z] at hc
      exact hc.symm
    · cases e
  | some a, right, hc => exact Or.inl ⟨hc, fun e => by cases e⟩
  | none, none, hc => exact Or.inl ⟨hc, fun _ => rfl⟩

/-- Nothing is below or at minus infinity, nothing at or above plus infinity, and no key is there twice. -/
theorem C72_missing_ends (sem : Sem K R B) (ops : List (Op K B)) {t : Tree K R B} (ht : run sem Tree.empty ops = some t)
    (rows : Int) (left right : Option K) {c : Counts} (hc : keysRange t rows left right = some c) :
    (left = none → c.less = 0 ∧ c.eqL = 0) ∧ (right = none → c.eqR = 0 ∧ c.greater = 0) ∧ c.eqL ≤ 1 ∧ c.eqR ≤ 1 := by
  have ok := reached ht
  rcases keysRange_cases ok hc with ⟨h, _⟩ | ⟨k, c1, rfl, rfl, h1, h2, rfl⟩
  · obtain ⟨c1, h1, h2, g | ⟨k, c2, rfl, _, _, g2, g⟩⟩ := keysTwo_ok ok rows.toNat left right
    · rw [g.1] at h
      cases h
      exact ⟨h2.low, fun e => h2.zero (Or.inr e), h2.one⟩
    · rw [g] at h
      cases h
      exact ⟨h2.low, fun e => (by cases e), h2.one.1, g2.one.1⟩
  · exact ⟨fun _ => ⟨rfl, rfl⟩, fun e => (by cases e), Nat.zero_le _, h2.one.1⟩

/-- If the counts are said to be exact, and no message waits for a key of the range, they are: the number of keys with a row at the
left end, between the ends (as far as 32 bits go) and at the right end.  The ends must be in order, and a right end needs
a left end: see the theorems below.  Rows are counted whatever transaction they belong to. -/
theorem C72_exact_counts_partial (sem : Sem K R B) (ops : List (Op K B)) {t : Tree K R B} (ht : run sem Tree.empty ops = some t)
    (rows : Int) (left right : Option K) (ho : ∀ a b, left = some a → right = some b → a < b) (hl : left = none → right = none)
    (hw : ∀ k, Spanned left right k → waiting k t.h t.root = [])
    {c : Counts} (hc : keysRange t rows left right = some c) (he : c.single = true) :
    AtEnd (fun k => rowAfter sem (sent ops) k ≠ none) left c.eqL ∧
    AtEnd (fun k => rowAfter sem (sent ops) k ≠ none) right c.eqR ∧
    ∃ m, Count (fun k => Between left right k ∧ rowAfter sem (sent ops) k ≠ none) m ∧ (m + 1 < 2 ^ 32 → c.mid = m) := by
  have ok := reached ht
  have hk : keysInternal left right t.h true rows.toNat t.root = some c := by
    rcases keysRange_cases ok hc with ⟨h, _⟩ | ⟨k, c1, e1, e2, _⟩
    · obtain ⟨c1, h1, h2, g | ⟨k, c2, rfl, gs, _, _, g⟩⟩ := keysTwo_ok ok rows.toNat left right
      · rw [g.1] at h
        cases h
        exact h1
      · rw [g] at h
        cases h
        rw [gs] at he
        cases he
    · rw [hl e1] at e2
      cases e2
  rcases counted ok (ends_none left right true) hk with ⟨_, e⟩ | ⟨lo', hi', rs, w⟩
  · rw [e] at he
    cases he
  · have val : ∀ k, Spanned left right k → lookup rs k = rowAfter sem (sent ops) k := by
      intro k hk'
      exact w.value k (w.all he k (inB_none k) hk') (hw k hk') (fun u hu => by cases hu)
    have wl : ∀ a, left = some a → Spanned left right a := fun a e =>
      ⟨fun a' e' => by rw [e] at e'; cases e'; exact le_refl _, fun b e' => le_of_lt (ho a b e e')⟩
    have wr : ∀ b, right = some b → Spanned left right b := fun b e =>
      ⟨fun a e' => le_of_lt (ho a b e' e), fun b' e' => by rw [e] at e'; cases e'; exact le_refl _⟩
    have wb : ∀ k, Between left right k → Spanned left right k := fun k h =>
      ⟨fun a e => le_of_lt (h.1 a e), fun b e => le_of_lt (h.2 b e)⟩
    have hL := w.eqL
    have hR := w.eqR
    have hM := w.mid he
    rw [he] at hL hR
    have hL : c.eqL = if (leftAt rs left).2 then 1 else 0 := hL
    have hR : c.eqR = if (rightAt rs true right).2 then 1 else 0 := hR
    refine ⟨?_, ?_, ?_⟩
    · cases hf : (leftAt rs left).2 with
      | true =>
        obtain ⟨k, e1, e2⟩ := (leftAt_found left).1 hf
        rw [val k (wl k e1)] at e2
        exact Or.inl ⟨by rw [hL, hf]; rfl, k, e1, e2⟩
      | false =>
        refine Or.inr ⟨by rw [hL, hf]; rfl, ?_⟩
        intro k e1 e2
        rw [← val k (wl k e1)] at e2
        have := (leftAt_found left).2 ⟨k, e1, e2⟩
        rw [hf] at this
        cases this
    · cases hf : (rightAt rs true right).2 with
      | true =>
        obtain ⟨k, e1, e2⟩ := (rightAt_found right).1 hf
        rw [val k (wr k e1)] at e2
        exact Or.inl ⟨by rw [hR, hf]; rfl, k, e1, e2⟩
      | false =>
        refine Or.inr ⟨by rw [hR, hf]; rfl, ?_⟩
        intro k e1 e2
        rw [← val k (wr k e1)] at e2
        have := (rightAt_found right).2 ⟨k, e1, e2⟩
        rw [hf] at this
        cases this
    · refine ⟨countRows (fun k => pastL left k && beforeR right k) rs, rows_list w.sorted ?_, ?_⟩
      · intro k
        rw [between_iff]
        constructor
        · rintro ⟨h1, h2⟩
          rw [val k (wb k h1)] at h2
          exact ⟨h1, h2⟩
        · rintro ⟨h1, h2⟩
          rw [← val k (wb k h1)] at h2
          exact ⟨h1, h2⟩
      · intro hm
        rw [hM]
        exact (countIn_mid w.sorted ho).2.2 hm

/-- The number of keys with a property is one number. -/
theorem C72_count_is_one_number {P : K → Prop} {m n : Nat} (h : Count P m) (h' : Count P n) : m = n := by
  obtain ⟨a, ⟨a1, a2⟩, rfl⟩ := h
  obtain ⟨b, ⟨b1, b2⟩, rfl⟩ := h'
  have na : a.Nodup := a1.imp fun h => ne_of_lt h
  have nb : b.Nodup := b1.imp fun h => ne_of_lt h
  have : a.Perm b := (List.perm_ext_iff_of_nodup na nb).2 fun k => (a2 k).trans (b2 k).symm
  exact this.length_eq

/-- The counts are said to be exact just if a point query for the one end reads the same basement as one for the other. -/
theorem C72_exact_if_one_basement (sem : Sem K R B) (ops : List (Op K B)) {t : Tree K R B} (ht : run sem Tree.empty ops = some t)
    (rows : Int) (a b : K) {c : Counts} (hc : keysRange t rows (some a) (some b) = some c) :
    c.single = true ↔ routeOf a t.h t.root = routeOf b t.h t.root := by
  have ok := reached ht
  have hc : keysTwo t rows.toNat (some a) (some b) = some c := hc
  obtain ⟨c1, h1, h2, g | ⟨k, c2, e, gs, _, _, g⟩⟩ := keysTwo_ok ok rows.toNat (some a) (some b)
  · rw [g.1] at hc
    cases hc
    exact single_route ok (inB_none a) (inB_none b) h1
  · rw [g] at hc
    injection hc with hc
    rw [← hc]
    exact single_route (cs := c1) ok (inB_none a) (inB_none b) h1

/-- A key counted at an end is there, exact or not, if no message waits for it. -/
theorem C72_counted_ends_are_there (sem : Sem K R B) (ops : List (Op K B)) {t : Tree K R B} (ht : run sem Tree.empty ops = some t)
    (rows : Int) (left right : Option K) {c : Counts} (hc : keysRange t rows left right = some c) :
    (c.eqL ≠ 0 → ∃ k, left = some k ∧ (waiting k t.h t.root = [] → rowAfter sem (sent ops) k ≠ none)) ∧
    (c.eqR ≠ 0 → ∃ k, right = some k ∧ (waiting k t.h t.root = [] → rowAfter sem (sent ops) k ≠ none)) := by
  have ok := reached ht
  have key : ∀ {left right : Option K} {may : Bool} {c1 : Counts}, keysInternal left right t.h may rows.toNat t.root = some c1 →
      (c1.eqL ≠ 0 → ∃ k, left = some k ∧ (waiting k t.h t.root = [] → rowAfter sem (sent ops) k ≠ none)) ∧
      (c1.single = true → c1.eqR ≠ 0 → ∃ k, right = some k ∧ (waiting k t.h t.root = [] → rowAfter sem (sent ops) k ≠ none)) := by
    intro left right may c1 h1
    rcases counted ok (ends_none left right may) h1 with ⟨e1, e2⟩ | ⟨lo', hi', rs, w⟩
    · exact ⟨fun h => absurd e1 h, fun h => by rw [e2] at h; cases h⟩
    · constructor
      · intro hne
        have hL : c1.eqL = if (leftAt rs left).2 then 1 else 0 := w.eqL
        cases hf : (leftAt rs left).2 with
        | false => rw [hf] at hL; exact absurd hL hne
        | true =>
          obtain ⟨k, e1, e2⟩ := (leftAt_found left).1 hf
          refine ⟨k, e1, fun hw => ?_⟩
          have hv := w.value k (w.inL k e1) hw (fun u hu => by cases hu)
          rw [hv] at e2
          exact e2
      · intro hs hne
        have hR := w.eqR
        rw [hs] at hR
        have hR : c1.eqR = if (rightAt rs true right).2 then 1 else 0 := hR
        cases hf : (rightAt rs true right).2 with
        | false => rw [hf] at hR; exact absurd hR hne
        | true =>
          obtain ⟨k, e1, e2⟩ := (rightAt_found right).1 hf
          refine ⟨k, e1, fun hw => ?_⟩
          have hv := w.value k (w.inR hs k e1) hw (fun u hu => by cases hu)
          rw [hv] at e2
          exact e2
  rcases keysRange_cases ok hc with ⟨h, _⟩ | ⟨k, c1, rfl, rfl, h1, h2, rfl⟩
  · obtain ⟨c1, h1, h2, g | ⟨k, c2, rfl, gs, g1, g2, g⟩⟩ := keysTwo_ok ok rows.toNat left right
    · rw [g.1] at h
      cases h
      refine ⟨(key h1).1, fun hne => ?_⟩
      rcases g.2 with e | e
      · exact (key h1).2 e hne
      · exact absurd (h2.zero (Or.inr e)).1 hne
    · rw [g] at h
      cases h
      exact ⟨(key h1).1, (key g1).1⟩
  · exact ⟨fun h => absurd rfl h, (key h1).1⟩

/-- Exact or not, no number is absurd: with the ends in order none exceeds the number of rows the dictionary is thought to have by
more than the rows of one basement. -/
theorem C72_no_count_is_absurd (sem : Sem K R B) (ops : List (Op K B)) {t : Tree K R B} (ht : run sem Tree.empty ops = some t)
    (rows : Int) (hr : rows < 2 ^ 63) (left right : Option K) (ho : ∀ a b, left = some a → right = some b → a < b)
    {S : Nat} (hS : S + 1 < 2 ^ 32) (hb : SmallBasements S t.h t.root)
    {c : Counts} (hc : keysRange t rows left right = some c) :
    c.less ≤ rows.toNat + S ∧ c.eqL ≤ rows.toNat + S ∧ c.mid ≤ rows.toNat + S ∧ c.eqR ≤ rows.toNat + S ∧ c.greater ≤ rows.toNat + S := by
  have ok := reached ht
  have hn : rows.toNat < 2 ^ 64 := by omega
  have tot : ∀ {left right : Option K} {may : Bool} {c1 : Counts}, Ordered left right →
      keysInternal left right t.h may rows.toNat t.root = some c1 →
      c1.less + c1.eqL + c1.mid + c1.eqR + c1.greater ≤ rows.toNat + S :=
    fun ho h1 => keys_total hS ok (ends_none _ _ _) ho hb hn h1
  have on : ∀ left : Option K, Ordered left none := fun _ _ _ _ e => by cases e
  rcases keysRange_cases ok hc with ⟨h, _⟩ | ⟨k, c1, rfl, rfl, h1, h2, rfl⟩
  · obtain ⟨c1, h1, h2, g | ⟨k, c2, rfl, gs, g1, g2, g⟩⟩ := keysTwo_ok ok rows.toNat left right
    · rw [g.1] at h
      cases h
      have := tot ho h1
      omega
    · rw [g] at h
      cases h
      have a := tot ho h1
      have b := tot (on (some k)) g1
      simp only
      split <;> omega
  · have := tot (on (some k)) h1
    simp only
    omega

/-- Counting changes no answer: the basement it may have read into memory is as good as any. -/
theorem C72_counting_changes_no_answer (sem : Sem K R B) (ops more : List (Op K B)) {t : Tree K R B} (ht : run sem Tree.empty ops = some t)
    (left right : Option K) :
    ∃ t', run sem { t with root := countLoads left right t.h true t.root } more = some t' ∧
      ∀ k, get sem t' k = .ok (rowAfter sem (sent ops ++ sent more) k) := by
  have ok : TreeOk sem (sent ops) { t with root := countLoads left right t.h true t.root } := countLoads_ok (reached ht)
  obtain ⟨t', h1, h2⟩ := run_ok (ops := more) ok
  exact ⟨t', h1, fun k => get_ok h2 k⟩

/-! ### Cases -/

/-- Keys 1 to 8 in two leaves, 1 to 4 and 5 to 8. -/
def eight : List (Op Nat (Option Nat × Nat)) :=
  (List.range 8).map (fun k => .put (.once (k + 1)) (some (10 * (k + 1)), 0) 0) ++ [.newRoot, .split [] 0 .evenly]

/-- The counts after a history. -/
def countsAfter (ops : List (Op Nat (Option Nat × Nat))) (rows : Int) (left right : Option Nat) : Option Counts :=
  (run numbers Tree.empty ops).bind fun t => keysRange t rows left right

/-- Both ends in one leaf: the three in the middle are right; the others are guesses. -/
example : countsAfter eight 8 (some 5) (some 8) = some ⟨4, 1, 2, 1, 0, true⟩ := by decide +kernel
example : countsAfter eight 100 (some 2) (some 4) = some ⟨1, 1, 1, 1, 50, true⟩ := by decide +kernel
/-- In two leaves: not exact. -/
example : countsAfter eight 8 (some 2) (some 7) = some ⟨1, 1, 4, 1, 1, false⟩ := by decide +kernel
/-- Not in memory. -/
example : countsAfter (eight ++ [.write [0] 1000, .evict [0] (fun _ => true)]) 8 (some 2) (some 7) = some ⟨2, 0, 4, 1, 1, false⟩ := by
  decide +kernel
/-- Not in memory, but read for the purpose. -/
example : countsAfter (eight ++ [.write [0] 1000, .evict [0] (fun _ => true)]) 8 (some 2) (some 4) = some ⟨1, 1, 1, 1, 4, true⟩ := by
  decide +kernel
/-- No message waits, so the theorem on exact counts applies. -/
example : (run numbers Tree.empty eight).map (fun t => (List.range 10).map fun k => (waiting k t.h t.root).length) =
    some [0, 0, 0, 0, 0, 0, 0, 0, 0, 0] := by decide +kernel

/-- `DB->key_range64`. -/
example : (run numbers Tree.empty eight).bind (fun t => keyRange t 8 (some 6)) = some (5, 1, 2) := by decide +kernel

/-- Asked with the same key for both ends, it says there are 2⁶⁴ - 1 rows between, exactly. -/
theorem C72_same_key_twice : countsAfter eight 8 (some 2) (some 2) = some ⟨1, 1, 2 ^ 64 - 1, 1, 6, true⟩ := by decide +kernel

/-- Asked with the ends in the wrong order, it says there are almost 2³² rows between, exactly. -/
theorem C72_ends_in_wrong_order : countsAfter eight 8 (some 4) (some 2) = some ⟨3, 1, 2 ^ 32 - 3, 1, 6, true⟩ := by decide +kernel

/-- Without the keys 1 to 3. -/
def lopsided : List (Op Nat (Option Nat × Nat)) :=
  eight ++ [.put (.once 1) (none, 0) 5, .put (.once 2) (none, 0) 5, .put (.once 3) (none, 0) 5]

/-- Without a left end, the number of rows before the right end is a guess said to be exact: the keys 4 to 7 are below 8, and it
says 5. -/
theorem C72_guess_called_exact : countsAfter lopsided 5 none (some 8) = some ⟨0, 0, 5, 1, 0, true⟩ ∧
    (List.range 10).map (fun k => (rowAfter numbers (sent lopsided) k).isSome) =
      [false, false, false, false, true, true, true, true, true, false] := by decide +kernel

/-- A message that waits above is not counted: the key 6 has been deleted, and the counts said to be exact have it. -/
theorem C72_waiting_messages_are_not_counted :
    countsAfter (eight ++ [.put (.once 6) (none, 0) 0]) 7 (some 6) (some 8) = some ⟨4, 1, 1, 1, 0, true⟩ ∧
    rowAfter numbers (sent (eight ++ [.put (.once 6) (none, 0) 0])) 6 = none := by decide +kernel

end Verif.Tree
