import Verif.Lt.Tree

/-!
The range tree represents a sorted list of disjoint ranges, and each operation does to the list what its name says.
-/
namespace Verif.Lt
open Std

section
variable {α : Type} [LE α] [LT α] [DecidableLE α] [DecidableLT α]

/-- Left endpoint does not exceed the right one. -/
def Range.Valid (a : Range α) : Prop := a.left ≤ a.right

/-- `a` lies entirely before `b`. -/
def Range.Before (a b : Range α) : Prop := a.right < b.left

/-- Locks sorted by range, pairwise disjoint, each a real range. -/
def Sorted (l : List (RowLock α)) : Prop :=
  (∀ x ∈ l, x.1.Valid) ∧ l.Pairwise fun a b => a.1.Before b.1

/-- The two ranges have a common point, in terms of endpoints. -/
def Range.Meets (a b : Range α) : Prop := a.left ≤ b.right ∧ b.left ≤ a.right

instance (a b : Range α) : Decidable (a.Meets b) := inferInstanceAs (Decidable (_ ∧ _))

variable [IsLinearPreorder α] [LawfulOrderLT α]

theorem compare_less {a b : Range α} : a.compare b = .lessThan ↔ a.Before b := by
  unfold Range.compare Range.Before; repeat' split
  all_goals simp_all

theorem compare_greater {a b : Range α} (ha : a.Valid) (hb : b.Valid) : a.compare b = .greaterThan ↔ b.Before a := by
  unfold Range.compare Range.Before Range.Valid at *
  repeat' split
  all_goals grind

theorem compare_equals_meets {a b : Range α} (h : a.compare b = .equals) : a.Meets b := by
  unfold Range.compare at h; unfold Range.Meets
  grind

theorem compare_overlaps_meets {a b : Range α} (h : a.compare b = .overlaps) : a.Meets b := by
  unfold Range.compare at h; unfold Range.Meets
  grind

theorem overlaps_iff {a b : Range α} : a.overlaps b = true ↔ a.Meets b := by
  unfold Range.overlaps Range.compare Range.Meets
  grind

theorem meets_comm {a b : Range α} : a.Meets b ↔ b.Meets a := And.comm

theorem not_meets_cases {a b : Range α} (h : ¬ a.Meets b) : a.Before b ∨ b.Before a := by
  unfold Range.Meets at h; unfold Range.Before; grind

theorem Range.Before.not_meets {a b : Range α} (h : a.Before b) : ¬ a.Meets b := by
  unfold Range.Before at h; unfold Range.Meets; grind

theorem Range.Before.not_meets' {a b : Range α} (h : a.Before b) : ¬ b.Meets a := by
  unfold Range.Before at h; unfold Range.Meets; grind

theorem Range.Before.trans {a b c : Range α} (hb : b.Valid) (h : a.Before b) (h' : b.Before c) : a.Before c := by
  unfold Range.Before Range.Valid at *; grind

/-- What a comparison tells, for real ranges. -/
theorem compare_cases {a b : Range α} (ha : a.Valid) (hb : b.Valid) :
    (a.compare b = .lessThan ∧ a.Before b) ∨ (a.compare b = .greaterThan ∧ b.Before a) ∨
    (a.compare b = .equals ∧ a.Meets b) ∨ (a.compare b = .overlaps ∧ a.Meets b) := by
  cases h : a.compare b with
  | equals => exact .inr (.inr (.inl ⟨rfl, compare_equals_meets h⟩))
  | overlaps => exact .inr (.inr (.inr ⟨rfl, compare_overlaps_meets h⟩))
  | lessThan => exact .inl ⟨rfl, compare_less.mp h⟩
  | greaterThan => exact .inr (.inl ⟨rfl, (compare_greater ha hb).mp h⟩)

theorem compare_self {a : Range α} (ha : a.Valid) : a.compare a = .equals := by
  unfold Range.compare Range.Valid at *; grind

end

namespace Sorted
variable {α : Type} [LE α] [LT α] [DecidableLE α] [DecidableLT α]

theorem left {a b : List (RowLock α)} (h : Sorted (a ++ b)) : Sorted a :=
  ⟨fun x hx => h.1 x (List.mem_append_left _ hx), (List.pairwise_append.mp h.2).1⟩

theorem right {a b : List (RowLock α)} (h : Sorted (a ++ b)) : Sorted b :=
  ⟨fun x hx => h.1 x (List.mem_append_right _ hx), (List.pairwise_append.mp h.2).2.1⟩

theorem cross {a b : List (RowLock α)} (h : Sorted (a ++ b)) : ∀ x ∈ a, ∀ y ∈ b, x.1.Before y.1 :=
  (List.pairwise_append.mp h.2).2.2

theorem tail {a : RowLock α} {b : List (RowLock α)} (h : Sorted (a :: b)) : Sorted b :=
  ⟨fun x hx => h.1 x (List.mem_cons_of_mem _ hx), (List.pairwise_cons.mp h.2).2⟩

theorem head {a : RowLock α} {b : List (RowLock α)} (h : Sorted (a :: b)) : ∀ y ∈ b, a.1.Before y.1 :=
  (List.pairwise_cons.mp h.2).1

theorem append {a b : List (RowLock α)} (ha : Sorted a) (hb : Sorted b) (hab : ∀ x ∈ a, ∀ y ∈ b, x.1.Before y.1) :
    Sorted (a ++ b) :=
  ⟨fun x hx => (List.mem_append.mp hx).elim (ha.1 x) (hb.1 x), List.pairwise_append.mpr ⟨ha.2, hb.2, hab⟩⟩

theorem cons {a : RowLock α} {b : List (RowLock α)} (ha : a.1.Valid) (hb : Sorted b) (hab : ∀ y ∈ b, a.1.Before y.1) :
    Sorted (a :: b) :=
  ⟨fun x hx => (List.mem_cons.mp hx).elim (fun h => h ▸ ha) (hb.1 x), List.pairwise_cons.mpr ⟨hab, hb.2⟩⟩

theorem sublist {a b : List (RowLock α)} (h : Sorted b) (hs : a.Sublist b) : Sorted a :=
  ⟨fun x hx => h.1 x (hs.subset hx), h.2.sublist hs⟩

end Sorted

namespace Tree
variable {α : Type}

theorem maybeRebalance_toList (t : Tree α) : t.maybeRebalance.toList = t.toList := by
  unfold maybeRebalance
  repeat' split
  all_goals simp [toList]

theorem toList_eq_nil {t : Tree α} : t.toList = [] ↔ t = nil := by
  cases t <;> simp [toList]

theorem maybeRebalance_ne_nil {a : Tree α} (h : a ≠ nil) : a.maybeRebalance ≠ nil := by
  intro h'
  apply h
  rw [← toList_eq_nil, ← maybeRebalance_toList, h']; rfl

variable [LE α] [LT α] [DecidableLE α] [DecidableLT α]

theorem detachMax_spec (t : Tree α) (h : t ≠ nil) :
    ∃ p, detachMax t = some p ∧ t.toList = p.1.1.toList ++ [p.2] := by
  induction t with
  | nil => exact absurd rfl h
  | node l ld x t r rd _ ihr =>
    cases r with
    | nil => exact ⟨_, rfl, by simp [toList]⟩
    | node r1 r2 r3 r4 r5 r6 =>
      obtain ⟨p, hp, hl⟩ := ihr (by simp)
      refine ⟨_, by rw [detachMax, hp]; rfl, ?_⟩
      rw [toList, hl]; simp [toList]

theorem detachMin_spec (t : Tree α) (h : t ≠ nil) :
    ∃ p, detachMin t = some p ∧ t.toList = p.2 :: p.1.1.toList := by
  induction t with
  | nil => exact absurd rfl h
  | node l ld x t r rd ihl _ =>
    cases l with
    | nil => exact ⟨_, rfl, by simp [toList]⟩
    | node r1 r2 r3 r4 r5 r6 =>
      obtain ⟨p, hp, hl⟩ := ihl (by simp)
      refine ⟨_, by rw [detachMin, hp]; rfl, ?_⟩
      rw [toList, hl]; simp [toList]

theorem removeRoot_spec (l : Tree α) (ld : Nat) (x : Range α) (t : Txn) (r : Tree α) (rd : Nat) :
    ∃ t', removeRoot (node l ld x t r rd) = some t' ∧ t'.toList = l.toList ++ r.toList := by
  cases l with
  | nil =>
    cases r with
    | nil => exact ⟨nil, rfl, rfl⟩
    | node r1 r2 r3 r4 r5 r6 =>
      obtain ⟨p, hp, hl⟩ := detachMin_spec (node r1 r2 r3 r4 r5 r6) (by simp)
      refine ⟨_, by simp only [removeRoot]; rw [hp]; rfl, ?_⟩
      rw [hl]; simp [toList]
  | node l1 l2 l3 l4 l5 l6 =>
    obtain ⟨p, hp, hl⟩ := detachMax_spec (node l1 l2 l3 l4 l5 l6) (by simp)
    refine ⟨_, by simp only [removeRoot]; rw [hp]; rfl, ?_⟩
    rw [hl]; simp [toList]

variable [IsLinearPreorder α] [LawfulOrderLT α]

/-- Removing a stored range removes that range and nothing else. -/
theorem remove_spec (t : Tree α) (hs : Sorted t.toList) (a : List (RowLock α)) (y : RowLock α) (b : List (RowLock α))
    (h : t.toList = a ++ y :: b) : ∃ t', t.remove y.1 = some t' ∧ t'.toList = a ++ b := by
  induction t generalizing a b with
  | nil => simp [toList] at h
  | node l ld x u r rd ihl ihr =>
    have hvy : y.1.Valid := hs.1 y (by rw [h]; simp)
    have hvx : x.Valid := hs.1 (x, u) (by simp [toList])
    simp only [toList] at h hs
    -- where is `y`?
    have hcase := List.append_eq_append_iff.mp h
    rcases hcase with ⟨c, hc, hc'⟩ | ⟨c, hc, hc'⟩
    · cases c with
      | nil =>
        simp only [List.nil_append, List.cons.injEq] at hc'
        obtain ⟨hy, hb⟩ := hc'
        simp only [List.append_nil] at hc
        subst hy
        obtain ⟨t', ht', hl'⟩ := removeRoot_spec l ld x u r rd
        refine ⟨t', ?_, by rw [hl', hc, hb]⟩
        rw [remove, compare_self hvx]; exact ht'
      | cons z c =>
        simp only [List.cons_append, List.cons.injEq] at hc'
        obtain ⟨hz, hr⟩ := hc'
        have hbef : x.Before y.1 := hs.right.head y (by rw [hr]; simp)
        have hcmp : y.1.compare x = .greaterThan := (compare_greater hvy hvx).mpr hbef
        obtain ⟨r', hr', hl'⟩ := ihr hs.right.tail c b hr
        refine ⟨_, by rw [remove, hcmp]; simp only [hr', Option.map_some]; rfl, ?_⟩
        simp only [toList, hl', hc, ← hz]; simp
    · cases c with
      | nil =>
        simp only [List.nil_append, List.cons.injEq] at hc'
        obtain ⟨hy, hb⟩ := hc'
        simp only [List.append_nil] at hc
        subst hy
        obtain ⟨t', ht', hl'⟩ := removeRoot_spec l ld x u r rd
        refine ⟨t', ?_, by rw [hl', ← hc, hb]⟩
        rw [remove, compare_self hvx]; exact ht'
      | cons z c =>
        simp only [List.cons_append, List.cons.injEq] at hc'
        obtain ⟨hz, hr⟩ := hc'
        subst hz
        have hbef : y.1.Before x := hs.cross y (by rw [hc]; simp) (x, u) (by simp)
        have hcmp : y.1.compare x = .lessThan := compare_less.mpr hbef
        obtain ⟨l', hl', hll'⟩ := ihl hs.left a c hc
        refine ⟨_, by rw [remove, hcmp]; simp only [hl', Option.map_some]; rfl, ?_⟩
        simp only [toList, hll', hr]; simp

/-- Inserting a range disjoint from the stored ones puts it at its place. -/
theorem insert_spec (range : Range α) (txn : Txn) (t : Tree α) (hv : range.Valid) (hs : Sorted t.toList)
    (hd : ∀ x ∈ t.toList, ¬ range.Meets x.1) :
    ∃ t', t.insert range txn = some t' ∧ ∃ a b, t.toList = a ++ b ∧ t'.toList = a ++ (range, txn) :: b ∧
      (∀ x ∈ a, x.1.Before range) ∧ ∀ x ∈ b, range.Before x.1 := by
  have hbef : ∀ {x u} {r : List (RowLock α)}, range.Before x → Sorted ((x, u) :: r) → ∀ y ∈ (x, u) :: r, range.Before y.1 := by
    intro x u r h hs y hy
    rcases List.mem_cons.mp hy with rfl | hy
    · exact h
    · exact h.trans (hs.1 (x, u) (by simp)) (hs.head y hy)
  have haft : ∀ {x u} {l : List (RowLock α)}, x.Before range → Sorted (l ++ [(x, u)]) → ∀ y ∈ l ++ [(x, u)], y.1.Before range := by
    intro x u l h hs y hy
    rcases List.mem_append.mp hy with hy | hy
    · exact (hs.cross y hy (x, u) (by simp)).trans (hs.1 (x, u) (by simp)) h
    · rw [List.mem_singleton.mp hy]; exact h
  fun_induction insert range txn t with
  | case1 => exact ⟨_, rfl, [], [], rfl, rfl, by simp, by simp⟩
  | case2 ld x t r rd hc =>
    simp only [toList] at hs
    exact ⟨_, rfl, [], (x, t) :: r.toList, by simp [toList], by simp [toList], by simp, hbef (compare_less.mp hc) hs⟩
  | case3 ld x t r rd hc l1 l2 l3 l4 l5 l6 l' ih =>
    have hl' : l'.toList = (node l1 l2 l3 l4 l5 l6).toList := maybeRebalance_toList _
    simp only [toList] at hs
    have hs' : Sorted l'.toList := by rw [hl']; exact hs.left
    obtain ⟨l'', h1, a, b, h2, h3, h4, h5⟩ := ih hs' (fun y hy => hd y (by rw [hl'] at hy; rw [toList]; exact List.mem_append_left _ hy))
    refine ⟨_, by rw [h1]; rfl, a, b ++ (x, t) :: r.toList, ?_, ?_, h4, ?_⟩
    · rw [toList, ← hl', h2]; simp
    · rw [toList, h3]; simp
    · intro y hy
      rcases List.mem_append.mp hy with hy | hy
      · exact h5 y hy
      · exact hbef (compare_less.mp hc) hs.right y hy
  | case4 l ld x t rd hc =>
    simp only [toList] at hs
    have hvx : x.Valid := hs.1 (x, t) (by simp)
    exact ⟨_, rfl, l.toList ++ [(x, t)], [], by simp [toList], by simp [toList],
      haft ((compare_greater hv hvx).mp hc) hs, by simp⟩
  | case5 l ld x t rd hc r1 r2 r3 r4 r5 r6 r' ih =>
    have hr' : r'.toList = (node r1 r2 r3 r4 r5 r6).toList := maybeRebalance_toList _
    simp only [toList] at hs
    have hvx : x.Valid := hs.1 (x, t) (by simp)
    have hs' : Sorted r'.toList := by rw [hr']; exact hs.right.tail
    obtain ⟨r'', h1, a, b, h2, h3, h4, h5⟩ := ih hs' (fun y hy => hd y (by
      rw [hr'] at hy; rw [toList]; exact List.mem_append_right _ (List.mem_cons_of_mem _ hy)))
    refine ⟨_, by rw [h1]; rfl, l.toList ++ (x, t) :: a, b, ?_, ?_, ?_, h5⟩
    · rw [toList, ← hr', h2]; simp
    · rw [toList, h3]; simp
    · intro y hy
      rw [List.append_cons] at hy
      rcases List.mem_append.mp hy with hy | hy
      · refine haft ((compare_greater hv hvx).mp hc) ?_ y hy
        exact hs.sublist (by simp)
      · exact h4 y hy
  | case6 l ld x t r rd hc1 hc2 =>
    simp only [toList] at hs
    have hvx : x.Valid := hs.1 (x, t) (by simp)
    have := hd (x, t) (by simp [toList])
    rcases compare_cases hv hvx with h | h | h | h
    · exact absurd h.1 hc1
    · exact absurd h.1 hc2
    · exact absurd h.2 this
    · exact absurd h.2 this

/-- Once `fn` has said stop it changes nothing any more. -/
def Stops {σ : Type} (fn : σ → Range α → Txn → σ × Bool) : Prop :=
  ∀ s x t, (fn s x t).2 = false → (fn s x t).1 = s ∧ ∀ x' t', fn s x' t' = (s, false)

theorem foldl_stopped {σ : Type} {fn : σ → Range α → Txn → σ × Bool} {s : σ}
    (h : ∀ x' t', fn s x' t' = (s, false)) (l : List (RowLock α)) :
    l.foldl (fun s (x : RowLock α) => (fn s x.1 x.2).1) s = s := by
  induction l with
  | nil => rfl
  | cons a l ih => simp only [List.foldl_cons, h]; exact ih

theorem filter_before {range : Range α} {l : List (RowLock α)} (h : ∀ x ∈ l, range.Before x.1) :
    l.filter (fun x => decide (range.Meets x.1)) = [] := by
  rw [List.filter_eq_nil_iff]; intro x hx; simpa using (h x hx).not_meets

theorem filter_after {range : Range α} {l : List (RowLock α)} (h : ∀ x ∈ l, x.1.Before range) :
    l.filter (fun x => decide (range.Meets x.1)) = [] := by
  rw [List.filter_eq_nil_iff]; intro x hx; simpa using (h x hx).not_meets'

/-- A traversal visits exactly the stored ranges that meet the query, in order, and changes nothing but depth
estimates. -/
theorem traverse_spec {σ : Type} (range : Range α) (fn : σ → Range α → Txn → σ × Bool) (hfn : Stops fn)
    (hv : range.Valid) (t : Tree α) (s : σ) (hs : Sorted t.toList) :
    (t.traverse range fn s).1.toList = t.toList ∧
    (t.traverse range fn s).2 =
      (t.toList.filter (fun x => decide (range.Meets x.1))).foldl (fun s (x : RowLock α) => (fn s x.1 x.2).1) s := by
  induction t generalizing s with
  | nil => exact ⟨rfl, rfl⟩
  | node l ld x t r rd ihl ihr =>
    simp only [toList] at hs
    have hvx : x.Valid := hs.1 (x, t) (by simp)
    have hl := hs.left
    have hr := hs.right.tail
    have hLx : ∀ y ∈ l.toList, y.1.Before x := fun y hy => hs.cross y hy (x, t) (by simp)
    have hxR : ∀ y ∈ r.toList, x.Before y.1 := fun y hy => hs.right.head y hy
    rw [traverse]
    simp only [toList, List.filter_append, List.filter_cons, List.foldl_append]
    rcases compare_cases hv hvx with ⟨hc, hm⟩ | ⟨hc, hm⟩ | ⟨hc, hm⟩ | ⟨hc, hm⟩ <;> simp only [hc]
    · -- before this node
      have hR : r.toList.filter (fun y => decide (range.Meets y.1)) = [] :=
        filter_before fun y hy => hm.trans hvx (hxR y hy)
      have hnm : decide (range.Meets x) = false := by simpa using hm.not_meets
      simp only [hR, hnm]
      simpa [toList] using ihl s hl
    · have hL : l.toList.filter (fun y => decide (range.Meets y.1)) = [] :=
        filter_after fun y hy => (hLx y hy).trans hvx hm
      have hnm : decide (range.Meets x) = false := by simpa using hm.not_meets'
      simp only [hL, hnm]
      simpa [toList] using ihr s hr
    · -- equal: no neighbour can meet it
      have heq : range.left ≤ x.left ∧ x.right ≤ range.right ∧ x.left ≤ range.left ∧ range.right ≤ x.right := by
        unfold Range.compare at hc; grind
      have hL : l.toList.filter (fun y => decide (range.Meets y.1)) = [] :=
        filter_after fun y hy => by have := hLx y hy; unfold Range.Before at *; grind
      have hR : r.toList.filter (fun y => decide (range.Meets y.1)) = [] :=
        filter_before fun y hy => by have := hxR y hy; unfold Range.Before at *; grind
      simp [hL, hR, hm, toList]
    · have h1 := ihl s hl
      simp only [reduceCtorEq, ↓reduceIte, ne_eq, not_false_eq_true, hm, decide_true, List.foldl_cons]
      rw [← h1.2]
      cases hk : (fn (traverse range fn l s).2 x t).2 with
      | true =>
        have h2 := ihr (fn (traverse range fn l s).2 x t).1 hr
        simp only [↓reduceIte, toList, h1.1, h2.1, h2.2]
        exact ⟨trivial, trivial⟩
      | false =>
        have h3 := hfn _ _ _ hk
        simp only [Bool.false_eq_true, ↓reduceIte, toList, h1.1, true_and]
        rw [h3.1, foldl_stopped h3.2]

/-! ### Positions -/

/-- The subtree at `path`, and what surrounds it. -/
theorem at_context (t : Tree α) (path : Path) (sub : Tree α) (h : t.at? path = some sub) :
    ∃ pre post, t.toList = pre ++ sub.toList ++ post ∧
      ∀ s, (t.putAt path s).at? path = some s ∧ (t.putAt path s).toList = pre ++ s.toList ++ post := by
  induction path generalizing t with
  | nil =>
    simp only [at?, Option.some.injEq] at h
    subst h
    refine ⟨[], [], by simp, fun s => ⟨?_, ?_⟩⟩
    · simp [putAt, at?]
    · simp [putAt]
  | cons b p ih =>
    cases t with
    | nil => simp [at?] at h
    | node l ld x u r rd =>
      cases b with
      | true =>
        simp only [at?, ↓reduceIte] at h
        obtain ⟨pre, post, h1, h2⟩ := ih r h
        refine ⟨l.toList ++ (x, u) :: pre, post, by rw [toList, h1]; simp, fun s => ⟨?_, ?_⟩⟩
        · simp [putAt, at?, (h2 s).1]
        · simp [putAt, toList, (h2 s).2]
      | false =>
        simp only [at?, Bool.false_eq_true, ↓reduceIte] at h
        obtain ⟨pre, post, h1, h2⟩ := ih l h
        refine ⟨pre, post ++ (x, u) :: r.toList, by rw [toList, h1]; simp, fun s => ⟨?_, ?_⟩⟩
        · simp [putAt, at?, (h2 s).1]
        · simp [putAt, toList, (h2 s).2]

omit [LE α] [LT α] [DecidableLE α] [DecidableLT α] [IsLinearPreorder α] [LawfulOrderLT α] in
theorem putAt_putAt (t : Tree α) (path : Path) (a b : Tree α) : (t.putAt path a).putAt path b = t.putAt path b := by
  induction path generalizing t with
  | nil => simp [putAt]
  | cons c p ih =>
    cases t with
    | nil => rfl
    | node l ld x u r rd => cases c <;> simp [putAt, ih]

omit [LE α] [LT α] [DecidableLE α] [DecidableLT α] [IsLinearPreorder α] [LawfulOrderLT α] in
theorem putAt_self (t : Tree α) (path : Path) (a : Tree α) (h : t.at? path = some a) : t.putAt path a = t := by
  induction path generalizing t with
  | nil => simp only [at?, Option.some.injEq] at h; simp [putAt, h]
  | cons c p ih =>
    cases t with
    | nil => rfl
    | node l ld x u r rd => cases c <;> simp [at?] at h <;> simp [putAt, ih _ h]

/-- The search for the node above the overlap keeps the contents, and everything outside the subtree it returns
lies strictly before or strictly after the range; the subtree's own root does not meet the range. -/
theorem findNode_spec (range : Range α) (t : Tree α) (hv : range.Valid) (hs : Sorted t.toList)
    (hroot : ∀ l ld x u r rd, t = node l ld x u r rd → ¬ range.Meets x) (hne : t ≠ nil) :
    ∃ t' path sub pre post, t.findNode range = some (t', path) ∧ t'.at? path = some sub ∧
      t'.toList = t.toList ∧ t.toList = pre ++ sub.toList ++ post ∧
      (∀ s, (t'.putAt path s).at? path = some s ∧ (t'.putAt path s).toList = pre ++ s.toList ++ post) ∧
      (∀ x ∈ pre, x.1.Before range) ∧ (∀ x ∈ post, range.Before x.1) ∧
      ∃ w ∈ sub.toList, ¬ range.Meets w.1 := by
  fun_induction findNode range t with
  | case1 => exact absurd rfl hne
  | case2 ld x t r rd hc =>
    exact ⟨_, [], _, [], [], rfl, rfl, rfl, by simp, by simp [at?, putAt], by simp, by simp,
      (x, t), by simp [toList], (compare_less.mp hc).not_meets⟩
  | case3 ld x t r rd hc l1 l2 l3 l4 l5 l6 l' hl' => exact absurd hl' (maybeRebalance_ne_nil (by simp))
  | case4 ld x t r rd hc l1 l2 l3 l4 l5 l6 l' m1 m2 m3 m4 m5 m6 hl' hc' =>
    have h : l'.toList = (node l1 l2 l3 l4 l5 l6).toList := maybeRebalance_toList _
    exact ⟨_, [], _, [], [], rfl, rfl, by rw [toList, h]; rfl, by simp [toList, h], by simp [at?, putAt], by simp, by simp,
      (x, t), by simp [toList], (compare_less.mp hc).not_meets⟩
  | case5 ld x t r rd hc l1 l2 l3 l4 l5 l6 l' m1 m2 m3 m4 m5 m6 hl' hc' =>
    have h : l'.toList = (node l1 l2 l3 l4 l5 l6).toList := maybeRebalance_toList _
    exact ⟨_, [], _, [], [], rfl, rfl, by rw [toList, h]; rfl, by simp [toList, h], by simp [at?, putAt], by simp, by simp,
      (x, t), by simp [toList], (compare_less.mp hc).not_meets⟩
  | case6 ld x t r rd hc l1 l2 l3 l4 l5 l6 l' m1 m2 m3 m4 m5 m6 hl' hc1 hc2 ih =>
    have h : l'.toList = (node l1 l2 l3 l4 l5 l6).toList := maybeRebalance_toList _
    simp only [toList] at hs
    have hs' : Sorted l'.toList := by rw [h]; exact hs.left
    have hvm : m3.Valid := hs'.1 (m3, m4) (by rw [hl']; simp [toList])
    obtain ⟨q, path, sub, pre, post, e1, e2, e3, e4, e5, e6, e7, e8⟩ := ih hs' (by
      intro a1 a2 a3 a4 a5 a6 he
      rw [hl'] at he; cases he
      rcases compare_cases hv hvm with ⟨_, g⟩ | ⟨_, g⟩ | ⟨g, _⟩ | ⟨g, _⟩
      · exact g.not_meets
      · exact g.not_meets'
      · exact absurd g hc1
      · exact absurd g hc2) (maybeRebalance_ne_nil (by simp))
    refine ⟨_, _, sub, pre, post ++ (x, t) :: r.toList, by rw [e1]; rfl, ?_, ?_, ?_, ?_, e6, ?_, e8⟩
    · simpa [at?] using e2
    · rw [toList, e3, h]; rfl
    · rw [toList, ← h, e4]; simp
    · intro s; refine ⟨?_, ?_⟩
      · simpa [at?, putAt] using (e5 s).1
      · simp [putAt, toList, (e5 s).2]
    · intro y hy
      rcases List.mem_append.mp hy with hy | hy
      · exact e7 y hy
      · have hb := compare_less.mp hc
        rcases List.mem_cons.mp hy with rfl | hy
        · exact hb
        · exact hb.trans (hs.1 (x, t) (by simp)) (hs.right.head y hy)
  | case7 l ld x t rd hc =>
    have hvx : x.Valid := hs.1 (x, t) (by simp [toList])
    exact ⟨_, [], _, [], [], rfl, rfl, rfl, by simp, by simp [at?, putAt], by simp, by simp,
      (x, t), by simp [toList], ((compare_greater hv hvx).mp hc).not_meets'⟩
  | case8 l ld x t rd hc r1 r2 r3 r4 r5 r6 r' hr' => exact absurd hr' (maybeRebalance_ne_nil (by simp))
  | case9 l ld x t rd hc r1 r2 r3 r4 r5 r6 r' m1 m2 m3 m4 m5 m6 hr' hc' =>
    have h : r'.toList = (node r1 r2 r3 r4 r5 r6).toList := maybeRebalance_toList _
    have hvx : x.Valid := hs.1 (x, t) (by simp [toList])
    exact ⟨_, [], _, [], [], rfl, rfl, by rw [toList, h]; rfl, by simp [toList, h], by simp [at?, putAt], by simp, by simp,
      (x, t), by simp [toList], ((compare_greater hv hvx).mp hc).not_meets'⟩
  | case10 l ld x t rd hc r1 r2 r3 r4 r5 r6 r' m1 m2 m3 m4 m5 m6 hr' hc' =>
    have h : r'.toList = (node r1 r2 r3 r4 r5 r6).toList := maybeRebalance_toList _
    have hvx : x.Valid := hs.1 (x, t) (by simp [toList])
    exact ⟨_, [], _, [], [], rfl, rfl, by rw [toList, h]; rfl, by simp [toList, h], by simp [at?, putAt], by simp, by simp,
      (x, t), by simp [toList], ((compare_greater hv hvx).mp hc).not_meets'⟩
  | case11 l ld x t rd hc r1 r2 r3 r4 r5 r6 r' m1 m2 m3 m4 m5 m6 hr' hc1 hc2 ih =>
    have h : r'.toList = (node r1 r2 r3 r4 r5 r6).toList := maybeRebalance_toList _
    have hvx : x.Valid := hs.1 (x, t) (by simp [toList])
    simp only [toList] at hs
    have hs' : Sorted r'.toList := by rw [h]; exact hs.right.tail
    have hvm : m3.Valid := hs'.1 (m3, m4) (by rw [hr']; simp [toList])
    obtain ⟨q, path, sub, pre, post, e1, e2, e3, e4, e5, e6, e7, e8⟩ := ih hs' (by
      intro a1 a2 a3 a4 a5 a6 he
      rw [hr'] at he; cases he
      rcases compare_cases hv hvm with ⟨_, g⟩ | ⟨_, g⟩ | ⟨g, _⟩ | ⟨g, _⟩
      · exact g.not_meets
      · exact g.not_meets'
      · exact absurd g hc1
      · exact absurd g hc2) (maybeRebalance_ne_nil (by simp))
    refine ⟨_, _, sub, l.toList ++ (x, t) :: pre, post, by rw [e1]; rfl, ?_, ?_, ?_, ?_, ?_, e7, e8⟩
    · simpa [at?] using e2
    · rw [toList, e3, h]; rfl
    · rw [toList, ← h, e4]; simp
    · intro s; refine ⟨?_, ?_⟩
      · simpa [at?, putAt] using (e5 s).1
      · simp [putAt, toList, (e5 s).2]
    · intro y hy
      have hb := (compare_greater hv hvx).mp hc
      rw [List.append_cons] at hy
      rcases List.mem_append.mp hy with hy | hy
      · rcases List.mem_append.mp hy with hy | hy
        · exact (hs.cross y hy (x, t) (by simp)).trans hvx hb
        · rw [List.mem_singleton.mp hy]; exact hb
      · exact e6 y hy
  | case12 l ld x t r rd hc1 hc2 =>
    have hvx : x.Valid := hs.1 (x, t) (by simp [toList])
    have hm := hroot _ _ _ _ _ _ rfl
    rcases compare_cases hv hvx with g | g | g | g
    · exact absurd g.1 hc1
    · exact absurd g.1 hc2
    · exact absurd g.2 hm
    · exact absurd g.2 hm

end Tree
end Verif.Lt
