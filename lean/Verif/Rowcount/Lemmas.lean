import Verif.Rowcount.Spec

/-! # Lemmas: applying messages, sums -/

namespace Verif.Rowcount

variable {σ μ : Type}

/-- Applying all messages in order. -/
def fold (O : Ops σ μ) : σ → List (Nat × μ) → σ
  | v, [] => v
  | v, (_, m) :: r => fold O (O.apply v m) r

theorem fold_append (O : Ops σ μ) (a b : List (Nat × μ)) : ∀ v, fold O v (a ++ b) = fold O (fold O v a) b := by
  induction a with
  | nil => intro v; rfl
  | cons x r ih => intro v; exact ih _

theorem tally_append (O : Ops σ μ) (a b : List (Nat × μ)) :
    ∀ v, tally O v (a ++ b) = tally O v a + tally O (fold O v a) b := by
  induction a with
  | nil => intro v; simp [tally, fold]
  | cons x r ih => intro v; simp only [List.cons_append, tally, fold, ih]; omega

theorem silent_fold {O : Ops σ μ} {R : σ → σ → Prop} (h : Silent O R) (l : List (Nat × μ)) :
    ∀ v w, R v w → tally O v l = tally O w l ∧ R (fold O v l) (fold O w l) := by
  induction l with
  | nil => intro v w k; exact ⟨rfl, k⟩
  | cons x r ih =>
    intro v w k
    obtain ⟨a, b⟩ := ih _ _ (h.apply v w x.2 k)
    refine ⟨?_, b⟩
    simp only [tally]
    rw [a, h.corr v w x.2 k]

/-- Strictly increasing numbers. -/
def Asc (l : List (Nat × μ)) : Prop := l.Pairwise (fun x y => x.1 < y.1)

theorem asc_filter {l : List (Nat × μ)} (p : Nat × μ → Bool) (h : Asc l) : Asc (l.filter p) :=
  List.Pairwise.filter p h

theorem filter_all {α : Type} {l : List α} {p : α → Bool} (h : ∀ x, x ∈ l → p x = true) : l.filter p = l :=
  List.filter_eq_self.mpr h

theorem filter_none {α : Type} {l : List α} {p : α → Bool} (h : ∀ x, x ∈ l → p x = false) : l.filter p = [] :=
  List.filter_eq_nil_iff.mpr (fun x hx => by rw [h x hx]; decide)

theorem apply_spec (O : Ops σ μ) (l : List (Nat × μ)) (h : Asc l) : ∀ v u,
    (applyMsgs O v u l).1 = fold O v (l.filter (fun x => decide (u < x.1))) ∧
    (applyMsgs O v u l).2.2 = tally O v (l.filter (fun x => decide (u < x.1))) ∧
    u ≤ (applyMsgs O v u l).2.1 ∧
    (∀ x, x ∈ l → x.1 ≤ (applyMsgs O v u l).2.1) ∧
    ((applyMsgs O v u l).2.1 = u ∨ ∃ x, x ∈ l ∧ x.1 = (applyMsgs O v u l).2.1) := by
  induction l with
  | nil => intro v u; simp [applyMsgs, fold, tally]
  | cons y r ih =>
    obtain ⟨n, m⟩ := y
    intro v u
    obtain ⟨hy, hr⟩ := List.pairwise_cons.mp h
    by_cases c : u < n
    · have e : applyMsgs O v u ((n, m) :: r) =
          ((applyMsgs O (O.apply v m) n r).1, (applyMsgs O (O.apply v m) n r).2.1,
            O.corr v m + (applyMsgs O (O.apply v m) n r).2.2) := by
        simp only [applyMsgs]; rw [if_pos c]
      obtain ⟨i1, i2, i3, i4, i5⟩ := ih hr (O.apply v m) n
      have f1 : r.filter (fun x => decide (n < x.1)) = r :=
        filter_all (fun x hx => by simpa using hy x hx)
      have f2 : ((n, m) :: r).filter (fun x => decide (u < x.1)) = (n, m) :: r :=
        filter_all (fun x hx => by
          rcases List.mem_cons.mp hx with k | k
          · subst k; simpa using c
          · have := hy x k; simp only [decide_eq_true_eq]; simp only at this; omega)
      rw [e, f2]
      rw [f1] at i1 i2
      refine ⟨i1, ?_, by simp only; omega, ?_, ?_⟩
      · simp only [tally]; rw [i2]
      · intro x hx
        rcases List.mem_cons.mp hx with k | k
        · subst k; exact i3
        · exact i4 x k
      · rcases i5 with k | ⟨x, hx, k⟩
        · exact Or.inr ⟨(n, m), List.mem_cons_self, k.symm⟩
        · exact Or.inr ⟨x, List.mem_cons_of_mem _ hx, k⟩
    · have e : applyMsgs O v u ((n, m) :: r) = applyMsgs O v u r := by
        simp only [applyMsgs]; rw [if_neg c]
      obtain ⟨i1, i2, i3, i4, i5⟩ := ih hr v u
      have f2 : ((n, m) :: r).filter (fun x => decide (u < x.1)) = r.filter (fun x => decide (u < x.1)) := by
        rw [List.filter_cons_of_neg]; simpa using c
      rw [e, f2]
      refine ⟨i1, i2, i3, ?_, ?_⟩
      · intro x hx
        rcases List.mem_cons.mp hx with k | k
        · subst k; simp only; omega
        · exact i4 x k
      · rcases i5 with k | ⟨x, hx, k⟩
        · exact Or.inl k
        · exact Or.inr ⟨x, List.mem_cons_of_mem _ hx, k⟩

theorem filter_split {l : List (Nat × μ)} (h : Asc l) {u w : Nat} (k : u ≤ w) :
    l.filter (fun x => decide (x.1 ≤ w)) =
      l.filter (fun x => decide (x.1 ≤ u)) ++ l.filter (fun x => decide (u < x.1 ∧ x.1 ≤ w)) := by
  induction l with
  | nil => rfl
  | cons y r ih =>
    obtain ⟨hy, hr⟩ := List.pairwise_cons.mp h
    by_cases c : y.1 ≤ u
    · rw [List.filter_cons_of_pos (by simp; omega), List.filter_cons_of_pos (by simp; omega),
        List.filter_cons_of_neg (by simp; omega), ih hr]
      rfl
    · have e : r.filter (fun x => decide (x.1 ≤ u)) = [] :=
        filter_none (fun x hx => by have := hy x hx; simp; omega)
      by_cases c2 : y.1 ≤ w
      · rw [List.filter_cons_of_pos (by simp; omega), List.filter_cons_of_neg (by simp; omega),
          List.filter_cons_of_pos (by simp; omega), ih hr, e]
        rfl
      · rw [List.filter_cons_of_neg (by simp; omega), List.filter_cons_of_neg (by simp; omega),
          List.filter_cons_of_neg (by simp; omega), ih hr]

theorem sum_set {α : Type} (f : α → Int) : ∀ (l : List α) (i : Nat) (a b : α), l[i]? = some b →
    ((l.set i a).map f).sum = (l.map f).sum - f b + f a
  | [], i, a, b, h => by simp at h
  | x :: r, 0, a, b, h => by
    simp only [List.getElem?_cons_zero, Option.some.injEq] at h
    subst h
    simp only [List.set_cons_zero, List.map_cons, List.sum_cons]
    omega
  | x :: r, i + 1, a, b, h => by
    simp only [List.getElem?_cons_succ] at h
    have := sum_set f r i a b h
    simp only [List.set_cons_succ, List.map_cons, List.sum_cons]
    omega

theorem sum_zero {α : Type} (f : α → Int) (l : List α) (h : ∀ x, x ∈ l → f x = 0) : (l.map f).sum = 0 := by
  induction l with
  | nil => rfl
  | cons x r ih =>
    simp only [List.map_cons, List.sum_cons]
    rw [h x List.mem_cons_self, ih (fun y hy => h y (List.mem_cons_of_mem _ hy))]
    rfl

theorem sum_add {α : Type} (f g : α → Int) (l : List α) :
    (l.map (fun x => f x + g x)).sum = (l.map f).sum + (l.map g).sum := by
  induction l with
  | nil => rfl
  | cons x r ih => simp only [List.map_cons, List.sum_cons, ih]; omega

theorem sum_congr {α : Type} {f g : α → Int} {l : List α} (h : ∀ x, x ∈ l → f x = g x) :
    (l.map f).sum = (l.map g).sum := by
  rw [List.map_congr_left h]

theorem mem_set {α : Type} {l : List α} {i : Nat} {a x : α} (h : x ∈ l.set i a) : x ∈ l ∨ x = a :=
  List.mem_or_eq_of_mem_set h

theorem total_set (f : Base σ μ → Int) {ls : List (Leaf σ μ)} {i : Nat} {l : Leaf σ μ} (h : ls[i]? = some l)
    (l' : Leaf σ μ) : total f (ls.set i l') = total f ls - (l.bases.map f).sum + (l'.bases.map f).sum :=
  sum_set (fun (l : Leaf σ μ) => (l.bases.map f).sum) ls i l' l h

theorem adjust_eq {rows : Nat} {x : Int} (d : Int) (e : (rows : Int) = x) (h1 : x < 2 ^ 63)
    (h2 : 0 ≤ x + d) (h3 : x + d < 2 ^ 63) : (adjust rows d : Int) = x + d := by
  unfold adjust
  by_cases c : d ≠ 0 ∧ rows ≠ ones
  · have w : wrap (rows + d) = (x + d).toNat := by
      unfold wrap
      rw [e, Int.emod_eq_of_lt h2 (by omega)]
    have n : (x + d).toNat ≠ ones := by
      unfold ones; omega
    rw [if_pos c]
    simp only [w]
    rw [if_neg n]
    omega
  · rw [if_neg c]
    have : rows ≠ ones := by unfold ones; omega
    have : d = 0 := by
      apply Classical.byContradiction
      intro k; exact c ⟨k, this⟩
    omega

end Verif.Rowcount
