import Verif.Lt.Locktree
import Verif.Lt.TreeLemmas
import Verif.Lt.RangeBufferLemmas

/-! Each operation on the lock table, in terms of the list of locks it stores. -/
namespace Verif.Lt
open Std Verif.Codec

/-! ### Endpoints form a linear order -/

theorem ptCmp_self (cmp) [TransCmp cmp] (a : Pt) : Pt.cmp cmp a a = .eq := by
  cases a <;> simp [Pt.cmp, ReflCmp.compare_self]

instance (cmp) [TransCmp cmp] : TransCmp (Pt.cmp cmp) where
  eq_swap := by
    intro a b
    cases a <;> cases b <;> simp [Pt.cmp]
    exact OrientedCmp.eq_swap
  isLE_trans := by
    intro a b c
    cases a <;> cases b <;> cases c <;> simp [Pt.cmp]
    exact TransCmp.isLE_trans

instance (cmp) [TransCmp cmp] : IsLinearPreorder (Point cmp) where
  le_refl a := by show (Pt.cmp cmp a a).isLE = true; rw [ptCmp_self cmp a]; rfl
  le_trans _ _ _ h1 h2 := TransCmp.isLE_trans (cmp := Pt.cmp cmp) h1 h2
  le_total a b := by
    show (Pt.cmp cmp a b).isLE = true ∨ (Pt.cmp cmp b a).isLE = true
    rw [OrientedCmp.eq_swap (cmp := Pt.cmp cmp) (a := b) (b := a)]
    cases Pt.cmp cmp a b <;> simp

instance (cmp) [TransCmp cmp] : LawfulOrderLT (Point cmp) where
  lt_iff a b := by
    show Pt.cmp cmp a b = .lt ↔ (Pt.cmp cmp a b).isLE = true ∧ ¬ (Pt.cmp cmp b a).isLE = true
    rw [OrientedCmp.eq_swap (cmp := Pt.cmp cmp) (a := b) (b := a)]
    cases Pt.cmp cmp a b <;> simp

set_option linter.unusedSectionVars false
variable {cfg : Cfg} [TransCmp cfg.cmp]

theorem infinite_valid : (infinite : Rng cfg).Valid := by
  show (Pt.cmp cfg.cmp .negInf .posInf).isLE = true; rfl

theorem infinite_meets (x : Rng cfg) : (infinite : Rng cfg).Meets x := by
  constructor
  · show (Pt.cmp cfg.cmp .negInf x.right).isLE = true
    cases h : (x.right : Pt) <;> simp [Pt.cmp]
  · show (Pt.cmp cfg.cmp x.left .posInf).isLE = true
    cases h : (x.left : Pt) <;> simp [Pt.cmp]

/-- `a` covers `b`. -/
def Range.Covers {α} [LE α] (a b : Range α) : Prop := a.left ≤ b.left ∧ b.right ≤ a.right

theorem Range.Covers.refl (a : Rng cfg) : a.Covers a := ⟨le_refl _, le_refl _⟩

theorem Range.Covers.trans {a b c : Rng cfg} (h : a.Covers b) (h' : b.Covers c) : a.Covers c := by
  unfold Range.Covers at *; grind

theorem Range.Covers.meets {a b : Rng cfg} (hb : b.Valid) (h : a.Covers b) : a.Meets b := by
  unfold Range.Covers Range.Meets Range.Valid at *; grind

theorem Range.Covers.meets_of {a b c : Rng cfg} (h : a.Covers b) (h' : b.Meets c) : a.Meets c := by
  unfold Range.Covers Range.Meets at *; grind

/-! ### Lists of locks -/

theorem Sorted.nodup {l : List (Lock cfg)} (h : Sorted l) : l.Nodup := by
  rw [List.nodup_iff_pairwise_ne]
  refine h.2.imp_of_mem ?_
  intro a b ha hb hab he
  subst he
  have := h.1 a ha
  unfold Range.Before at hab; unfold Range.Valid at this
  grind

/-- Distinct stored locks lie on one side of each other. -/
theorem Sorted.before_or {l : List (Lock cfg)} (h : Sorted l) {a b : Lock cfg} (ha : a ∈ l) (hb : b ∈ l) (hne : a ≠ b) :
    a.1.Before b.1 ∨ b.1.Before a.1 := by
  induction l with
  | nil => simp at ha
  | cons c l ih =>
    rcases List.mem_cons.mp ha with rfl | ha'
    · rcases List.mem_cons.mp hb with rfl | hb'
      · exact absurd rfl hne
      · exact .inl (h.head b hb')
    · rcases List.mem_cons.mp hb with rfl | hb'
      · exact .inr (h.head a ha')
      · exact ih h.tail ha' hb'

/-- Memory of a list of locks. -/
def locksMem (l : List (Lock cfg)) : Nat := (l.map fun x => lockSize x.1).sum

@[simp] theorem locksMem_nil : locksMem ([] : List (Lock cfg)) = 0 := rfl
@[simp] theorem locksMem_cons (x : Lock cfg) (l) : locksMem (x :: l) = lockSize x.1 + locksMem l := by simp [locksMem]
@[simp] theorem locksMem_append (a b : List (Lock cfg)) : locksMem (a ++ b) = locksMem a + locksMem b := by simp [locksMem]

theorem locksMem_perm {a b : List (Lock cfg)} (h : a.Perm b) : locksMem a = locksMem b :=
  (h.map _).sum_nat

/-! ### Searching -/

theorem lkrAcquire_spec (tree : LTree cfg) (range : Rng cfg) (hs : Sorted tree.toList) (hv : range.Valid) :
    ∃ tree' path sub pre post, lkrAcquire tree range = some (tree', path) ∧ tree'.at? path = some sub ∧
      tree'.toList = tree.toList ∧ tree.toList = pre ++ sub.toList ++ post ∧
      (∀ s, (tree'.putAt path s).at? path = some s ∧ (tree'.putAt path s).toList = pre ++ s.toList ++ post) ∧
      (∀ x ∈ pre, x.1.Before range) ∧ (∀ x ∈ post, range.Before x.1) ∧
      (path = [] ∨ ∃ w ∈ sub.toList, ¬ range.Meets w.1) := by
  unfold lkrAcquire
  cases tree with
  | nil => exact ⟨_, [], _, [], [], rfl, rfl, rfl, by simp, by simp [Tree.at?, Tree.putAt], by simp, by simp, .inl rfl⟩
  | node l ld x t r rd =>
    simp only
    split
    case isTrue h =>
      exact ⟨_, [], _, [], [], rfl, rfl, rfl, by simp, by simp [Tree.at?, Tree.putAt], by simp, by simp, .inl rfl⟩
    case isFalse h =>
      have hx : ¬ range.Meets x := fun hm => h (overlaps_iff.mpr (meets_comm.mp hm))
      obtain ⟨t', path, sub, pre, post, h1, h2, h3, h4, h5, h6, h7, h8⟩ :=
        Tree.findNode_spec range (.node l ld x t r rd) hv hs (by intro _ _ _ _ _ _ he; cases he; exact hx) (by simp)
      exact ⟨t', path, sub, pre, post, h1, h2, h3, h4, h5, h6, h7, .inr h8⟩

theorem collect_stops : Tree.Stops (collect (cfg := cfg)) := by
  intro s x t h; simp [collect] at h

theorem foldl_collect (l acc : List (Lock cfg)) :
    l.foldl (fun s (x : Lock cfg) => (collect s x.1 x.2).1) acc = acc ++ l := by
  induction l generalizing acc with
  | nil => simp
  | cons a l ih => simp only [List.foldl_cons, ih]; simp [collect]

/-- Iterating over the locked range: the same contents, and the fold over the locks that meet it. -/
theorem lkrIterate_spec {σ : Type} {tree : LTree cfg} {path : Tree.Path} {sub : LTree cfg} {range : Rng cfg}
    (fn : σ → Rng cfg → Txn → σ × Bool) (hfn : Tree.Stops fn) (s : σ)
    (hs : Sorted sub.toList) (hv : range.Valid) (h : tree.at? path = some sub) :
    ∃ tree' sub', lkrIterate tree path range fn s = some (tree',
        (sub.toList.filter fun x => decide (range.Meets x.1)).foldl (fun s (x : Lock cfg) => (fn s x.1 x.2).1) s) ∧
      tree' = tree.putAt path sub' ∧ tree'.at? path = some sub' ∧ sub'.toList = sub.toList ∧ tree'.toList = tree.toList := by
  obtain ⟨h1, h2⟩ := Tree.traverse_spec range fn hfn hv sub s hs
  obtain ⟨pre, post, h3, h4⟩ := Tree.at_context tree path sub h
  refine ⟨tree.putAt path (sub.traverse range fn s).1, (sub.traverse range fn s).1, ?_, rfl, (h4 _).1, h1, ?_⟩
  · unfold lkrIterate; rw [h]; simp only [Option.map_some, h2]
  · rw [(h4 _).2, h1, h3]

/-! ### Removing several locks -/

/-- Remove locks one after the other (not code: the common shape of the removal loops). -/
def removeMany (path : Tree.Path) : List (Lock cfg) → LTree cfg → Nat → Option (LTree cfg × Nat)
  | [], tree, mem => some (tree, mem)
  | x :: xs, tree, mem =>
    (lkrRemove tree path x.1).bind fun tree =>
    (released mem (lockSize x.1)).bind fun mem => removeMany path xs tree mem

omit [TransCmp cfg.cmp] in
theorem removeEach_eq (xs : List (Lock cfg)) (tree : LTree cfg) (mem : Nat) :
    removeEach xs tree mem = removeMany [] xs tree mem := by
  induction xs generalizing tree mem with
  | nil => rfl
  | cons x xs ih => simp [removeEach, removeMany, ih]

omit [TransCmp cfg.cmp] in
theorem removeOwned_eq (path : Tree.Path) (t : Txn) (xs : List (Lock cfg)) (tree : LTree cfg) (mem : Nat) :
    removeOwned path t xs tree mem = removeMany path (xs.filter (fun x => decide (x.2 = t))) tree mem := by
  induction xs generalizing tree mem with
  | nil => rfl
  | cons x xs ih =>
    by_cases h : x.2 = t
    · simp [removeOwned, removeMany, ih, h]
    · simp [removeOwned, ih, h]

omit [TransCmp cfg.cmp] in
theorem consolidate_eq (path : Tree.Path) (xs : List (Lock cfg)) (tree : LTree cfg) (mem : Nat) (range : Rng cfg) :
    consolidate path xs tree mem range =
      (removeMany path xs tree mem).map fun q => (q.1, q.2, xs.foldl (fun (a : Rng cfg) (x : Lock cfg) => a.extend x.1) range) := by
  induction xs generalizing tree mem range with
  | nil => rfl
  | cons x xs ih =>
    simp only [consolidate, removeMany, ih, List.foldl_cons]
    cases lkrRemove tree path x.1 with
    | none => rfl
    | some t =>
      simp only [Option.bind_some]
      cases released mem (lockSize x.1) with
      | none => rfl
      | some m => rfl

theorem filter_ne_middle {a b : List (Lock cfg)} {x : Lock cfg} (h : (a ++ x :: b).Nodup) :
    (a ++ x :: b).filter (fun y => decide (y ≠ x)) = a ++ b := by
  have hx1 : ∀ y ∈ a, y ≠ x := fun y hy he => (List.nodup_append.mp h).2.2 y hy x (by simp) he
  have hx2 : ∀ y ∈ b, y ≠ x := fun y hy he => by
    have := (List.nodup_cons.mp (List.nodup_append.mp h).2.1).1
    subst he; exact this hy
  rw [List.filter_append, List.filter_cons, List.filter_eq_self.mpr (fun y hy => by simpa using hx1 y hy),
    List.filter_eq_self.mpr (fun y hy => by simpa using hx2 y hy)]
  simp

/-- Removing some of the locks below a position removes exactly these and gives back exactly their memory. -/
theorem removeMany_spec (path : Tree.Path) (xs : List (Lock cfg)) (tree sub : LTree cfg) (mem : Nat)
    (hat : tree.at? path = some sub) (hs : Sorted tree.toList) (hsub : ∀ x ∈ xs, x ∈ sub.toList) (hnd : xs.Nodup)
    (hw : path = [] ∨ ∃ w ∈ sub.toList, w ∉ xs) (hm : locksMem tree.toList ≤ mem) :
    ∃ tree' sub' mem', removeMany path xs tree mem = some (tree', mem') ∧ tree'.at? path = some sub' ∧
      tree' = tree.putAt path sub' ∧
      tree'.toList = tree.toList.filter (fun x => decide (x ∉ xs)) ∧
      sub'.toList = sub.toList.filter (fun x => decide (x ∉ xs)) ∧
      mem' + locksMem tree.toList = mem + locksMem tree'.toList := by
  induction xs generalizing tree sub mem with
  | nil => 
    refine ⟨tree, sub, mem, rfl, hat, (Tree.putAt_self _ _ _ hat).symm, ?_, ?_, rfl⟩
    · exact (List.filter_eq_self.mpr (by simp)).symm
    · exact (List.filter_eq_self.mpr (by simp)).symm
  | cons x xs ih =>
    obtain ⟨pre, post, hc1, hc2⟩ := Tree.at_context tree path sub hat
    have hsubS : Sorted sub.toList := by rw [hc1] at hs; exact hs.left.right
    obtain ⟨a, b, hab⟩ := List.append_of_mem (hsub x (by simp))
    obtain ⟨sub1, hr1, hl1⟩ := Tree.remove_spec sub hsubS a x b hab
    have hnil : (sub1.isNil && !path.isEmpty) = false := by
      rcases hw with rfl | ⟨w, hw, hwx⟩
      · simp
      · have : w ∈ sub1.toList := by
          rw [hl1]; rw [hab] at hw
          rcases List.mem_append.mp hw with h | h
          · exact List.mem_append_left _ h
          · rcases List.mem_cons.mp h with h | h
            · exact absurd (by simp [h]) hwx
            · exact List.mem_append_right _ h
        cases sub1 with
        | nil => simp [Tree.toList] at this
        | node => simp [Tree.isNil]
    have htl : (tree.putAt path sub1).toList = tree.toList.filter (fun y => decide (y ≠ x)) := by
      have hnd := hs.nodup
      have he : tree.toList = (pre ++ a) ++ x :: (b ++ post) := by rw [hc1, hab]; simp
      rw [he] at hnd
      rw [he, filter_ne_middle hnd, (hc2 sub1).2, hl1]; simp
    have hsl : sub1.toList = sub.toList.filter (fun y => decide (y ≠ x)) := by
      have hnd := hsubS.nodup
      rw [hab] at hnd
      rw [hab, filter_ne_middle hnd, hl1]
    have hmem1 : locksMem tree.toList = lockSize x.1 + locksMem (tree.putAt path sub1).toList := by
      rw [(hc2 sub1).2, hl1, hc1, hab]; simp; omega
    obtain ⟨hxn, hnd'⟩ := List.nodup_cons.mp hnd
    have hrel : released mem (lockSize x.1) = some (mem - lockSize x.1) := by
      unfold released; rw [if_pos (by omega)]
    obtain ⟨t2, s2, m2, e1, e2, e0, e3, e4, e5⟩ := ih (tree.putAt path sub1) sub1 (mem - lockSize x.1) (hc2 sub1).1
      (by rw [htl]; exact hs.sublist List.filter_sublist)
      (fun y hy => by
        rw [hsl]; simp only [ne_eq, decide_not, List.mem_filter, hsub y (by simp [hy]), true_and]
        have : y ≠ x := fun he => hxn (he ▸ hy)
        simp [this])
      hnd' (by
        rcases hw with h | ⟨w, hw, hwx⟩
        · exact .inl h
        · refine .inr ⟨w, ?_, fun h => hwx (by simp [h])⟩
          rw [hsl]; simp only [ne_eq, decide_not, List.mem_filter, hw, true_and]
          have : w ≠ x := fun he => hwx (by simp [he])
          simp [this]) (by omega)
    refine ⟨t2, s2, m2, ?_, e2, by rw [e0, Tree.putAt_putAt], ?_, ?_, by omega⟩
    · rw [removeMany]
      have : lkrRemove tree path x.1 = some (tree.putAt path sub1) := by
        unfold lkrRemove
        rw [hat, Option.bind_some, hr1, Option.bind_some, hnil]; simp
      rw [this, Option.bind_some, hrel, Option.bind_some]; exact e1
    · rw [e3, htl, List.filter_filter]; refine List.filter_congr fun y _ => ?_
      by_cases h1 : y = x <;> by_cases h2 : y ∈ xs <;> simp [h1, h2]
    · rw [e4, hsl, List.filter_filter]; refine List.filter_congr fun y _ => ?_
      by_cases h1 : y = x <;> by_cases h2 : y ∈ xs <;> simp [h1, h2]

/-! ### Inserting -/

/-- Insert at the root a lock that meets none: the result is again sorted, with one more lock. -/
theorem lkrInsert_root (tree : LTree cfg) (range : Rng cfg) (t : Txn) (hv : range.Valid) (hs : Sorted tree.toList)
    (hd : ∀ x ∈ tree.toList, ¬ range.Meets x.1) :
    ∃ tree', lkrInsert tree [] range t = some tree' ∧ Sorted tree'.toList ∧ tree'.toList.Perm ((range, t) :: tree.toList) := by
  obtain ⟨sub', h1, a, b, h2, h3, h4, h5⟩ := Tree.insert_spec range t tree hv hs hd
  refine ⟨sub', ?_, ?_, ?_⟩
  · unfold lkrInsert; simp [Tree.at?, h1, Tree.putAt]
  · rw [h3]; rw [h2] at hs
    refine Sorted.append hs.left (Sorted.cons hv hs.right h5) ?_
    intro x hx y hy
    rcases List.mem_cons.mp hy with rfl | hy
    · exact h4 x hx
    · exact hs.cross x hx y hy
  · rw [h3, h2]; exact List.perm_middle

/-! ### The dominating range -/

/-- Fold of `extend`. -/
def hull (range : Rng cfg) (xs : List (Lock cfg)) : Rng cfg := xs.foldl (fun (a : Rng cfg) (x : Lock cfg) => a.extend x.1) range

theorem extend_covers (a b : Rng cfg) : (a.extend b).Covers a ∧ (a.extend b).Covers b := by
  unfold Range.extend Range.Covers; grind

theorem hull_covers (range : Rng cfg) (xs : List (Lock cfg)) :
    (hull range xs).Covers range ∧ ∀ x ∈ xs, (hull range xs).Covers x.1 := by
  induction xs generalizing range with
  | nil => exact ⟨.refl _, by simp⟩
  | cons x xs ih =>
    have h := extend_covers range x.1
    obtain ⟨h1, h2⟩ := ih (range.extend x.1)
    refine ⟨h1.trans h.1, ?_⟩
    intro y hy
    rcases List.mem_cons.mp hy with rfl | hy
    · exact h1.trans h.2
    · exact h2 y hy

omit [TransCmp cfg.cmp] in
theorem hull_ends (range : Rng cfg) (xs : List (Lock cfg)) :
    ((hull range xs).left = range.left ∨ ∃ x ∈ xs, (hull range xs).left = x.1.left) ∧
    ((hull range xs).right = range.right ∨ ∃ x ∈ xs, (hull range xs).right = x.1.right) := by
  induction xs generalizing range with
  | nil => exact ⟨.inl rfl, .inl rfl⟩
  | cons x xs ih =>
    obtain ⟨h1, h2⟩ := ih (range.extend x.1)
    have he : hull range (x :: xs) = hull (range.extend x.1) xs := rfl
    rw [he]
    constructor
    · rcases h1 with h1 | ⟨y, hy, h1⟩
      · rw [h1]; simp only [Range.extend]
        split
        · exact .inr ⟨x, by simp, rfl⟩
        · exact .inl rfl
      · exact .inr ⟨y, by simp [hy], h1⟩
    · rcases h2 with h2 | ⟨y, hy, h2⟩
      · rw [h2]; simp only [Range.extend]
        split
        · exact .inr ⟨x, by simp, rfl⟩
        · exact .inl rfl
      · exact .inr ⟨y, by simp [hy], h2⟩

theorem hull_valid {range : Rng cfg} (hv : range.Valid) (xs : List (Lock cfg)) : (hull range xs).Valid := by
  have := (hull_covers range xs).1
  unfold Range.Covers at this; unfold Range.Valid at *; grind

theorem hull_after {z range : Rng cfg} {xs : List (Lock cfg)} (h : z.Before range) (hx : ∀ x ∈ xs, z.Before x.1) :
    z.Before (hull range xs) := by
  unfold Range.Before at *
  rcases (hull_ends range xs).1 with h' | ⟨x, hx', h'⟩
  · rw [h']; exact h
  · rw [h']; exact hx x hx'

theorem hull_before {z range : Rng cfg} {xs : List (Lock cfg)} (h : range.Before z) (hx : ∀ x ∈ xs, x.1.Before z) :
    (hull range xs).Before z := by
  unfold Range.Before at *
  rcases (hull_ends range xs).2 with h' | ⟨x, hx', h'⟩
  · rw [h']; exact h
  · rw [h']; exact hx x hx'

/-- A stored lock that does not meet the request lies on the same side of everything that does. -/
theorem side {l : List (Lock cfg)} (hs : Sorted l) {range : Rng cfg} {z x : Lock cfg} (hz : z ∈ l) (hx : x ∈ l)
    (hxm : range.Meets x.1) :
    (z.1.Before range → z.1.Before x.1) ∧ (range.Before z.1 → x.1.Before z.1) := by
  have hvz := hs.1 z hz
  constructor
  · intro h
    have hne : z ≠ x := fun he => h.not_meets' (he ▸ hxm)
    rcases hs.before_or hz hx hne with h' | h'
    · exact h'
    · exact absurd hxm (h'.trans hvz h).not_meets'
  · intro h
    have hne : z ≠ x := fun he => h.not_meets (he ▸ hxm)
    rcases hs.before_or hz hx hne with h' | h'
    · exact absurd hxm (h.trans hvz h').not_meets
    · exact h'

/-! ### Conflicts -/

theorem mem_addTxn (l : List Txn) (t u : Txn) : u ∈ addTxn l t ↔ u = t ∨ u ∈ l := by
  induction l with
  | nil => simp [addTxn]
  | cons x xs ih =>
    unfold addTxn
    repeat' split
    · simp
    · simp_all
    · simp [ih]; grind

omit [TransCmp cfg.cmp] in
theorem mem_conflicting (locks : List (Lock cfg)) (t u : Txn) :
    u ∈ conflicting locks t ↔ u ≠ t ∧ ∃ x ∈ locks, x.2 = u := by
  have : ∀ (l : List (Lock cfg)) (acc : List Txn),
      u ∈ l.foldl (fun acc x => if x.2 ≠ t then addTxn acc x.2 else acc) acc ↔ u ∈ acc ∨ (u ≠ t ∧ ∃ x ∈ l, x.2 = u) := by
    intro l
    induction l with
    | nil => simp
    | cons x l ih =>
      intro acc
      simp only [List.foldl_cons, ih, List.mem_cons, exists_eq_or_imp]
      split
      · rw [mem_addTxn]; grind
      · grind
  unfold conflicting
  rw [this]; simp

theorem addTxn_sorted (l : List Txn) (t : Txn) (h : l.Pairwise (· < ·)) : (addTxn l t).Pairwise (· < ·) := by
  induction l with
  | nil => simp [addTxn]
  | cons x xs ih =>
    obtain ⟨h1, h2⟩ := List.pairwise_cons.mp h
    unfold addTxn
    repeat' split
    · rename_i hlt
      refine List.pairwise_cons.mpr ⟨?_, h⟩
      intro y hy
      rcases List.mem_cons.mp hy with rfl | hy
      · exact hlt
      · exact Nat.lt_trans hlt (h1 y hy)
    · exact h
    · refine List.pairwise_cons.mpr ⟨?_, ih h2⟩
      intro y hy
      rcases (mem_addTxn xs t y).mp hy with rfl | hy
      · rename_i g1 g2; exact Nat.lt_of_le_of_ne (Nat.le_of_not_lt g1) (Ne.symm g2)
      · exact h1 y hy

omit [TransCmp cfg.cmp] in
theorem conflicting_sorted (locks : List (Lock cfg)) (t : Txn) : (conflicting locks t).Pairwise (· < ·) := by
  have : ∀ (l : List (Lock cfg)) (acc : List Txn), acc.Pairwise (· < ·) →
      (l.foldl (fun acc x => if x.2 ≠ t then addTxn acc x.2 else acc) acc).Pairwise (· < ·) := by
    intro l
    induction l with
    | nil => intro acc h; exact h
    | cons x l ih =>
      intro acc h
      simp only [List.foldl_cons]
      apply ih
      split
      · exact addTxn_sorted _ _ h
      · exact h
  exact this _ _ List.Pairwise.nil

/-! ### Acquiring -/

/-- Locks that meet the range. -/
def meeting (l : List (Lock cfg)) (range : Rng cfg) : List (Lock cfg) := l.filter fun x => decide (range.Meets x.1)
/-- Locks that do not. -/
def apart (l : List (Lock cfg)) (range : Rng cfg) : List (Lock cfg) := l.filter fun x => decide (¬ range.Meets x.1)

theorem mem_meeting {l : List (Lock cfg)} {range : Rng cfg} {x : Lock cfg} :
    x ∈ meeting l range ↔ x ∈ l ∧ range.Meets x.1 := by simp [meeting]
theorem mem_apart {l : List (Lock cfg)} {range : Rng cfg} {x : Lock cfg} :
    x ∈ apart l range ↔ x ∈ l ∧ ¬ range.Meets x.1 := by simp [apart]

theorem search_spec (tree : LTree cfg) (range : Rng cfg) (hs : Sorted tree.toList) (hv : range.Valid) :
    ∃ tree1 path tree2 sub2 pre post, lkrAcquire tree range = some (tree1, path) ∧
      lkrIterate tree1 path range collect [] = some (tree2, meeting tree.toList range) ∧
      tree2.at? path = some sub2 ∧ tree2.toList = tree.toList ∧ tree.toList = pre ++ sub2.toList ++ post ∧
      (∀ s, (tree2.putAt path s).at? path = some s ∧ (tree2.putAt path s).toList = pre ++ s.toList ++ post) ∧
      (∀ x ∈ pre, x.1.Before range) ∧ (∀ x ∈ post, range.Before x.1) ∧
      (path = [] ∨ ∃ w ∈ sub2.toList, ¬ range.Meets w.1) := by
  obtain ⟨t1, path, sub, pre, post, h1, h2, h3, h4, h5, h6, h7, h8⟩ := lkrAcquire_spec tree range hs hv
  have hss : Sorted sub.toList := by rw [h4] at hs; exact hs.left.right
  obtain ⟨t2, sub2, e1, e0, e2, e3, e4⟩ := lkrIterate_spec collect collect_stops [] hss hv h2
  refine ⟨t1, path, t2, sub2, pre, post, h1, ?_, e2, by rw [e4, h3], by rw [e3]; exact h4,
    by rw [e0]; intro s; rw [Tree.putAt_putAt]; exact h5 s, h6, h7, by rw [e3]; exact h8⟩
  rw [e1, foldl_collect]
  have hp : pre.filter (fun x => decide (range.Meets x.1)) = [] := Tree.filter_after h6
  have hq : post.filter (fun x => decide (range.Meets x.1)) = [] := Tree.filter_before h7
  simp [meeting, h4, List.filter_append, hp, hq]

theorem acquire_spec (tree : LTree cfg) (mem : Nat) (t : Txn) (range : Rng cfg) (hs : Sorted tree.toList)
    (hv : range.Valid) (hm : locksMem tree.toList ≤ mem) :
    (conflicting (meeting tree.toList range) t = [] →
      ∃ tree' mem' A B, acquireConsolidated tree mem t range = some (tree', mem', .granted) ∧
        apart tree.toList range = A ++ B ∧
        tree'.toList = A ++ (hull range (meeting tree.toList range), t) :: B ∧
        Sorted tree'.toList ∧ mem' + locksMem tree.toList = mem + locksMem tree'.toList) ∧
    (conflicting (meeting tree.toList range) t ≠ [] →
      ∃ tree', acquireConsolidated tree mem t range =
          some (tree', mem, .notGranted (conflicting (meeting tree.toList range) t)) ∧
        tree'.toList = tree.toList) := by
  obtain ⟨t1, path, t2, sub2, pre, post, h1, h2, h3, h4, h5, hctx, h6, h7, h8⟩ := search_spec tree range hs hv
  generalize hX : meeting tree.toList range = X at *
  unfold acquireConsolidated
  rw [h1]; simp only [Option.bind_some]; rw [h2]; simp only [Option.bind_some]
  refine ⟨fun hc => ?_, fun hc => ?_⟩
  case refine_2 => rw [if_neg hc]; exact ⟨t2, rfl, h4⟩
  rw [if_pos hc]
  have hXm : ∀ x, x ∈ X ↔ x ∈ tree.toList ∧ range.Meets x.1 := by intro x; rw [← hX]; exact mem_meeting
  have hs2 : Sorted t2.toList := by rw [h4]; exact hs
  have hXsub : ∀ x ∈ X, x ∈ sub2.toList := by
    intro x hx
    obtain ⟨h, hm'⟩ := (hXm x).mp hx
    rw [h5] at h
    rcases List.mem_append.mp h with h | h
    · rcases List.mem_append.mp h with h | h
      · exact absurd hm' (h6 x h).not_meets'
      · exact h
    · exact absurd hm' (h7 x h).not_meets
  have hXnd : X.Nodup := by rw [← hX]; exact hs.nodup.filter _
  obtain ⟨t3, sub3, m3, e1, e2, e0, e3, e4, e5⟩ := removeMany_spec path X t2 sub2 mem h3 hs2 hXsub hXnd
    (by
      rcases h8 with h | ⟨w, hw, hwm⟩
      · exact .inl h
      · exact .inr ⟨w, hw, fun h => hwm ((hXm w).mp h).2⟩)
    (by rw [h4]; exact hm)
  rw [consolidate_eq, e1]
  simp only [Option.map_some, Option.bind_some]
  -- remaining locks: those apart from the request
  have hrem : t3.toList = apart tree.toList range := by
    rw [e3, h4]; unfold apart
    refine List.filter_congr fun x hx => ?_
    simp [hXm, hx]
  have hs3 : Sorted t3.toList := by rw [e3]; exact hs2.sublist List.filter_sublist
  have hsub3 : ∀ x ∈ sub3.toList, x ∈ tree.toList ∧ ¬ range.Meets x.1 := by
    intro x hx
    rw [e4] at hx
    simp only [List.mem_filter, decide_eq_true_eq] at hx
    have hxt : x ∈ tree.toList := by rw [h5]; simp [hx.1]
    exact ⟨hxt, fun h => hx.2 ((hXm x).mpr ⟨hxt, h⟩)⟩
  have hsideA : ∀ z ∈ tree.toList, z.1.Before range → z.1.Before (hull range X) := by
    intro z hz h
    exact hull_after h fun x hx => (side hs hz ((hXm x).mp hx).1 ((hXm x).mp hx).2).1 h
  have hsideB : ∀ z ∈ tree.toList, range.Before z.1 → (hull range X).Before z.1 := by
    intro z hz h
    exact hull_before h fun x hx => (side hs hz ((hXm x).mp hx).1 ((hXm x).mp hx).2).2 h
  have hl3 : t3.toList = pre ++ sub3.toList ++ post := by rw [e0]; exact (hctx sub3).2
  have hs3' : Sorted sub3.toList := by rw [hl3] at hs3; exact hs3.left.right
  obtain ⟨sub4, g1, a, b, g2, g3, g4, g5⟩ := Tree.insert_spec (hull range X) t sub3 (hull_valid hv X) hs3'
    (by
      intro x hx
      obtain ⟨hxt, hnm⟩ := hsub3 x hx
      rcases not_meets_cases hnm with h | h
      · exact (hsideB x hxt h).not_meets
      · exact (hsideA x hxt h).not_meets')
  have hins : lkrInsert t3 path (hull range X) t = some (t2.putAt path sub4) := by
    unfold lkrInsert; rw [e2]; simp only [Option.bind_some, g1, Option.map_some]; rw [e0, Tree.putAt_putAt]
  have hl4 : (t2.putAt path sub4).toList = (pre ++ a) ++ (hull range X, t) :: (b ++ post) := by
    rw [(hctx sub4).2, g3]; simp
  have hl3' : t3.toList = (pre ++ a) ++ (b ++ post) := by rw [hl3, g2]; simp
  refine ⟨t2.putAt path sub4, m3 + lockSize (hull range X), pre ++ a, b ++ post, ?_, by rw [← hrem, hl3'], hl4, ?_, ?_⟩
  · show Option.map _ (lkrInsert t3 path (hull range X) t) = _
    rw [hins]; rfl
  · rw [hl4]
    rw [hl3'] at hs3
    have hbA : ∀ x ∈ pre ++ a, x.1.Before (hull range X) := by
      intro x hx
      rcases List.mem_append.mp hx with hx | hx
      · exact hsideA x (by rw [h5]; simp [hx]) (h6 x hx)
      · exact g4 x hx
    have hbB : ∀ x ∈ b ++ post, (hull range X).Before x.1 := by
      intro x hx
      rcases List.mem_append.mp hx with hx | hx
      · exact g5 x hx
      · exact hsideB x (by rw [h5]; simp [hx]) (h7 x hx)
    refine Sorted.append hs3.left (Sorted.cons (hull_valid hv X) hs3.right hbB) ?_
    intro x hx y hy
    rcases List.mem_cons.mp hy with rfl | hy
    · exact hbA x hx
    · exact hs3.cross x hx y hy
  · rw [hl4]
    rw [h4, hl3'] at e5
    simp only [locksMem_append, locksMem_cons] at e5 ⊢
    omega

end Verif.Lt
