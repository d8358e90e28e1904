import Verif.Lt.LockLemmas

/-! Acquiring, migrating and releasing, in terms of the points each transaction has locked. -/
namespace Verif.Lt
open Std Verif.Codec

set_option linter.unusedSectionVars false
variable {cfg : Cfg} [TransCmp cfg.cmp]

/-- A point lies in a range. -/
def Range.Has {α} [LE α] (a : Range α) (p : α) : Prop := a.left ≤ p ∧ p ≤ a.right

/-- `u` has a lock on the point `p`. -/
def Owns (l : List (Lock cfg)) (u : Txn) (p : Point cfg.cmp) : Prop := ∃ x ∈ l, x.2 = u ∧ x.1.Has p

/-- How many locks `u` has. -/
def count (l : List (Lock cfg)) (u : Txn) : Nat := (l.filter fun x => decide (x.2 = u)).length

@[simp] theorem count_nil (u : Txn) : count ([] : List (Lock cfg)) u = 0 := rfl
@[simp] theorem count_append (a b : List (Lock cfg)) (u : Txn) : count (a ++ b) u = count a u + count b u := by
  simp [count]
@[simp] theorem count_cons (x : Lock cfg) (l) (u : Txn) :
    count (x :: l) u = (if x.2 = u then 1 else 0) + count l u := by
  unfold count; rw [List.filter_cons]; split <;> simp_all; omega

theorem count_perm {a b : List (Lock cfg)} (h : a.Perm b) (u : Txn) : count a u = count b u := (h.filter _).length_eq

theorem count_sublist {a b : List (Lock cfg)} (h : a.Sublist b) (u : Txn) : count a u ≤ count b u :=
  (h.filter _).length_le

theorem count_pos {l : List (Lock cfg)} {x : Lock cfg} (h : x ∈ l) : 0 < count l x.2 := by
  unfold count; exact List.length_pos_of_mem (List.mem_filter.mpr ⟨h, by simp⟩)

theorem owns_perm {a b : List (Lock cfg)} (h : a.Perm b) (u : Txn) (p) : Owns a u p ↔ Owns b u p := by
  unfold Owns; simp only [h.mem_iff]

theorem meets_iff_has {a b : Rng cfg} (ha : a.Valid) (hb : b.Valid) : a.Meets b ↔ ∃ p, a.Has p ∧ b.Has p := by
  unfold Range.Meets Range.Has Range.Valid at *
  constructor
  · intro h
    by_cases hc : a.left ≤ b.left
    · exact ⟨b.left, by grind⟩
    · exact ⟨a.left, by grind⟩
  · rintro ⟨p, h1, h2⟩; grind

theorem Range.Covers.has {a b : Rng cfg} (h : a.Covers b) {p} (hp : b.Has p) : a.Has p := by
  unfold Range.Covers Range.Has at *; grind

theorem owns_disjoint {l : List (Lock cfg)} (h : Sorted l) {u v : Txn} {p} (hu : Owns l u p) (hv : Owns l v p) : u = v := by
  obtain ⟨x, hx, rfl, hxp⟩ := hu
  obtain ⟨y, hy, rfl, hyp⟩ := hv
  by_cases he : x = y
  · rw [he]
  · exfalso
    rcases h.before_or hx hy he with h' | h' <;> (unfold Range.Before at h'; unfold Range.Has at *; grind)

/-! ### Ranges that can be locked -/

/-- The empty key sorts before every other key. -/
def EmptyFirst (cmp : Bytes → Bytes → Ordering) : Prop := ∀ k, k ≠ [] → cmp [] k = .lt

/-- Ranges for which the buffers are faithful, whatever they are later merged with: keys under 64 KiB, a real range,
the right end not minus infinity, and the empty key as right end only for a lock on just the empty key and only if
the comparator puts the empty key first. -/
structure Lockable (x : Rng cfg) : Prop where
  leftSize : Pt.size x.left < 65536
  rightSize : Pt.size x.right < 65536
  valid : x.Valid
  rightNe : x.right ≠ Pt.negInf
  empty : x.right = Pt.key [] → x.left = Pt.key [] ∧ EmptyFirst cfg.cmp

theorem Lockable.storable {x : Rng cfg} (h : Lockable x) (s : Bool) : (Entry.mk x.left x.right s).Storable :=
  ⟨h.leftSize, h.rightSize, fun he => (h.empty he).1⟩

theorem Lockable.join {a b c : Rng cfg} (ha : Lockable a) (hb : Lockable b) (hl : c.left = a.left)
    (hr : c.right = b.right) (hca : c.Covers a) (hcb : c.Covers b) : Lockable c := by
  refine ⟨hl ▸ ha.leftSize, hr ▸ hb.rightSize, ?_, hr ▸ hb.rightNe, ?_⟩
  · have := ha.valid; unfold Range.Covers Range.Valid at *; grind
  · rw [hr, hl]
    intro he
    obtain ⟨hbl, hef⟩ := hb.empty he
    refine ⟨?_, hef⟩
    have h1 : (Pt.cmp cfg.cmp a.right (.key [])).isLE = true := by
      have := hca.2; rw [hr, he] at this; exact this
    cases hk : (a.right : Pt) with
    | negInf => exact absurd hk ha.rightNe
    | posInf => rw [hk] at h1; simp [Pt.cmp] at h1
    | key k =>
      by_cases hke : k = []
      · subst hke; exact (ha.empty hk).1
      · rw [hk] at h1
        simp only [Pt.cmp] at h1
        have := hef k hke
        rw [OrientedCmp.eq_swap (cmp := cfg.cmp), this] at h1
        simp at h1

theorem Lockable.hull {range : Rng cfg} {xs : List (Lock cfg)} (h : Lockable range) (hx : ∀ x ∈ xs, Lockable x.1) :
    Lockable (hull range xs) := by
  obtain ⟨hl, hr⟩ := hull_ends range xs
  obtain ⟨h1, h2⟩ := hull_covers range xs
  have hl' : ∃ a, Lockable a ∧ (Verif.Lt.hull range xs).left = a.left ∧ (Verif.Lt.hull range xs).Covers a := by
    rcases hl with hl | ⟨x, hx', hl⟩
    · exact ⟨range, h, hl, h1⟩
    · exact ⟨x.1, hx x hx', hl, h2 x hx'⟩
  have hr' : ∃ a, Lockable a ∧ (Verif.Lt.hull range xs).right = a.right ∧ (Verif.Lt.hull range xs).Covers a := by
    rcases hr with hr | ⟨x, hx', hr⟩
    · exact ⟨range, h, hr, h1⟩
    · exact ⟨x.1, hx x hx', hr, h2 x hx'⟩
  obtain ⟨a, ha, hla, hca⟩ := hl'
  obtain ⟨b, hb, hrb, hcb⟩ := hr'
  exact ha.join hb hla hrb hca hcb

/-- A hull over ranges that all meet the first one is their union. -/
theorem hull_has {range : Rng cfg} (hv : range.Valid) {xs : List (Lock cfg)} (hx : ∀ x ∈ xs, x.1.Valid ∧ range.Meets x.1) (p) :
    (hull range xs).Has p ↔ range.Has p ∨ ∃ x ∈ xs, x.1.Has p := by
  induction xs generalizing range with
  | nil => simp [hull]
  | cons x xs ih =>
    have he : hull range (x :: xs) = hull (range.extend x.1) xs := rfl
    have hc := extend_covers range x.1
    have hxv := (hx x (by simp)).1
    have hxm := (hx x (by simp)).2
    rw [he, ih (by unfold Range.Valid Range.Covers at *; grind)
      (fun y hy => ⟨(hx y (by simp [hy])).1, hc.1.meets_of (hx y (by simp [hy])).2⟩)]
    have : (range.extend x.1).Has p ↔ range.Has p ∨ x.1.Has p := by
      unfold Range.extend Range.Has Range.Meets Range.Valid at *; grind
    simp only [this, List.mem_cons, exists_eq_or_imp]; grind

/-! ### Acquiring -/

theorem conflicting_nil {l : List (Lock cfg)} {t : Txn} : conflicting l t = [] ↔ ∀ x ∈ l, x.2 = t := by
  constructor
  · intro h x hx
    refine Classical.byContradiction fun hne => ?_
    have := (mem_conflicting l t x.2).mpr ⟨hne, x, hx, rfl⟩
    rw [h] at this; simp at this
  · intro h
    refine List.eq_nil_iff_forall_not_mem.mpr fun u hu => ?_
    obtain ⟨h1, x, hx, rfl⟩ := (mem_conflicting l t u).mp hu
    exact h1 (h x hx)

/-- What a granted request does to the stored locks. -/
structure Grown (L L' : List (Lock cfg)) (t : Txn) (range : Rng cfg) : Prop where
  sorted : Sorted L'
  lockable : ∀ x ∈ L', Lockable x.1
  owns : ∀ u p, Owns L' u p ↔ Owns L u p ∨ (u = t ∧ range.Has p)
  old : ∀ x ∈ L, ∃ y ∈ L', y.2 = x.2 ∧ y.1.Covers x.1
  new : ∃ y ∈ L', y.2 = t ∧ y.1.Covers range
  from_ : ∀ y ∈ L', y ∈ L ∨ (y.2 = t ∧ y.1.Covers range)
  count : ∀ u, count L' u ≤ count L u + if u = t then 1 else 0

theorem acquire_granted (tree : LTree cfg) (mem : Nat) (t : Txn) (range : Rng cfg) (hs : Sorted tree.toList)
    (hl : ∀ x ∈ tree.toList, Lockable x.1) (hr : Lockable range) (hm : locksMem tree.toList ≤ mem)
    (hc : conflicting (meeting tree.toList range) t = []) :
    ∃ tree' mem', acquireConsolidated tree mem t range = some (tree', mem', .granted) ∧
      Grown tree.toList tree'.toList t range ∧ mem' + locksMem tree.toList = mem + locksMem tree'.toList := by
  obtain ⟨tree', mem', A, B, h1, h2, h3, h4, h5⟩ := (acquire_spec tree mem t range hs hr.valid hm).1 hc
  refine ⟨tree', mem', h1, ?_, h5⟩
  generalize hL : tree.toList = L at *
  have hown := conflicting_nil.mp hc
  have hcov := hull_covers range (meeting L range)
  have hAB : ∀ x, x ∈ A ∨ x ∈ B ↔ x ∈ L ∧ ¬ range.Meets x.1 := by
    intro x; rw [← List.mem_append, ← h2]; exact mem_apart
  have hmem : ∀ y, y ∈ tree'.toList ↔ (y ∈ L ∧ ¬ range.Meets y.1) ∨ y = (hull range (meeting L range), t) := by
    intro y; rw [h3, ← hAB]; simp only [List.mem_append, List.mem_cons]; grind
  have hhas := hull_has hr.valid (xs := meeting L range) (fun x hx => ⟨hs.1 x (mem_meeting.mp hx).1, (mem_meeting.mp hx).2⟩)
  have hlh : Lockable (hull range (meeting L range)) := hr.hull fun x hx => hl x (mem_meeting.mp hx).1
  refine ⟨h4, ?_, ?_, ?_, ?_, ?_, ?_⟩
  · intro x hx
    rcases (hmem x).mp hx with h | rfl
    · exact hl x h.1
    · exact hlh
  · intro u p
    constructor
    · rintro ⟨y, hy, rfl, hp⟩
      rcases (hmem y).mp hy with h | rfl
      · exact .inl ⟨y, h.1, rfl, hp⟩
      · rcases (hhas p).mp hp with h | ⟨x, hx, h⟩
        · exact .inr ⟨rfl, h⟩
        · exact .inl ⟨x, (mem_meeting.mp hx).1, hown x hx, h⟩
    · rintro (⟨x, hx, rfl, hp⟩ | ⟨rfl, hp⟩)
      · by_cases hmt : range.Meets x.1
        · have hx' := mem_meeting.mpr ⟨hx, hmt⟩
          exact ⟨_, (hmem _).mpr (.inr rfl), (hown x hx').symm, (hhas p).mpr (.inr ⟨x, hx', hp⟩)⟩
        · exact ⟨x, (hmem x).mpr (.inl ⟨hx, hmt⟩), rfl, hp⟩
      · exact ⟨_, (hmem _).mpr (.inr rfl), rfl, (hhas p).mpr (.inl hp)⟩
  · intro x hx
    by_cases hmt : range.Meets x.1
    · have hx' := mem_meeting.mpr ⟨hx, hmt⟩
      exact ⟨_, (hmem _).mpr (.inr rfl), (hown x hx').symm, hcov.2 x hx'⟩
    · exact ⟨x, (hmem x).mpr (.inl ⟨hx, hmt⟩), rfl, .refl _⟩
  · exact ⟨_, (hmem _).mpr (.inr rfl), rfl, hcov.1⟩
  · intro y hy
    rcases (hmem y).mp hy with h | rfl
    · exact .inl h.1
    · exact .inr ⟨rfl, hcov.1⟩
  · intro u
    have h6 : Verif.Lt.count (A ++ B) u ≤ Verif.Lt.count L u := by rw [← h2]; exact count_sublist List.filter_sublist u
    rw [h3]; simp only [count_append, count_cons] at h6 ⊢
    by_cases hu : t = u
    · subst hu; simp; omega
    · simp only [hu, Ne.symm hu, if_false]; omega

/-! ### Buffers -/

/-- A buffer that reads back as `ps`. -/
def BOk (b : RangeBuffer) (ps : List (Pt × Pt)) : Prop :=
  ∃ cur others, Holds b cur others ∧ (∀ e ∈ others.flatten ++ cur, e.Storable) ∧
    (∀ c, b.arena.cur = some c → c.data.length ≤ c.size) ∧ ps = (cur ++ others.flatten).map Entry.pair

theorem BOk.create : BOk .create [] := ⟨[], [], holds_create, by simp, by simp [RangeBuffer.create], rfl⟩

theorem BOk.ranges {b ps} (h : BOk b ps) : b.ranges = some ps := by
  obtain ⟨cur, others, h1, h2, _, rfl⟩ := h; exact ranges_holds h1 h2

theorem BOk.numRanges {b ps} (h : BOk b ps) : b.numRanges = ps.length := by
  obtain ⟨cur, others, h1, h2, _, rfl⟩ := h; rw [h1.count, List.length_map, List.length_append, List.length_append]; omega

theorem BOk.isEmpty {b ps} (h : BOk b ps) : b.isEmpty = true ↔ ps = [] := by
  obtain ⟨cur, others, h1, h2, h3, rfl⟩ := h
  have hc := h1.curChunk
  unfold RangeBuffer.isEmpty RangeBuffer.memory Arena.inUse
  cases hcur : b.arena.cur with
  | none =>
    rw [hcur] at hc
    simp only at hc
    have := h1.otherChunks
    rw [hc.2] at this
    simp only [List.map_nil, List.map_eq_nil_iff] at this
    simp [hc, this]
  | some c =>
    rw [hcur] at hc
    simp only at hc
    have : 0 < c.data.length := by
      rw [hc.2]
      cases cur with
      | nil => exact absurd rfl hc.1
      | cons e es => have := record_length e; simp; omega
    have hne : (cur ++ others.flatten).map Entry.pair ≠ [] := by simp [hc.1]
    simp only [hne, iff_false, decide_eq_true_eq]
    omega

theorem BOk.append {b ps} (h : BOk b ps) {x : Rng cfg} (hx : Lockable x) (s : Bool) :
    ∃ b' ps', b.append x.left x.right s = some b' ∧ BOk b' ps' ∧ ps'.Perm ((x.left, x.right) :: ps) ∧ b.memory < b'.memory := by
  obtain ⟨cur, others, h1, h2, h3, rfl⟩ := h
  obtain ⟨b', hb'⟩ := append_isSome b _ (hx.storable s)
  obtain ⟨cur', others', h4, h5⟩ := holds_append h1 _ hb'
  obtain ⟨h6, h7⟩ := memory_append h3 hb'
  refine ⟨b', _, hb', ⟨cur', others', h4, ?_, h7, rfl⟩, ?_, by omega⟩
  · rw [h5]; intro e he
    rcases List.mem_append.mp he with he | he
    · exact h2 e he
    · simp only [List.mem_singleton] at he; subst he; exact hx.storable s
  · have : (cur' ++ others'.flatten).Perm (⟨x.left, x.right, s⟩ :: (cur ++ others.flatten)) := by
      refine List.perm_append_comm.trans ?_
      rw [h5]
      refine List.perm_append_comm.trans ?_
      show (_ :: (others.flatten ++ cur)).Perm _
      exact List.Perm.cons _ List.perm_append_comm
    exact this.map Entry.pair

/-- The locks a list of ranges stands for. -/
def asLocks (t : Txn) (ps : List (Pt × Pt)) : List (Lock cfg) := ps.map fun p => (mkRange p.1 p.2, t)

theorem mem_asLocks {t : Txn} {ps : List (Pt × Pt)} {x : Lock cfg} :
    x ∈ asLocks t ps ↔ ∃ p ∈ ps, x = (mkRange p.1 p.2, t) := by
  unfold asLocks; simp only [List.mem_map]; constructor <;> (rintro ⟨p, h1, h2⟩; exact ⟨p, h1, h2.symm⟩)

/-! ### Migration out of the optimisation -/

theorem migrateIn_spec (t : Txn) (ps : List (Pt × Pt)) (hp : ∀ x ∈ asLocks (cfg := cfg) t ps, Lockable x.1)
    (tree : LTree cfg) (mem : Nat) (hs : Sorted tree.toList) (hl : ∀ x ∈ tree.toList, Lockable x.1)
    (ho : ∀ x ∈ tree.toList, x.2 = t) (hm : locksMem tree.toList ≤ mem) :
    ∃ tree' mem', migrateIn t ps tree mem = some (tree', mem') ∧ Sorted tree'.toList ∧
      (∀ x ∈ tree'.toList, Lockable x.1) ∧ (∀ x ∈ tree'.toList, x.2 = t) ∧
      (∀ u p, Owns tree'.toList u p ↔ Owns (tree.toList ++ asLocks t ps) u p) ∧
      (∀ x ∈ tree.toList ++ asLocks t ps, ∃ y ∈ tree'.toList, y.2 = x.2 ∧ y.1.Covers x.1) ∧
      (∀ y ∈ tree'.toList, ∃ x ∈ tree.toList ++ asLocks t ps, x.2 = y.2 ∧ y.1.Covers x.1) ∧
      (∀ u, count tree'.toList u ≤ count (tree.toList ++ asLocks t ps) u) ∧
      mem' + locksMem tree.toList = mem + locksMem tree'.toList := by
  induction ps generalizing tree mem with
  | nil =>
    refine ⟨tree, mem, rfl, hs, hl, ho, ?_, ?_, ?_, ?_, rfl⟩
    · simp [asLocks]
    · intro x hx; exact ⟨x, by simpa [asLocks] using hx, rfl, .refl _⟩
    · intro x hx; exact ⟨x, by simpa [asLocks] using hx, rfl, .refl _⟩
    · simp [asLocks]
  | cons p ps ih =>
    have hcons : asLocks (cfg := cfg) t (p :: ps) = (mkRange p.1 p.2, t) :: asLocks t ps := rfl
    rw [hcons] at hp ⊢
    have hpl := hp (mkRange p.1 p.2, t) (by simp)
    obtain ⟨t1, m1, h1, g, h2⟩ := acquire_granted tree mem t (mkRange p.1 p.2) hs hl hpl hm
      (conflicting_nil.mpr fun x hx => ho x (mem_meeting.mp hx).1)
    have ho1 : ∀ x ∈ t1.toList, x.2 = t := by
      intro x hx
      rcases g.from_ x hx with h | h
      · exact ho x h
      · exact h.1
    obtain ⟨t2, m2, e1, e2, e3, e4, e5, e6, e7, e9, e8⟩ := ih (fun x hx => hp x (by simp [hx])) t1 m1 g.sorted g.lockable ho1 (by omega)
    refine ⟨t2, m2, ?_, e2, e3, e4, ?_, ?_, ?_, ?_, by omega⟩
    · rw [migrateIn, h1, Option.bind_some]; simp only [if_true]; exact e1
    · intro u q
      rw [e5]
      constructor
      · rintro ⟨x, hx, rfl, hq⟩
        rcases List.mem_append.mp hx with hx | hx
        · rcases (g.owns _ _).mp ⟨x, hx, rfl, hq⟩ with ⟨y, hy, h, hy'⟩ | ⟨h, h'⟩
          · exact ⟨y, by simp [hy], h, hy'⟩
          · exact ⟨(mkRange p.1 p.2, t), by simp, h.symm, h'⟩
        · exact ⟨x, by simp [hx], rfl, hq⟩
      · rintro ⟨x, hx, rfl, hq⟩
        simp only [List.mem_append, List.mem_cons] at hx
        rcases hx with hx | rfl | hx
        · obtain ⟨y, hy, h, h'⟩ := (g.owns x.2 q).mpr (.inl ⟨x, hx, rfl, hq⟩)
          exact ⟨y, by simp [hy], h, h'⟩
        · obtain ⟨y, hy, h, h'⟩ := (g.owns t q).mpr (.inr ⟨rfl, hq⟩)
          exact ⟨y, by simp [hy], h, h'⟩
        · exact ⟨x, by simp [hx], rfl, hq⟩
    · intro x hx
      simp only [List.mem_append, List.mem_cons] at hx
      have : ∃ y ∈ t1.toList ++ asLocks t ps, y.2 = x.2 ∧ y.1.Covers x.1 := by
        rcases hx with hx | rfl | hx
        · obtain ⟨y, hy, h⟩ := g.old x hx; exact ⟨y, by simp [hy], h⟩
        · obtain ⟨y, hy, h⟩ := g.new; exact ⟨y, by simp [hy], h⟩
        · exact ⟨x, by simp [hx], rfl, .refl _⟩
      obtain ⟨y, hy, h, hc⟩ := this
      obtain ⟨z, hz, h', hc'⟩ := e6 y hy
      exact ⟨z, hz, h'.trans h, hc'.trans hc⟩
    · intro y hy
      obtain ⟨x, hx, h, hc⟩ := e7 y hy
      rcases List.mem_append.mp hx with hx | hx
      · rcases g.from_ x hx with h' | ⟨h', h''⟩
        · exact ⟨x, by simp [h'], h, hc⟩
        · exact ⟨(mkRange p.1 p.2, t), by simp, by rw [← h, h'], hc.trans h''⟩
      · exact ⟨x, by simp [hx], h, hc⟩
    · intro u
      have a1 := e9 u
      have a2 := g.count u
      simp only [count_append, count_cons] at a1 ⊢
      by_cases hu : u = t
      · subst hu; simp at a2 ⊢; omega
      · simp only [hu, Ne.symm hu, if_false] at a2 ⊢; omega

theorem migrateFn_stops : Tree.Stops (migrateFn (cfg := cfg)) := by
  intro s x t h; simp [migrateFn] at h

/-- Inserting pairwise separate locks at the root, one after the other. -/
theorem insertAll (xs : List (Lock cfg)) (tree : LTree cfg) (hs : Sorted tree.toList) (hv : ∀ x ∈ xs, x.1.Valid)
    (hd : (xs ++ tree.toList).Pairwise fun a b => ¬ a.1.Meets b.1) :
    ∃ tree', xs.foldl (fun (s : Option (LTree cfg)) (x : Lock cfg) => (migrateFn s x.1 x.2).1) (some tree) = some tree' ∧
      Sorted tree'.toList ∧ tree'.toList.Perm (xs ++ tree.toList) := by
  induction xs generalizing tree with
  | nil => exact ⟨tree, rfl, hs, .refl _⟩
  | cons x xs ih =>
    rw [List.cons_append, List.pairwise_cons] at hd
    obtain ⟨t1, h1, h2, h3⟩ := lkrInsert_root tree x.1 x.2 (hv x (by simp)) hs (fun y hy => hd.1 y (by simp [hy]))
    have hp : (xs ++ t1.toList).Perm (x :: (xs ++ tree.toList)) :=
      (h3.append_left xs).trans List.perm_middle
    obtain ⟨t2, e1, e2, e3⟩ := ih t1 h2 (fun y hy => hv y (by simp [hy])) (by
      refine (hp.pairwise_iff (fun {a b} h h' => h (meets_comm.mp h'))).mpr ?_
      exact List.pairwise_cons.mpr hd)
    refine ⟨t2, ?_, e2, e3.trans hp⟩
    simp only [List.foldl_cons]
    have : (migrateFn (some tree) x.1 x.2).1 = some t1 := h1
    rw [this]; exact e1

theorem Sorted.apart {l : List (Lock cfg)} (h : Sorted l) : l.Pairwise fun a b => ¬ a.1.Meets b.1 :=
  h.2.imp fun h => h.not_meets

/-- Contents of the table. -/
def tableLocks (lt : LockTable cfg) : List (Lock cfg) :=
  if lt.stoTxn ≠ 0 then asLocks lt.stoTxn (lt.stoBuf.ranges.getD []) else lt.tree.toList

/-- A table as the operations leave it. -/
structure TableOk (lt : LockTable cfg) : Prop where
  sorted : Sorted lt.tree.toList
  lockable : ∀ x ∈ tableLocks lt, Lockable x.1
  owner : ∀ x ∈ tableLocks lt, x.2 ≠ 0
  off : lt.stoTxn = 0 → lt.stoBuf = .create
  on : lt.stoTxn ≠ 0 → lt.tree = .nil ∧ ∃ ps, BOk lt.stoBuf ps ∧ ps ≠ []
  charged : locksMem lt.tree.toList + lt.stoBuf.memory ≤ lt.mem

/-- What is charged for the table itself. -/
def tableMem (lt : LockTable cfg) : Nat := locksMem lt.tree.toList + lt.stoBuf.memory

theorem create_memory : RangeBuffer.create.memory = 0 := rfl

/-- How a table's locks relate before and after a migration. -/
structure SameLocks (L L' : List (Lock cfg)) : Prop where
  owns : ∀ u p, Owns L' u p ↔ Owns L u p
  old : ∀ x ∈ L, ∃ y ∈ L', y.2 = x.2 ∧ y.1.Covers x.1
  from_ : ∀ y ∈ L', ∃ x ∈ L, x.2 = y.2 ∧ y.1.Covers x.1
  count : ∀ u, count L' u ≤ count L u

theorem SameLocks.refl (L : List (Lock cfg)) : SameLocks L L :=
  ⟨fun _ _ => .rfl, fun x hx => ⟨x, hx, rfl, .refl _⟩, fun x hx => ⟨x, hx, rfl, .refl _⟩, fun _ => Nat.le_refl _⟩

theorem stoEndEarly_spec (lt : LockTable cfg) (h : TableOk lt) (hon : lt.stoTxn ≠ 0) :
    ∃ lt', stoEndEarly lt = some lt' ∧ TableOk lt' ∧ lt'.stoTxn = 0 ∧ SameLocks (tableLocks lt) (tableLocks lt') ∧
      lt'.mem + tableMem lt = lt.mem + tableMem lt' := by
  obtain ⟨htree, ps, hb, hne⟩ := h.on hon
  have hL : tableLocks lt = asLocks lt.stoTxn ps := by simp [tableLocks, hon, hb.ranges]
  have hlk := h.lockable
  rw [hL] at hlk
  obtain ⟨t1, m1, e1, e2, e3, e4, e5, e6, e7, e9, e8⟩ := migrateIn_spec lt.stoTxn ps hlk (.nil : LTree cfg) lt.mem
    ⟨by simp [Tree.toList], by simp [Tree.toList]⟩ (by simp [Tree.toList]) (by simp [Tree.toList]) (by simp [Tree.toList])
  simp only [Tree.toList, List.nil_append, locksMem_nil, Nat.add_zero] at e5 e6 e7 e8 e9
  obtain ⟨t1', sub, i1, -, -, -, -⟩ := lkrIterate_spec (tree := t1) (path := []) (sub := t1) (range := infinite)
    migrateFn migrateFn_stops (some lt.tree) e2 infinite_valid (by simp [Tree.at?])
  have hall : t1.toList.filter (fun x => decide ((infinite : Rng cfg).Meets x.1)) = t1.toList :=
    List.filter_eq_self.mpr fun x _ => by simpa using infinite_meets x.1
  rw [hall] at i1
  obtain ⟨t2, j1, j2, j3⟩ := insertAll t1.toList lt.tree (by rw [htree]; exact ⟨by simp [Tree.toList], by simp [Tree.toList]⟩) e2.1
    (by rw [htree]; simpa [Tree.toList] using e2.apart)
  rw [htree] at j3
  simp only [Tree.toList, List.append_nil] at j3
  have ht2 : t2.isNil = false := by
    obtain ⟨p, ps', rfl⟩ := List.exists_cons_of_ne_nil hne
    obtain ⟨y, hy, _⟩ := e6 (mkRange p.1 p.2, lt.stoTxn) (by simp [asLocks])
    have := j3.mem_iff.mpr hy
    cases t2 with
    | nil => simp [Tree.toList] at this
    | node => rfl
  have hmig : stoMigrate lt = some { lt with tree := t2, mem := m1 } := by
    unfold stoMigrate
    have h1 : lt.stoBuf.isEmpty = false := by
      cases hbe : lt.stoBuf.isEmpty with
      | false => rfl
      | true => exact absurd (hb.isEmpty.mp hbe) hne
    have h2 : lt.tree.isNil = true := by rw [htree]; rfl
    rw [h1, h2, hb.ranges]
    simp only [Bool.not_true, Bool.or_self, Bool.false_eq_true, if_false, Option.bind_some]
    rw [e1]
    simp only [Option.bind_some]
    rw [i1]
    simp only [Option.bind_some]
    rw [j1]
    simp [ht2]
  have hch := h.charged
  have hmem2 : locksMem t2.toList = locksMem t1.toList := locksMem_perm j3
  refine ⟨{ lt with tree := t2, mem := m1 - lt.stoBuf.memory, stoBuf := .create, stoTxn := 0, stoScore := 0 }, ?_, ?_, rfl, ?_, ?_⟩
  · unfold stoEndEarly
    rw [hmig]
    simp only [Option.bind_some]
    unfold stoEnd released
    simp only
    rw [if_pos (by omega)]
    rfl
  · refine ⟨j2, ?_, ?_, fun _ => rfl, fun h => absurd rfl h, ?_⟩
    · intro x hx; exact e3 x (j3.mem_iff.mp (by simpa [tableLocks] using hx))
    · intro x hx
      have := e4 x (j3.mem_iff.mp (by simpa [tableLocks] using hx))
      rw [this]; exact hon
    · show locksMem t2.toList + RangeBuffer.create.memory ≤ m1 - lt.stoBuf.memory
      rw [hmem2, create_memory]; omega
  · rw [hL]
    have : tableLocks (cfg := cfg) { lt with tree := t2, mem := m1 - lt.stoBuf.memory, stoBuf := .create, stoTxn := 0, stoScore := 0 } = t2.toList := by
      simp [tableLocks]
    rw [this]
    refine ⟨fun u p => by rw [owns_perm j3, e5], ?_, ?_, fun u => by rw [count_perm j3]; exact e9 u⟩
    · intro x hx
      obtain ⟨y, hy, h⟩ := e6 x hx
      exact ⟨y, j3.mem_iff.mpr hy, h⟩
    · intro y hy; exact e7 y (j3.mem_iff.mp hy)
  · show m1 - lt.stoBuf.memory + tableMem lt = lt.mem + (locksMem t2.toList + RangeBuffer.create.memory)
    have : tableMem lt = lt.stoBuf.memory := by unfold tableMem; rw [htree]; simp [Tree.toList]
    rw [this, hmem2, create_memory]; omega

theorem TableOk.disjoint {lt : LockTable cfg} (h : TableOk lt) {u v : Txn} {p} (hu : Owns (tableLocks lt) u p)
    (hv : Owns (tableLocks lt) v p) : u = v := by
  by_cases hon : lt.stoTxn = 0
  · have : tableLocks lt = lt.tree.toList := by simp [tableLocks, hon]
    rw [this] at hu hv
    exact owns_disjoint h.sorted hu hv
  · have : tableLocks lt = asLocks lt.stoTxn (lt.stoBuf.ranges.getD []) := by simp [tableLocks, hon]
    rw [this] at hu hv
    obtain ⟨x, hx, rfl, _⟩ := hu
    obtain ⟨y, hy, rfl, _⟩ := hv
    obtain ⟨_, _, rfl⟩ := mem_asLocks.mp hx
    obtain ⟨_, _, rfl⟩ := mem_asLocks.mp hy
    rfl

/-! ### The whole request -/

/-- What a granted request does to the table. -/
structure Granted (L L' : List (Lock cfg)) (t : Txn) (range : Rng cfg) : Prop where
  owns : ∀ u p, Owns L' u p ↔ Owns L u p ∨ (u = t ∧ range.Has p)
  old : ∀ x ∈ L, ∃ y ∈ L', y.2 = x.2 ∧ y.1.Covers x.1
  new : ∃ y ∈ L', y.2 = t ∧ y.1.Covers range
  from_ : ∀ y ∈ L', (∃ x ∈ L, x.2 = y.2 ∧ y.1.Covers x.1) ∨ (y.2 = t ∧ y.1.Covers range)
  count : ∀ u, count L' u ≤ count L u + if u = t then 1 else 0

/-- Some other transaction has a lock on a point of the range. -/
def Blocked (L : List (Lock cfg)) (t u : Txn) (range : Rng cfg) : Prop := u ≠ t ∧ ∃ p, range.Has p ∧ Owns L u p

theorem blocked_iff {L : List (Lock cfg)} (hs : ∀ x ∈ L, x.1.Valid) {t u : Txn} {range : Rng cfg} (hv : range.Valid) :
    u ∈ conflicting (meeting L range) t ↔ Blocked L t u range := by
  rw [mem_conflicting]
  unfold Blocked
  constructor
  · rintro ⟨h, x, hx, rfl⟩
    obtain ⟨h1, h2⟩ := mem_meeting.mp hx
    obtain ⟨p, hp, hp'⟩ := (meets_iff_has hv (hs x h1)).mp h2
    exact ⟨h, p, hp, x, h1, rfl, hp'⟩
  · rintro ⟨h, p, hp, x, hx, rfl, hp'⟩
    exact ⟨h, x, mem_meeting.mpr ⟨hx, (meets_iff_has hv (hs x hx)).mpr ⟨p, hp, hp'⟩⟩, rfl⟩

/-- A request when the optimisation is off. -/
theorem acquire_off (lt : LockTable cfg) (h : TableOk lt) (hoff : lt.stoTxn = 0) (t : Txn) (ht : t ≠ 0) (range : Rng cfg)
    (hr : Lockable range) :
    ∃ tree' mem' res, acquireConsolidated lt.tree lt.mem t range = some (tree', mem', res) ∧
      TableOk { lt with tree := tree', mem := mem' } ∧
      mem' + locksMem lt.tree.toList = lt.mem + locksMem tree'.toList ∧
      (((∀ u, ¬ Blocked lt.tree.toList t u range) ∧ res = .granted ∧ Granted lt.tree.toList tree'.toList t range) ∨
       ((∃ u, Blocked lt.tree.toList t u range) ∧ tree'.toList = lt.tree.toList ∧
        ∃ cs, res = .notGranted cs ∧ cs.Pairwise (· < ·) ∧ ∀ u, u ∈ cs ↔ Blocked lt.tree.toList t u range)) := by
  have hL : tableLocks lt = lt.tree.toList := by simp [tableLocks, hoff]
  have hlk := h.lockable; rw [hL] at hlk
  have how := h.owner; rw [hL] at how
  have hch := h.charged
  have hb := fun u => blocked_iff (cfg := cfg) (t := t) (u := u) h.sorted.1 hr.valid
  by_cases hc : conflicting (meeting lt.tree.toList range) t = []
  · obtain ⟨t1, m1, e1, g, e2⟩ := acquire_granted lt.tree lt.mem t range h.sorted hlk hr (by omega) hc
    refine ⟨t1, m1, .granted, e1, ?_, e2, .inl ⟨?_, rfl, ?_⟩⟩
    · refine ⟨g.sorted, ?_, ?_, h.off, fun h' => absurd hoff h', ?_⟩
      · intro x hx; exact g.lockable x (by simpa [tableLocks, hoff] using hx)
      · intro x hx
        rcases g.from_ x (by simpa [tableLocks, hoff] using hx) with h' | h'
        · exact how x h'
        · rw [h'.1]; exact ht
      · show locksMem t1.toList + lt.stoBuf.memory ≤ m1; omega
    · intro u hu
      have := (hb u).mpr hu
      rw [hc] at this; simp at this
    · refine ⟨g.owns, g.old, g.new, ?_, g.count⟩
      intro y hy
      rcases g.from_ y hy with h' | h'
      · exact .inl ⟨y, h', rfl, .refl _⟩
      · exact .inr h'
  · obtain ⟨t1, e1, e2⟩ := (acquire_spec lt.tree lt.mem t range h.sorted hr.valid (by omega)).2 hc
    refine ⟨t1, lt.mem, _, e1, ?_, by rw [e2], .inr ⟨?_, e2, _, rfl, conflicting_sorted _ _, hb⟩⟩
    · refine ⟨by rw [e2]; exact h.sorted, ?_, ?_, h.off, fun h' => absurd hoff h', ?_⟩
      · intro x hx; exact hlk x (by simpa [tableLocks, hoff, e2] using hx)
      · intro x hx; exact how x (by simpa [tableLocks, hoff, e2] using hx)
      · show locksMem t1.toList + lt.stoBuf.memory ≤ lt.mem; rw [e2]; exact hch
    · obtain ⟨u, us, hu⟩ := List.exists_cons_of_ne_nil hc
      exact ⟨u, (hb u).mp (by rw [hu]; simp)⟩

theorem asLocks_perm (t : Txn) {a b : List (Pt × Pt)} (h : a.Perm b) :
    (asLocks (cfg := cfg) t a).Perm (asLocks t b) := h.map _

/-- A request under the optimisation, owned by the requester. -/
theorem sto_append_spec (lt : LockTable cfg) (t : Txn) (ht : t ≠ 0) (hst : lt.stoTxn = t) (htree : lt.tree = .nil)
    {ps} (hb : BOk lt.stoBuf ps) (hlk : ∀ x ∈ asLocks (cfg := cfg) t ps, Lockable x.1) (hch : lt.stoBuf.memory ≤ lt.mem)
    (range : Rng cfg) (hr : Lockable range) (sp : Bool) :
    ∃ lt', stoAppend lt range.left range.right sp = some lt' ∧ TableOk lt' ∧
      (tableLocks lt').Perm ((range, t) :: asLocks t ps) ∧ lt'.mem + lt.stoBuf.memory = lt.mem + lt'.stoBuf.memory ∧
      lt'.tree = .nil ∧ lt'.stoTxn = t := by
  obtain ⟨b', ps', h1, h2, h3, h4⟩ := hb.append hr sp
  have hon : lt.stoTxn ≠ 0 := by rw [hst]; exact ht
  have hperm : (asLocks (cfg := cfg) t ps').Perm ((range, t) :: asLocks t ps) := asLocks_perm t h3
  have hL : tableLocks (cfg := cfg) { lt with stoBuf := b', mem := lt.mem + (b'.memory - lt.stoBuf.memory) } = asLocks t ps' := by
    simp [tableLocks, hon, h2.ranges]; rw [hst]
  refine ⟨{ lt with stoBuf := b', mem := lt.mem + (b'.memory - lt.stoBuf.memory) }, by unfold stoAppend; rw [h1]; rfl, ⟨?_, ?_, ?_, ?_, ?_, ?_⟩, ?_, ?_, htree, hst⟩
  · show Sorted lt.tree.toList
    rw [htree]; exact ⟨by simp [Tree.toList], by simp [Tree.toList]⟩
  · rw [hL]; intro x hx
    rcases List.mem_cons.mp (hperm.mem_iff.mp hx) with rfl | hx
    · exact hr
    · exact hlk x hx
  · rw [hL]; intro x hx
    obtain ⟨_, _, rfl⟩ := mem_asLocks.mp hx
    exact ht
  · intro h; exact absurd h hon
  · intro _
    refine ⟨htree, ps', h2, ?_⟩
    intro he; rw [he] at h3; have := h3.length_eq; simp at this
  · show locksMem lt.tree.toList + b'.memory ≤ lt.mem + (b'.memory - lt.stoBuf.memory)
    rw [htree]; simp only [Tree.toList, locksMem_nil]; omega
  · rw [hL]; exact hperm
  · show lt.mem + (b'.memory - lt.stoBuf.memory) + lt.stoBuf.memory = lt.mem + b'.memory; omega

theorem granted_of_perm {L L' : List (Lock cfg)} {t : Txn} {range : Rng cfg} (h : L'.Perm ((range, t) :: L)) :
    Granted L L' t range := by
  have hm : ∀ y, y ∈ L' ↔ y = (range, t) ∨ y ∈ L := fun y => by rw [h.mem_iff, List.mem_cons]
  refine ⟨?_, ?_, ?_, ?_, ?_⟩
  · intro u p
    constructor
    · rintro ⟨y, hy, rfl, hp⟩
      rcases (hm y).mp hy with rfl | hy
      · exact .inr ⟨rfl, hp⟩
      · exact .inl ⟨y, hy, rfl, hp⟩
    · rintro (⟨y, hy, rfl, hp⟩ | ⟨rfl, hp⟩)
      · exact ⟨y, (hm y).mpr (.inr hy), rfl, hp⟩
      · exact ⟨_, (hm _).mpr (.inl rfl), rfl, hp⟩
  · intro x hx; exact ⟨x, (hm x).mpr (.inr hx), rfl, .refl _⟩
  · exact ⟨_, (hm _).mpr (.inl rfl), rfl, .refl _⟩
  · intro y hy
    rcases (hm y).mp hy with rfl | hy
    · exact .inr ⟨rfl, .refl _⟩
    · exact .inl ⟨y, hy, rfl, .refl _⟩
  · intro u
    rw [count_perm h, count_cons]
    by_cases hu : u = t
    · subst hu; simp; omega
    · simp [hu, Ne.symm hu]

/-- The outcome of a request against the locks `L`. -/
def Outcome (L L' : List (Lock cfg)) (t : Txn) (range : Rng cfg) (res : Result) : Prop :=
  ((∀ u, ¬ Blocked L t u range) ∧ res = .granted ∧ Granted L L' t range) ∨
  ((∃ u, Blocked L t u range) ∧ SameLocks L L' ∧
    ∃ cs, res = .notGranted cs ∧ cs.Pairwise (· < ·) ∧ ∀ u, u ∈ cs ↔ Blocked L t u range)

theorem blocked_congr {L L' : List (Lock cfg)} (h : SameLocks L L') {t u : Txn} {range : Rng cfg} :
    Blocked L' t u range ↔ Blocked L t u range := by
  unfold Blocked; simp only [h.owns]

theorem outcome_trans {L L1 L' : List (Lock cfg)} {t : Txn} {range : Rng cfg} {res : Result} (h : SameLocks L L1)
    (h' : Outcome L1 L' t range res) : Outcome L L' t range res := by
  have hold : ∀ {M : List (Lock cfg)}, (∀ x ∈ L1, ∃ y ∈ M, y.2 = x.2 ∧ y.1.Covers x.1) →
      ∀ x ∈ L, ∃ y ∈ M, y.2 = x.2 ∧ y.1.Covers x.1 := by
    intro M hM x hx
    obtain ⟨y, hy, e, c⟩ := h.old x hx
    obtain ⟨z, hz, e', c'⟩ := hM y hy
    exact ⟨z, hz, e'.trans e, c'.trans c⟩
  have hfrom : ∀ y : Lock cfg, (∃ x ∈ L1, x.2 = y.2 ∧ y.1.Covers x.1) → ∃ x ∈ L, x.2 = y.2 ∧ y.1.Covers x.1 := by
    rintro y ⟨x, hx, e, c⟩
    obtain ⟨z, hz, e', c'⟩ := h.from_ x hx
    exact ⟨z, hz, e'.trans e, c.trans c'⟩
  rcases h' with ⟨h1, h2, h3⟩ | ⟨h1, h2, cs, h3, h4, h5⟩
  · refine .inl ⟨fun u hu => h1 u ((blocked_congr h).mpr hu), h2, ?_, hold h3.old, h3.new, ?_, ?_⟩
    · intro u p; rw [h3.owns, h.owns]
    · intro y hy
      rcases h3.from_ y hy with h | h
      · exact .inl (hfrom y h)
      · exact .inr h
    · intro u; have a := h3.count u; have b := h.count u; omega
  · refine .inr ⟨h1.imp fun u hu => (blocked_congr h).mp hu, ⟨?_, hold h2.old, ?_, ?_⟩, cs, h3, h4, ?_⟩
    · intro u p; rw [h2.owns, h.owns]
    · intro y hy; exact hfrom y (h2.from_ y hy)
    · intro u; exact Nat.le_trans (h2.count u) (h.count u)
    · intro u; rw [h5, blocked_congr h]

/-- A request never fails an assertion; it is granted exactly when nobody else has a lock on the range, then adds
exactly that range, and otherwise reports exactly the others in the way and changes no lock. -/
theorem acquireLock_spec (lt : LockTable cfg) (h : TableOk lt) (t : Txn) (ht : t ≠ 0) (l r : Pt)
    (hr : Lockable (mkRange (cfg := cfg) l r)) (sp : Bool) :
    ∃ lt' res, acquireLock lt t l r sp = some (lt', res) ∧ TableOk lt' ∧ lt'.mem + tableMem lt = lt.mem + tableMem lt' ∧
      Outcome (tableLocks lt) (tableLocks lt') t (mkRange l r) res ∧
      (lt'.stoTxn = lt.stoTxn ∨ lt'.stoTxn = 0 ∨ lt'.stoTxn = t) := by
  -- requests that reach the tree
  have key : ∀ lt1, TableOk lt1 → lt1.stoTxn = 0 → ∃ lt' res,
      (acquireConsolidated lt1.tree lt1.mem t (mkRange l r)).map
        (fun q => (({ lt1 with tree := q.1, mem := q.2.1 } : LockTable cfg), q.2.2)) = some (lt', res) ∧
      TableOk lt' ∧ lt'.mem + tableMem lt1 = lt1.mem + tableMem lt' ∧
      Outcome (tableLocks lt1) (tableLocks lt') t (mkRange l r) res ∧ lt'.stoTxn = 0 := by
    intro lt1 h1 hoff
    obtain ⟨tree', mem', res, e1, e2, e3, e4⟩ := acquire_off lt1 h1 hoff t ht _ hr
    have hL1 : tableLocks lt1 = lt1.tree.toList := by simp [tableLocks, hoff]
    have hL' : tableLocks (cfg := cfg) { lt1 with tree := tree', mem := mem' } = tree'.toList := by simp [tableLocks, hoff]
    refine ⟨_, res, by rw [e1]; rfl, e2, ?_, ?_, hoff⟩
    · show mem' + (locksMem lt1.tree.toList + lt1.stoBuf.memory) = lt1.mem + (locksMem tree'.toList + lt1.stoBuf.memory); omega
    · show Outcome (tableLocks lt1) (tableLocks (cfg := cfg) { lt1 with tree := tree', mem := mem' }) t (mkRange l r) res
      rw [hL1, hL']
      rcases e4 with e4 | ⟨f1, f2, f3⟩
      · exact .inl e4
      · exact .inr ⟨f1, by rw [f2]; exact .refl _, f3⟩
  unfold acquireLock stoPrepare
  by_cases hon : lt.stoTxn = 0
  · -- off
    have hbuf := h.off hon
    have hempty : lt.stoBuf.isEmpty = true := by rw [hbuf]; rfl
    by_cases hstart : lt.tree.isNil ∧ lt.stoBuf.isEmpty ∧ stoThreshold ≤ lt.stoScore
    · -- it starts
      rw [if_pos hstart, if_neg (by simp [hon])]
      simp only [Option.bind_some]
      rw [if_pos ht, if_neg (by simp)]
      have htree : lt.tree = .nil := by
        cases hlt : lt.tree with
        | nil => rfl
        | node => rw [hlt] at hstart; simp [Tree.isNil] at hstart
      have hL : tableLocks lt = [] := by simp [tableLocks, hon, htree, Tree.toList]
      obtain ⟨lt', e1, e2, e3, e4, e5, e6⟩ := sto_append_spec { lt with stoTxn := t } t ht rfl htree (ps := [])
        (by rw [hbuf]; exact .create) (by simp [asLocks]) (by have := h.charged; show lt.stoBuf.memory ≤ lt.mem; omega) (mkRange l r) hr sp
      refine ⟨lt', .granted, ?_, e2, ?_, .inl ⟨?_, rfl, ?_⟩, .inr (.inr e6)⟩
      · show Option.map _ (stoAppend { lt with stoTxn := t } (mkRange (cfg := cfg) l r).left (mkRange (cfg := cfg) l r).right sp) = _
        rw [e1]; rfl
      · unfold tableMem; rw [e5, htree]; simp only [Tree.toList, locksMem_nil] at e4 ⊢; omega
      · rintro u ⟨_, p, _, x, hx, _⟩; rw [hL] at hx; simp at hx
      · rw [hL]; exact granted_of_perm e3
    · rw [if_neg hstart, if_neg (by simp [hon])]
      simp only [Option.bind_some]
      rw [if_neg (by simp [hon]), if_pos hempty]
      obtain ⟨lt', res, e1, e2, e3, e4, e5⟩ := key lt h hon
      exact ⟨lt', res, e1, e2, e3, e4, .inr (.inl e5)⟩
  · obtain ⟨htree, ps, hb, hne⟩ := h.on hon
    have hempty : ¬ lt.stoBuf.isEmpty = true := fun h' => hne (hb.isEmpty.mp h')
    rw [if_neg (fun h' => hempty h'.2.1), if_pos hon]
    by_cases hend : lt.stoTxn ≠ t ∨ stoBufferMax < lt.stoBuf.numRanges
    · -- called off
      rw [if_pos hend]
      obtain ⟨lt1, f1, f2, f3, f4, f5⟩ := stoEndEarly_spec lt h hon
      rw [f1]
      simp only [Option.bind_some]
      have hempty1 : lt1.stoBuf.isEmpty = true := by rw [f2.off f3]; rfl
      rw [if_neg (by simp [f3]), if_pos hempty1]
      obtain ⟨lt', res, e1, e2, e3, e4, e5⟩ := key lt1 f2 f3
      exact ⟨lt', res, e1, e2, by omega, outcome_trans f4 e4, .inr (.inl e5)⟩
    · have hst : lt.stoTxn = t := Classical.byContradiction fun h' => hend (.inl h')
      rw [if_neg hend]
      simp only [Option.bind_some]
      rw [if_pos hon, if_neg (by simp [hst])]
      have hL : tableLocks lt = asLocks t ps := by simp [tableLocks, hb.ranges, hst, ht]
      obtain ⟨lt', e1, e2, e3, e4, e5, e6⟩ := sto_append_spec lt t ht hst htree hb (by rw [← hL]; exact h.lockable)
        (by have := h.charged; omega) (mkRange l r) hr sp
      refine ⟨lt', .granted, ?_, e2, ?_, .inl ⟨?_, rfl, ?_⟩, .inr (.inr e6)⟩
      · show Option.map _ (stoAppend lt (mkRange (cfg := cfg) l r).left (mkRange (cfg := cfg) l r).right sp) = _
        rw [e1]; rfl
      · unfold tableMem; rw [e5, htree]; simp only [Tree.toList, locksMem_nil]; omega
      · rintro u ⟨hu, p, _, x, hx, he, _⟩
        rw [hL] at hx
        obtain ⟨_, _, rfl⟩ := mem_asLocks.mp hx
        exact hu he.symm
      · rw [hL]; exact granted_of_perm e3

/-! ### Releasing -/

theorem removeOverlapping_spec (lt : LockTable cfg) (h : TableOk lt) (t : Txn) (hst : lt.stoTxn ≠ t) (range : Rng cfg)
    (hv : range.Valid) :
    ∃ lt', removeOverlapping lt t range = some lt' ∧ TableOk lt' ∧ lt'.mem + tableMem lt = lt.mem + tableMem lt' ∧
      lt'.stoTxn = lt.stoTxn ∧
      tableLocks lt' = (tableLocks lt).filter fun x => decide (¬ (x.2 = t ∧ range.Meets x.1)) := by
  obtain ⟨t1, path, t2, sub2, pre, post, h1, h2, h3, h4, h5, hctx, h6, h7, h8⟩ := search_spec lt.tree range h.sorted hv
  have hch := h.charged
  have hXm : ∀ x, x ∈ (meeting lt.tree.toList range).filter (fun x => decide (x.2 = t)) ↔
      x ∈ lt.tree.toList ∧ range.Meets x.1 ∧ x.2 = t := by
    intro x; simp only [List.mem_filter, mem_meeting, decide_eq_true_eq, and_assoc]
  obtain ⟨t3, sub3, m3, e1, e2, e0, e3, e4, e5⟩ := removeMany_spec path
    ((meeting lt.tree.toList range).filter (fun x => decide (x.2 = t))) t2 sub2 lt.mem h3 (by rw [h4]; exact h.sorted)
    (by
      intro x hx
      obtain ⟨hx, hm, _⟩ := (hXm x).mp hx
      rw [h5] at hx
      rcases List.mem_append.mp hx with hx | hx
      · rcases List.mem_append.mp hx with hx | hx
        · exact absurd hm (h6 x hx).not_meets'
        · exact hx
      · exact absurd hm (h7 x hx).not_meets)
    ((h.sorted.nodup.filter _).filter _)
    (by
      rcases h8 with h | ⟨w, hw, hwm⟩
      · exact .inl h
      · exact .inr ⟨w, hw, fun h => hwm ((hXm w).mp h).2.1⟩)
    (by rw [h4]; omega)
  have hl3 : t3.toList = lt.tree.toList.filter fun x => decide (¬ (x.2 = t ∧ range.Meets x.1)) := by
    rw [e3, h4]
    refine List.filter_congr fun x hx => ?_
    simp only [hXm, hx, true_and, decide_eq_decide]
    grind
  have hT : tableLocks (cfg := cfg) { lt with tree := t3, mem := m3 } =
      (tableLocks lt).filter fun x => decide (¬ (x.2 = t ∧ range.Meets x.1)) := by
    by_cases hon : lt.stoTxn = 0
    · simp only [tableLocks, hon, ne_eq, not_true_eq_false, if_false]; exact hl3
    · simp only [tableLocks, hon, ne_eq, not_false_eq_true, if_true]
      refine (List.filter_eq_self.mpr ?_).symm
      intro x hx
      obtain ⟨_, _, rfl⟩ := mem_asLocks.mp hx
      simp [hst]
  refine ⟨{ lt with tree := t3, mem := m3 }, ?_, ⟨?_, ?_, ?_, h.off, ?_, ?_⟩, ?_, rfl, hT⟩
  · unfold removeOverlapping
    rw [h1]; simp only [Option.bind_some]; rw [h2]; simp only [Option.bind_some]
    rw [removeOwned_eq, e1]; rfl
  · show Sorted t3.toList
    rw [hl3]; exact h.sorted.sublist List.filter_sublist
  · rw [hT]; intro x hx; exact h.lockable x (List.mem_filter.mp hx).1
  · rw [hT]; intro x hx; exact h.owner x (List.mem_filter.mp hx).1
  · intro hon
    obtain ⟨g1, g2⟩ := h.on hon
    refine ⟨?_, g2⟩
    rw [← Tree.toList_eq_nil]
    show t3.toList = []
    rw [hl3, g1]; simp [Tree.toList]
  · show locksMem t3.toList + lt.stoBuf.memory ≤ m3
    rw [h4] at e5; omega
  · show m3 + (locksMem lt.tree.toList + lt.stoBuf.memory) = lt.mem + (locksMem t3.toList + lt.stoBuf.memory)
    rw [h4] at e5; omega

theorem stoTryRelease_spec (lt : LockTable cfg) (h : TableOk lt) (t : Txn) (hst : lt.stoTxn ≠ 0 → lt.stoTxn = t) :
    ∃ lt' via, stoTryRelease lt t = some (lt', via) ∧ TableOk lt' ∧ lt'.mem + tableMem lt = lt.mem + tableMem lt' ∧
      lt'.stoTxn = 0 ∧ (via = true → tableLocks lt' = [] ∧ ∀ x ∈ tableLocks lt, x.2 = t) ∧
      (via = false → tableLocks lt' = tableLocks lt) := by
  unfold stoTryRelease
  by_cases hon : lt.stoTxn = 0
  · rw [if_neg (by simp [hon])]
    exact ⟨lt, false, rfl, h, rfl, hon, by simp, by simp⟩
  · rw [if_pos hon]
    obtain ⟨htree, ps, hb, hne⟩ := h.on hon
    have hch := h.charged
    rw [if_neg (by rw [htree]; simp [hst hon, Tree.isNil])]
    unfold stoEnd released
    rw [if_pos (by omega)]
    simp only [Option.map_some]
    refine ⟨_, true, rfl, ⟨h.sorted, ?_, ?_, fun _ => rfl, fun h => absurd rfl h, ?_⟩, ?_, rfl, ?_, by simp⟩
    · simp [tableLocks, htree, Tree.toList]
    · simp [tableLocks, htree, Tree.toList]
    · show locksMem lt.tree.toList + RangeBuffer.create.memory ≤ lt.mem - lt.stoBuf.memory
      rw [create_memory]; omega
    · show lt.mem - lt.stoBuf.memory + (locksMem lt.tree.toList + lt.stoBuf.memory) = lt.mem + (locksMem lt.tree.toList + RangeBuffer.create.memory)
      rw [create_memory]; omega
    · intro _
      refine ⟨by simp [tableLocks, htree, Tree.toList], ?_⟩
      intro x hx
      rw [tableLocks, if_pos hon] at hx
      obtain ⟨_, _, rfl⟩ := mem_asLocks.mp hx
      exact hst hon

end Verif.Lt
