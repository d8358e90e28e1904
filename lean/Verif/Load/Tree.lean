import Verif.Load.Merge
/-! Lemmas: writing the tree. -/
set_option autoImplicit false
set_option linter.unusedVariables false
set_option linter.unusedSimpArgs false

namespace Verif.Load
open Spec

variable {K V : Type} {cmp : K → K → Int}

/-! ## Leaves -/

/-- Sum of the sizes of some rows. -/
def sizes (e : Env K V) (l : List (Row K V)) : Nat := (l.map e.les).sum

theorem sizes_append (e : Env K V) (l l' : List (Row K V)) : sizes e (l ++ l') = sizes e l + sizes e l' := by
  simp [sizes]

theorem sizes_perm (e : Env K V) {l l' : List (Row K V)} (h : l.Perm l') : sizes e l = sizes e l' :=
  (h.map e.les).sum_nat

/-- The key of the last row. -/
def lastKey (l : List (Row K V)) : Option K := l.getLast?.map (·.1)

/-- State of the writer after some rows. -/
structure WInv (e : Env K V) (l : List (Row K V)) (ls : List (List (Row K V))) (w : Wr K V) : Prop where
  subs : w.subs = ls.map .leaf
  pivots : w.pivots = ls.map lastKey
  full : ∀ x ∈ ls, x ≠ []
  rows : ls.flatten ++ w.rows = l
  maxkey : w.maxkey = lastKey w.rows
  used : w.used = sizes e l

theorem wr_row {e : Env K V} {est : Nat} {l : List (Row K V)} {ls : List (List (Row K V))} {w : Wr K V} (h : WInv e l ls w) (r : Row K V) :
    ∃ w' ls', w.row e est r = .ok w' ∧ WInv e (l ++ [r]) ls' w' := by
  unfold Wr.row
  split
  · rename_i hs
    have hne : w.rows ≠ [] := by
      intro h0
      simp [splitHere, h0] at hs
    have hlast : w.rows.getLast? = some (w.rows.getLast hne) := List.getLast?_eq_some_getLast hne
    have hm : w.maxkey = some (w.rows.getLast hne).1 := by rw [h.maxkey, lastKey, hlast]; rfl
    rw [hm]
    refine ⟨_, ls ++ [w.rows], rfl, ?_⟩
    constructor
    · simp [h.subs]
    · simp [h.pivots, lastKey, hlast]
    · intro x hx
      rcases List.mem_append.1 hx with hx | hx
      · exact h.full x hx
      · rw [List.mem_singleton.1 hx]; exact hne
    · simp [← h.rows]
    · rfl
    · simp [h.used, sizes]
  · refine ⟨_, ls, rfl, ?_⟩
    constructor
    · exact h.subs
    · exact h.pivots
    · exact h.full
    · rw [← h.rows]; simp
    · simp [lastKey]
    · simp [h.used, sizes]

theorem wr_set {e : Env K V} {est : Nat} : ∀ (m l : List (Row K V)) (ls : List (List (Row K V))) (w : Wr K V), WInv e l ls w →
    ∃ w' ls', w.set e est m = .ok w' ∧ WInv e (l ++ m) ls' w' := by
  intro m
  induction m with
  | nil => intro l ls w h; exact ⟨w, ls, rfl, by simpa using h⟩
  | cons r m ih =>
    intro l ls w h
    obtain ⟨w1, ls1, h1, h2⟩ := wr_row (est := est) h r
    obtain ⟨w2, ls2, h3, h4⟩ := ih _ _ _ h2
    refine ⟨w2, ls2, ?_, by simpa using h4⟩
    simp only [Wr.set, h1, h3]

theorem wr_sets {e : Env K V} {est : Nat} : ∀ (q : List (List (Row K V))) (l : List (Row K V)) (ls : List (List (Row K V))) (w : Wr K V), WInv e l ls w →
    ∃ w' ls', w.sets e est q = .ok w' ∧ WInv e (l ++ q.flatten) ls' w' := by
  intro q
  induction q with
  | nil => intro l ls w h; exact ⟨w, ls, rfl, by simpa using h⟩
  | cons m q ih =>
    intro l ls w h
    obtain ⟨w1, ls1, h1, h2⟩ := wr_set (est := est) m _ _ _ h
    obtain ⟨w2, ls2, h3, h4⟩ := ih _ _ _ h2
    refine ⟨w2, ls2, ?_, by simpa using h4⟩
    simp only [Wr.sets, h1, h3]

/-! ## Nodes -/

/-- A subtree, and the pivot after it. -/
abbrev Sub (K V : Type) := Tree K V × Option K

/-- The rows of a subtree are not above its pivot. -/
structure Own (cmp : K → K → Int) (h : Nat) (x : Sub K V) : Prop where
  search : Search cmp h x.1
  le : ∀ k, x.2 = some k → ∀ r ∈ rowsOf h x.1, cmp r.1 k ≤ 0

/-- The pivot of a subtree is below the rows, and not above the pivot, of the subtrees after it. -/
def Before (cmp : K → K → Int) (h : Nat) (x y : Sub K V) : Prop :=
  ∃ k, x.2 = some k ∧ (∀ r ∈ rowsOf h y.1, cmp k r.1 < 0) ∧ (∀ k', y.2 = some k' → cmp k k' ≤ 0)

/-- A level of a search tree. -/
structure Chain (cmp : K → K → Int) (h : Nat) (ps : List (Sub K V)) : Prop where
  own : ∀ x ∈ ps, Own cmp h x
  before : ps.Pairwise (Before cmp h)

/-- A node over some subtrees, with the pivot after it. -/
def group (ps : List (Sub K V)) : Sub K V :=
  (.node ((ps.map (·.2)).take (ps.length - 1)) (ps.map (·.1)), (ps.map (·.2)).getLast?.getD none)

theorem rowsOf_group (h : Nat) (ps : List (Sub K V)) : rowsOf (h + 1) (group ps).1 = ps.flatMap (fun x => rowsOf h x.1) := by
  simp [group, rowsOf, List.flatMap_map]

theorem group_pivot {ps : List (Sub K V)} (hne : ps ≠ []) : ∃ x ∈ ps, (group ps).2 = x.2 ∧ ps.getLast? = some x := by
  refine ⟨ps.getLast hne, List.getLast_mem hne, ?_, List.getLast?_eq_some_getLast hne⟩
  simp only [group, List.getLast?_map, List.getLast?_eq_some_getLast hne, Option.map_some, Option.getD_some]

theorem before_get {h : Nat} {ps : List (Sub K V)} (hc : Chain cmp h ps) {i j : Nat} {x y : Sub K V} (hi : ps[i]? = some x) (hj : ps[j]? = some y)
    (hij : i < j) : Before cmp h x y := by
  obtain ⟨h1, rfl⟩ := List.getElem?_eq_some_iff.1 hi
  obtain ⟨h2, rfl⟩ := List.getElem?_eq_some_iff.1 hj
  exact List.pairwise_iff_getElem.1 hc.before i j h1 h2 hij

/-- A row of a subtree is not above the pivot of the same or a later subtree. -/
theorem le_pivot (ho : Order cmp) {h : Nat} {ps : List (Sub K V)} (hc : Chain cmp h ps) {i j : Nat} {x y : Sub K V} (hi : ps[i]? = some x) (hj : ps[j]? = some y)
    (hij : i ≤ j) {k : K} (hk : y.2 = some k) {r : Row K V} (hr : r ∈ rowsOf h x.1) : cmp r.1 k ≤ 0 := by
  by_cases he : i = j
  · subst he
    rw [hi] at hj
    injection hj with hj
    subst hj
    exact (hc.own x (List.mem_of_getElem? hi)).le k hk r hr
  · obtain ⟨k', h1, _, h3⟩ := before_get hc hi hj (by omega)
    exact ho.trans _ _ _ ((hc.own x (List.mem_of_getElem? hi)).le k' h1 r hr) (h3 k hk)

theorem group_own (ho : Order cmp) {h : Nat} {ps : List (Sub K V)} (hc : Chain cmp h ps) (h2 : 2 ≤ ps.length) (h15 : ps.length ≤ 15) :
    Own cmp (h + 1) (group ps) := by
  have hne : ps ≠ [] := by intro h; subst h; simp at h2
  constructor
  · refine Search.node h _ _ (by simpa using h2) (by simpa using h15) (by simp; omega) ?_ ?_
    · intro t ht
      obtain ⟨x, hx, rfl⟩ := List.mem_map.1 ht
      exact (hc.own x hx).search
    · intro i p hp
      rw [List.getElem?_take] at hp
      split at hp
      · rename_i hi
        rw [List.getElem?_map] at hp
        have hx : ps[i]? = some ps[i] := List.getElem?_eq_getElem (by omega)
        have hy : ps[i + 1]? = some ps[i + 1] := List.getElem?_eq_getElem (by omega)
        rw [hx] at hp
        injection hp with hp
        obtain ⟨k, hk, _, _⟩ := before_get hc hx hy (by omega)
        refine ⟨k, hp.symm.trans hk, ?_⟩
        intro j t hj r hr
        rw [List.getElem?_map] at hj
        cases hz : ps[j]? with
        | none => rw [hz] at hj; cases hj
        | some z =>
          rw [hz] at hj
          injection hj with hj
          subst hj
          refine ⟨fun hle => le_pivot ho hc hz hx hle hk hr, fun hlt => ?_⟩
          obtain ⟨k', hk', h3, _⟩ := before_get hc hx hz hlt
          rw [hk] at hk'
          injection hk' with hk'
          subst hk'
          exact h3 r hr
      · cases hp
  · intro k hk r hr
    rw [rowsOf_group] at hr
    obtain ⟨x, hx, hr⟩ := List.mem_flatMap.1 hr
    obtain ⟨y, hy, hyk, hyl⟩ := group_pivot hne
    obtain ⟨i, hi, hix⟩ := List.getElem_of_mem hx
    refine le_pivot ho hc (i := i) (j := ps.length - 1) (x := x) (y := y) (by rw [List.getElem?_eq_getElem hi, hix]) ?_ (by omega) (hyk.symm.trans hk) hr
    rw [← hyl, List.getLast?_eq_getElem?]

theorem group_before {h : Nat} {ps qs : List (Sub K V)} (hp : ps ≠ []) (hq : qs ≠ [])
    (hb : ∀ x ∈ ps, ∀ y ∈ qs, Before cmp h x y) : Before cmp (h + 1) (group ps) (group qs) := by
  obtain ⟨x, hx, hxk, _⟩ := group_pivot hp
  obtain ⟨y, hy, hyk, _⟩ := group_pivot hq
  obtain ⟨k, hk, _, h3⟩ := hb x hx y hy
  refine ⟨k, hxk.trans hk, ?_, ?_⟩
  · intro r hr
    rw [rowsOf_group] at hr
    obtain ⟨z, hz, hr⟩ := List.mem_flatMap.1 hr
    obtain ⟨k', hk', h4, _⟩ := hb x hx z hz
    rw [hk] at hk'
    injection hk' with hk'
    subst hk'
    exact h4 r hr
  · intro k' hk'
    exact h3 k' (hyk.symm.trans hk')

/-- Groups of 2 to 15. -/
def Sized (gs : List (List (Sub K V))) : Prop := ∀ g ∈ gs, 2 ≤ g.length ∧ g.length ≤ 15

theorem groups_chain (ho : Order cmp) {h : Nat} {gs : List (List (Sub K V))} (hc : Chain cmp h gs.flatten) (hs : Sized gs) :
    Chain cmp (h + 1) (gs.map group) := by
  have hpw := List.pairwise_flatten.1 hc.before
  constructor
  · intro x hx
    obtain ⟨g, hg, rfl⟩ := List.mem_map.1 hx
    refine group_own ho ⟨fun x hx => hc.own x (List.mem_flatten.2 ⟨g, hg, hx⟩), hpw.1 g hg⟩ (hs g hg).1 (hs g hg).2
  · rw [List.pairwise_map]
    refine List.Pairwise.imp_of_mem ?_ hpw.2
    intro a b ha hb hab
    refine group_before ?_ ?_ hab
    · intro h; subst h; have := hs _ ha; simp at this
    · intro h; subst h; have := hs _ hb; simp at this

theorem groups_rows (h : Nat) (gs : List (List (Sub K V))) :
    (gs.map group).flatMap (fun x => rowsOf (h + 1) x.1) = gs.flatten.flatMap (fun x => rowsOf h x.1) := by
  rw [List.flatMap_map]
  simp only [rowsOf_group]
  induction gs with
  | nil => rfl
  | cons g gs ih => rw [List.flatMap_cons, List.flatten_cons, List.flatMap_append, ih]

theorem groups_length (gs : List (List (Sub K V))) (hs : Sized gs) : 2 * gs.length ≤ gs.flatten.length := by
  induction gs with
  | nil => simp
  | cons g gs ih =>
    have h1 := hs g (by simp)
    have h2 := ih (fun x hx => hs x (by simp [hx]))
    rw [List.flatten_cons, List.length_append, List.length_cons]
    omega

/-- A level in the making: groups made, subtrees left. -/
structure LInv (ps : List (Sub K V)) (gs : List (List (Sub K V))) (rest : List (Sub K V)) (s : Lev K V) : Prop where
  subs : s.subs = rest.map (·.1)
  pivots : s.pivots = rest.map (·.2)
  nsubs : s.nsubs = gs.map (fun g => (group g).1)
  npivots : s.npivots = gs.map (fun g => (group g).2)
  all : gs.flatten ++ rest = ps
  sized : Sized gs

theorem lev_block {ps rest : List (Sub K V)} {gs : List (List (Sub K V))} {s : Lev K V} (h : LInv ps gs rest s) (n : Nat) (h2 : 2 ≤ n) (h15 : n ≤ 15)
    (hn : n ≤ rest.length) : ∃ s', s.block n = .ok s' ∧ LInv ps (gs ++ [rest.take n]) (rest.drop n) s' := by
  unfold Lev.block
  have hl1 : s.pivots.length = rest.length := by rw [h.pivots]; simp
  have hl2 : s.subs.length = rest.length := by rw [h.subs]; simp
  rw [if_neg (by omega)]
  have hne : s.pivots.take n ≠ [] := by
    intro h0
    have := congrArg List.length h0
    rw [List.length_take, List.length_nil] at this
    omega
  have hlast : (s.pivots.take n).getLast? = some ((s.pivots.take n).getLast hne) := List.getLast?_eq_some_getLast hne
  rw [hlast]
  simp only
  rw [if_neg (by omega)]
  refine ⟨_, rfl, ?_⟩
  have hg2 : (group (rest.take n)).2 = (s.pivots.take n).getLast hne := by
    simp only [group, List.map_take, ← h.pivots, hlast, Option.getD_some]
  have hg1 : (group (rest.take n)).1 = .node (s.pivots.take (n - 1)) (s.subs.take n) := by
    simp only [group, List.map_take, ← h.pivots, ← h.subs]
    congr 1
    rw [List.take_take]
    congr 1
    simp
    omega
  constructor
  · simp [h.subs]
  · simp [h.pivots]
  · simp [h.nsubs, hg1]
  · simp [h.npivots, hg2]
  · simp [← h.all]
  · intro g hg
    rcases List.mem_append.1 hg with hg | hg
    · exact h.sized g hg
    · rw [List.mem_singleton.1 hg]
      simp
      omega

theorem lev_full {ps : List (Sub K V)} : ∀ (n : Nat) (rest : List (Sub K V)) (gs : List (List (Sub K V))) (s : Lev K V), rest.length < n → 2 ≤ rest.length → LInv ps gs rest s →
    ∃ gs' rest' s', Lev.full n s = .ok s' ∧ LInv ps gs' rest' s' ∧ 2 ≤ rest'.length ∧ rest'.length < 30 := by
  intro n
  induction n with
  | zero => intro rest gs s h; omega
  | succ n ih =>
    intro rest gs s hn h2 h
    have hl2 : s.subs.length = rest.length := by rw [h.subs]; simp
    simp only [Lev.full]
    split
    · rename_i h30
      obtain ⟨s', h1, h3⟩ := lev_block h 15 (by omega) (by omega) (by omega)
      rw [h1]
      exact ih _ _ _ (by simp; omega) (by simp; omega) h3
    · exact ⟨gs, rest, s, rfl, h, h2, by omega⟩

theorem lev_rest {ps rest : List (Sub K V)} {gs : List (List (Sub K V))} {s : Lev K V} (h : LInv ps gs rest s) (h2 : 2 ≤ rest.length) (h30 : rest.length < 30) :
    ∃ gs' s', s.rest = .ok s' ∧ LInv ps gs' [] s' := by
  have hl2 : s.subs.length = rest.length := by rw [h.subs]; simp
  simp only [Lev.rest]
  rw [if_neg (by omega)]
  split
  · obtain ⟨s1, h1, h3⟩ := lev_block h (s.subs.length / 2) (by omega) (by omega) (by omega)
    rw [h1]
    simp only
    have hl3 : s1.subs.length = rest.length - s.subs.length / 2 := by rw [h3.subs]; simp
    obtain ⟨s2, h4, h5⟩ := lev_block h3 s1.subs.length (by omega) (by omega) (by simp; omega)
    refine ⟨(gs ++ [rest.take (s.subs.length / 2)]) ++ [(rest.drop (s.subs.length / 2)).take s1.subs.length], s2, h4, ?_⟩
    have : (rest.drop (s.subs.length / 2)).drop s1.subs.length = [] := by
      apply List.drop_eq_nil_of_le; simp; omega
    rw [this] at h5
    exact h5
  · obtain ⟨s1, h1, h3⟩ := lev_block h s.subs.length (by omega) (by omega) (by omega)
    refine ⟨gs ++ [rest.take s.subs.length], s1, h1, ?_⟩
    have : rest.drop s.subs.length = [] := by
      apply List.drop_eq_nil_of_le; omega
    rw [this] at h3
    exact h3

theorem nonleaves_spec (ho : Order cmp) : ∀ (n h : Nat) (ps : List (Sub K V)), ps.length < n → 1 ≤ ps.length → Chain cmp h ps →
    ∃ t h', nonleaves n (ps.map (·.1)) (ps.map (·.2)) = .ok [t] ∧ Search cmp h' t ∧ rowsOf h' t = ps.flatMap (fun x => rowsOf h x.1) := by
  intro n
  induction n with
  | zero => intro h ps hn; omega
  | succ n ih =>
    intro h ps hn h1 hc
    simp only [nonleaves]
    rw [List.length_map]
    split
    · rename_i h2
      have h0 : LInv ps [] ps ⟨ps.map (·.1), ps.map (·.2), [], []⟩ := ⟨rfl, rfl, rfl, rfl, rfl, by intro g hg; cases hg⟩
      obtain ⟨gs, rest, s, e1, i1, l1, l2⟩ := lev_full (ps.length + 1) ps [] _ (by omega) (by omega) h0
      obtain ⟨gs', s', e2, i2⟩ := lev_rest i1 l1 l2
      rw [e1]
      simp only
      rw [e2]
      simp only
      have hz : s'.subs.length = 0 := by rw [i2.subs]; rfl
      rw [if_pos hz]
      have hall : gs'.flatten = ps := by have := i2.all; simpa using this
      have hlen := groups_length gs' i2.sized
      rw [hall] at hlen
      have hne : gs' ≠ [] := by intro h; subst h; simp at hall; subst hall; simp at h1
      have hpos : 0 < gs'.length := List.length_pos_iff.2 hne
      obtain ⟨t, h', g1, g2, g3⟩ := ih (h + 1) (gs'.map group) (by simp; omega) (by simp; omega) (groups_chain ho (by rw [hall]; exact hc) i2.sized)
      refine ⟨t, h', ?_, g2, ?_⟩
      · rw [i2.nsubs, i2.npivots]
        rw [List.map_map, List.map_map] at g1
        exact g1
      · rw [g3, groups_rows, hall]
    · rename_i h2
      obtain ⟨x, rfl⟩ := List.length_eq_one_iff.1 (show ps.length = 1 by omega)
      exact ⟨x.1, h, rfl, (hc.own x (by simp)).search, by simp⟩

theorem lastKey_le (ho : Order cmp) {l : List (Row K V)} (hs : Sorted cmp l) {k : K} (hk : lastKey l = some k) : ∀ r ∈ l, cmp r.1 k ≤ 0 := by
  rcases List.eq_nil_or_concat l with rfl | ⟨t, m, rfl⟩
  · simp
  · rw [List.concat_eq_append] at *
    simp [lastKey] at hk
    subst hk
    intro r hr
    rcases List.mem_append.1 hr with hr | hr
    · have := (List.pairwise_append.1 hs).2.2 r hr m (by simp)
      omega
    · rw [List.mem_singleton.1 hr]
      have := ho.refl m.1
      omega

theorem leaves_chain (ho : Order cmp) (ls : List (List (Row K V))) (last : List (Row K V)) (hs : Sorted cmp (ls.flatten ++ last)) (hf : ∀ x ∈ ls, x ≠ []) :
    Chain cmp 0 (ls.map (fun l => ((Tree.leaf l, lastKey l) : Sub K V)) ++ [(.leaf last, none)]) := by
  obtain ⟨hs1, hs2, hs3⟩ := List.pairwise_append.1 hs
  have hpw := List.pairwise_flatten.1 hs1
  have hk : ∀ l ∈ ls, ∃ r ∈ l, lastKey l = some r.1 := by
    intro l hl
    refine ⟨l.getLast (hf l hl), List.getLast_mem _, ?_⟩
    rw [lastKey, List.getLast?_eq_some_getLast (hf l hl)]; rfl
  constructor
  · intro x hx
    rcases List.mem_append.1 hx with hx | hx
    · obtain ⟨l, hl, rfl⟩ := List.mem_map.1 hx
      refine ⟨Search.leaf l (hpw.1 l hl), ?_⟩
      intro k hk r hr
      exact lastKey_le ho (hpw.1 l hl) hk r hr
    · rw [List.mem_singleton.1 hx]
      exact ⟨Search.leaf last hs2, by intro k hk; cases hk⟩
  · refine List.pairwise_append.2 ⟨?_, List.pairwise_singleton _ _, ?_⟩
    · rw [List.pairwise_map]
      refine List.Pairwise.imp_of_mem ?_ hpw.2
      intro a b ha hb hab
      obtain ⟨r, hr, hrk⟩ := hk a ha
      refine ⟨r.1, hrk, fun r' hr' => hab r hr r' hr', ?_⟩
      intro k' hk'
      obtain ⟨r2, hr2, hrk2⟩ := hk b hb
      simp only at hk'
      rw [hrk2] at hk'
      injection hk' with hk'
      subst hk'
      have := hab r hr r2 hr2
      omega
    · intro x hx y hy
      obtain ⟨l, hl, rfl⟩ := List.mem_map.1 hx
      rw [List.mem_singleton.1 hy]
      obtain ⟨r, hr, hrk⟩ := hk l hl
      refine ⟨r.1, hrk, ?_, by intro k' hk'; cases hk'⟩
      intro r' hr'
      exact hs3 r (List.mem_flatten.2 ⟨l, hl, hr⟩) r' hr'

theorem writeTree_spec {e : Env K V} (ho : Order e.cmp) (est : Nat) (q : List (List (Row K V))) (hs : Sorted e.cmp q.flatten) (hz : est = sizes e q.flatten) :
    ∃ t h, writeTree e est q = .ok t ∧ Search e.cmp h t ∧ rowsOf h t = q.flatten := by
  have h0 : WInv e [] [] (⟨[], [], [], 0, none, 0⟩ : Wr K V) := ⟨rfl, rfl, by simp, rfl, rfl, rfl⟩
  obtain ⟨w, ls, h1, h2⟩ := wr_sets (est := est) q [] [] _ h0
  unfold writeTree
  rw [h1]
  simp only
  rw [List.nil_append] at h2
  rw [if_neg (by rw [h2.used, hz]; simp)]
  have hrows := h2.rows
  have hc := leaves_chain ho ls w.rows (by rw [hrows]; exact hs) h2.full
  obtain ⟨t, h, g1, g2, g3⟩ := nonleaves_spec ho (w.subs.length + 2) 0 _ (by rw [h2.subs]; simp) (by simp) hc
  simp only [List.map_append, List.map_map, List.map_cons, List.map_nil] at g1
  have e1 : ls.map ((fun x : Sub K V => x.1) ∘ fun l => ((Tree.leaf l, lastKey l) : Sub K V)) = w.subs := by
    rw [h2.subs]; rfl
  have e2 : ls.map ((fun x : Sub K V => x.2) ∘ fun l => ((Tree.leaf l, lastKey l) : Sub K V)) = w.pivots := by
    rw [h2.pivots]; rfl
  rw [e1, e2] at g1
  refine ⟨t, h, ?_, g2, ?_⟩
  · rw [g1]
  · rw [g3, ← hrows]
    rw [List.flatMap_append, List.flatMap_map]
    simp [rowsOf, List.flatMap_def]

/-! ## Searching -/

theorem childOf_spec (k : K) : ∀ (ps : List (Option K)), (∀ p ∈ ps, p ≠ none) →
    childOf cmp k ps ≤ ps.length ∧ (∀ i p, i < childOf cmp k ps → ps[i]? = some (some p) → 0 < cmp k p) ∧
      (∀ p, ps[childOf cmp k ps]? = some (some p) → cmp k p ≤ 0) := by
  intro ps
  induction ps with
  | nil => intro _; simp [childOf]
  | cons p ps ih =>
    intro h
    cases p with
    | none => exact absurd rfl (h none (by simp))
    | some p =>
      obtain ⟨h1, h2, h3⟩ := ih (fun q hq => h q (by simp [hq]))
      simp only [childOf]
      split
      · rename_i hk
        refine ⟨by omega, by intro i q hi; omega, ?_⟩
        intro q hq
        simp at hq
        rw [← hq]; exact hk
      · rename_i hk
        refine ⟨by simp; omega, ?_, ?_⟩
        · intro i q hi hq
          cases i with
          | zero => simp at hq; rw [← hq]; omega
          | succ i => exact h2 i q (by omega) (by simpa using hq)
        · intro q hq
          exact h3 q (by simpa using hq)

theorem find_flatMap {α : Type} (l : List α) (f : α → List (Row K V)) (p : Row K V → Bool) (c : Nat) (hc : c < l.length)
    (h : ∀ j x, j ≠ c → l[j]? = some x → ∀ r ∈ f x, p r = false) : (l.flatMap f).find? p = (f l[c]).find? p := by
  induction l generalizing c with
  | nil => simp at hc
  | cons a l ih =>
    rw [List.flatMap_cons, List.find?_append]
    cases c with
    | zero =>
      have : (l.flatMap f).find? p = none := by
        rw [List.find?_eq_none]
        intro r hr
        obtain ⟨x, hx, hr⟩ := List.mem_flatMap.1 hr
        obtain ⟨j, hj, hjx⟩ := List.getElem_of_mem hx
        have := h (j + 1) x (by omega) (by rw [List.getElem?_cons_succ, List.getElem?_eq_getElem hj, hjx]) r hr
        simp [this]
      rw [this]
      simp
    | succ c =>
      have : (f a).find? p = none := by
        rw [List.find?_eq_none]
        intro r hr
        have := h 0 a (by omega) (by simp) r hr
        simp [this]
      rw [this]
      simp only [Option.none_or, List.getElem_cons_succ]
      refine ih c (by simpa using hc) ?_
      intro j x hj hx
      exact h (j + 1) x (by omega) (by simpa using hx)

theorem find_spec (ho : Order cmp) (k : K) {h : Nat} {t : Tree K V} (hs : Search cmp h t) :
    find cmp k h t = (rowsOf h t).find? (fun r => cmp r.1 k = 0) := by
  induction hs with
  | leaf rows _ => simp [find, rowsOf]
  | node h pivots kids h2 h15 hl hk hp ih =>
    have hnn : ∀ p ∈ pivots, p ≠ none := by
      intro p hpm
      obtain ⟨i, hi, hip⟩ := List.getElem_of_mem hpm
      obtain ⟨q, hq, _⟩ := hp i p (by rw [List.getElem?_eq_getElem hi, hip])
      rw [hq]; simp
    obtain ⟨c1, c2, c3⟩ := childOf_spec (cmp := cmp) k pivots hnn
    generalize hcd : childOf cmp k pivots = c at c1 c2 c3
    have hcl : c < kids.length := by omega
    simp only [find, rowsOf, hcd]
    rw [List.getElem?_eq_getElem hcl]
    simp only
    rw [ih _ (List.getElem_mem hcl)]
    symm
    refine find_flatMap kids (rowsOf h) _ c hcl ?_
    intro j x hj hx r hr
    have hne : cmp r.1 k ≠ 0 := by
      rcases Nat.lt_or_gt_of_ne hj with hlt | hgt
      · have hpl : c - 1 < pivots.length := by omega
        obtain ⟨q, hq, hall⟩ := hp (c - 1) pivots[c - 1] (List.getElem?_eq_getElem hpl)
        have h1 := (hall j x hx r hr).1 (by omega)
        have h3 := c2 (c - 1) q (by omega) (by rw [List.getElem?_eq_getElem hpl, hq])
        have := ho.lt_of_le_of_lt h1 (ho.gt h3)
        omega
      · have hkl : j < kids.length := (List.getElem?_eq_some_iff.1 hx).1
        have hpl : c < pivots.length := by omega
        obtain ⟨q, hq, hall⟩ := hp c pivots[c] (List.getElem?_eq_getElem hpl)
        have h1 := (hall j x hx r hr).2 hgt
        have h3 := c3 q (by rw [List.getElem?_eq_getElem hpl, hq])
        have h4 := ho.lt_of_le_of_lt h3 h1
        intro h0
        have := ho.comm0 h0
        omega
    simpa using hne

end Verif.Load
