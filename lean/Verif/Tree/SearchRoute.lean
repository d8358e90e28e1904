import Verif.Tree.SearchLemmas

/-! Where an attempt ends, and what the bound it leaves says. -/
namespace Verif.Tree
set_option linter.unusedSectionVars false
variable {K R B : Type} [LinearOrder K]

/-- What is still to be looked at: keys that satisfy the goal and are beyond the pivot bound. -/
def Left (g : Goal K) (pb : Option K) (x : K) : Prop :=
  g.cmp x = true ∧ ∀ b, pb = some b → if g.left then b < x else x ≤ b

/-- Within the key bound of the search. -/
def Within (g : Goal K) (x : K) : Prop := ∀ b, g.bound = some b → x ≤ b

/-- Not above an inclusive upper bound. -/
def UpTo (hi : Option K) (x : K) : Prop := ∀ b, hi = some b → x ≤ b

theorem child_left {α : Type} {P : Option K → Option K → α → Prop} {g : Goal K} (hg : g.left = true) {pb : Option K} {lo hi : Option K}
    {ks ext : List K} {ps : List α} (h : Chain P lo hi ks ps) :
    ∃ i p, searchChild g pb ps.length (ks ++ ext) = some i ∧ ps[i]? = some p ∧
      (∀ x, InB lo hi x → Left g pb x → Above (childLo lo ks i) x) ∧
      (∀ b0 b', missed g ps.length (ks ++ ext) i b0 = (true, b') → ∃ y, b' = some y ∧ childHi hi ks ps.length i = some y ∧
        (∀ b, pb = some b → b < y) ∧ Below hi y ∧ Within g y) ∧
      (∀ b0 b', missed g ps.length (ks ++ ext) i b0 = (false, b') → ∀ x, InB lo hi x → Within g x → UpTo (childHi hi ks ps.length i) x) := by
  have hl := h.length
  obtain ⟨i, q1, q2, q3, q4⟩ := searchChild_left hg (pb := pb) (ext := ext) (chain_sorted h)
  rw [← hl] at q1
  have hi' : i < ps.length := by omega
  refine ⟨i, ps[i], q1, List.getElem?_eq_getElem hi', ?_, ?_, ?_⟩
  · intro x hx hr a ha
    unfold childLo at ha
    split at ha
    · exact hx.1 a ha
    · rcases q3 a (by omega) ha with h1 | ⟨b, h1, h2⟩
      · refine not_le.1 fun hle => ?_
        have := g.up hg hle hr.1
        rw [h1] at this
        cases this
      · have := hr.2 b h1
        rw [hg, if_pos rfl] at this
        exact lt_of_le_of_lt h2 this
  · intro b0 b' hm
    unfold missed at hm
    rw [hg] at hm
    simp only [if_true] at hm
    split at hm
    · rename_i hlt
      have hk : i < ks.length := by omega
      rw [List.getElem?_append_left hk, List.getElem?_eq_getElem hk] at hm
      simp only at hm
      refine ⟨ks[i], (Prod.mk.inj hm).2.symm, ?_, fun b hb => q4 _ b (List.getElem?_eq_getElem hk) hb,
        (chain_below h _ (List.getElem_mem hk)).1, ?_⟩
      · unfold childHi
        rw [if_neg (by omega), List.getElem?_eq_getElem hk]
      · intro kb hkb
        have := (Prod.mk.inj hm).1
        rw [hkb] at this
        simp only [decide_eq_true_eq] at this
        exact le_of_lt this
    · cases (Prod.mk.inj hm).1
  · intro b0 b' hm x hx hw
    unfold missed at hm
    rw [hg] at hm
    simp only [if_true] at hm
    intro y hy
    unfold childHi at hy
    split at hy
    · exact hx.2 y hy
    · rename_i hne
      rw [if_pos (by omega)] at hm
      have hk := lt_of_getElem? hy
      rw [List.getElem?_append_left hk, hy] at hm
      simp only at hm
      have := (Prod.mk.inj hm).1
      cases hb : g.bound with
      | none => rw [hb] at this; cases this
      | some kb =>
        rw [hb] at this
        simp only [decide_eq_false_iff_not] at this
        exact le_trans (hw kb hb) (not_lt.1 this)

theorem child_right {α : Type} {P : Option K → Option K → α → Prop} {g : Goal K} (hg : g.left = false) {pb : Option K} {lo hi : Option K}
    {ks ext : List K} {ps : List α} (h : Chain P lo hi ks ps) :
    ∃ i p, searchChild g pb ps.length (ks ++ ext) = some i ∧ ps[i]? = some p ∧
      (∀ x, InB lo hi x → Left g pb x → UpTo (childHi hi ks ps.length i) x) ∧
      (∀ b0 b', missed g ps.length (ks ++ ext) i b0 = (true, b') → ∃ y, b' = some y ∧ childLo lo ks i = some y ∧
        (∀ b, pb = some b → y < b) ∧ Above lo y) ∧
      (∀ b0 b', missed g ps.length (ks ++ ext) i b0 = (false, b') → ∀ x, InB lo hi x → Above (childLo lo ks i) x) := by
  have hl := h.length
  obtain ⟨i, q1, q2, q3, q4⟩ := searchChild_right hg (pb := pb) (ext := ext) (chain_sorted h)
  rw [← hl] at q1
  have hi' : i < ps.length := by omega
  refine ⟨i, ps[i], q1, List.getElem?_eq_getElem hi', ?_, ?_, ?_⟩
  · intro x hx hr a ha
    unfold childHi at ha
    split at ha
    · exact hx.2 a ha
    · rcases q3 a ha with h1 | ⟨b, h1, h2⟩
      · refine le_of_lt (not_le.1 fun hle => ?_)
        have := g.down hg hle hr.1
        rw [h1] at this
        cases this
      · have := hr.2 b h1
        rw [hg] at this
        simp only [Bool.false_eq_true, if_false] at this
        exact le_trans this h2
  · intro b0 b' hm
    unfold missed at hm
    rw [hg] at hm
    simp only [Bool.false_eq_true, if_false] at hm
    split at hm
    · rename_i hlt
      have hk : i - 1 < ks.length := by omega
      rw [List.getElem?_append_left hk, List.getElem?_eq_getElem hk] at hm
      simp only at hm
      refine ⟨ks[i - 1], (Prod.mk.inj hm).2.symm, ?_, fun b hb => q4 _ b hlt (List.getElem?_eq_getElem hk) hb,
        (chain_below h _ (List.getElem_mem hk)).2⟩
      unfold childLo
      rw [if_neg (by omega), List.getElem?_eq_getElem hk]
    · cases (Prod.mk.inj hm).1
  · intro b0 b' hm x hx
    unfold missed at hm
    rw [hg] at hm
    simp only [Bool.false_eq_true, if_false] at hm
    intro y hy
    unfold childLo at hy
    split at hy
    · exact hx.1 y hy
    · rename_i hne
      rw [if_pos (by omega)] at hm
      have hk := lt_of_getElem? hy
      rw [List.getElem?_append_left hk, hy] at hm
      simp only at hm
      cases (Prod.mk.inj hm).1

theorem childHi_below {α : Type} {P : Option K → Option K → α → Prop} {lo hi : Option K} {ks : List K} {ps : List α}
    (h : Chain P lo hi ks ps) {i : Nat} (hi' : i < ps.length) {y : K} (hy : Below (childHi hi ks ps.length i) y) : Below hi y := by
  have hl := h.length
  unfold childHi at hy
  split at hy
  · exact hy
  · have hk : i < ks.length := by omega
    rw [List.getElem?_eq_getElem hk] at hy
    intro b hb
    exact lt_trans (hy _ rfl) ((chain_below h _ (List.getElem_mem hk)).1 b hb)

theorem missedUp_cons {g : Goal K} {h : Nat} {i : Nat} {route : List Nat} {n : Inner K B (Node K R B h)} {pb : Option K} {s : Slot K B}
    {ch : Node K R B h} (hk : n.kids[i]? = some (s, ch)) :
    missedUp g (h + 1) (i :: route) n pb = (match missedUp g h route ch pb with
        | (true, b) => (true, b)
        | (false, b) => missed g n.kids.length n.pivots i b) := by
  show (match n.kids[i]? with | none => _ | some (_, c) => _) = _
  rw [hk]
  rfl

/-- Searching to the right: the attempt reads the basement with bounds `lo'`, `hi'`, which has everything that is left up
to any key in it; if it goes on, everything up to the new bound, which has moved; if not, everything. -/
theorem route_left {c : Ctx K R B} {g : Goal K} (hg : g.left = true) {pb : Option K} : ∀ {h : Nat} {lo hi : Option K}
    {U : List (Ent K B)} {n : Node K R B h}, Good c h lo hi U n →
    ∃ route lo' hi', searchRoute g pb h n = some route ∧ boundsAt h lo hi route n = some (lo', hi') ∧ Sub lo' hi' lo hi ∧
      (∀ x k, InB lo hi x → Left g pb x → InB lo' hi' k → x ≤ k → InB lo' hi' x) ∧
      (∀ b', missedUp g h route n pb = (true, b') → ∃ y, b' = some y ∧ (∀ b, pb = some b → b < y) ∧ Below hi y ∧ Within g y ∧
        ∀ x, InB lo hi x → Left g pb x → x ≤ y → InB lo' hi' x) ∧
      (∀ b', missedUp g h route n pb = (false, b') → ∀ x, InB lo hi x → Left g pb x → Within g x → InB lo' hi' x)
  | 0, lo, hi, U, l, hgd => by
    obtain ⟨i, p, q1, q2, q3, q4, q5⟩ := child_left hg (pb := pb) (ext := (Leaf.pivots l).drop ((Leaf.parts l).length - 1)) hgd.1.chain
    have e := Leaf.pivots_eq (l : Leaf K R)
    rw [← e] at q1 q4 q5
    have hi' := lt_of_getElem? q2
    refine ⟨[i], childLo lo (Leaf.pivots l) i, childHi hi (Leaf.pivots l) (Leaf.parts l).length i, ?_, ?_, ?_, ?_, ?_, ?_⟩
    · unfold searchRoute
      rw [q1]
    · unfold boundsAt
      rw [if_pos hi']
    · rw [childLo_ks hi', childHi_ks hi']
      exact childLo_inB hgd.1.chain hi'
    · rw [childLo_ks hi', childHi_ks hi']
      exact fun x k hx hr hk hxk => ⟨q3 x hx hr, fun b hb => le_trans hxk (hk.2 b hb)⟩
    · intro b' hm
      rw [childLo_ks hi', childHi_ks hi']
      obtain ⟨y, w1, w2, w3, w4, w5⟩ := q4 pb b' hm
      refine ⟨y, w1, w3, w4, w5, fun x hx hr hxy => ⟨q3 x hx hr, fun z hz => ?_⟩⟩
      rw [w2] at hz
      cases hz
      exact hxy
    · intro b' hm x hx hr hw
      rw [childLo_ks hi', childHi_ks hi']
      exact ⟨q3 x hx hr, q5 pb b' hm x hx hw⟩
  | h + 1, lo, hi, U, n, hgd => by
    obtain ⟨h1, h2, h3⟩ := hgd
    obtain ⟨i, ⟨s, ch⟩, q1, q2, q3, q4, q5⟩ := child_left hg (pb := pb) (ext := []) h3
    rw [List.append_nil] at q1 q4 q5
    have hi' := lt_of_getElem? q2
    have hsub := childLo_inB h3 hi'
    obtain ⟨route, lo', hi2, r1, r2, r0, r3, r4, r5⟩ := route_left hg (pb := pb) (chain_get h3 q2).2
    have em := missedUp_cons (g := g) (route := route) (pb := pb) q2
    refine ⟨i :: route, lo', hi2, ?_, ?_, r0.trans hsub, ?_, ?_, ?_⟩
    · unfold searchRoute
      simp only [q1, q2, r1]
      rfl
    · unfold boundsAt
      simp only [q2]
      exact r2
    · intro x k hx hr hk hxk
      exact r3 x k ⟨q3 x hx hr, fun b hb => le_trans hxk ((r0 k hk).2 b hb)⟩ hr hk hxk
    · intro b' hm
      rw [em] at hm
      split at hm
      · rename_i b hb
        obtain ⟨y, w1, w2, w3, w4, w5⟩ := r4 b hb
        refine ⟨y, (Prod.mk.inj hm).2 ▸ w1, w2, childHi_below h3 hi' w3, w4, ?_⟩
        intro x hx hr hxy
        exact w5 x ⟨q3 x hx hr, fun b hb => le_trans hxy (le_of_lt (w3 b hb))⟩ hr hxy
      · rename_i b hb
        obtain ⟨y, w1, w2, w3, w4, w5⟩ := q4 b b' hm
        refine ⟨y, w1, w3, w4, w5, ?_⟩
        intro x hx hr hxy
        refine r5 b hb x ⟨q3 x hx hr, fun z hz => ?_⟩ hr fun kb hkb => le_trans hxy (w5 kb hkb)
        rw [w2] at hz
        cases hz
        exact hxy
    · intro b' hm x hx hr hw
      rw [em] at hm
      split at hm
      · cases (Prod.mk.inj hm).1
      · rename_i b hb
        exact r5 b hb x ⟨q3 x hx hr, q5 b b' hm x hx hw⟩ hr hw

theorem childLo_above {α : Type} {P : Option K → Option K → α → Prop} {lo hi : Option K} {ks : List K} {ps : List α}
    (h : Chain P lo hi ks ps) {i : Nat} (hi' : i < ps.length) {y : K} (hy : Above (childLo lo ks i) y) : Above lo y := by
  have hl := h.length
  unfold childLo at hy
  split at hy
  · exact hy
  · have hk : i - 1 < ks.length := by omega
    rw [List.getElem?_eq_getElem hk] at hy
    intro b hb
    exact lt_trans ((chain_below h _ (List.getElem_mem hk)).2 b hb) (hy _ rfl)

/-- Searching to the left. -/
theorem route_right {c : Ctx K R B} {g : Goal K} (hg : g.left = false) {pb : Option K} : ∀ {h : Nat} {lo hi : Option K}
    {U : List (Ent K B)} {n : Node K R B h}, Good c h lo hi U n →
    ∃ route lo' hi', searchRoute g pb h n = some route ∧ boundsAt h lo hi route n = some (lo', hi') ∧ Sub lo' hi' lo hi ∧
      (∀ x k, InB lo hi x → Left g pb x → InB lo' hi' k → k ≤ x → InB lo' hi' x) ∧
      (∀ b', missedUp g h route n pb = (true, b') → ∃ y, b' = some y ∧ (∀ b, pb = some b → y < b) ∧ Above lo y ∧
        (∀ x, InB lo hi x → Left g pb x → y < x → InB lo' hi' x)) ∧
      (∀ b', missedUp g h route n pb = (false, b') → ∀ x, InB lo hi x → Left g pb x → InB lo' hi' x)
  | 0, lo, hi, U, l, hgd => by
    obtain ⟨i, p, q1, q2, q3, q4, q5⟩ := child_right hg (pb := pb) (ext := (Leaf.pivots l).drop ((Leaf.parts l).length - 1)) hgd.1.chain
    have e := Leaf.pivots_eq (l : Leaf K R)
    rw [← e] at q1 q4 q5
    have hi' := lt_of_getElem? q2
    refine ⟨[i], childLo lo (Leaf.pivots l) i, childHi hi (Leaf.pivots l) (Leaf.parts l).length i, ?_, ?_, ?_, ?_, ?_, ?_⟩
    · unfold searchRoute
      rw [q1]
    · unfold boundsAt
      rw [if_pos hi']
    · rw [childLo_ks hi', childHi_ks hi']
      exact childLo_inB hgd.1.chain hi'
    · rw [childLo_ks hi', childHi_ks hi']
      exact fun x k hx hr hk hxk => ⟨fun b hb => lt_of_lt_of_le (hk.1 b hb) hxk, q3 x hx hr⟩
    · intro b' hm
      rw [childLo_ks hi', childHi_ks hi']
      obtain ⟨y, w1, w2, w3, w4⟩ := q4 pb b' hm
      refine ⟨y, w1, w3, w4, fun x hx hr hxy => ⟨fun z hz => ?_, q3 x hx hr⟩⟩
      rw [w2] at hz
      cases hz
      exact hxy
    · intro b' hm x hx hr
      rw [childLo_ks hi', childHi_ks hi']
      exact ⟨q5 pb b' hm x hx, q3 x hx hr⟩
  | h + 1, lo, hi, U, n, hgd => by
    obtain ⟨h1, h2, h3⟩ := hgd
    obtain ⟨i, ⟨s, ch⟩, q1, q2, q3, q4, q5⟩ := child_right hg (pb := pb) (ext := []) h3
    rw [List.append_nil] at q1 q4 q5
    have hi' := lt_of_getElem? q2
    have hsub := childLo_inB h3 hi'
    obtain ⟨route, lo', hi2, r1, r2, r0, r3, r4, r5⟩ := route_right hg (pb := pb) (chain_get h3 q2).2
    have em := missedUp_cons (g := g) (route := route) (pb := pb) q2
    refine ⟨i :: route, lo', hi2, ?_, ?_, r0.trans hsub, ?_, ?_, ?_⟩
    · unfold searchRoute
      simp only [q1, q2, r1]
      rfl
    · unfold boundsAt
      simp only [q2]
      exact r2
    · intro x k hx hr hk hxk
      exact r3 x k ⟨fun b hb => lt_of_lt_of_le ((r0 k hk).1 b hb) hxk, q3 x hx hr⟩ hr hk hxk
    · intro b' hm
      rw [em] at hm
      split at hm
      · rename_i b hb
        obtain ⟨y, w1, w2, w3, w4⟩ := r4 b hb
        refine ⟨y, (Prod.mk.inj hm).2 ▸ w1, w2, childLo_above h3 hi' w3, ?_⟩
        intro x hx hr hxy
        exact w4 x ⟨fun b hb => lt_trans (w3 b hb) hxy, q3 x hx hr⟩ hr hxy
      · rename_i b hb
        obtain ⟨y, w1, w2, w3, w4⟩ := q4 b b' hm
        refine ⟨y, w1, w3, w4, ?_⟩
        intro x hx hr hxy
        refine r5 b hb x ⟨fun z hz => ?_, q3 x hx hr⟩ hr
        rw [w2] at hz
        cases hz
        exact hxy
    · intro b' hm x hx hr
      rw [em] at hm
      split at hm
      · cases (Prod.mk.inj hm).1
      · rename_i b hb
        exact r5 b hb x ⟨q5 b b' hm x hx, q3 x hx hr⟩ hr

end Verif.Tree
