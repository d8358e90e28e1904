import Verif.Tree.RangeLemmas

/-! The descent of a count. -/
namespace Verif.Tree
set_option linter.unusedSectionVars false
variable {K R B : Type} [LinearOrder K]

/-- The two ends lie within bounds, the right one if it matters. -/
def EndsIn (lo hi : Option K) (left right : Option K) (may : Bool) : Prop :=
  (∀ a, left = some a → InB lo hi a) ∧ (may = true → ∀ b, right = some b → InB lo hi b)

/-- What is known of the children chosen. -/
structure Chosen (lo hi : Option K) (ks : List K) (n : Nat) (left right : Option K) (may : Bool) (i j : Nat) : Prop where
  lt : i < n
  inL : ∀ a, left = some a → InB (childLo lo ks i) (childHi hi ks n i) a
  first : left = none → i = 0
  inR : may = true → j < n ∧ (∀ b, right = some b → InB (childLo lo ks j) (childHi hi ks n j) b) ∧ (right = none → j + 1 = n)
  sentinel : may = false → j = n

theorem chosen_ok {α : Type} {P : Option K → Option K → α → Prop} {lo hi ks ext} {ps : List α} (h : Chain P lo hi ks ps)
    {left right : Option K} {may : Bool} (he : EndsIn lo hi left right may) :
    ∃ i j, leftChild ps.length (ks ++ ext) left = some i ∧ rightChild ps.length (ks ++ ext) may right = some j ∧
      Chosen lo hi ks ps.length left right may i j := by
  have hn : 0 < ps.length := by rw [h.length]; omega
  have hl : ∃ i, leftChild ps.length (ks ++ ext) left = some i ∧ i < ps.length ∧
      (∀ a, left = some a → InB (childLo lo ks i) (childHi hi ks ps.length i) a) ∧ (left = none → i = 0) := by
    cases left with
    | none => exact ⟨0, rfl, hn, fun _ e => (by cases e), fun _ => rfl⟩
    | some a =>
      obtain ⟨i, p, w1, w2, w3, w4⟩ := chain_which (ext := ext) h (he.1 a rfl)
      exact ⟨i, w1, w3, fun a' e => (by cases e; exact w4), fun e => (by cases e)⟩
  have hr : ∃ j, rightChild ps.length (ks ++ ext) may right = some j ∧
      (may = true → j < ps.length ∧ (∀ b, right = some b → InB (childLo lo ks j) (childHi hi ks ps.length j) b) ∧
        (right = none → j + 1 = ps.length)) ∧ (may = false → j = ps.length) := by
    cases may with
    | false => exact ⟨ps.length, rfl, fun e => (by cases e), fun _ => rfl⟩
    | true =>
      cases right with
      | none => exact ⟨ps.length - 1, rfl, fun _ => ⟨by omega, fun _ e => (by cases e), fun _ => by omega⟩, fun e => (by cases e)⟩
      | some b =>
        obtain ⟨i, p, w1, w2, w3, w4⟩ := chain_which (ext := ext) h (he.2 rfl b rfl)
        exact ⟨i, w1, fun _ => ⟨w3, fun b' e => (by cases e; exact w4), fun e => (by cases e)⟩, fun e => (by cases e)⟩
  obtain ⟨i, i1, i2, i3, i4⟩ := hl
  obtain ⟨j, j1, j2, j3⟩ := hr
  exact ⟨i, j, i1, j1, i2, i3, i4, j2, j3⟩

/-- Both ends in one child: so is everything between. -/
theorem Chosen.convex {lo hi : Option K} {ks : List K} {n : Nat} {left right : Option K} {may : Bool} {i : Nat}
    (h : Chosen lo hi ks n left right may i i) (hm : may = true) {k : K} (hk : InB lo hi k) (hw : Spanned left right k) :
    InB (childLo lo ks i) (childHi hi ks n i) k := by
  obtain ⟨r1, r2, r3⟩ := h.inR hm
  constructor
  · intro a ha
    cases hl : left with
    | none =>
      have := h.first hl
      subst this
      exact hk.1 a ha
    | some x => exact lt_of_lt_of_le ((h.inL x hl).1 a ha) (hw.1 x hl)
  · intro b hb
    cases hr : right with
    | none =>
      have := r3 hr
      unfold childHi at hb
      rw [if_pos this] at hb
      exact hk.2 b hb
    | some y => exact le_trans (hw.2 y hr) ((r2 y hr).2 b hb)

theorem Chosen.ends {lo hi : Option K} {ks : List K} {n : Nat} {left right : Option K} {may : Bool} {i : Nat}
    (h : Chosen lo hi ks n left right may i i) (hm : may = true) (b : Bool) :
    EndsIn (childLo lo ks i) (childHi hi ks n i) left right b := ⟨h.inL, fun _ => (h.inR hm).2.1⟩

theorem Chosen.differ {lo hi : Option K} {ks : List K} {n : Nat} {left right : Option K} {may : Bool} {i j : Nat}
    (h : Chosen lo hi ks n left right may i j) (hm : may = false) : i ≠ j := by
  have := h.sentinel hm
  have := h.lt
  omega

theorem keysInternal_leaf {left right : Option K} {may : Bool} {est : Nat} {l : Leaf K R} :
    keysInternal (B := B) left right 0 may est l =
      (leftChild l.parts.length l.pivots left).bind fun i => (rightChild l.parts.length l.pivots may right).bind fun j =>
        (l.parts[i]?).bind fun p => some (spread (est / l.parts.length) l.parts.length i
          (inPartition p left right (decide (i = j)) (est / l.parts.length))) := rfl

theorem keysInternal_inner {h : Nat} {left right : Option K} {may : Bool} {est : Nat} {n : Inner K B (Node K R B h)} :
    keysInternal left right (h + 1) may est n =
      (leftChild n.kids.length n.pivots left).bind fun i => (rightChild n.kids.length n.pivots may right).bind fun j =>
        (n.kids[i]?).bind fun p => (keysInternal left right h (may && decide (i = j)) (est / n.kids.length) p.2).bind fun c =>
          some (spread (est / n.kids.length) n.kids.length i c) := rfl

/-- A count in a leaf. -/
theorem keys_leaf {c : Ctx K R B} {lo hi : Option K} {U : List (Ent K B)} {l : Leaf K R} (hg : Good c 0 lo hi U l)
    {left right : Option K} {may : Bool} (he : EndsIn lo hi left right may) (est : Nat) :
    ∃ i j p, leftChild l.parts.length l.pivots left = some i ∧ rightChild l.parts.length l.pivots may right = some j ∧
      l.parts[i]? = some p ∧ Chosen lo hi l.ks l.parts.length left right may i j ∧
      PartOk c U l.msn l.dirty (childLo lo l.ks i) (childHi hi l.ks l.parts.length i) p ∧
      keysInternal (B := B) left right 0 may est l = some (spread (est / l.parts.length) l.parts.length i
        (inPartition p left right (decide (i = j)) (est / l.parts.length))) := by
  obtain ⟨i, j, h1, h2, h3⟩ := chosen_ok (ext := l.pivots.drop (l.parts.length - 1)) hg.1.chain he
  rw [← Leaf.pivots_eq] at h1 h2
  obtain ⟨p, hp⟩ : ∃ p, l.parts[i]? = some p := ⟨_, List.getElem?_eq_getElem h3.lt⟩
  refine ⟨i, j, p, h1, h2, hp, h3, chain_get hg.1.chain hp, ?_⟩
  rw [keysInternal_leaf]
  simp only [h1, h2, hp, Option.bind_some]

/-- A count in an inner node. -/
theorem keys_inner {c : Ctx K R B} {h : Nat} {lo hi : Option K} {U : List (Ent K B)} {n : Inner K B (Node K R B h)}
    (hg : Good c (h + 1) lo hi U n) {left right : Option K} {may : Bool} (he : EndsIn lo hi left right may) (est : Nat) :
    ∃ i j s ch, leftChild n.kids.length n.pivots left = some i ∧ rightChild n.kids.length n.pivots may right = some j ∧
      n.kids[i]? = some (s, ch) ∧ Chosen lo hi n.pivots n.kids.length left right may i j ∧
      Good c h (childLo lo n.pivots i) (childHi hi n.pivots n.kids.length i) (s ++ U) ch ∧
      keysInternal left right (h + 1) may est (n : Node K R B (h + 1)) =
        (keysInternal left right h (may && decide (i = j)) (est / n.kids.length) ch).map
          (spread (est / n.kids.length) n.kids.length i) := by
  obtain ⟨i, j, h1, h2, h3⟩ := chosen_ok (ext := []) hg.2.2 he
  rw [List.append_nil] at h1 h2
  obtain ⟨⟨s, ch⟩, hp⟩ : ∃ p, n.kids[i]? = some p := ⟨_, List.getElem?_eq_getElem h3.lt⟩
  have hP := chain_get hg.2.2 hp
  refine ⟨i, j, s, ch, h1, h2, hp, h3, hP.2, ?_⟩
  rw [keysInternal_inner]
  simp only [h1, h2, hp, Option.bind_some]
  cases keysInternal left right h (may && decide (i = j)) (est / n.kids.length) ch <;> rfl

@[simp] theorem spread_single (share n i : Nat) (c : Counts) : (spread share n i c).single = c.single := by
  unfold spread; cases h : c.single <;> simp
@[simp] theorem spread_eqL (share n i : Nat) (c : Counts) : (spread share n i c).eqL = c.eqL := by
  unfold spread; cases h : c.single <;> simp
@[simp] theorem spread_eqR (share n i : Nat) (c : Counts) : (spread share n i c).eqR = c.eqR := by
  unfold spread; cases h : c.single <;> simp
@[simp] theorem spread_less (share n i : Nat) (c : Counts) : (spread share n i c).less = add64 c.less (share * i) := by
  unfold spread; cases h : c.single <;> simp
theorem spread_mid {share n i : Nat} {c : Counts} :
    (spread share n i c).mid = if c.single then c.mid else add64 c.mid (share * (n - i - 1)) := by
  unfold spread; cases h : c.single <;> simp
theorem spread_greater {share n i : Nat} {c : Counts} :
    (spread share n i c).greater = if c.single then add64 c.greater (share * (n - i - 1)) else c.greater := by
  unfold spread; cases h : c.single <;> simp

theorem inPartition_single (p : Part K R) (left right : Option K) (single : Bool) (est : Nat) :
    (inPartition p left right single est).single = single := by
  unfold inPartition rowsToCount
  cases hp : p.mem with
  | some b => rfl
  | none => cases single <;> rfl

/-- The rows a count finds are those of a basement as it should be. -/
theorem rows_ok {c : Ctx K R B} {U : List (Ent K B)} {msn : Nat} {d : Bool} {lo hi : Option K} {p : Part K R}
    (h : PartOk c U msn d lo hi p) {single : Bool} {rows : Rows K R} (hr : rowsToCount p single = some rows) :
    Sorted rows ∧ RowsIn lo hi rows ∧ ∀ k, InB lo hi k → (∀ u ∈ U, Conc k u.msg = false) → lookup rows k = c.spec k := by
  have fin : ∀ b : Bn K R, BnOk c U lo hi b → Sorted b.rows ∧ RowsIn lo hi b.rows ∧
      ∀ k, InB lo hi k → (∀ u ∈ U, Conc k u.msg = false) → lookup b.rows k = c.spec k := by
    intro b hb
    refine ⟨hb.sorted, hb.within, ?_⟩
    intro k hk hu
    rw [← hb.img k hk, eff_id]
    intro u h'
    exact hu u (List.mem_filter.1 h').1
  unfold rowsToCount at hr
  cases hm : p.mem with
  | some b =>
    rw [hm] at hr
    cases hr
    exact fin b (h.bn b hm).1
  | none =>
    rw [hm] at hr
    simp only at hr
    split at hr
    · cases hr
      have hd : d = false := by
        cases d
        · rfl
        · obtain ⟨b, hb⟩ := h.mem rfl
          rw [hm] at hb
          cases hb
      exact fin _ (h.disk hd)
    · cases hr

/-- The ends in the child. -/
theorem Chosen.next {lo hi : Option K} {ks : List K} {n : Nat} {left right : Option K} {may : Bool} {i j : Nat}
    (h : Chosen lo hi ks n left right may i j) :
    EndsIn (childLo lo ks i) (childHi hi ks n i) left right (may && decide (i = j)) := by
  refine ⟨h.inL, fun e => ?_⟩
  simp only [Bool.and_eq_true, decide_eq_true_eq] at e
  obtain ⟨e1, rfl⟩ := e
  exact (h.inR e1).2.1

/-- Only if both ends may be in it can a subtree hold both in one basement. -/
theorem single_may {c : Ctx K R B} : ∀ {h : Nat} {lo hi : Option K} {U : List (Ent K B)} {n : Node K R B h} {left right : Option K}
    {may : Bool} {est : Nat} {cs : Counts}, Good c h lo hi U n → EndsIn lo hi left right may →
    keysInternal left right h may est n = some cs → cs.single = true → may = true
  | 0, lo, hi, U, l, left, right, may, est, cs, hg, he, hk, hs => by
    obtain ⟨i, j, p, h1, h2, h3, h4, h5, h6⟩ := keys_leaf hg he est
    rw [h6] at hk
    cases hk
    rw [spread_single, inPartition_single, decide_eq_true_eq] at hs
    cases may
    · exact absurd hs (h4.differ rfl)
    · rfl
  | h + 1, lo, hi, U, n, left, right, may, est, cs, hg, he, hk, hs => by
    obtain ⟨i, j, s, ch, h1, h2, h3, h4, h5, h6⟩ := keys_inner hg he est
    rw [h6] at hk
    obtain ⟨c1, q1, rfl⟩ := Option.map_eq_some_iff.1 hk
    rw [spread_single] at hs
    have := single_may h5 h4.next q1 hs
    simp only [Bool.and_eq_true] at this
    exact this.1

end Verif.Tree
