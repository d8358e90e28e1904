import Verif.Tree.Spec

/-! Children and pivots: every child lies between its pivots. -/
namespace Verif.Tree
set_option linter.unusedSectionVars false
variable {K R B : Type} [LinearOrder K] {α β : Type}

theorem inB_iff (lo hi : Option K) (k : K) : InB lo hi k ↔ aboveLo lo k = true ∧ belowHi hi k = true := by
  unfold InB aboveLo belowHi
  cases lo <;> cases hi <;> simp

/-- Strictly below an upper bound. -/
def Below (hi : Option K) (k : K) : Prop := ∀ b, hi = some b → k < b
def Above (lo : Option K) (k : K) : Prop := ∀ a, lo = some a → a < k

/-- `ps` are separated by the pivots `ks` within `lo` and `hi`, and each satisfies `P` with its bounds. -/
def Chain (P : Option K → Option K → α → Prop) : Option K → Option K → List K → List α → Prop
  | lo, hi, [], [p] => P lo hi p
  | lo, hi, k :: ks, p :: ps => P lo (some k) p ∧ Above lo k ∧ Below hi k ∧ Chain P (some k) hi ks ps
  | _, _, _, _ => False

theorem Chain.length {P : Option K → Option K → α → Prop} : ∀ {lo hi ks ps},
    Chain P lo hi ks ps → ps.length = ks.length + 1
  | _, _, [], [_], _ => rfl
  | _, _, _ :: _, _ :: _, h => by simp [h.2.2.2.length]
  | _, _, [], [], h => h.elim
  | _, _, [], _ :: _ :: _, h => h.elim
  | _, _, _ :: _, [], h => h.elim

theorem chain_nil {P : Option K → Option K → α → Prop} {lo hi ps} (h : Chain P lo hi [] ps) :
    ∃ p, ps = [p] ∧ P lo hi p := by
  match ps, h with
  | [p], h => exact ⟨p, rfl, h⟩

theorem chain_cons {P : Option K → Option K → α → Prop} {lo hi k ks ps} (h : Chain P lo hi (k :: ks) ps) :
    ∃ p ps', ps = p :: ps' ∧ P lo (some k) p ∧ Above lo k ∧ Below hi k ∧ Chain P (some k) hi ks ps' := by
  match ps, h with
  | p :: ps', h => exact ⟨p, ps', rfl, h⟩

theorem chain_below {P : Option K → Option K → α → Prop} : ∀ {lo hi ks ps},
    Chain P lo hi ks ps → ∀ k ∈ ks, Below hi k ∧ Above lo k
  | lo, hi, [], ps, _, k, hk => absurd hk (List.not_mem_nil)
  | lo, hi, a :: ks, ps, h, k, hk => by
    obtain ⟨p, ps', rfl, _, h1, h2, h3⟩ := chain_cons h
    rcases List.mem_cons.1 hk with rfl | hk
    · exact ⟨h2, h1⟩
    · have := chain_below h3 k hk
      refine ⟨this.1, fun b hb => ?_⟩
      exact lt_trans (h1 b hb) (this.2 a rfl)

theorem chain_append {P : Option K → Option K → α → Prop} {k : K} {hi : Option K} {ks2 : List K} {ps2 : List α} :
    ∀ {lo ks1 ps1}, Chain P lo (some k) ks1 ps1 → Above lo k → Below hi k → Chain P (some k) hi ks2 ps2 →
    Chain P lo hi (ks1 ++ k :: ks2) (ps1 ++ ps2)
  | lo, [], ps1, h, h1, h2, h3 => by
    obtain ⟨p, rfl, hp⟩ := chain_nil h
    exact ⟨hp, h1, h2, h3⟩
  | lo, a :: ks1, ps1, h, h1, h2, h3 => by
    obtain ⟨p, ps', rfl, hp, ha, hb, hc⟩ := chain_cons h
    have hak : a < k := hb k rfl
    refine ⟨hp, ha, fun b hb' => lt_trans hak (h2 b hb'), chain_append hc ?_ h2 h3⟩
    intro x hx
    cases hx
    exact hak

theorem chain_split {P : Option K → Option K → α → Prop} {k : K} {hi : Option K} {ks2 : List K} {ps2 : List α} :
    ∀ {lo ks1 ps1}, ps1.length = ks1.length + 1 → Chain P lo hi (ks1 ++ k :: ks2) (ps1 ++ ps2) →
    Chain P lo (some k) ks1 ps1 ∧ Above lo k ∧ Below hi k ∧ Chain P (some k) hi ks2 ps2
  | lo, [], ps1, hl, h => by
    match ps1, hl with
    | [p], _ => exact ⟨h.1, h.2.1, h.2.2.1, h.2.2.2⟩
  | lo, a :: ks1, ps1, hl, h => by
    match ps1, hl with
    | p :: ps1', hl =>
      have hl' : ps1'.length = ks1.length + 1 := by simpa using hl
      obtain ⟨h1, h2, h3, h4⟩ := h
      obtain ⟨i1, i2, i3, i4⟩ := chain_split hl' h4
      have hak : a < k := i2 a rfl
      refine ⟨⟨h1, h2, ?_, i1⟩, fun x hx => lt_trans (h2 x hx) hak, i3, i4⟩
      intro b hb
      cases hb
      exact hak

theorem childLo_zero (lo : Option K) (ks : List K) : childLo lo ks 0 = lo := rfl
theorem childLo_succ (lo : Option K) (k : K) (ks : List K) (i : Nat) :
    childLo lo (k :: ks) (i + 1) = childLo (some k) ks i := by
  unfold childLo
  cases i <;> simp
theorem childHi_succ (hi : Option K) (k : K) (ks : List K) (n i : Nat) :
    childHi hi (k :: ks) (n + 1) (i + 1) = childHi hi ks n i := by
  unfold childHi
  simp
theorem childHi_zero (hi : Option K) (k : K) (ks : List K) (n : Nat) (hn : 0 < n) :
    childHi hi (k :: ks) (n + 1) 0 = some k := by
  unfold childHi
  rw [if_neg (by omega)]
  rfl

theorem Chain.pos {P : Option K → Option K → α → Prop} {lo hi ks ps} (h : Chain P lo hi ks ps) : 0 < ps.length := by
  have := h.length; omega

theorem chain_get {P : Option K → Option K → α → Prop} : ∀ {lo hi ks ps}, Chain P lo hi ks ps →
    ∀ {i p}, ps[i]? = some p → P (childLo lo ks i) (childHi hi ks ps.length i) p
  | lo, hi, [], ps, h, i, p, hi' => by
    obtain ⟨q, rfl, hq⟩ := chain_nil h
    cases i with
    | zero =>
      cases hi'
      exact hq
    | succ i => simp at hi'
  | lo, hi, k :: ks, ps, h, i, p, hi' => by
    obtain ⟨q, ps', rfl, hq, _, _, hc⟩ := chain_cons h
    cases i with
    | zero =>
      cases hi'
      rw [List.length_cons, childHi_zero _ _ _ _ hc.pos]
      exact hq
    | succ i =>
      rw [List.length_cons, childHi_succ, childLo_succ]
      exact chain_get hc hi'

/-- The bounds of a child lie within those of the node. -/
def Sub (lo' hi' lo hi : Option K) : Prop := ∀ k, InB lo' hi' k → InB lo hi k

theorem Sub.refl (lo hi : Option K) : Sub lo hi lo hi := fun _ h => h
theorem Sub.trans {a b c d e f : Option K} (h : Sub a b c d) (h' : Sub c d e f) : Sub a b e f :=
  fun k hk => h' k (h k hk)

theorem sub_left {lo hi : Option K} {k : K} (h : Below hi k) : Sub lo (some k) lo hi := by
  intro x hx
  exact ⟨hx.1, fun b hb => le_trans (hx.2 k rfl) (le_of_lt (h b hb))⟩
theorem sub_right {lo hi : Option K} {k : K} (h : Above lo k) : Sub (some k) hi lo hi := by
  intro x hx
  exact ⟨fun a ha => lt_trans (h a ha) (hx.1 k rfl), hx.2⟩

/-- Change every child, those whose bounds lie within the node's. -/
theorem chain_map {P : Option K → Option K → α → Prop} {Q : Option K → Option K → β → Prop} (f : Nat → α → β) :
    ∀ {lo hi ks ps}, Chain P lo hi ks ps →
    (∀ i lo' hi' p, ps[i]? = some p → Sub lo' hi' lo hi → P lo' hi' p → Q lo' hi' (f i p)) →
    Chain Q lo hi ks (ps.mapIdx f)
  | lo, hi, [], ps, h, hf => by
    obtain ⟨q, rfl, hq⟩ := chain_nil h
    exact hf 0 _ _ _ rfl (Sub.refl _ _) hq
  | lo, hi, k :: ks, ps, h, hf => by
    obtain ⟨q, ps', rfl, hq, ha, hb, hc⟩ := chain_cons h
    rw [List.mapIdx_cons]
    refine ⟨hf 0 _ _ _ rfl (sub_left hb) hq, ha, hb, ?_⟩
    refine chain_map (fun i => f (i + 1)) hc ?_
    intro i lo' hi' p hp hs hP
    exact hf (i + 1) _ _ _ (by simpa using hp) (hs.trans (sub_right ha)) hP

theorem chain_map' {P : Option K → Option K → α → Prop} {Q : Option K → Option K → β → Prop} (f : α → β)
    {lo hi ks ps} (h : Chain P lo hi ks ps)
    (hf : ∀ lo' hi' p, p ∈ ps → Sub lo' hi' lo hi → P lo' hi' p → Q lo' hi' (f p)) :
    Chain Q lo hi ks (ps.map f) := by
  have := chain_map (Q := Q) (fun _ => f) h (fun i lo' hi' p hp => hf lo' hi' p (List.mem_of_getElem? hp))
  have e : ps.mapIdx (fun _ => f) = ps.map f := by
    apply List.ext_getElem?
    intro i
    simp
  rwa [e] at this

theorem chain_mono {P Q : Option K → Option K → α → Prop} {lo hi ks ps} (h : Chain P lo hi ks ps)
    (hf : ∀ lo' hi' p, p ∈ ps → Sub lo' hi' lo hi → P lo' hi' p → Q lo' hi' p) :
    Chain Q lo hi ks ps := by
  have := chain_map' (Q := Q) id h hf
  simpa using this

def Disj (a b c d : Option K) : Prop := ∀ k, InB a b k → ¬ InB c d k

theorem childLo_inB {P : Option K → Option K → α → Prop} : ∀ {lo hi ks ps}, Chain P lo hi ks ps → ∀ {i},
    i < ps.length → Sub (childLo lo ks i) (childHi hi ks ps.length i) lo hi
  | lo, hi, [], ps, h, i, hi' => by
    obtain ⟨q, rfl, hq⟩ := chain_nil h
    have : i = 0 := by simpa using hi'
    subst this
    exact Sub.refl _ _
  | lo, hi, k :: ks, ps, h, i, hi' => by
    obtain ⟨q, ps', rfl, hq, ha, hb, hc⟩ := chain_cons h
    cases i with
    | zero =>
      rw [List.length_cons, childHi_zero _ _ _ _ hc.pos]
      exact sub_left hb
    | succ i =>
      rw [List.length_cons, childHi_succ, childLo_succ]
      exact (childLo_inB hc (by simpa using hi')).trans (sub_right ha)

/-- Replace one child; the others are known to have bounds apart from its. -/
theorem chain_update {P Q : Option K → Option K → α → Prop} : ∀ {lo hi ks ps}, Chain P lo hi ks ps → ∀ {i p'},
    i < ps.length →
    Q (childLo lo ks i) (childHi hi ks ps.length i) p' →
    (∀ lo' hi' p, p ∈ ps → Sub lo' hi' lo hi →
      Disj lo' hi' (childLo lo ks i) (childHi hi ks ps.length i) → P lo' hi' p → Q lo' hi' p) →
    Chain Q lo hi ks (ps.set i p')
  | lo, hi, [], ps, h, i, p', hi', h1, h2 => by
    obtain ⟨q, rfl, hq⟩ := chain_nil h
    have : i = 0 := by simpa using hi'
    subst this
    exact h1
  | lo, hi, k :: ks, ps, h, i, p', hi', h1, h2 => by
    obtain ⟨q, ps', rfl, hq, ha, hb, hc⟩ := chain_cons h
    cases i with
    | zero =>
      rw [List.length_cons, childHi_zero _ _ _ _ hc.pos, childLo_zero] at h1 h2
      refine ⟨h1, ha, hb, chain_mono hc ?_⟩
      intro lo' hi' p hp hs hP
      refine h2 _ _ _ (List.mem_cons_of_mem _ hp) (hs.trans (sub_right ha)) ?_ hP
      intro x hx hx'
      exact absurd ((hs x hx).1 k rfl) (not_lt.2 (hx'.2 k rfl))
    | succ i =>
      rw [List.length_cons, childHi_succ, childLo_succ] at h1 h2
      have hi2 : i < ps'.length := by simpa using hi'
      refine ⟨h2 _ _ _ (List.mem_cons_self) (sub_left hb) ?_ hq, ha, hb, ?_⟩
      · intro x hx hx'
        exact absurd ((childLo_inB hc hi2 x hx').1 k rfl) (not_lt.2 (hx.2 k rfl))
      · refine chain_update hc hi2 h1 ?_
        intro lo' hi'' p hp hs hd hP
        exact h2 _ _ _ (List.mem_cons_of_mem _ hp) (hs.trans (sub_right ha)) hd hP

theorem chain_set {P : Option K → Option K → α → Prop} {lo hi ks ps} (h : Chain P lo hi ks ps) {i p'}
    (hi' : i < ps.length) (h1 : P (childLo lo ks i) (childHi hi ks ps.length i) p') :
    Chain P lo hi ks (ps.set i p') :=
  chain_update h hi' h1 (fun _ _ _ _ _ _ h => h)

/-- Cut one child in two. -/
theorem chain_cut {P : Option K → Option K → α → Prop} {k : K} {p1 p2 : α} : ∀ {lo hi ks ps},
    Chain P lo hi ks ps → ∀ {i}, i < ps.length →
    Above (childLo lo ks i) k → Below (childHi hi ks ps.length i) k →
    P (childLo lo ks i) (some k) p1 → P (some k) (childHi hi ks ps.length i) p2 →
    Chain P lo (some k) (ks.take i) (ps.take i ++ [p1]) ∧
    Chain P (some k) hi (ks.drop i) (p2 :: ps.drop (i + 1)) ∧ Above lo k ∧ Below hi k
  | lo, hi, [], ps, h, i, hi', h1, h2, h3, h4 => by
    obtain ⟨q, rfl, hq⟩ := chain_nil h
    have : i = 0 := by simpa using hi'
    subst this
    exact ⟨h3, h4, h1, h2⟩
  | lo, hi, a :: ks, ps, h, i, hi', h1, h2, h3, h4 => by
    obtain ⟨q, ps', rfl, hq, ha, hb, hc⟩ := chain_cons h
    cases i with
    | zero =>
      rw [List.length_cons, childHi_zero _ _ _ _ hc.pos] at h2 h4
      rw [childLo_zero] at h1 h3
      have hka : k < a := h2 a rfl
      refine ⟨h3, ⟨h4, ?_, hb, hc⟩, h1, fun b hb' => lt_trans hka (hb b hb')⟩
      intro x hx
      cases hx
      exact hka
    | succ i =>
      rw [List.length_cons, childHi_succ] at h2 h4
      rw [childLo_succ] at h1 h3
      have hi2 : i < ps'.length := by simpa using hi'
      obtain ⟨c1, c2, c3, c4⟩ := chain_cut hc hi2 h1 h2 h3 h4
      have hak : a < k := c3 a rfl
      refine ⟨⟨hq, ha, ?_, c1⟩, c2, fun x hx => lt_trans (ha x hx) hak, c4⟩
      intro x hx
      cases hx
      exact hak

theorem chain_insert {P : Option K → Option K → α → Prop} {k : K} {p1 p2 : α} {lo hi ks ps}
    (h : Chain P lo hi ks ps) {i} (hi' : i < ps.length)
    (h1 : Above (childLo lo ks i) k) (h2 : Below (childHi hi ks ps.length i) k)
    (h3 : P (childLo lo ks i) (some k) p1) (h4 : P (some k) (childHi hi ks ps.length i) p2) :
    Chain P lo hi (ks.take i ++ k :: ks.drop i) (ps.take i ++ p1 :: p2 :: ps.drop (i + 1)) := by
  obtain ⟨c1, c2, c3, c4⟩ := chain_cut h hi' h1 h2 h3 h4
  have := chain_append c1 c3 c4 c2
  simpa using this

/-- Cut between two children. -/
theorem chain_part {P : Option K → Option K → α → Prop} {lo hi ks ps}
    (h : Chain P lo hi ks ps) {i : Nat} {k : K} (hk : ks[i]? = some k) :
    Chain P lo (some k) (ks.take i) (ps.take (i + 1)) ∧
    Chain P (some k) hi (ks.drop (i + 1)) (ps.drop (i + 1)) ∧ Above lo k ∧ Below hi k := by
  have hl := h.length
  have hik : i < ks.length := by
    rcases Nat.lt_or_ge i ks.length with h | h
    · exact h
    · rw [List.getElem?_eq_none h] at hk; cases hk
  have e : ks = ks.take i ++ k :: ks.drop (i + 1) := by
    have : ks.drop i = k :: ks.drop (i + 1) := by
      rw [List.drop_eq_getElem_cons hik]
      rw [List.getElem?_eq_getElem hik] at hk
      cases hk
      rfl
    rw [← this, List.take_append_drop]
  have e2 : ps = ps.take (i + 1) ++ ps.drop (i + 1) := (List.take_append_drop _ _).symm
  rw [e, e2] at h
  have := chain_split (ps1 := ps.take (i + 1)) (ks1 := ks.take i) (by simp only [List.length_take]; omega) h
  exact ⟨this.1, this.2.2.2, this.2.1, this.2.2.1⟩

/-- Widen the bound below the first child. -/
theorem chain_widen {P : Option K → Option K → α → Prop} {lo lo' hi ks ps} (h : Chain P lo hi ks ps)
    (h1 : ∀ k, Above lo k → Above lo' k)
    (h2 : ∀ hi' p, ps.head? = some p → P lo hi' p → P lo' hi' p) : Chain P lo' hi ks ps := by
  cases ks with
  | nil =>
    obtain ⟨q, rfl, hq⟩ := chain_nil h
    exact h2 _ _ rfl hq
  | cons k ks =>
    obtain ⟨q, ps', rfl, hq, ha, hb, hc⟩ := chain_cons h
    exact ⟨h2 _ _ rfl hq, h1 _ ha, hb, hc⟩

/-- Narrow the bound above the last child. -/
theorem chain_narrow {P : Option K → Option K → α → Prop} {hi hi' : Option K} : ∀ {lo ks ps}, Chain P lo hi ks ps →
    (∀ k ∈ ks, Below hi' k) →
    (∀ lo' p, ps.getLast? = some p → P lo' hi p → P lo' hi' p) → Chain P lo hi' ks ps
  | lo, [], ps, h, h1, h2 => by
    obtain ⟨q, rfl, hq⟩ := chain_nil h
    exact h2 _ _ rfl hq
  | lo, k :: ks, ps, h, h1, h2 => by
    obtain ⟨q, ps', rfl, hq, ha, hb, hc⟩ := chain_cons h
    refine ⟨hq, ha, h1 k (List.mem_cons_self), chain_narrow hc (fun x hx => h1 x (List.mem_cons_of_mem _ hx)) ?_⟩
    intro lo' p hp
    apply h2
    obtain ⟨q', ps'', rfl⟩ : ∃ q' ps'', ps' = q' :: ps'' := by
      have := hc.pos
      cases ps' with
      | nil => simp at this
      | cons a b => exact ⟨a, b, rfl⟩
    rw [List.getLast?_cons_cons]
    exact hp

/-! ### Routing -/

/-- Number of pivots below a key. -/
def rank (ks : List K) (k : K) : Nat := (ks.filter (· < k)).length

theorem rank_spec {ks : List K} (hs : ks.Pairwise (· < ·)) (k : K) (i : Nat) :
    (∀ p, ks[i]? = some p → (p < k ↔ i < rank ks k)) := by
  induction ks generalizing i with
  | nil => intro p hp; simp at hp
  | cons a ks ih =>
    intro p hp
    have ih := ih (List.pairwise_cons.1 hs).2
    have ha := (List.pairwise_cons.1 hs).1
    unfold rank
    rw [List.filter_cons]
    by_cases hak : a < k
    · simp only [hak, decide_true, if_true, List.length_cons]
      cases i with
      | zero => cases hp; simp [hak]
      | succ i =>
        have := ih i p (by simpa using hp)
        unfold rank at this
        rw [this]
        omega
    · have e : ks.filter (fun x => decide (x < k)) = [] := by
        rw [List.filter_eq_nil_iff]
        intro x hx
        simp only [decide_eq_true_eq]
        exact fun hxk => hak (lt_trans (ha x hx) hxk)
      simp only [hak, decide_false, Bool.false_eq_true, if_false, e, List.length_nil]
      cases i with
      | zero => cases hp; simp [hak]
      | succ i =>
        have hx : p ∈ ks := List.mem_of_getElem? (by simpa using hp)
        constructor
        · intro h; exact absurd (lt_trans (ha p hx) h) hak
        · intro h; omega

theorem rank_le (ks : List K) (k : K) : rank ks k ≤ ks.length := List.length_filter_le _ _

/-- The unique child owning a key is number `rank`. -/
theorem chain_owner {P : Option K → Option K → α → Prop} : ∀ {lo hi ks ps}, Chain P lo hi ks ps → ∀ {k},
    InB lo hi k → InB (childLo lo ks (rank ks k)) (childHi hi ks ps.length (rank ks k)) k ∧
      rank ks k < ps.length
  | lo, hi, [], ps, h, k, hk => by
    obtain ⟨q, rfl, hq⟩ := chain_nil h
    exact ⟨hk, by simp [rank]⟩
  | lo, hi, a :: ks, ps, h, k, hk => by
    obtain ⟨q, ps', rfl, hq, ha, hb, hc⟩ := chain_cons h
    by_cases hak : a < k
    · have e : rank (a :: ks) k = rank ks k + 1 := by
        unfold rank
        rw [List.filter_cons]
        simp [hak]
      have := chain_owner hc (k := k) ⟨fun x hx => by cases hx; exact hak, hk.2⟩
      rw [e, List.length_cons, childHi_succ, childLo_succ]
      exact ⟨this.1, by omega⟩
    · have e : rank (a :: ks) k = 0 := by
        unfold rank
        rw [List.length_eq_zero_iff, List.filter_eq_nil_iff]
        intro x hx
        simp only [decide_eq_true_eq]
        rcases List.mem_cons.1 hx with rfl | hx
        · exact hak
        · intro hxk
          exact hak (lt_trans ((chain_below hc x hx).2 a rfl) hxk)
      rw [e, List.length_cons, childHi_zero _ _ _ _ hc.pos, childLo_zero]
      exact ⟨⟨hk.1, fun x hx => by cases hx; exact not_lt.1 hak⟩, by omega⟩

theorem chain_sorted {P : Option K → Option K → α → Prop} : ∀ {lo hi ks ps}, Chain P lo hi ks ps →
    ks.Pairwise (· < ·)
  | lo, hi, [], ps, h => List.Pairwise.nil
  | lo, hi, a :: ks, ps, h => by
    obtain ⟨q, ps', rfl, hq, ha, hb, hc⟩ := chain_cons h
    exact List.Pairwise.cons (fun x hx => (chain_below hc x hx).2 a rfl) (chain_sorted hc)

/-- `whichChild` finds the owner; pivots beyond the last child do not matter. -/
theorem whichChild_eq {ks ext : List K} (hs : ks.Pairwise (· < ·)) (k : K) :
    whichChild (ks.length + 1) (ks ++ ext) k = some (rank ks k) := by
  unfold whichChild
  by_cases h0 : ks.length = 0
  · have : ks = [] := List.length_eq_zero_iff.1 h0
    subst this
    simp [rank]
  · rw [if_neg (by omega)]
    have hl : ks.length - 1 < ks.length := by omega
    have hg : (ks ++ ext)[ks.length + 1 - 2]? = some (ks[ks.length - 1]) := by
      rw [show ks.length + 1 - 2 = ks.length - 1 by omega, List.getElem?_append_left hl,
        List.getElem?_eq_getElem hl]
    rw [hg]
    simp only
    have hr := rank_spec hs k
    have hrl := rank_le ks k
    have hlast := hr (ks.length - 1) _ (List.getElem?_eq_getElem hl)
    by_cases c : ks[ks.length - 1] < k
    · rw [if_pos c]
      have := hlast.1 c
      congr 1
      omega
    · rw [if_neg c]
      have hc : ¬ ks.length - 1 < rank ks k := fun h => c (hlast.2 h)
      have hlen : ks.length + 1 - 2 ≤ (ks ++ ext).length := by simp; omega
      have key : ∀ i p, i < ks.length → (ks ++ ext)[i]? = some p → (p < k ↔ i < rank ks k) := by
        intro i p hi hp
        rw [List.getElem?_append_left hi] at hp
        exact hr i p hp
      -- the search only looks below the last pivot
      have gen : ∀ fuel lo hi, hi - lo ≤ fuel → lo ≤ rank ks k → rank ks k ≤ hi → hi ≤ ks.length - 1 →
          searchPivots (ks ++ ext) k fuel lo hi = some (rank ks k) := by
        intro fuel
        induction fuel with
        | zero =>
          intro lo hi h1 h2 h3 _
          have : lo = rank ks k := by omega
          rw [this]; rfl
        | succ f ih =>
          intro lo hi h1 h2 h3 h4
          unfold searchPivots
          by_cases hlt : lo < hi
          · rw [if_pos hlt]
            have hm : (lo + hi) / 2 < ks.length := by omega
            have hg : (ks ++ ext)[(lo + hi) / 2]? = some ks[(lo + hi) / 2] := by
              rw [List.getElem?_append_left hm, List.getElem?_eq_getElem hm]
            simp only [hg]
            have q := key _ _ hm hg
            by_cases c1 : ks[(lo + hi) / 2] < k
            · rw [if_pos c1]
              have := q.1 c1
              exact ih _ _ (by omega) (by omega) h3 h4
            · rw [if_neg c1]
              have hn : ¬ (lo + hi) / 2 < rank ks k := fun h => c1 (q.2 h)
              by_cases c2 : k < ks[(lo + hi) / 2]
              · rw [if_pos c2]
                exact ih _ _ (by omega) h2 (by omega) (by omega)
              · rw [if_neg c2]
                have he : ks[(lo + hi) / 2] = k := le_antisymm (not_lt.1 c2) (not_lt.1 c1)
                congr 1
                rcases Nat.lt_or_ge (rank ks k) ((lo + hi) / 2) with hlt2 | hge
                · exfalso
                  have hr' : rank ks k < ks.length := by omega
                  have h5 := key (rank ks k) ks[rank ks k] hr' (by
                    rw [List.getElem?_append_left hr', List.getElem?_eq_getElem hr'])
                  have h6 : ks[rank ks k] < ks[(lo + hi) / 2] :=
                    List.pairwise_iff_getElem.1 hs _ _ hr' hm hlt2
                  rw [he] at h6
                  exact absurd (h5.1 h6) (by omega)
                · omega
          · rw [if_neg hlt]
            have : lo = rank ks k := by omega
            rw [this]
      exact gen _ _ _ (by omega) (by omega) (by omega) (by omega)

theorem chain_which {P : Option K → Option K → α → Prop} {lo hi ks ext ps} (h : Chain P lo hi ks ps) {k}
    (hk : InB lo hi k) : ∃ i p, whichChild ps.length (ks ++ ext) k = some i ∧ ps[i]? = some p ∧ i < ps.length ∧
      InB (childLo lo ks i) (childHi hi ks ps.length i) k := by
  have ho := chain_owner h hk
  refine ⟨rank ks k, ps[rank ks k]'ho.2, ?_, List.getElem?_eq_getElem ho.2, ho.2, ho.1⟩
  rw [h.length]
  exact whichChild_eq (chain_sorted h) k

end Verif.Tree
