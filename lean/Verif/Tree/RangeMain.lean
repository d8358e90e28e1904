import Verif.Tree.RangeRun

/-! What the numbers of a count mean. -/
namespace Verif.Tree
set_option linter.unusedSectionVars false
variable {K R B : Type} [LinearOrder K]

theorem about_conc (m : Msg K B) (k : K) : m.about k = Conc k m := by
  unfold Msg.about Conc
  cases m.kind with
  | once k' => simp only [eq_comm]
  | all => rfl
  | nothing => rfl

/-- The basement where the left end belongs has been counted. -/
structure Counted (c : Ctx K R B) (h : Nat) (lo hi : Option K) (U : List (Ent K B)) (n : Node K R B h) (left right : Option K)
    (cs : Counts) (lo' hi' : Option K) (rows : Rows K R) : Prop where
  sorted : Sorted rows
  sub : Sub lo' hi' lo hi
  inL : ∀ a, left = some a → InB lo' hi' a
  inR : cs.single = true → ∀ b, right = some b → InB lo' hi' b
  all : cs.single = true → ∀ k, InB lo hi k → Spanned left right k → InB lo' hi' k
  value : ∀ k, InB lo' hi' k → waiting k h n = [] → (∀ u ∈ U, Conc k u.msg = false) → lookup rows k = c.spec k
  eqL : cs.eqL = (countIn rows left right cs.single).eqL
  eqR : cs.eqR = (countIn rows left right cs.single).eqR
  mid : cs.single = true → cs.mid = (countIn rows left right true).mid

theorem counted {c : Ctx K R B} : ∀ {h : Nat} {lo hi : Option K} {U : List (Ent K B)} {n : Node K R B h} {left right : Option K}
    {may : Bool} {est : Nat} {cs : Counts}, Good c h lo hi U n → EndsIn lo hi left right may →
    keysInternal left right h may est n = some cs →
    (cs.eqL = 0 ∧ cs.single = false) ∨ ∃ lo' hi' rows, Counted c h lo hi U n left right cs lo' hi' rows
  | 0, lo, hi, U, l, left, right, may, est, cs, hg, he, hk => by
    obtain ⟨i, j, p, h1, h2, h3, h4, h5, h6⟩ := keys_leaf hg he est
    rw [h6] at hk
    injection hk with hk
    cases hr : rowsToCount p (decide (i = j)) with
    | none =>
      left
      have hin : inPartition p left right (decide (i = j)) (est / (Leaf.parts l).length) = guessIn left (est / (Leaf.parts l).length) := by
        unfold inPartition; rw [hr]
      rw [hin] at hk
      rw [← hk, spread_eqL, spread_single]
      exact ⟨rfl, rfl⟩
    | some rows =>
      right
      have hin : inPartition p left right (decide (i = j)) (est / (Leaf.parts l).length) = countIn rows left right (decide (i = j)) := by
        unfold inPartition; rw [hr]
      rw [hin] at hk
      obtain ⟨r1, r2, r3⟩ := rows_ok h5 hr
      have hs : cs.single = decide (i = j) := by rw [← hk, spread_single]; rfl
      refine ⟨_, _, rows, r1, childLo_inB hg.1.chain h4.lt, h4.inL, ?_, ?_, ?_, ?_, ?_, ?_⟩
      · intro e
        have hm := single_may hg he h6 (by rw [spread_single, inPartition_single, ← hs]; exact e)
        rw [hs, decide_eq_true_eq] at e
        subst e
        exact (h4.inR hm).2.1
      · intro e k hk' hw
        have hm := single_may hg he h6 (by rw [spread_single, inPartition_single, ← hs]; exact e)
        rw [hs, decide_eq_true_eq] at e
        subst e
        exact h4.convex hm hk' hw
      · intro k hk' _ hu
        exact r3 k hk' hu
      · rw [hs, ← hk, spread_eqL]
      · rw [hs, ← hk, spread_eqR]
      · intro e
        rw [hs] at e
        rw [← hk, spread_mid, e]
        rfl
  | h + 1, lo, hi, U, n, left, right, may, est, cs, hg, he, hk => by
    obtain ⟨i, j, s, ch, h1, h2, h3, h4, h5, h6⟩ := keys_inner hg he est
    rw [h6] at hk
    obtain ⟨c1, q1, rfl⟩ := Option.map_eq_some_iff.1 hk
    rw [spread_eqL, spread_single]
    rcases counted h5 h4.next q1 with w | ⟨lo', hi', rows, w⟩
    · exact Or.inl w
    · right
      refine ⟨lo', hi', rows, w.sorted, w.sub.trans (childLo_inB hg.2.2 h4.lt), w.inL, ?_, ?_, ?_, ?_, ?_, ?_⟩
      · intro e
        rw [spread_single] at e
        exact w.inR e
      · intro e k hk' hw
        rw [spread_single] at e
        have hm := single_may h5 h4.next q1 e
        simp only [Bool.and_eq_true, decide_eq_true_eq] at hm
        obtain ⟨hm, rfl⟩ := hm
        exact w.all e k (h4.convex hm hk' hw) hw
      · intro k hk' hwt hu
        have hin := w.sub k hk'
        have hwc := which_unique (ext := []) hg.2.2 h4.lt hin
        rw [List.append_nil] at hwc
        have e : waiting k (h + 1) n = (s.map (·.msg)).filter (·.about k) ++ waiting k h ch := by
          show (match whichChild (Inner.kids n).length (Inner.pivots n) k with | none => _ | some i => _) = _
          rw [hwc]
          show (match (Inner.kids n)[i]? with | none => _ | some (s, c) => _) = _
          rw [h3]
        rw [e] at hwt
        obtain ⟨e1, e2⟩ := List.append_eq_nil_iff.1 hwt
        refine w.value k hk' e2 ?_
        intro u hu'
        rcases List.mem_append.1 hu' with hu' | hu'
        · rw [List.filter_eq_nil_iff] at e1
          have := e1 u.msg (List.mem_map_of_mem hu')
          rw [about_conc] at this
          simpa using this
        · exact hu u hu'
      · rw [spread_eqL, spread_single]; exact w.eqL
      · rw [spread_eqR, spread_single]; exact w.eqR
      · intro e
        rw [spread_single] at e
        rw [spread_mid, e]
        exact w.mid e

theorem add64_zero : add64 0 0 = 0 := rfl

theorem countIn_greater_none (rows : Rows K R) (left : Option K) (s : Bool) : (countIn rows left none s).greater = 0 ∧ (countIn rows left none s).eqR = 0 := by
  refine ⟨?_, rfl⟩
  show sub64 (sub32 rows.length rows.length) 0 = 0
  have := sub32_add rows.length 0
  rw [Nat.add_zero] at this
  rw [this]
  rfl

theorem countIn_greater_false (rows : Rows K R) (left right : Option K) :
    (countIn rows left right false).greater = 0 ∧ (countIn rows left right false).eqR = 0 := by
  cases right with
  | none => exact countIn_greater_none rows left false
  | some b => exact countIn_greater_none rows left false

theorem countIn_le (rows : Rows K R) (left right : Option K) (s : Bool) :
    (countIn rows left right s).eqL ≤ 1 ∧ (countIn rows left right s).eqR ≤ 1 := by
  constructor
  · show (if (leftAt rows left).2 then 1 else 0) ≤ 1
    split <;> omega
  · show (if (rightAt rows s right).2 then 1 else 0) ≤ 1
    split <;> omega

/-- Counting does not fail; what must be zero is zero. -/
structure Shape (left right : Option K) (cs : Counts) : Prop where
  zero : cs.single = false ∨ right = none → cs.eqR = 0 ∧ cs.greater = 0
  low : left = none → cs.less = 0 ∧ cs.eqL = 0
  one : cs.eqL ≤ 1 ∧ cs.eqR ≤ 1

theorem inPartition_shape (p : Part K R) (left right : Option K) (s : Bool) (est : Nat) : Shape left right (inPartition p left right s est) := by
  unfold inPartition
  cases hr : rowsToCount p s with
  | none => exact ⟨fun _ => ⟨rfl, rfl⟩, fun e => by subst e; exact ⟨rfl, rfl⟩, Nat.zero_le _, Nat.zero_le _⟩
  | some rows =>
    refine ⟨?_, ?_, countIn_le rows left right s⟩
    · intro e
      rcases e with e | e
      · have e : s = false := e
        subst e
        have := countIn_greater_false rows left right
        exact ⟨this.2, this.1⟩
      · subst e
        have := countIn_greater_none rows left s
        exact ⟨this.2, this.1⟩
    · intro e
      subst e
      exact ⟨rfl, rfl⟩

theorem Shape.spread {left right : Option K} {cs : Counts} (h : Shape left right cs) {lo hi : Option K} {ks : List K} {n : Nat}
    {may : Bool} {i j : Nat} (hc : Chosen lo hi ks n left right may i j) (hs : cs.single = true → may = true ∧ i = j) (share : Nat) :
    Shape left right (spread share n i cs) := by
  refine ⟨?_, ?_, ?_⟩
  · intro e
    rw [spread_single] at e
    have := h.zero e
    rw [spread_eqR, spread_greater]
    refine ⟨this.1, ?_⟩
    cases hb : cs.single with
    | false => simpa using this.2
    | true =>
      obtain ⟨m1, rfl⟩ := hs hb
      rw [hb] at e
      rcases e with e | e
      · cases e
      · have h3 := (hc.inR m1).2.2 e
        have : n - i - 1 = 0 := by omega
        rw [if_pos rfl, this, Nat.mul_zero, ‹_ ∧ cs.greater = 0›.2]
        rfl
  · intro e
    have := h.low e
    rw [spread_less, spread_eqL, hc.first e, Nat.mul_zero, this.1]
    exact ⟨rfl, this.2⟩
  · rw [spread_eqL, spread_eqR]
    exact h.one

theorem shape {c : Ctx K R B} : ∀ {h : Nat} {lo hi : Option K} {U : List (Ent K B)} {n : Node K R B h} {left right : Option K}
    {may : Bool} {est : Nat}, Good c h lo hi U n → EndsIn lo hi left right may →
    ∃ cs, keysInternal left right h may est n = some cs ∧ Shape left right cs
  | 0, lo, hi, U, l, left, right, may, est, hg, he => by
    obtain ⟨i, j, p, h1, h2, h3, h4, h5, h6⟩ := keys_leaf hg he est
    refine ⟨_, h6, (inPartition_shape p left right _ _).spread h4 ?_ _⟩
    intro e
    have hm := single_may hg he h6 (by rw [spread_single]; exact e)
    rw [inPartition_single, decide_eq_true_eq] at e
    exact ⟨hm, e⟩
  | h + 1, lo, hi, U, n, left, right, may, est, hg, he => by
    obtain ⟨i, j, s, ch, h1, h2, h3, h4, h5, h6⟩ := keys_inner hg he est
    obtain ⟨c1, q1, q2⟩ := shape (est := est / (Inner.kids n).length) h5 h4.next
    rw [q1] at h6
    refine ⟨_, h6, q2.spread h4 ?_ _⟩
    intro e
    have hm := single_may h5 h4.next q1 e
    simpa only [Bool.and_eq_true, decide_eq_true_eq] using hm

/-- Both ends are in one basement just if their routes are the same. -/
theorem single_route {c : Ctx K R B} {a b : K} : ∀ {h : Nat} {lo hi : Option K} {U : List (Ent K B)} {n : Node K R B h}
    {est : Nat} {cs : Counts}, Good c h lo hi U n → InB lo hi a → InB lo hi b →
    keysInternal (some a) (some b) h true est n = some cs → (cs.single = true ↔ routeOf a h n = routeOf b h n)
  | 0, lo, hi, U, l, est, cs, hg, ha, hb, hk => by
    obtain ⟨i, j, p, h1, h2, h3, h4, h5, h6⟩ := keys_leaf hg (left := some a) (right := some b) (may := true)
      ⟨fun _ e => (by cases e; exact ha), fun _ _ e => (by cases e; exact hb)⟩ est
    rw [h6] at hk
    cases hk
    have h1 : whichChild (Leaf.parts l).length (Leaf.pivots l) a = some i := h1
    have h2 : whichChild (Leaf.parts l).length (Leaf.pivots l) b = some j := h2
    have r1 : routeOf (B := B) a 0 l = some [i] := by show Option.map _ (whichChild _ _ a) = _; rw [h1]; rfl
    have r2 : routeOf (B := B) b 0 l = some [j] := by show Option.map _ (whichChild _ _ b) = _; rw [h2]; rfl
    rw [r1, r2, spread_single, inPartition_single]
    simp
  | h + 1, lo, hi, U, n, est, cs, hg, ha, hb, hk => by
    have he : EndsIn lo hi (some a) (some b) true := ⟨fun _ e => (by cases e; exact ha), fun _ _ e => (by cases e; exact hb)⟩
    obtain ⟨i, j, s, ch, h1, h2, h3, h4, h5, h6⟩ := keys_inner hg he est
    rw [h6] at hk
    obtain ⟨c1, q1, rfl⟩ := Option.map_eq_some_iff.1 hk
    have h1 : whichChild (Inner.kids n).length (Inner.pivots n) a = some i := h1
    have h2 : whichChild (Inner.kids n).length (Inner.pivots n) b = some j := h2
    have hj : j < (Inner.kids n).length := (h4.inR rfl).1
    obtain ⟨⟨s', ch'⟩, h3'⟩ : ∃ p, (Inner.kids n)[j]? = some p := ⟨_, List.getElem?_eq_getElem hj⟩
    have r1 : routeOf a (h + 1) n = (routeOf a h ch).map (i :: ·) := by
      show (match whichChild (Inner.kids n).length (Inner.pivots n) a with | none => _ | some i => _) = _
      rw [h1]
      show (match (Inner.kids n)[i]? with | none => _ | some (_, c) => _) = _
      rw [h3]
    have r2 : routeOf b (h + 1) n = (routeOf b h ch').map (j :: ·) := by
      show (match whichChild (Inner.kids n).length (Inner.pivots n) b with | none => _ | some i => _) = _
      rw [h2]
      show (match (Inner.kids n)[j]? with | none => _ | some (_, c) => _) = _
      rw [h3']
    rw [r1, r2, spread_single]
    have ia : InB (childLo lo (Inner.pivots n) i) (childHi hi (Inner.pivots n) (Inner.kids n).length i) a := h4.inL a rfl
    obtain ⟨ra, _, _, ea, _⟩ := routeOf_ok h5 ia
    by_cases e : i = j
    · subst e
      rw [h3] at h3'
      cases h3'
      rw [decide_eq_true rfl, Bool.and_true] at q1
      rw [single_route h5 ia ((h4.inR rfl).2.1 b rfl) q1]
      obtain ⟨rb, _, _, eb, _⟩ := routeOf_ok h5 ((h4.inR rfl).2.1 b rfl)
      rw [ea, eb]
      simp
    · constructor
      · intro hs
        have := single_may h5 h4.next q1 hs
        simp [e] at this
      · intro hr
        obtain ⟨rb, _, _, eb, _⟩ := routeOf_ok (chain_get hg.2.2 h3').2 ((h4.inR rfl).2.1 b rfl)
        rw [ea, eb] at hr
        simp only [Option.map_some, Option.some.injEq, List.cons.injEq] at hr
        exact absurd hr.1 e

/-! ### Sizes -/

/-- All the rows counted. -/
def Counts.total (c : Counts) : Nat := c.less + c.eqL + c.mid + c.eqR + c.greater

theorem countIn_total_true {rows : Rows K R} (hs : Sorted rows) {left right : Option K} (ho : Ordered left right)
    (hl : rows.length + 1 < 2 ^ 32) : (countIn rows left right true).total ≤ rows.length := by
  have cle : ∀ f : K → Bool, countRows f rows ≤ rows.length := fun f => List.length_filter_le _ _
  obtain ⟨a1, a2, a3⟩ := countIn_mid hs ho
  have a3 := a3 (by have := cle (fun k => pastL left k && beforeR right k); omega)
  have hg : (rightAt rows true right).1 + (countIn rows left right true).eqR + (countIn rows left right true).greater = rows.length := by
    cases right with
    | none =>
      have := countIn_greater_none rows left true
      rw [this.1, this.2]
      rfl
    | some b =>
      have hb := countIn_mid hs (left := some b) (right := none) (fun _ _ _ e => by cases e)
      obtain ⟨b1, b2, b3⟩ := hb
      have b3 := b3 (by have := cle (fun k => pastL (some b) k && beforeR none k); omega)
      have e1 : (countIn rows left (some b) true).eqR = (countIn rows (some b) none true).eqL := rfl
      have e2 : (countIn rows left (some b) true).greater = (countIn rows (some b) none true).mid := rfl
      have e3 : (rightAt rows true (some b)) = leftAt rows (some b) := rfl
      have e4 : (rightAt rows true (none : Option K)).1 = rows.length := rfl
      rw [e1, e2, e3, b3]
      rw [e4] at b1 b2
      omega
  have hless : (countIn rows left right true).less = (leftAt rows left).1 := rfl
  unfold Counts.total
  rw [hless, a3]
  omega

theorem countIn_total {rows : Rows K R} (hs : Sorted rows) {left right : Option K} (ho : Ordered left right)
    (hl : rows.length + 1 < 2 ^ 32) (s : Bool) : (countIn rows left right s).total ≤ rows.length := by
  cases s with
  | true => exact countIn_total_true hs ho hl
  | false =>
    have e : (countIn rows left right false).total = (countIn rows left none true).total := by
      cases right <;> rfl
    rw [e]
    exact countIn_total_true hs (fun _ _ _ e => by cases e) hl

theorem guessIn_total (left : Option K) {est : Nat} (h : est < 2 ^ 64) : (guessIn left est).total ≤ est := by
  have : ∀ l, l ≤ est → l + 0 + sub64 est l + 0 + 0 ≤ est := by
    intro l hl
    rw [sub64_of_le hl h]
    omega
  cases left with
  | none => exact this 0 (Nat.zero_le _)
  | some a => exact this ((est / 2) % 2 ^ 32) (by omega)

theorem inPartition_total {c : Ctx K R B} {U : List (Ent K B)} {msn : Nat} {d : Bool} {lo hi : Option K} {p : Part K R}
    (h : PartOk c U msn d lo hi p) {left right : Option K} (ho : Ordered left right) {S : Nat} (hS : S + 1 < 2 ^ 32)
    (hp : p.disk.length ≤ S ∧ ∀ b, p.mem = some b → b.rows.length ≤ S) {est : Nat} (he : est < 2 ^ 64) (s : Bool) :
    (inPartition p left right s est).total ≤ est + S := by
  unfold inPartition
  cases hr : rowsToCount p s with
  | none => exact Nat.le_trans (guessIn_total left he) (Nat.le_add_right _ _)
  | some rows =>
    have hl : rows.length ≤ S := by
      unfold rowsToCount at hr
      cases hm : p.mem with
      | some b => rw [hm] at hr; cases hr; exact hp.2 b hm
      | none =>
        rw [hm] at hr
        simp only at hr
        split at hr
        · cases hr; exact hp.1
        · cases hr
    have := countIn_total (rows_ok h hr).1 ho (by omega) s
    show (countIn rows left right s).total ≤ _
    omega

theorem add64_le (a b : Nat) : add64 a b ≤ a + b := Nat.mod_le _ _

theorem spread_total {cs : Counts} {share n i est S : Nat} (h : cs.total ≤ share + S) (hi : i < n) (hs : share = est / n) :
    (spread share n i cs).total ≤ est + S := by
  have h1 : (spread share n i cs).total ≤ cs.total + share * i + share * (n - i - 1) := by
    unfold Counts.total
    rw [spread_less, spread_eqL, spread_eqR, spread_mid, spread_greater]
    have a := add64_le cs.less (share * i)
    have b := add64_le cs.mid (share * (n - i - 1))
    have d := add64_le cs.greater (share * (n - i - 1))
    cases cs.single
    · simp only [Bool.false_eq_true, if_false]; omega
    · simp only [if_true]; omega
  have h2 : share + share * i + share * (n - i - 1) = share * n := by
    have : n = 1 + i + (n - i - 1) := by omega
    conv => rhs; rw [this]
    rw [Nat.mul_add, Nat.mul_add, Nat.mul_one]
  have h3 : share * n ≤ est := by
    rw [hs]
    exact Nat.div_mul_le_self est n
  omega

theorem keys_total {c : Ctx K R B} {S : Nat} (hS : S + 1 < 2 ^ 32) : ∀ {h : Nat} {lo hi : Option K} {U : List (Ent K B)} {n : Node K R B h}
    {left right : Option K} {may : Bool} {est : Nat} {cs : Counts}, Good c h lo hi U n → EndsIn lo hi left right may →
    Ordered left right → SmallBasements S h n → est < 2 ^ 64 →
    keysInternal left right h may est n = some cs → cs.total ≤ est + S
  | 0, lo, hi, U, l, left, right, may, est, cs, hg, he, ho, hb, hlt, hk => by
    obtain ⟨i, j, p, h1, h2, h3, h4, h5, h6⟩ := keys_leaf hg he est
    rw [h6] at hk
    cases hk
    have hd := Nat.div_le_self est (Leaf.parts l).length
    exact spread_total (inPartition_total h5 ho hS (hb p (List.mem_of_getElem? h3)) (by omega) _) h4.lt rfl
  | h + 1, lo, hi, U, n, left, right, may, est, cs, hg, he, ho, hb, hlt, hk => by
    obtain ⟨i, j, s, ch, h1, h2, h3, h4, h5, h6⟩ := keys_inner hg he est
    rw [h6] at hk
    obtain ⟨c1, q1, rfl⟩ := Option.map_eq_some_iff.1 hk
    have hd := Nat.div_le_self est (Inner.kids n).length
    exact spread_total (keys_total hS h5 h4.next ho (hb _ (List.mem_of_getElem? h3)) (by omega) q1) h4.lt rfl

/-! ### What is left in memory -/

theorem loadAt_ok {c : Ctx K R B} {lo hi : Option K} {U : List (Ent K B)} {l : Leaf K R} (hg : Good c 0 lo hi U l) (i : Nat) :
    Good c 0 lo hi U (loadAt l i) := by
  unfold loadAt
  cases hp : l.parts[i]? with
  | none => exact hg
  | some p =>
    have hP := chain_get hg.1.chain hp
    have hlt := lt_of_getElem? hp
    refine ⟨⟨hg.1.le, ?_, ?_⟩, ?_⟩
    · simpa using hg.1.piv
    · show Chain (PartOk c U l.msn l.dirty) lo hi (l.pivots.take ((l.parts.set i _).length - 1)) _
      rw [List.length_set]
      exact chain_set hg.1.chain hlt hP.load.1
    · intro hd
      have hd : l.dirty = true := hd
      have e : loadPart l.msn p = p := by
        obtain ⟨b, hb⟩ := hP.mem hd
        unfold loadPart
        rw [hb]
      show AllOrNone U (l.parts.set i (loadPart l.msn p))
      rw [e]
      obtain ⟨q1, q2⟩ := List.getElem?_eq_some_iff.1 hp
      rw [← q2, List.set_getElem_self]
      exact hg.2 hd

theorem loadIf_ok {c : Ctx K R B} {lo hi : Option K} {U : List (Ent K B)} {l : Leaf K R} (hg : Good c 0 lo hi U l) (i j : Nat) :
    Good c 0 lo hi U (loadIf l i j) := by
  unfold loadIf
  by_cases e : i = j
  · rw [if_pos e]
    exact loadAt_ok hg _
  · rw [if_neg e]
    exact hg

theorem countLoads_ok {c : Ctx K R B} {left right : Option K} : ∀ {h : Nat} {lo hi : Option K} {U : List (Ent K B)} {n : Node K R B h}
    {may : Bool}, Good c h lo hi U n → Good c h lo hi U (countLoads left right h may n)
  | 0, lo, hi, U, l, may, hg => by
    unfold countLoads
    simp only
    generalize leftChild (Leaf.parts l).length (Leaf.pivots l) left = x
    generalize rightChild (Leaf.parts l).length (Leaf.pivots l) may right = y
    cases x with
    | none => exact hg
    | some i =>
      cases y with
      | none => exact hg
      | some j => exact loadIf_ok hg i j
  | h + 1, lo, hi, U, n, may, hg => by
    unfold countLoads
    simp only
    split
    · split
      · rename_i p hp
        have hlt := lt_of_getElem? hp
        have hP := chain_get hg.2.2 hp
        exact ⟨hg.1, hg.2.1, chain_set hg.2.2 hlt ⟨hP.1, countLoads_ok hP.2⟩⟩
      · exact hg
    · exact hg

end Verif.Tree
