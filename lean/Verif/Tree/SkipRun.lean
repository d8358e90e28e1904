import Verif.Tree.SkipLemmas

/-! The walk over the tree. -/
namespace Verif.Tree
set_option linter.unusedSectionVars false
variable {K R B : Type} [LinearOrder K]

/-- The rows in memory, in order. -/
def treeRows : (h : Nat) → Node K R B h → Rows K R
  | 0, l => (Leaf.parts l).flatMap partRows
  | h + 1, n => (Inner.kids n).flatMap fun p => treeRows h p.2

theorem sub_cons {α : Type} {P : Option K → Option K → α → Prop} {lo hi : Option K} {k : K} {ks : List K} {p : α} {ps : List α}
    (h : Chain P lo hi (k :: ks) (p :: ps)) : Sub lo (some k) lo hi ∧ Sub (some k) hi lo hi := by
  obtain ⟨_, _, e, _, h1, h2, _⟩ := chain_cons h
  exact ⟨fun x hx => ⟨hx.1, fun b hb => le_trans (hx.2 k rfl) (le_of_lt (h2 b hb))⟩,
    fun x hx => ⟨fun a ha => lt_trans (h1 a ha) (hx.1 k rfl), hx.2⟩⟩

/-- Rows of consecutive children together. -/
theorem rows_concat {α : Type} {P : Option K → Option K → α → Prop} (f : α → Rows K R) : ∀ {lo hi : Option K} {ks : List K} {ps : List α},
    Chain P lo hi ks ps → (∀ lo hi p, p ∈ ps → P lo hi p → Sorted (f p) ∧ RowsIn lo hi (f p)) →
    Sorted (ps.flatMap f) ∧ RowsIn lo hi (ps.flatMap f) ∧
      ∀ i p, ps[i]? = some p → ∀ k, InB (childLo lo ks i) (childHi hi ks ps.length i) k → lookup (ps.flatMap f) k = lookup (f p) k
  | lo, hi, [], ps, h, hf => by
    obtain ⟨p, rfl, hp⟩ := chain_nil h
    have := hf lo hi p List.mem_cons_self hp
    rw [List.flatMap_cons, List.flatMap_nil, List.append_nil]
    refine ⟨this.1, this.2, ?_⟩
    intro i q hq k _
    cases i with
    | zero => cases hq; rfl
    | succ i => simp at hq
  | lo, hi, a :: ks, ps, h, hf => by
    have h0 := h
    obtain ⟨p, ps', rfl, hp, h1, h2, h3⟩ := chain_cons h
    obtain ⟨s1, s2⟩ := sub_cons h0
    obtain ⟨f1, f2⟩ := hf lo (some a) p List.mem_cons_self hp
    obtain ⟨i1, i2, i3⟩ := rows_concat f h3 fun lo hi q hq => hf lo hi q (List.mem_cons_of_mem _ hq)
    rw [List.flatMap_cons]
    refine ⟨?_, ?_, ?_⟩
    · refine List.pairwise_append.2 ⟨f1, i1, ?_⟩
      intro x hx y hy
      exact lt_of_le_of_lt ((f2 x hx).2 a rfl) ((i2 y hy).1 a rfl)
    · intro x hx
      rcases List.mem_append.1 hx with hx | hx
      · exact s1 _ (f2 x hx)
      · exact s2 _ (i2 x hx)
    · intro i q hq k hk
      rw [lookup_append]
      cases i with
      | zero =>
        cases hq
        rw [List.length_cons, childHi_zero _ _ _ _ h3.pos] at hk
        have : lookup (ps'.flatMap f) k = none := by
          refine lookup_none_of ?_
          intro y hy e
          have := (i2 y hy).1 a rfl
          rw [e] at this
          exact absurd (hk.2 a rfl) (not_le.2 this)
        rw [this, Option.or_none]
      | succ i =>
        rw [List.length_cons, childLo_succ, childHi_succ] at hk
        have hin := childLo_inB h3 (lt_of_getElem? hq) k hk
        have : lookup (f p) k = none := by
          refine lookup_none_of ?_
          intro y hy e
          have := (f2 y hy).2 a rfl
          rw [e] at this
          exact absurd (hin.1 a rfl) (not_lt.2 this)
        rw [this, Option.none_or]
        exact i3 i q hq k hk

theorem chain_drop {α : Type} {P : Option K → Option K → α → Prop} : ∀ {i : Nat} {lo hi : Option K} {ks : List K} {ps : List α},
    Chain P lo hi ks ps → i < ps.length → Chain P (childLo lo ks i) hi (ks.drop i) (ps.drop i)
  | 0, lo, hi, ks, ps, h, _ => h
  | i + 1, lo, hi, [], ps, h, hi' => by
    obtain ⟨p, rfl, _⟩ := chain_nil h
    simp at hi'
  | i + 1, lo, hi, a :: ks, ps, h, hi' => by
    obtain ⟨p, ps', rfl, hp, h1, h2, h3⟩ := chain_cons h
    rw [childLo_succ, List.drop_succ_cons, List.drop_succ_cons]
    exact chain_drop h3 (by simpa using hi')

/-- What the search looks for, within bounds: what is not before the start. -/
structure GoalHere (g : Goal K) (start lo hi : Option K) : Prop where
  left : g.left = true
  cmp : ∀ x, InB lo hi x → g.cmp x = past start x

theorem GoalHere.sub {g : Goal K} {start lo hi lo' hi' : Option K} (h : GoalHere g start lo hi) (hs : Sub lo' hi' lo hi) :
    GoalHere g start lo' hi' := ⟨h.left, fun x hx => h.cmp x (hs x hx)⟩

theorem past_mono {start : Option K} {a b : K} (h : a ≤ b) (ha : past start a = true) : past start b = true := by
  cases start with
  | none => rfl
  | some x => exact decide_eq_true (le_trans (by simpa [past] using ha) h)

theorem choose_child {α : Type} {P : Option K → Option K → α → Prop} {lo hi : Option K} {ks ext : List K} {ps : List α}
    (h : Chain P lo hi ks ps) {g : Goal K} {start : Option K} (hg : GoalHere g start lo hi) :
    ∃ i, searchChild g none ps.length (ks ++ ext) = some i ∧ i < ps.length ∧
      (∀ j p, j < i → ks[j]? = some p → past start p = false) ∧ (∀ j p, i ≤ j → ks[j]? = some p → past start p = true) := by
  have hl := h.length
  have hc : ∀ p, p ∈ ks → g.cmp p = past start p := by
    intro p hp
    obtain ⟨b1, b2⟩ := chain_below h p hp
    exact hg.cmp p ⟨b2, fun b hb => le_of_lt (b1 b hb)⟩
  unfold searchChild
  by_cases h0 : ps.length ≤ 1
  · rw [if_pos h0]
    refine ⟨0, rfl, by omega, fun j p hj => absurd hj (Nat.not_lt_zero _), ?_⟩
    intro j p _ hp
    rw [List.getElem?_eq_none (by omega)] at hp
    cases hp
  · rw [if_neg h0]
    simp only [hg.left, if_true]
    obtain ⟨i, q1, q2, q3, q4⟩ := halve_spec (stop := fun p => g.cmp p) (ks := ks) (ext := ext)
      (fun i j p q hp hq hij hst => g.up hg.left (sorted_get (chain_sorted h) hp hq hij) hst) ps.length 0 (ps.length - 1)
      (by omega) (by omega) (by omega) (fun j p hj => absurd hj (Nat.not_lt_zero _))
      (fun j p hj hp => by rw [List.getElem?_eq_none (by omega)] at hp; cases hp)
    rw [q1]
    refine ⟨i, rfl, by omega, ?_, ?_⟩
    · intro j p hj hp
      rw [← hc p (List.mem_of_getElem? hp)]
      exact q3 j p hj hp
    · intro j p hj hp
      rw [← hc p (List.mem_of_getElem? hp)]
      exact q4 j p hj hp

theorem walkParts_cons {size : K → R → Nat} {skip share n : Nat} {pv : List K} {start : Option K} {p : Part K R} {rest : List (Part K R)} {i s : Nat} :
    walkParts size skip share n pv start (p :: rest) i s = match p.mem with
      | some b =>
        match walkBasement size skip start b.rows s with
        | .found e s' => some (.found e s')
        | .beyond s' => walkParts size skip share n pv none rest (i + 1) s'
      | none =>
        if skip ≤ s + share ∧ i < n - 1 then (pv[i]?).map fun e => .found e (s + share)
        else walkParts size skip share n pv none rest (i + 1) (s + share) := rfl

theorem partRows_some {p : Part K R} {b : Bn K R} (h : p.mem = some b) : partRows p = b.rows := by
  unfold partRows; rw [h]; rfl

theorem part_rows_ok {c : Ctx K R B} {U : List (Ent K B)} {msn : Nat} {d : Bool} {lo hi : Option K} {p : Part K R}
    (h : PartOk c U msn d lo hi p) : Sorted (partRows p) ∧ RowsIn lo hi (partRows p) := by
  cases hm : p.mem with
  | none =>
    unfold partRows
    rw [hm]
    exact ⟨List.Pairwise.nil, fun x hx => (by cases hx)⟩
  | some b =>
    rw [partRows_some hm]
    exact ⟨(h.bn b hm).1.sorted, (h.bn b hm).1.within⟩

/-- An answer that is a guess. -/
theorem guess_answer {size : K → R → Nat} {skip : Nat} {start lo hi : Option K} {m f : Prop} (hm : ¬ m) {rows : Rows K R} {s : Nat} {r : Reach K}
    (hr : ∀ e s', r = .found e s' → InB lo hi e ∧ past start e = true) : Answer size skip start lo hi m f rows s r :=
  ⟨fun e s' h => (hr e s' h).1, fun e s' h => (hr e s' h).2, fun h => absurd h hm, fun h => absurd h hm, fun h => absurd h hm, fun h => absurd h hm⟩

theorem parts_answer {c : Ctx K R B} {U : List (Ent K B)} {msn : Nat} {d : Bool} {size : K → R → Nat} {skip share n : Nat} {pv : List K} :
    ∀ {lo hi : Option K} {ks : List K} {ps : List (Part K R)} {start : Option K} {i s : Nat}, Chain (PartOk c U msn d) lo hi ks ps →
    (∀ k, ks.head? = some k → past start k = true) → (∀ j, j < ks.length → pv[i + j]? = ks[j]?) → n = i + ps.length →
    ∃ r, walkParts size skip share n pv start ps i s = some r ∧
      Answer size skip start lo hi (AllMem ps) True (ps.flatMap partRows) s r
  | lo, hi, [], ps, start, i, s, h, hst, hpv, hn => by
    obtain ⟨p, rfl, hp⟩ := chain_nil h
    rw [List.flatMap_cons, List.flatMap_nil, List.append_nil, walkParts_cons]
    cases hm : p.mem with
    | none =>
      simp only
      rw [if_neg (by rw [hn]; simp)]
      refine ⟨_, rfl, guess_answer ?_ fun e s' h => (by cases h)⟩
      intro ha
      obtain ⟨b, hb⟩ := ha p List.mem_cons_self
      rw [hm] at hb
      cases hb
    | some b =>
      have hb := (hp.bn b hm).1
      have ha := basement_answer hb.sorted hb.within size skip start s True
      simp only
      rw [partRows_some hm]
      cases hw : walkBasement size skip start b.rows s with
      | found e s' => rw [hw] at ha; exact ⟨_, rfl, ha.weaken (fun _ => trivial) fun _ h => h⟩
      | beyond s' => rw [hw] at ha; exact ⟨_, rfl, ha.weaken (fun _ => trivial) fun _ h => h⟩
  | lo, hi, a :: ks, ps, start, i, s, h, hst, hpv, hn => by
    obtain ⟨p, ps', rfl, hp, h1, h2, h3⟩ := chain_cons h
    have ih := fun s => parts_answer (start := none) (i := i + 1) (s := s) (size := size) (skip := skip) (share := share) (n := n) (pv := pv) h3
      (fun _ _ => rfl) (fun j hj => by
        have := hpv (j + 1) (by simpa using hj)
        rw [List.getElem?_cons_succ] at this
        rw [← this]
        congr 1
        omega) (by rw [hn, List.length_cons]; omega)
    have hpa := hst a rfl
    have hw : AllMem ps' → RowsIn (some a) hi (ps'.flatMap partRows) := fun _ =>
      (rows_concat partRows h3 fun lo hi q _ hq => part_rows_ok hq).2.1
    have hmem : AllMem (p :: ps') → (∃ b, p.mem = some b) ∧ AllMem ps' := fun ha =>
      ⟨ha p List.mem_cons_self, fun q hq => ha q (List.mem_cons_of_mem _ hq)⟩
    rw [List.flatMap_cons, walkParts_cons]
    cases hm : p.mem with
    | none =>
      have nm : ¬ ∃ b, p.mem = some b := by rintro ⟨b, hb⟩; rw [hm] at hb; cases hb
      simp only
      split
      · rename_i hc
        have e0 := hpv 0 (Nat.zero_lt_succ _)
        rw [Nat.add_zero, List.getElem?_cons_zero] at e0
        rw [e0]
        have g : Answer size skip start lo (some a) (∃ b, p.mem = some b) True (partRows p) s (.found a (s + share)) :=
          guess_answer nm fun e s' h => by
            cases h
            exact ⟨⟨h1, fun b hb => by cases hb; exact le_refl _⟩, hpa⟩
        exact ⟨_, rfl, (g.stop (m2 := AllMem ps') (f2 := True) h2).weaken hmem fun _ _ => ⟨trivial, trivial⟩⟩
      · obtain ⟨r, r1, r2⟩ := ih (s + share)
        have g : Answer size skip start lo (some a) (∃ b, p.mem = some b) True (partRows p) s (.beyond (s + share)) :=
          guess_answer nm fun e s' h => (by cases h)
        exact ⟨r, r1, (g.andThen r2 h1 hpa hw).weaken hmem fun _ _ => ⟨trivial, trivial⟩⟩
    | some b =>
      have hb := (hp.bn b hm).1
      have ha := basement_answer hb.sorted hb.within size skip start s True
      simp only
      rw [partRows_some hm]
      cases hwb : walkBasement size skip start b.rows s with
      | found e s' =>
        rw [hwb] at ha
        exact ⟨_, rfl, (ha.stop (m2 := AllMem ps') (f2 := True) h2).weaken (fun h => ⟨trivial, (hmem h).2⟩) fun _ _ => ⟨trivial, trivial⟩⟩
      | beyond s' =>
        rw [hwb] at ha
        obtain ⟨r, r1, r2⟩ := ih s'
        exact ⟨r, r1, (ha.andThen r2 h1 hpa hw).weaken (fun h => ⟨trivial, (hmem h).2⟩) fun _ _ => ⟨trivial, trivial⟩⟩

theorem walkKids_found {α : Type} {f : α → Nat → Option (Reach K)} {skip share : Nat} {ps : List α} {e : K} {s : Nat} :
    walkKids f skip share ps (.found e s) = some (.found e s) := by
  cases ps <;> rfl

theorem walkKids_cons {α : Type} {f : α → Nat → Option (Reach K)} {skip share : Nat} {p : α} {ps : List α} {s : Nat} :
    walkKids f skip share (p :: ps) (.beyond s) = if s + share < skip then walkKids f skip share ps (.beyond (s + share))
      else (f p s).bind (walkKids f skip share ps) := rfl

theorem kids_answer {α : Type} {P : Option K → Option K → α → Prop} {f : α → Nat → Option (Reach K)} {size : K → R → Nat} {skip share : Nat}
    {mem fine : α → Prop} {rows : α → Rows K R} : ∀ {lo hi : Option K} {ks : List K} {ps : List α} {s : Nat}, Chain P lo hi ks ps →
    (∀ lo' hi' p s, Sub lo' hi' lo hi → P lo' hi' p → ∃ r, f p s = some r ∧ Answer size skip none lo' hi' (mem p) (fine p) (rows p) s r) →
    (∀ lo hi p, P lo hi p → Sorted (rows p) ∧ RowsIn lo hi (rows p)) →
    ∃ r, walkKids f skip share ps (.beyond s) = some r ∧
      Answer size skip none lo hi (∀ p ∈ ps, mem p) (skip ≤ share ∧ ∀ p ∈ ps, fine p) (ps.flatMap rows) s r
  | lo, hi, [], ps, s, h, hf, hr => by
    obtain ⟨p, rfl, hp⟩ := chain_nil h
    rw [List.flatMap_cons, List.flatMap_nil, List.append_nil, walkKids_cons]
    split
    · rename_i hlt
      refine ⟨_, rfl, ⟨fun e s' h => (by cases h), fun e s' h => (by cases h), fun _ e s' h => (by cases h), fun _ _ => le_of_lt hlt,
        fun _ e s' h => (by cases h), fun _ hfine => ?_⟩⟩
      omega
    · obtain ⟨r, r1, r2⟩ := hf lo hi p s (Sub.refl _ _) hp
      rw [r1, Option.bind_some]
      refine ⟨r, ?_, r2.weaken (fun h => h p List.mem_cons_self) fun _ h => h.2 p List.mem_cons_self⟩
      cases r <;> rfl
  | lo, hi, a :: ks, ps, s, h, hf, hr => by
    have h0 := h
    obtain ⟨p, ps', rfl, hp, h1, h2, h3⟩ := chain_cons h
    obtain ⟨s1, s2⟩ := sub_cons h0
    have ih := fun s => kids_answer (s := s) (share := share) h3 (fun lo' hi' q s hs => hf lo' hi' q s (hs.trans s2)) hr
    have hw : (∀ q ∈ ps', mem q) → RowsIn (some a) hi (ps'.flatMap rows) := fun _ =>
      (rows_concat rows h3 fun lo hi q _ hq => hr lo hi q hq).2.1
    have hmem : (∀ q ∈ p :: ps', mem q) → mem p ∧ ∀ q ∈ ps', mem q := fun ha =>
      ⟨ha p List.mem_cons_self, fun q hq => ha q (List.mem_cons_of_mem _ hq)⟩
    have hfin : (skip ≤ share ∧ ∀ q ∈ p :: ps', fine q) → (fine p ∧ skip ≤ share) ∧ skip ≤ share ∧ ∀ q ∈ ps', fine q := fun ha =>
      ⟨⟨ha.2 p List.mem_cons_self, ha.1⟩, ha.1, fun q hq => ha.2 q (List.mem_cons_of_mem _ hq)⟩
    rw [List.flatMap_cons, walkKids_cons]
    split
    · rename_i hlt
      obtain ⟨r, r1, r2⟩ := ih (s + share)
      have g : Answer size skip none lo (some a) (mem p) (fine p ∧ skip ≤ share) (rows p) s (.beyond (s + share)) :=
        ⟨fun e s' h => (by cases h), fun e s' h => (by cases h), fun _ e s' h => (by cases h), fun _ _ => le_of_lt hlt,
          fun _ e s' h => (by cases h), fun _ hfine => by omega⟩
      exact ⟨r, r1, (g.andThen r2 h1 rfl hw).weaken hmem fun _ => hfin⟩
    · obtain ⟨r, r1, r2⟩ := hf lo (some a) p s s1 hp
      have r2' : Answer size skip none lo (some a) (mem p) (fine p ∧ skip ≤ share) (rows p) s r := r2.weaken (fun h => h) fun _ h => h.1
      rw [r1, Option.bind_some]
      cases r with
      | found e s' =>
        rw [walkKids_found]
        exact ⟨_, rfl, (r2'.stop (m2 := ∀ q ∈ ps', mem q) (f2 := skip ≤ share ∧ ∀ q ∈ ps', fine q) h2).weaken hmem fun _ => hfin⟩
      | beyond s' =>
        obtain ⟨r, q1, q2⟩ := ih s'
        exact ⟨r, q1, (r2'.andThen q2 h1 rfl hw).weaken hmem fun _ => hfin⟩

/-- Rows before the start do not matter. -/
theorem Answer.before {size : K → R → Nat} {skip : Nat} {start lo hi lo' : Option K} {m f : Prop} {rows pre : Rows K R} {s : Nat} {r : Reach K}
    (h : Answer size skip start lo' hi m f rows s r) (hs : Sub lo' hi lo hi) (hp : ∀ x ∈ pre, past start x.1 = false) :
    Answer size skip start lo hi m f (pre ++ rows) s r := by
  refine ⟨fun e s' he => hs e (h.within e s' he), h.after, ?_, h.limit, h.first, ?_⟩
  · intro hm e s' he
    obtain ⟨x, x1, x2⟩ := h.row hm e s' he
    exact ⟨x, List.mem_append_right _ x1, x2⟩
  · intro hm hf
    have : pre.filter (fun r => past start r.1) = [] := by
      rw [List.filter_eq_nil_iff]
      intro x hx
      rw [hp x hx]
      decide
    rw [List.filter_append, this, List.nil_append]
    exact h.exact hm hf

/-- The children before the chosen one have nothing from the start on. -/
theorem before_past {α : Type} {P : Option K → Option K → α → Prop} {lo hi : Option K} {ks : List K} {ps : List α}
    (h : Chain P lo hi ks ps) {rows : α → Rows K R} (hr : ∀ lo hi p, P lo hi p → Sorted (rows p) ∧ RowsIn lo hi (rows p))
    {start : Option K} {i : Nat} (hi' : i < ps.length) (hb : ∀ j p, j < i → ks[j]? = some p → past start p = false) :
    ∀ x ∈ (ps.take i).flatMap rows, past start x.1 = false := by
  intro x hx
  obtain ⟨p, p1, p2⟩ := List.mem_flatMap.1 hx
  obtain ⟨j, j1, j2⟩ := List.getElem_of_mem p1
  have hj : j < i := by
    have := j1
    rw [List.length_take] at this
    omega
  have hg : ps[j]? = some p := by
    rw [List.getElem_take] at j2
    rw [List.getElem?_eq_getElem (by omega), j2]
  have hl := h.length
  have hk : j < ks.length := by omega
  have w := ((hr _ _ p (chain_get h hg)).2 x p2).2 ks[j] (by
    unfold childHi
    rw [if_neg (by omega), List.getElem?_eq_getElem hk])
  have hf := hb j ks[j] hj (List.getElem?_eq_getElem hk)
  cases hpx : past start x.1 with
  | false => rfl
  | true =>
    rw [past_mono w hpx] at hf
    cases hf

theorem walkTree_leaf {size : K → R → Nat} {skip : Nat} {g : Goal K} {bytes : Nat} {start : Option K} {l : Leaf K R} {s : Nat} :
    walkTree (B := B) size skip g 0 bytes start l s = (searchChild g none l.parts.length l.pivots).bind fun i =>
      walkParts size skip (bytes / l.parts.length) l.parts.length l.pivots start (l.parts.drop i) i s := rfl

theorem walkTree_inner {size : K → R → Nat} {skip : Nat} {g : Goal K} {h bytes : Nat} {start : Option K} {n : Inner K B (Node K R B h)} {s : Nat} :
    walkTree size skip g (h + 1) bytes start n s = (searchChild g none n.kids.length n.pivots).bind fun i =>
      (n.kids[i]?).bind fun p => (walkTree size skip g h (bytes / n.kids.length) start p.2 s).bind fun r =>
        walkKids (fun p s => walkTree size skip g h (bytes / n.kids.length) none p.2 s) skip (bytes / n.kids.length) (n.kids.drop (i + 1)) r := rfl

/-- The rows of a subtree. -/
theorem treeRows_ok {c : Ctx K R B} : ∀ {h : Nat} {lo hi : Option K} {U : List (Ent K B)} {n : Node K R B h}, Good c h lo hi U n →
    Sorted (treeRows h n) ∧ RowsIn lo hi (treeRows h n)
  | 0, lo, hi, U, l, hg => by
    have := rows_concat partRows hg.1.chain fun lo hi q _ hq => part_rows_ok hq
    exact ⟨this.1, this.2.1⟩
  | h + 1, lo, hi, U, n, hg => by
    have := rows_concat (fun p : Slot K B × Node K R B h => treeRows h p.2) hg.2.2 fun lo hi q _ hq => treeRows_ok hq.2
    exact ⟨this.1, this.2.1⟩

theorem leaf_answer {c : Ctx K R B} {size : K → R → Nat} {skip : Nat} {g : Goal K} {lo hi : Option K} {U : List (Ent K B)}
    {l : Leaf K R} {bytes : Nat} {start : Option K} {s : Nat} (hg : Good c 0 lo hi U (l : Node K R B 0)) (hgo : GoalHere g start lo hi) :
    ∃ r, walkTree (B := B) size skip g 0 bytes start l s = some r ∧
      Answer size skip start lo hi (InMemory (B := B) 0 l) (LargeShares (B := B) skip 0 bytes l) (treeRows (B := B) 0 l) s r := by
  obtain ⟨i, q1, q2, q3, q4⟩ := choose_child (ext := (Leaf.pivots l).drop ((Leaf.parts l).length - 1)) hg.1.chain hgo
  rw [← Leaf.pivots_eq] at q1
  have hlen := hg.1.chain.length
  obtain ⟨r, r1, r2⟩ := parts_answer (size := size) (skip := skip) (share := bytes / (Leaf.parts l).length) (n := (Leaf.parts l).length)
    (pv := Leaf.pivots l) (start := start) (i := i) (s := s) (chain_drop hg.1.chain q2)
    (fun k hk => q4 i k (Nat.le_refl _) (by rw [← hk, List.head?_drop]))
    (fun j hj => by
      rw [List.length_drop] at hj
      rw [List.getElem?_drop]
      conv => lhs; rw [Leaf.pivots_eq l]
      rw [List.getElem?_append_left (by omega)])
    (by rw [List.length_drop]; omega)
  refine ⟨r, ?_, ?_⟩
  · rw [walkTree_leaf, q1]
    exact r1
  · have e : treeRows (B := B) 0 l = ((Leaf.parts l).take i).flatMap partRows ++ ((Leaf.parts l).drop i).flatMap partRows := by
      rw [← List.flatMap_append, List.take_append_drop]
      rfl
    rw [e]
    refine ((r2.weaken ?_ fun _ _ => trivial).before ?_ (before_past hg.1.chain (fun lo hi p hp => part_rows_ok hp) q2 q3))
    · intro hm p hp
      exact hm p (List.mem_of_mem_drop hp)
    · intro x hx
      have := (childLo_inB hg.1.chain q2 : Sub _ _ _ _)
      refine ⟨fun a ha => ?_, hx.2⟩
      unfold childLo at hx
      split at hx
      · exact hx.1 a ha
      · have hk : i - 1 < (Leaf.ks l).length := by omega
        rw [List.getElem?_eq_getElem hk] at hx
        exact lt_trans ((chain_below hg.1.chain _ (List.getElem_mem hk)).2 a ha) (hx.1 _ rfl)

theorem walk_answer {c : Ctx K R B} {size : K → R → Nat} {skip : Nat} {g : Goal K} : ∀ {h : Nat} {lo hi : Option K} {U : List (Ent K B)}
    {n : Node K R B h} {bytes : Nat} {start : Option K} {s : Nat}, Good c h lo hi U n → GoalHere g start lo hi →
    ∃ r, walkTree size skip g h bytes start n s = some r ∧
      Answer size skip start lo hi (InMemory h n) (LargeShares skip h bytes n) (treeRows h n) s r
  | 0, lo, hi, U, l, bytes, start, s, hg, hgo => leaf_answer hg hgo
  | h + 1, lo, hi, U, n, bytes, start, s, hg, hgo => by
    obtain ⟨g1, g2, g3⟩ := hg
    obtain ⟨i, q1, q2, q3, q4⟩ := choose_child (ext := []) g3 hgo
    rw [List.append_nil] at q1
    have hlen := g3.length
    obtain ⟨⟨sl, ch⟩, hp⟩ : ∃ p, (Inner.kids n)[i]? = some p := ⟨_, List.getElem?_eq_getElem q2⟩
    have hP := chain_get g3 hp
    obtain ⟨r0, a1, a2⟩ := walk_answer (size := size) (skip := skip) (bytes := bytes / (Inner.kids n).length) (s := s) hP.2
      (hgo.sub (childLo_inB g3 q2))
    have hr : ∀ lo hi (p : Slot K B × Node K R B h), SlotOk (Inner.msn n) lo hi p.1 ∧ Good c h lo hi (p.1 ++ U) p.2 →
        Sorted (treeRows h p.2) ∧ RowsIn lo hi (treeRows h p.2) := fun lo hi p hp => treeRows_ok hp.2
    have hdrop : (Inner.kids n).drop i = (sl, ch) :: (Inner.kids n).drop (i + 1) := by
      rw [List.drop_eq_getElem_cons q2]
      congr 1
      rw [List.getElem?_eq_getElem q2] at hp
      exact Option.some.inj hp
    have hch := chain_drop g3 q2
    rw [hdrop] at hch
    have e : treeRows (h + 1) n = ((Inner.kids n).take i).flatMap (fun p => treeRows h p.2) ++
        (treeRows h ch ++ ((Inner.kids n).drop (i + 1)).flatMap fun p => treeRows h p.2) := by
      show (Inner.kids n).flatMap (fun p => treeRows h p.2) = _
      conv => lhs; rw [← List.take_append_drop i (Inner.kids n), List.flatMap_append, hdrop, List.flatMap_cons]
    have hsub : Sub (childLo lo (Inner.pivots n) i) hi lo hi := by
      intro x hx
      refine ⟨fun a ha => ?_, hx.2⟩
      unfold childLo at hx
      split at hx
      · exact hx.1 a ha
      · have hk : i - 1 < (Inner.pivots n).length := by omega
        rw [List.getElem?_eq_getElem hk] at hx
        exact lt_trans ((chain_below g3 _ (List.getElem_mem hk)).2 a ha) (hx.1 _ rfl)
    have hmem : InMemory (h + 1) n → InMemory h ch ∧ ∀ p ∈ (Inner.kids n).drop (i + 1), InMemory h p.2 := fun hm =>
      ⟨hm (sl, ch) (List.mem_of_getElem? hp), fun p hp' => hm p (List.mem_of_mem_drop hp')⟩
    have hfin : LargeShares skip (h + 1) bytes n → LargeShares skip h (bytes / (Inner.kids n).length) ch ∧
        skip ≤ bytes / (Inner.kids n).length ∧ ∀ p ∈ (Inner.kids n).drop (i + 1), LargeShares skip h (bytes / (Inner.kids n).length) p.2 := fun hf =>
      ⟨hf.2 (sl, ch) (List.mem_of_getElem? hp), hf.1, fun p hp' => hf.2 p (List.mem_of_mem_drop hp')⟩
    suffices hh : ∃ r, walkKids (fun p s => walkTree size skip g h (bytes / (Inner.kids n).length) none p.2 s) skip
        (bytes / (Inner.kids n).length) ((Inner.kids n).drop (i + 1)) r0 = some r ∧
        Answer size skip start (childLo lo (Inner.pivots n) i) hi (InMemory (h + 1) n) (LargeShares skip (h + 1) bytes n)
          (treeRows h ch ++ ((Inner.kids n).drop (i + 1)).flatMap fun p => treeRows h p.2) s r by
      obtain ⟨r, b1, b2⟩ := hh
      refine ⟨r, ?_, ?_⟩
      · refine Eq.trans walkTree_inner ?_
        rw [q1, Option.bind_some, hp, Option.bind_some]
        show (walkTree size skip g h (bytes / (Inner.kids n).length) start ch s).bind _ = _
        rw [a1]
        exact b1
      · rw [e]
        exact b2.before hsub (before_past g3 (rows := fun p => treeRows h p.2) hr q2 q3)
    by_cases hlast : i + 1 = (Inner.kids n).length
    · have hn : (Inner.kids n).drop (i + 1) = [] := List.drop_eq_nil_of_le (by omega)
      rw [hn]
      have hcl : childHi hi (Inner.pivots n) (Inner.kids n).length i = hi := by unfold childHi; rw [if_pos hlast]
      rw [hcl] at a2
      refine ⟨r0, by cases r0 <;> rfl, ?_⟩
      rw [List.flatMap_nil, List.append_nil]
      exact a2.weaken (fun h => (hmem h).1) fun _ h => (hfin h).1
    · have hk : i < (Inner.pivots n).length := by omega
      have hcl : childHi hi (Inner.pivots n) (Inner.kids n).length i = some (Inner.pivots n)[i] := by
        unfold childHi; rw [if_neg hlast, List.getElem?_eq_getElem hk]
      rw [hcl] at a2
      rw [List.drop_eq_getElem_cons hk] at hch
      obtain ⟨_, _, e1, _, c1, c2, c3⟩ := chain_cons hch
      injection e1 with e1 e2
      subst e2
      have hpk := q4 i _ (Nat.le_refl _) (List.getElem?_eq_getElem hk)
      cases r0 with
      | found e0 s0 =>
        rw [walkKids_found]
        exact ⟨_, rfl, (a2.stop c2).weaken hmem fun _ => hfin⟩
      | beyond s0 =>
        obtain ⟨r, b1, b2⟩ := kids_answer (f := fun (p : Slot K B × Node K R B h) s => walkTree size skip g h (bytes / (Inner.kids n).length) none p.2 s)
          (size := size) (skip := skip) (share := bytes / (Inner.kids n).length) (mem := fun p => InMemory h p.2)
          (fine := fun p => LargeShares skip h (bytes / (Inner.kids n).length) p.2) (rows := fun p => treeRows h p.2) (s := s0) c3
          (fun lo' hi' p s hs hq => walk_answer hq.2 ⟨hgo.left, fun x hx => by
            have hx' := hs x hx
            have hin : InB lo hi x := ⟨fun a ha => lt_trans ((chain_below g3 _ (List.getElem_mem hk)).2 a ha) (hx'.1 _ rfl), hx'.2⟩
            rw [hgo.cmp x hin, past_mono (le_of_lt (hx'.1 _ rfl)) hpk]
            rfl⟩) hr
        exact ⟨r, b1, (a2.andThen b2 c1 hpk fun _ =>
          (rows_concat (fun p : Slot K B × Node K R B h => treeRows h p.2) c3 fun lo hi q _ hq => hr lo hi q hq).2.1).weaken hmem fun _ => hfin⟩

end Verif.Tree
