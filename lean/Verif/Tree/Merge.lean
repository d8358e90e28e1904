import Verif.Tree.Shape

/-! Merging and rebalancing. -/
namespace Verif.Tree
set_option linter.unusedSectionVars false
variable {K R B : Type} [LinearOrder K]

/-! ### More on chains -/

theorem chain_pair {α : Type} {P : Option K → Option K → α → Prop} : ∀ {lo hi : Option K} {ks : List K} {ps : List α},
    Chain P lo hi ks ps → ∀ {i : Nat} {p q : α}, ps[i]? = some p → ps[i + 1]? = some q →
    ∃ lo' hi' k, ks[i]? = some k ∧ P lo' (some k) p ∧ P (some k) hi' q ∧ Above lo' k ∧ Below hi' k ∧
      (∀ c, P lo' hi' c → Chain P lo hi (ks.eraseIdx i) (ps.take i ++ c :: ps.drop (i + 2))) ∧
      (∀ a b k', Above lo' k' → Below hi' k' → P lo' (some k') a → P (some k') hi' b →
        Chain P lo hi (ks.set i k') (ps.take i ++ a :: b :: ps.drop (i + 2))) ∧ Sub lo' hi' lo hi
  | lo, hi, [], ps, h, i, p, q, _, hq => by
    obtain ⟨r, rfl, _⟩ := chain_nil h
    simp at hq
  | lo, hi, k :: ks, ps, h, 0, p, q, hp, hq => by
    obtain ⟨r, ps', rfl, hr, ha, hb, hc⟩ := chain_cons h
    cases hp
    cases ks with
    | nil =>
      obtain ⟨r', rfl, hr'⟩ := chain_nil hc
      cases hq
      refine ⟨lo, hi, k, rfl, hr, hr', ha, hb, fun c hc => hc, fun a b k' h1 h2 h3 h4 => ⟨h3, h1, h2, h4⟩, Sub.refl _ _⟩
    | cons k2 ks =>
      obtain ⟨r', ps'', rfl, hr', ha', hb', hc'⟩ := chain_cons hc
      cases hq
      have hk : k < k2 := ha' k rfl
      refine ⟨lo, some k2, k, rfl, hr, hr', ha, fun b hb => by cases hb; exact hk, ?_, ?_, sub_left hb'⟩
      · intro c hc
        exact ⟨hc, fun x hx => lt_trans (ha x hx) hk, hb', hc'⟩
      · intro a b k' h1 h2 h3 h4
        refine ⟨h3, h1, fun x hx => lt_trans (h2 k2 rfl) (hb' x hx), h4, ?_, hb', hc'⟩
        intro x hx
        cases hx
        exact h2 k2 rfl
  | lo, hi, k :: ks, ps, h, i + 1, p, q, hp, hq => by
    obtain ⟨r, ps', rfl, hr, ha, hb, hc⟩ := chain_cons h
    obtain ⟨lo', hi', k', q1, q2, q3, q4, q5, q6, q7, q8⟩ := chain_pair hc (i := i) (by simpa using hp) (by simpa using hq)
    refine ⟨lo', hi', k', by simpa using q1, q2, q3, q4, q5, ?_, ?_, q8.trans (sub_right ha)⟩
    · intro c hc
      exact ⟨hr, ha, hb, q6 c hc⟩
    · intro a b k'' h1 h2 h3 h4
      exact ⟨hr, ha, hb, q7 a b k'' h1 h2 h3 h4⟩

theorem chain_last {α : Type} {P : Option K → Option K → α → Prop} : ∀ {lo hi : Option K} {ks : List K} {ps : List α},
    Chain P lo hi ks ps →
    (ks = [] ∧ ∃ p, ps = [p] ∧ P lo hi p) ∨
    ∃ ks' k ps' p, ks = ks' ++ [k] ∧ ps = ps' ++ [p] ∧ Chain P lo (some k) ks' ps' ∧ Above lo k ∧ Below hi k ∧ P (some k) hi p
  | lo, hi, [], ps, h => by
    obtain ⟨r, rfl, hr⟩ := chain_nil h
    exact Or.inl ⟨rfl, r, rfl, hr⟩
  | lo, hi, k :: ks, ps, h => by
    obtain ⟨r, ps', rfl, hr, ha, hb, hc⟩ := chain_cons h
    right
    rcases chain_last hc with ⟨rfl, p, rfl, hp⟩ | ⟨ks', k', qs, p, rfl, rfl, c1, c2, c3, c4⟩
    · exact ⟨[], k, [r], p, rfl, rfl, hr, ha, hb, hp⟩
    · have hk : k < k' := c2 k rfl
      refine ⟨k :: ks', k', r :: qs, p, rfl, rfl, ⟨hr, ha, ?_, c1⟩, ?_, c3, c4⟩
      · intro b hb
        cases hb
        exact hk
      · intro a ha'
        exact lt_trans (ha a ha') hk

/-! ### Leaves -/

/-- Where a basement ends and nothing is kept after some key, the next one may begin there. -/
theorem PartOk.widen {c : Ctx K R B} {m m' : Nat} {lo lo' hi' : Option K} {k : K} {q : Part K R} {bp : Bn K R}
    (hp : BnOk c [] lo (some k) bp) (hq : PartOk c [] m true (some k) hi' q)
    (hlo : ∀ x, Above lo' x → Above lo x ∧ ∀ r ∈ bp.rows, r.1 < x) (hk : ∀ x, Above (some k) x → Above lo' x) :
    PartOk c [] m' true lo' hi' q := by
  refine ⟨?_, hq.mem, fun h => by cases h⟩
  intro b hb
  have hB := (hq.bn b hb).1
  refine ⟨⟨hB.sorted, ?_, ?_, ?_, hB.le⟩, fun h => by cases h⟩
  · intro r hr
    exact ⟨hk _ (hB.within r hr).1, (hB.within r hr).2⟩
  · intro x hx
    by_cases hxk : k < x
    · exact hB.img x ⟨fun a ha => by cases ha; exact hxk, hx.2⟩
    · have h1 := hlo x hx.1
      have h2 := hp.img x ⟨h1.1, fun b hb => by cases hb; exact not_lt.1 hxk⟩
      rw [lookup_none_of fun r hr => ne_of_lt (h1.2 r hr)] at h2
      rw [lookup_none_of (rows := b.rows) fun r hr => ?_]
      · exact h2
      · exact ne_of_gt (lt_of_le_of_lt (not_lt.1 hxk) ((hB.within r hr).1 k rfl))
  · intro _ e he
    cases he

theorem BnOk.narrow {c : Ctx K R B} {U : List (Ent K B)} {lo hi hi' : Option K} {b : Bn K R} (h : BnOk c U lo hi b)
    (hs : Sub lo hi' lo hi) (hr : ∀ r ∈ b.rows, ∀ x, hi' = some x → r.1 ≤ x) : BnOk c U lo hi' b :=
  ⟨h.sorted, fun r hr' => ⟨(h.within r hr').1, hr r hr'⟩, fun x hx => h.img x (hs x hx),
    fun hst e he k h1 h2 h3 => h.st hst e he k h1 (hs k h2) h3, h.le⟩

theorem mergeLeaves_ok {c : Ctx K R B} {lo hi : Option K} {k : K} {a b : Leaf K R}
    (ha : LeafCore c [] lo (some k) a) (hma : AllMem a.parts) (hb : LeafCore c [] (some k) hi b) (hmb : AllMem b.parts)
    (hlo : Above lo k) (hhi : Below hi k) :
    ∃ l, mergeLeaves a b = .ok l ∧ LeafCore c [] lo hi l ∧ AllMem l.parts ∧ l.dirty = true ∧
      leafRows l = leafRows a ++ leafRows b := by
  have hla := ha.chain.length
  have hlb := hb.chain.length
  have hpa := ha.piv
  have hpb := hb.piv
  have hkla : a.ks.length = a.parts.length - 1 := by omega
  have hpa2 : a.parts.length - 1 ≤ a.pivots.length := by
    unfold Leaf.ks at hkla
    rw [List.length_take] at hkla
    omega
  have hca : Chain (PartOk c [] a.msn true) lo (some k) a.ks a.parts :=
    chain_mono ha.chain fun _ _ q hq _ hQ => hQ.toDirty (hma q hq)
  have hcb : Chain (PartOk c [] a.msn true) (some k) hi b.ks b.parts :=
    chain_mono hb.chain fun _ _ q hq _ hQ => hQ.toDirty (hmb q hq)
  -- the last basement of the left leaf
  obtain ⟨p, hp⟩ : ∃ p, a.parts.getLast? = some p := by
    cases h : a.parts.getLast? with
    | none =>
      have := List.getLast?_eq_none_iff.1 h
      rw [this] at hla
      simp at hla
    | some p => exact ⟨p, rfl⟩
  obtain ⟨bp, hbp⟩ := hma p (List.mem_of_getLast? hp)
  have hPr := partRows_mem hbp
  unfold mergeLeaves
  simp only [hp, need_some, Out.ok_bind, hPr]
  have hbpos : b.parts.length = b.ks.length + 1 := hlb
  cases hk' : lastKey? bp.rows with
  | some k' =>
    simp only
    have hps : (if a.parts.length - 1 < a.pivots.length then a.pivots.set (a.parts.length - 1) k' else a.pivots ++ [k'])
        = a.ks ++ [k'] := by
      unfold Leaf.ks
      split
      · rename_i hlt
        rw [List.set_eq_take_append_cons_drop, if_pos hlt, List.drop_eq_nil_of_le (by omega)]
      · rw [List.take_of_length_le (by omega)]
    rw [hps]
    refine ⟨_, rfl, ⟨ha.le, ?_, ?_⟩, ?_, rfl, ?_⟩
    · simp only [List.length_append, List.length_cons, List.length_nil]
      omega
    · have hks : ((a.ks ++ [k']) ++ b.pivots).take ((a.parts ++ b.parts).length - 1) = a.ks ++ k' :: b.ks := by
        rw [List.append_assoc, List.take_append, List.take_of_length_le (by simp; omega)]
        congr 1
        rw [show (a.parts ++ b.parts).length - 1 - a.ks.length = (b.parts.length - 1) + 1 by
          simp only [List.length_append]; omega]
        rfl
      show Chain _ lo hi (((a.ks ++ [k']) ++ b.pivots).take ((a.parts ++ b.parts).length - 1)) (a.parts ++ b.parts)
      rw [hks]
      -- the last basement, its rows up to `k'`
      obtain ⟨lo', hB, hlo'⟩ : ∃ lo', BnOk c [] lo' (some k) bp ∧ ∀ x, Above lo' x → Above lo x ∧ ∀ y ∈ a.ks, y < x := by
        rcases chain_last hca with ⟨e, q, eq, hq⟩ | ⟨ks', y, ps', q, e, eq, _, e1, _, hq⟩
        · rw [eq] at hp
          cases hp
          exact ⟨lo, (hq.bn bp hbp).1, fun x hx => ⟨hx, fun y hy => by rw [e] at hy; cases hy⟩⟩
        · rw [eq, List.getLast?_concat] at hp
          cases hp
          refine ⟨some y, (hq.bn bp hbp).1, fun x hx => ⟨fun z hz => lt_trans (e1 z hz) (hx y rfl), ?_⟩⟩
          intro z hz
          have hsrt := chain_sorted hca
          rw [e] at hz hsrt
          rcases List.mem_append.1 hz with hz | hz
          · exact lt_trans ((List.pairwise_append.1 hsrt).2.2 z hz y (List.mem_singleton.2 rfl)) (hx y rfl)
          · rw [List.mem_singleton.1 hz]
            exact hx y rfl
      obtain ⟨k1, r, k2⟩ := lastKey_spec hB.sorted hk'
      have hin := hB.within _ k2
      have hk'k : k' ≤ k := hin.2 k rfl
      have habove := hlo' k' hin.1
      have c1 : Chain (PartOk c [] a.msn true) lo (some k') a.ks a.parts := by
        refine chain_narrow hca (fun y hy z hz => by cases hz; exact habove.2 y hy) ?_
        intro lo1 q hq hQ
        rw [hp] at hq
        cases hq
        refine ⟨?_, hQ.mem, fun h => by cases h⟩
        intro b' hb'
        rw [hbp] at hb'
        cases hb'
        refine ⟨(hQ.bn bp hbp).1.narrow ?_ ?_, fun h => by cases h⟩
        · intro x hx
          exact ⟨hx.1, fun z hz => by cases hz; exact le_trans (hx.2 k' rfl) hk'k⟩
        · intro r hr x hx
          cases hx
          exact k1 r hr
      have c2 : Chain (PartOk c [] a.msn true) (some k') hi b.ks b.parts := by
        have hwid : ∀ x, Above (some k) x → Above (some k') x := fun x hx z hz => by
          cases hz; exact lt_of_le_of_lt hk'k (hx k rfl)
        refine chain_widen hcb hwid ?_
        intro hi1 q hq hQ
        refine PartOk.widen hB hQ ?_ hwid
        intro x hx
        exact ⟨fun z hz => lt_trans (hin.1 z hz) (hx k' rfl), fun r hr => lt_of_le_of_lt (k1 r hr) (hx k' rfl)⟩
      exact chain_append c1 habove.1 (fun z hz => lt_of_le_of_lt hk'k (hhi z hz)) c2
    · intro q hq
      rcases List.mem_append.1 hq with hq | hq
      · exact hma q hq
      · exact hmb q hq
    · rw [leafRows_eq, leafRows_eq, leafRows_eq]
      simp only [List.map_append, List.flatten_append]
  | none =>
    simp only
    have hempty : bp.rows = [] := by
      by_cases h : bp.rows = []
      · exact h
      · obtain ⟨x, hx⟩ := lastKey_isSome h
        rw [hx] at hk'
        cases hk'
    have hps : (if a.parts.length - 1 < a.pivots.length then a.pivots.eraseIdx (a.parts.length - 1) else a.pivots)
        = a.ks := by
      unfold Leaf.ks
      split
      · rename_i hlt
        rw [List.eraseIdx_eq_take_drop_succ, List.drop_eq_nil_of_le (by omega), List.append_nil]
      · rw [List.take_of_length_le (by omega)]
    rw [hps]
    refine ⟨_, rfl, ⟨ha.le, ?_, ?_⟩, ?_, rfl, ?_⟩
    · simp only [List.length_append, List.length_dropLast]
      omega
    · have hks : (a.ks ++ b.pivots).take ((a.parts.dropLast ++ b.parts).length - 1) = a.ks ++ b.ks := by
        rw [List.take_append, List.take_of_length_le (by simp; omega)]
        congr 1
        unfold Leaf.ks
        congr 1
        rw [← Leaf.ks]
        simp only [List.length_append, List.length_dropLast]
        omega
      show Chain _ lo hi ((a.ks ++ b.pivots).take ((a.parts.dropLast ++ b.parts).length - 1)) (a.parts.dropLast ++ b.parts)
      rw [hks]
      rcases chain_last hca with ⟨e, q, eq, hq⟩ | ⟨ks', y, ps', q, e, eq, e0, e1, e2, hq⟩
      · rw [eq] at hp
        cases hp
        rw [e, eq]
        have hwid : ∀ x, Above (some k) x → Above lo x := fun x hx z hz => lt_trans (hlo z hz) (hx k rfl)
        refine chain_widen hcb hwid ?_
        intro hi1 q' hq' hQ
        refine PartOk.widen (hq.bn bp hbp).1 hQ ?_ hwid
        intro x hx
        exact ⟨hx, fun r hr => by rw [hempty] at hr; cases hr⟩
      · rw [eq, List.getLast?_concat] at hp
        cases hp
        rw [e, eq, List.dropLast_concat]
        rw [show ks' ++ [y] ++ b.ks = ks' ++ y :: b.ks by simp]
        have hyk : y < k := e2 k rfl
        have hwid : ∀ x, Above (some k) x → Above (some y) x := fun x hx z hz => by
          cases hz; exact lt_trans hyk (hx k rfl)
        refine chain_append e0 e1 (fun z hz => lt_trans hyk (hhi z hz)) ?_
        refine chain_widen hcb hwid ?_
        intro hi1 q' hq' hQ
        refine PartOk.widen (hq.bn bp hbp).1 hQ ?_ hwid
        intro x hx
        exact ⟨hx, fun r hr => by rw [hempty] at hr; cases hr⟩
    · intro q hq
      rcases List.mem_append.1 hq with hq | hq
      · exact hma q (List.dropLast_subset _ hq)
      · exact hmb q hq
    · obtain ⟨ys, e⟩ := List.getLast?_eq_some_iff.1 hp
      rw [leafRows_eq, leafRows_eq, leafRows_eq, e, List.dropLast_concat]
      simp only [List.map_append, List.flatten_append, List.map_cons, List.map_nil, List.flatten_cons, List.flatten_nil,
        hPr, hempty, List.append_nil]

theorem SlotOk.mono {m m' : Nat} {lo hi : Option K} {s : Slot K B} (h : SlotOk m lo hi s) (hm : m ≤ m') :
    SlotOk m' lo hi s := ⟨h.incr, fun e he => Nat.le_trans (h.le e he) hm, h.keys⟩

theorem mergeNodes_ok {c : Ctx K R B} : ∀ {h : Nat} {lo hi : Option K} {k : K} {W : List (Ent K B)} {a b : Node K R B h}
    (act : Act), Mid c h lo (some k) W W a → Mid c h (some k) hi W W b → Above lo k → Below hi k → (h = 0 → W = []) →
    mergeNodes c.sem h act a b k = .skip ∨
    (∃ n, mergeNodes c.sem h act a b k = .ok (.one n) ∧ Good c h lo hi W n) ∨
    (∃ a' b' k', mergeNodes c.sem h act a b k = .ok (.two a' b' k') ∧ Above lo k' ∧ Below hi k' ∧
      Good c h lo (some k') W a' ∧ Good c h (some k') hi W b')
  | 0, lo, hi, k, W, a, b, act, ha, hb, hlo, hhi, hW => by
    have hW' := hW rfl
    subst hW'
    obtain ⟨l, q1, q2, q3, q4, q5⟩ := mergeLeaves_ok ha.1 ha.2.1 hb.1 hb.2.1 hlo hhi
    have hmx : max (Leaf.msn a) (Leaf.msn b) ≤ c.mx := by
      have h1 := ha.1.le
      have h2 := hb.1.le
      omega
    have hgl : Good c 0 lo hi [] l := ⟨q2, fun _ => aon_nil _⟩
    cases act with
    | merge =>
      right; left
      refine ⟨({ l with msn := max (Leaf.msn a) (Leaf.msn b) } : Leaf K R), ?_, good_remsn hgl q4 hmx⟩
      unfold mergeNodes
      simp only [q1, Out.ok_bind]
    | rebalance =>
      unfold mergeNodes guardS
      simp only
      by_cases hgd : 1 < (leafRows a).length + (leafRows b).length
      · right; right
        obtain ⟨a', b', k', w1, w2, w3, w4, w5, _, w7, w8⟩ := splitLeaf_ok q2 q3 (aon_nil _) .evenly
          (by rw [q5, List.length_append]; exact hgd) (fun h => by cases h)
        refine ⟨_, _, k', ?_, w2, w3, good_remsn w4 w7 hmx, good_remsn w5 w8 hmx⟩
        simp only [hgd, decide_true, if_true, Out.ok_bind, q1, w1]
      · left
        simp only [hgd, decide_false, Bool.false_eq_true, if_false]
        rfl
    | nothing =>
      right; right
      exact ⟨a, b, k, rfl, hlo, hhi, ha.good, hb.good⟩
  | h + 1, lo, hi, k, W, a, b, act, ha, hb, hlo, hhi, _ => by
    right; left
    obtain ⟨a1, a2, a3⟩ := ha
    obtain ⟨b1, b2, b3⟩ := hb
    refine ⟨_, rfl, ?_, ?_, ?_⟩
    · show max (Inner.msn a) (Inner.msn b) ≤ _
      omega
    · intro u hu
      have h1 := a2 u hu
      have h2 := b2 u hu
      show max (Inner.msn a) (Inner.msn b) < _
      omega
    · show Chain _ lo hi (Inner.pivots a ++ k :: Inner.pivots b) (Inner.kids a ++ Inner.kids b)
      refine chain_append (chain_mono a3 ?_) hlo hhi (chain_mono b3 ?_)
      · intro _ _ p _ _ hP
        exact ⟨hP.1.mono (Nat.le_max_left _ _), hP.2⟩
      · intro _ _ p _ _ hP
        exact ⟨hP.1.mono (Nat.le_max_right _ _), hP.2⟩

theorem mergeChildren_ok {c : Ctx K R B} {h : Nat} {lo hi : Option K} {W : List (Ent K B)}
    {n : Inner K B (Node K R B h)} (hg : Good c (h + 1) lo hi W n) (act : Act) (i : Nat) (e r : Bool)
    (he : e = true → W = []) :
    mergeChildren c.sem h act i e r n = .skip ∨
    ∃ n', mergeChildren c.sem h act i e r n = .ok n' ∧ Good c (h + 1) lo hi W n' := by
  obtain ⟨h1, h2, h3⟩ := hg
  unfold mergeChildren
  cases hka : n.kids[i]? with
  | none => exact Or.inl rfl
  | some pa =>
    cases hkb : n.kids[i + 1]? with
    | none => exact Or.inl rfl
    | some pb =>
      obtain ⟨sa, ca⟩ := pa
      obtain ⟨sb, cb⟩ := pb
      simp only
      unfold guardS
      by_cases hgd : (e || decide (h ≠ 0)) = true
      · obtain ⟨lo', hi', k, q1, q2, q3, q4, q5, q6, q7, q8⟩ := chain_pair h3 hka hkb
        have hW : h = 0 → W = [] := by
          intro h0
          apply he
          subst h0
          simpa using hgd
        have hmx : ∀ s : Slot K B, ∀ lo' hi', SlotOk n.msn lo' hi' s →
            (∀ x ∈ s, x.msg.msn ≤ c.mx) ∧ (∀ x ∈ s, ∀ u ∈ W, x.msg.msn < u.msg.msn) := by
          intro s lo' hi' hs
          refine ⟨fun x hx => Nat.le_trans (hs.le x hx) h1, fun x hx u hu => ?_⟩
          have g1 := hs.le x hx
          have g2 : n.msn < u.msg.msn := h2 u hu
          omega
        obtain ⟨a', ea, ga⟩ := putAll_ok sa (loadNode_ok q2.2 hW) q2.1.incr q2.1.keys (hmx _ _ _ q2.1).1 (hmx _ _ _ q2.1).2
        obtain ⟨b', eb, gb⟩ := putAll_ok sb (loadNode_ok q3.2 hW) q3.1.incr q3.1.keys (hmx _ _ _ q3.1).1 (hmx _ _ _ q3.1).2
        have q1' : n.pivots[i]? = some k := q1
        simp only [hgd, if_true, Out.ok_bind, ea, eb, q1', need_some]
        rcases mergeNodes_ok act ga gb q4 q5 hW with w | ⟨l, w, gl⟩ | ⟨a2, b2, k2, w, w1, w2, w3, w4⟩
        · left
          rw [w]
          rfl
        · right
          rw [w]
          exact ⟨_, rfl, h1, h2, q6 ([], l) ⟨slot_nil _ _ _, gl⟩⟩
        · right
          rw [w]
          exact ⟨_, rfl, h1, h2, q7 ([], a2) ([], b2) k2 w1 w2 ⟨slot_nil _ _ _, w3⟩ ⟨slot_nil _ _ _, w4⟩⟩
      · left
        simp only [hgd]
        rfl

end Verif.Tree
