import Verif.Tree.Read

/-! Splitting, merging, writing out: what changes the shape of the tree. -/
namespace Verif.Tree
set_option linter.unusedSectionVars false
variable {K R B : Type} [LinearOrder K]

/-! ### Rows cut in two -/

theorem lastKey_spec {rows : Rows K R} (hs : Sorted rows) {k : K} (h : lastKey? rows = some k) :
    (∀ p ∈ rows, p.1 ≤ k) ∧ ∃ r, (k, r) ∈ rows := by
  unfold lastKey? at h
  obtain ⟨p, hp, rfl⟩ := Option.map_eq_some_iff.1 h
  have hm := List.mem_of_getLast? hp
  refine ⟨?_, p.2, hm⟩
  obtain ⟨ys, e⟩ : ∃ ys, rows = ys ++ [p] := List.getLast?_eq_some_iff.1 hp
  subst e
  intro q hq
  rcases List.mem_append.1 hq with hq | hq
  · exact le_of_lt ((List.pairwise_append.1 hs).2.2 q hq p (List.mem_singleton.2 rfl))
  · rw [List.mem_singleton.1 hq]

theorem lastKey_isSome {rows : Rows K R} (h : rows ≠ []) : ∃ k, lastKey? rows = some k := by
  unfold lastKey?
  cases hg : rows.getLast? with
  | none => exact absurd (List.getLast?_eq_none_iff.1 hg) h
  | some p => exact ⟨p.1, rfl⟩

theorem lookup_left {a b : Rows K R} {x : K} (h : ∀ p ∈ b, x < p.1) : lookup (a ++ b) x = lookup a x := by
  rw [lookup_append, lookup_none_of (rows := b) fun p hp => ne_of_gt (h p hp)]
  simp

theorem lookup_right {a b : Rows K R} {x : K} (h : ∀ p ∈ a, p.1 < x) : lookup (a ++ b) x = lookup b x := by
  rw [lookup_append, lookup_none_of (rows := a) fun p hp => ne_of_lt (h p hp)]
  simp

theorem bnCut {c : Ctx K R B} {U : List (Ent K B)} {lo hi : Option K} {b : Bn K R} (h : BnOk c U lo hi b) {nl : Nat}
    {k : K} (hk : lastKey? (b.rows.take nl) = some k) :
    BnOk c U lo (some k) { b with rows := b.rows.take nl } ∧
    BnOk c U (some k) hi { rows := b.rows.drop nl, maxMsn := b.maxMsn, staleApplied := false } ∧
    Above lo k ∧ (nl < b.rows.length → Below hi k) ∧ InB lo hi k := by
  have hs := h.sorted
  have e : b.rows.take nl ++ b.rows.drop nl = b.rows := List.take_append_drop _ _
  have hs' : Sorted (b.rows.take nl ++ b.rows.drop nl) := by rw [e]; exact hs
  obtain ⟨s1, s2, s3⟩ := List.pairwise_append.1 hs'
  obtain ⟨k1, r, k2⟩ := lastKey_spec s1 hk
  have hkin : InB lo hi k := h.within _ (List.mem_of_mem_take k2)
  have hdrop : ∀ p ∈ b.rows.drop nl, k < p.1 := fun p hp => s3 _ k2 p hp
  refine ⟨⟨s1, ?_, ?_, ?_, h.le⟩, ⟨s2, ?_, ?_, (fun h => by cases h), h.le⟩, hkin.1, ?_, hkin⟩
  · intro p hp
    exact ⟨(h.within p (List.mem_of_mem_take hp)).1, fun x hx => by cases hx; exact k1 p hp⟩
  · intro x hx
    have hxb : InB lo hi x := ⟨hx.1, fun y hy => le_trans (hx.2 k rfl) (hkin.2 y hy)⟩
    have := h.img x hxb
    rw [← e, lookup_left (fun p hp => lt_of_le_of_lt (hx.2 k rfl) (hdrop p hp))] at this
    exact this
  · intro hst e he x h1 h2 h3
    exact h.st hst e he x h1 ⟨h2.1, fun y hy => le_trans (h2.2 k rfl) (hkin.2 y hy)⟩ h3
  · intro p hp
    exact ⟨fun x hx => by cases hx; exact hdrop p hp, (h.within p (List.mem_of_mem_drop hp)).2⟩
  · intro x hx
    have hxb : InB lo hi x := ⟨fun y hy => lt_trans (hkin.1 y hy) (hx.1 k rfl), hx.2⟩
    have := h.img x hxb
    rw [← e, lookup_right (fun p hp => lt_of_le_of_lt (k1 p hp) (hx.1 k rfl))] at this
    exact this
  · intro hlt y hy
    have hne : b.rows.drop nl ≠ [] := by
      intro h0
      have := congrArg List.length h0
      rw [List.length_drop] at this
      simp at this
      omega
    obtain ⟨p, hp⟩ := List.exists_mem_of_ne_nil _ hne
    exact lt_of_lt_of_le (hdrop p hp) ((h.within p (List.mem_of_mem_drop hp)).2 y hy)

/-! ### Where a leaf is cut -/

theorem evenLoc_spec (sem : Sem K R B) (half i : Nat) : ∀ (rows : Rows K R) (j acc : Nat),
    (∃ m, evenLoc sem half i j acc rows = .inl (some (i + 1, m)) ∧ j + 1 ≤ m ∧ m ≤ j + rows.length) ∨
    (evenLoc sem half i j acc rows = .inr (acc + (rows.map fun p => sem.splitSize p.1 p.2).sum) ∧
      (rows = [] ∨ acc + (rows.map fun p => sem.splitSize p.1 p.2).sum < half))
  | [], j, acc => Or.inr ⟨rfl, Or.inl rfl⟩
  | (k, r) :: rows, j, acc => by
    unfold evenLoc
    simp only
    by_cases h : half ≤ acc + sem.splitSize k r
    · rw [if_pos h]
      exact Or.inl ⟨j + 1, rfl, by omega, by simp⟩
    · rw [if_neg h]
      rcases evenLoc_spec sem half i rows (j + 1) (acc + sem.splitSize k r) with ⟨m, h1, h2, h3⟩ | ⟨h1, h2⟩
      · exact Or.inl ⟨m, h1, by omega, by simp only [List.length_cons]; omega⟩
      · right
        simp only [List.map_cons, List.sum_cons]
        refine ⟨by rw [h1]; congr 1; omega, Or.inr ?_⟩
        rcases h2 with h2 | h2
        · subst h2; simp; omega
        · omega

theorem splitSum_zero (sem : Sem K R B) {bs : List (Rows K R)} (h : bs.flatten = []) : splitSum sem bs = 0 := by
  induction bs with
  | nil => rfl
  | cons b bs ih =>
    rw [List.flatten_cons, List.append_eq_nil_iff] at h
    unfold splitSum at ih ⊢
    rw [List.map_cons, List.sum_cons, ih h.2, h.1]
    rfl

theorem evenLocs_spec (sem : Sem K R B) (half : Nat) : ∀ (bs : List (Rows K R)) (i acc : Nat),
    bs.flatten ≠ [] → half ≤ acc + splitSum sem bs →
    ∃ nb nl b, evenLocs sem half i acc bs = some (i + nb, nl) ∧ 1 ≤ nb ∧ nb ≤ bs.length ∧
      bs[nb - 1]? = some b ∧ 1 ≤ nl ∧ nl ≤ b.length
  | [], i, acc, h, _ => absurd rfl h
  | b :: bs, i, acc, h, hh => by
    have es : splitSum sem (b :: bs) = (b.map fun p => sem.splitSize p.1 p.2).sum + splitSum sem bs := by
      unfold splitSum
      rw [List.map_cons, List.sum_cons]
    rw [es] at hh
    unfold evenLocs
    rcases evenLoc_spec sem half i b 0 acc with ⟨m, h1, h2, h3⟩ | ⟨h1, h2⟩
    · rw [h1]
      exact ⟨1, m, b, rfl, Nat.le_refl _, by simp, rfl, by omega, by omega⟩
    · rw [h1]
      simp only
      by_cases hb : bs.flatten = []
      · exfalso
        have hz := splitSum_zero sem hb
        rcases h2 with h2 | h2
        · rw [h2] at h
          exact h (by rw [List.flatten_cons, hb]; rfl)
        · omega
      · obtain ⟨nb, nl, b', q1, q2, q3, q4, q5, q6⟩ := evenLocs_spec sem half bs (i + 1)
          (acc + (b.map fun p => sem.splitSize p.1 p.2).sum) hb (by omega)
        refine ⟨nb + 1, nl, b', ?_, by omega, by simp only [List.length_cons]; omega, ?_, q5, q6⟩
        · rw [q1]; congr 2; omega
        · rw [show nb + 1 - 1 = (nb - 1) + 1 by omega]
          simpa using q4

theorem flatten_two {bs : List (Rows K R)} (h : 1 < bs.flatten.length) : bs ≠ [] := by
  rintro rfl
  simp at h

theorem splitLoc_ok (sem : Sem K R B) (mode : Mode) {bs : List (Rows K R)} (h : 1 < bs.flatten.length) :
    ∃ nb nl b, splitLoc sem mode bs = some (nb, nl) ∧ 1 ≤ nb ∧ nb ≤ bs.length ∧ bs[nb - 1]? = some b ∧
      nl ≤ b.length ∧ ((nl = 0 ∨ nl = b.length) → nb < bs.length ∨ (mode = .leftHeavy ∧ b ≠ [] ∧ nl = b.length)) := by
  have hne := flatten_two h
  have hpos : 0 < bs.length := List.length_pos_iff.2 hne
  unfold splitLoc
  cases mode with
  | leftHeavy =>
    simp only
    have hl : bs.length - 1 < bs.length := by omega
    rw [List.getElem?_eq_getElem hl]
    simp only
    by_cases he : bs[bs.length - 1].length = 0
    · rw [if_pos he]
      by_cases h2 : bs.length < 2
      · exfalso
        match bs, hpos, h2 with
        | [b], _, _ =>
          simp only [List.length_cons, List.length_nil, Nat.zero_add, Nat.sub_self, List.getElem_cons_zero] at he
          simp at h
          omega
      · rw [if_neg h2, List.getElem?_eq_getElem (show bs.length - 2 < bs.length by omega)]
        refine ⟨_, _, bs[bs.length - 2], rfl, by omega, by omega, ?_, Nat.le_refl _, fun _ => Or.inl (by omega)⟩
        rw [show bs.length - 1 - 1 = bs.length - 2 by omega]
        exact List.getElem?_eq_getElem _
    · rw [if_neg he]
      refine ⟨_, _, bs[bs.length - 1], rfl, by omega, by omega, List.getElem?_eq_getElem _, Nat.le_refl _, fun _ => Or.inr ⟨trivial, ?_, rfl⟩⟩
      intro h0
      rw [h0] at he
      exact he rfl
  | rightHeavy =>
    simp only
    rw [List.getElem?_eq_getElem hpos]
    refine ⟨1, _, bs[0], rfl, Nat.le_refl _, by omega, List.getElem?_eq_getElem _, ?_, ?_⟩
    · split <;> omega
    · intro hb
      left
      by_cases h1 : 1 < bs.length
      · exact h1
      · exfalso
        match bs, hpos, h1 with
        | [b], _, _ =>
          simp only [List.getElem_cons_zero] at hb
          simp at h
          split at hb <;> omega
        | _ :: _ :: _, _, h1 => simp at h1
  | evenly =>
    simp only
    have hfl : bs.flatten ≠ [] := by
      intro h0
      rw [h0] at h
      simp at h
    obtain ⟨nb, nl, b, q1, q2, q3, q4, q5, q6⟩ := evenLocs_spec sem (splitSum sem bs / 2) bs 0 0 hfl (by omega)
    rw [q1, Nat.zero_add]
    simp only [q4]
    by_cases hlast : nb = bs.length ∧ nl = b.length
    · rw [if_pos hlast]
      by_cases h1 : 1 < nl
      · rw [if_pos h1]
        exact ⟨nb, nl - 1, b, rfl, q2, q3, q4, by omega, fun hb => by omega⟩
      · rw [if_neg h1]
        by_cases h2 : 1 < nb
        · rw [if_pos h2, List.getElem?_eq_getElem (show nb - 2 < bs.length by omega)]
          refine ⟨_, _, bs[nb - 2], rfl, by omega, by omega, ?_, Nat.le_refl _, fun _ => Or.inl (by omega)⟩
          rw [show nb - 1 - 1 = nb - 2 by omega]
          exact List.getElem?_eq_getElem _
        · exfalso
          have hn1 : bs.length = 1 := by omega
          match bs, hn1 with
          | [b'], _ =>
            have : nb = 1 := by omega
            subst this
            simp only [List.getElem?_cons_zero, Nat.sub_self] at q4
            cases q4
            simp at h
            omega
    · rw [if_neg hlast]
      exact ⟨nb, nl, b, rfl, q2, q3, q4, q6, fun hb => by
        rcases hb with hb | hb
        · omega
        · left
          rcases Nat.lt_or_ge nb bs.length with h' | h'
          · exact h'
          · exact absurd ⟨by omega, hb⟩ hlast⟩

/-! ### Splitting a leaf -/

theorem partRows_mem {p : Part K R} {b : Bn K R} (h : p.mem = some b) : partRows p = b.rows := by
  unfold partRows
  rw [h]
  rfl

theorem leafRows_eq (l : Leaf K R) : leafRows l = (l.parts.map partRows).flatten := by
  unfold leafRows
  rw [List.flatMap_def]
  rfl

theorem aon_nil (ps : List (Part K R)) : AllOrNone ([] : List (Ent K B)) ps := by
  intro u hu
  cases hu

/-- A dirty leaf from a chain of basements. -/
theorem good_leaf {c : Ctx K R B} {U : List (Ent K B)} {lo hi : Option K} {msn : Nat} {pivots ks : List K}
    {parts : List (Part K R)} (hm : msn ≤ c.mx) (hp : pivots.length ≤ parts.length)
    (hk : pivots.take (parts.length - 1) = ks) (hc : Chain (PartOk c U msn true) lo hi ks parts)
    (ha : AllOrNone U parts) :
    Good c 0 lo hi U ({ msn := msn, dirty := true, pivots := pivots, parts := parts } : Leaf K R) := by
  refine ⟨⟨hm, hp, ?_⟩, fun _ => ha⟩
  show Chain _ lo hi (pivots.take (parts.length - 1)) parts
  rw [hk]
  exact hc

theorem splitLeafAt_ok {c : Ctx K R B} {U : List (Ent K B)} {lo hi : Option K} {l : Leaf K R}
    (hc : LeafCore c U lo hi l) (ha : AllMem l.parts) (hd : AllOrNone U l.parts) {nb nl : Nat} {p : Part K R}
    (h1 : 1 ≤ nb) (h2 : nb ≤ l.parts.length) (hp : l.parts[nb - 1]? = some p) (hnl : nl ≤ (partRows p).length)
    (hbd : (nl = 0 ∨ nl = (partRows p).length) → nb < l.parts.length ∨
      (hi = none ∧ U = [] ∧ partRows p ≠ [] ∧ nl = (partRows p).length)) :
    ∃ a b k, splitLeafAt l nb nl = .ok (a, b, k) ∧ Above lo k ∧ Below hi k ∧
      Good c 0 lo (some k) U a ∧ Good c 0 (some k) hi U b ∧
      leafRows a ++ leafRows b = leafRows l ∧ a.dirty = true ∧ b.dirty = true := by
  have hlen := hc.chain.length
  have hpl := hc.piv
  have hkl : l.ks.length = l.parts.length - 1 := by omega
  have hpl2 : l.parts.length - 1 ≤ l.pivots.length := by
    unfold Leaf.ks at hkl
    rw [List.length_take] at hkl
    omega
  have hchain : Chain (PartOk c U l.msn true) lo hi l.ks l.parts :=
    chain_mono hc.chain fun _ _ q hq _ hQ => hQ.toDirty (ha q hq)
  obtain ⟨b, hb⟩ := ha p (List.mem_of_getElem? hp)
  have hPr := partRows_mem hb
  rw [hPr] at hnl hbd
  have hil := lt_of_getElem? hp
  have hP := chain_get hchain hp
  have hdecomp : l.parts = l.parts.take (nb - 1) ++ p :: l.parts.drop nb := by
    conv => lhs; rw [← List.take_append_drop (nb - 1) l.parts]
    rw [List.drop_eq_getElem_cons hil, show nb - 1 + 1 = nb by omega]
    rw [List.getElem?_eq_getElem hil] at hp
    cases hp
    rfl
  have hrows : leafRows l = ((l.parts.take (nb - 1)).map partRows).flatten ++ (b.rows ++ ((l.parts.drop nb).map partRows).flatten) := by
    rw [leafRows_eq, hdecomp]
    simp only [List.map_append, List.map_cons, List.flatten_append, List.flatten_cons, hPr]
    rw [← hdecomp]
  unfold splitLeafAt
  simp only [hp, need_some, Out.ok_bind, hPr]
  by_cases hbnd : nl = 0 ∨ nl = b.rows.length
  · have hbT : (decide (nl = 0) || decide (nl = b.rows.length)) = true := by
      rcases hbnd with h | h <;> simp [h]
    simp only [hbT, if_true, Bool.true_and]
    by_cases hlt : nb < l.parts.length
    · -- on a boundary between two basements
      have hne : (l.parts.drop nb).isEmpty = false := by
        rw [List.isEmpty_eq_false_iff]
        intro h0
        have := congrArg List.length h0
        rw [List.length_drop] at this
        simp at this
        omega
      obtain ⟨k, hk⟩ : ∃ k, l.pivots[nb - 1]? = some k := ⟨_, List.getElem?_eq_getElem (by omega)⟩
      have hk1 : (l.pivots.take nb)[nb - 1]? = some k := by
        rw [List.getElem?_take_of_lt (by omega)]
        exact hk
      have hk2 : l.ks[nb - 1]? = some k := by
        unfold Leaf.ks
        rw [List.getElem?_take_of_lt (by omega)]
        exact hk
      obtain ⟨c1, c2, c3, c4⟩ := chain_part hchain hk2
      rw [show nb - 1 + 1 = nb by omega] at c1 c2
      simp only [hne, hlt, decide_true, if_true, Bool.false_eq_true, if_false, hk1, need_some, Out.ok_bind]
      refine ⟨_, _, _, rfl, c3, c4, ?_, ?_, ?_, rfl, rfl⟩
      · refine good_leaf hc.le ?_ ?_ c1 ?_
        · simp only [List.length_take]; omega
        · rw [List.take_take, List.length_take]
          unfold Leaf.ks
          rw [List.take_take]
          congr 1
          omega
        · exact aon_step hd fun q hq d hd' => ⟨q, List.mem_of_mem_take hq, d, hd', fun _ _ => Iff.rfl⟩
      · refine good_leaf hc.le ?_ ?_ c2 ?_
        · simp only [List.length_drop]; omega
        · rw [List.length_drop]
          unfold Leaf.ks
          rw [List.drop_take]
          congr 1
          omega
        · exact aon_step hd fun q hq d hd' => ⟨q, List.mem_of_mem_drop hq, d, hd', fun _ _ => Iff.rfl⟩
      · rw [leafRows_eq, leafRows_eq, leafRows_eq]
        simp only
        rw [← List.flatten_append, ← List.map_append, List.take_append_drop]
    · -- everything stays left
      obtain ⟨hhi, hU, hne, hnl'⟩ := (hbd hbnd).resolve_left hlt
      have hnb : nb = l.parts.length := by omega
      have hdrop : l.parts.drop nb = [] := by rw [hnb]; simp
      have htake : l.parts.take nb = l.parts := by rw [hnb]; simp
      obtain ⟨k, hk⟩ := lastKey_isSome hne
      have hk' : lastKey? (b.rows.take nl) = some k := by
        rw [hnl', List.take_of_length_le (Nat.le_refl _)]
        exact hk
      obtain ⟨g1, g2, g3, g4, g5⟩ := bnCut (hP.bn b hb).1 hk'
      have hp1 : PartOk c U l.msn true (childLo lo l.ks (nb - 1)) (some k) p := by
        refine ⟨?_, fun _ => ⟨b, hb⟩, fun h => by cases h⟩
        intro b' hb'
        rw [hb] at hb'
        cases hb'
        rw [hnl', List.take_of_length_le (Nat.le_refl _)] at g1
        exact ⟨g1, fun h => by cases h⟩
      have hhi' : childHi hi l.ks l.parts.length (nb - 1) = none := by
        unfold childHi
        rw [if_pos (by omega), hhi]
      have hp2 : PartOk c U l.msn true (some k) (childHi hi l.ks l.parts.length (nb - 1)) (emptyPart : Part K R) := by
        refine ⟨?_, fun _ => ⟨_, rfl⟩, fun h => by cases h⟩
        intro b' hb'
        cases hb'
        refine ⟨⟨List.Pairwise.nil, (fun _ h => by cases h), ?_, (fun h => by cases h), Nat.zero_le _⟩, (fun h => by cases h)⟩
        intro x hx
        have := g2.img x hx
        simp only [hnl', List.drop_length] at this
        rw [hU] at this ⊢
        exact this
      obtain ⟨c1, c2, c3, c4⟩ := chain_cut hchain hil g3 (by rw [hhi']; intro y hy; cases hy) hp1 hp2
      rw [show nb - 1 + 1 = nb by omega, hdrop] at c2
      have hleft : l.parts.take (nb - 1) ++ [p] = l.parts := by
        conv => rhs; rw [hdecomp, hdrop]
      rw [hleft] at c1
      simp only [hdrop, List.isEmpty_nil, if_true, htake, hlt, decide_false, Bool.false_eq_true, if_false, hp, need_some,
        Out.ok_bind, hPr, hk]
      refine ⟨_, _, _, rfl, c3, c4, ?_, ?_, ?_, rfl, rfl⟩
      · refine good_leaf hc.le ?_ ?_ c1 hd
        · simp only [List.length_take]; omega
        · rw [List.take_take]
          unfold Leaf.ks
          rw [List.take_take]
          congr 1
          omega
      · refine good_leaf hc.le ?_ ?_ c2 ?_
        · simp only [List.length_drop, List.length_cons, List.length_nil]; omega
        · simp only [List.length_cons, List.length_nil]
          rw [List.drop_eq_nil_of_le (by omega : l.pivots.length ≤ nb), List.drop_eq_nil_of_le (by omega : l.ks.length ≤ nb - 1)]
          rfl
        · rw [hU]; exact aon_nil _
      · rw [leafRows_eq, leafRows_eq, leafRows_eq]
        simp [emptyPart, partRows]
  · -- inside a basement
    have hbF : (decide (nl = 0) || decide (nl = b.rows.length)) = false := by
      simp only [not_or] at hbnd
      simp [hbnd.1, hbnd.2]
    simp only [not_or] at hbnd
    have hnl0 : nl < b.rows.length := by omega
    have hne : b.rows.take nl ≠ [] := by
      intro h0
      have := congrArg List.length h0
      rw [List.length_take, List.length_nil] at this
      omega
    obtain ⟨k, hk⟩ := lastKey_isSome hne
    obtain ⟨g1, g2, g3, g4, g5⟩ := bnCut (hP.bn b hb).1 hk
    have e1 : (cutPart p nl).1 = { p with mem := some { b with rows := b.rows.take nl } } := by
      unfold cutPart; rw [hb]
    have e2 : (cutPart p nl).2 = { disk := [], mem := some { rows := b.rows.drop nl, maxMsn := b.maxMsn, staleApplied := false } } := by
      unfold cutPart; rw [hb]
    have hp1 : PartOk c U l.msn true (childLo lo l.ks (nb - 1)) (some k) (cutPart p nl).1 := by
      rw [e1]
      refine ⟨?_, fun _ => ⟨_, rfl⟩, fun h => by cases h⟩
      intro b' hb'
      cases hb'
      exact ⟨g1, fun h => by cases h⟩
    have hp2 : PartOk c U l.msn true (some k) (childHi hi l.ks l.parts.length (nb - 1)) (cutPart p nl).2 := by
      rw [e2]
      refine ⟨?_, fun _ => ⟨_, rfl⟩, fun h => by cases h⟩
      intro b' hb'
      cases hb'
      exact ⟨g2, fun h => by cases h⟩
    obtain ⟨c1, c2, c3, c4⟩ := chain_cut hchain hil g3 (g4 hnl0) hp1 hp2
    rw [show nb - 1 + 1 = nb by omega] at c2
    have hlast : (l.parts.take (nb - 1) ++ [(cutPart p nl).1])[nb - 1]? = some (cutPart p nl).1 := by
      rw [List.getElem?_append_right (by simp; omega)]
      simp only [List.length_take, Nat.min_eq_left (by omega : nb - 1 ≤ l.parts.length), Nat.sub_self]
      rfl
    have hkey : lastKey? (partRows (cutPart p nl).1) = some k := by
      rw [e1]
      exact hk
    simp only [hbF, Bool.false_and, Bool.false_eq_true, if_false, List.isEmpty_cons, hlast, need_some, Out.ok_bind, hkey]
    have haon : ∀ (q : Part K R), q = (cutPart p nl).1 ∨ q = (cutPart p nl).2 → ∀ d, q.mem = some d → d.maxMsn = b.maxMsn := by
      intro q hq d hqd
      rcases hq with rfl | rfl
      · rw [e1] at hqd; cases hqd; rfl
      · rw [e2] at hqd; cases hqd; rfl
    refine ⟨_, _, _, rfl, c3, c4, ?_, ?_, ?_, rfl, rfl⟩
    · refine good_leaf hc.le ?_ ?_ c1 ?_
      · simp only [List.length_take, List.length_append, List.length_cons, List.length_nil]; omega
      · simp only [List.length_append, List.length_take, List.length_cons, List.length_nil]
        unfold Leaf.ks
        rw [List.take_take, List.take_take]
        congr 1
        omega
      · apply aon_step hd
        intro q hq d hqd
        rcases List.mem_append.1 hq with hq | hq
        · exact ⟨q, List.mem_of_mem_take hq, d, hqd, fun _ _ => Iff.rfl⟩
        · have hq := List.mem_singleton.1 hq
          have := haon q (Or.inl hq) d hqd
          exact ⟨p, List.mem_of_getElem? hp, b, hb, fun _ _ => by rw [this]⟩
    · refine good_leaf hc.le ?_ ?_ c2 ?_
      · simp only [List.length_drop, List.length_cons]; omega
      · simp only [List.length_cons, List.length_drop]
        unfold Leaf.ks
        rw [List.drop_take]
        congr 1
        omega
      · apply aon_step hd
        intro q hq d hqd
        rcases List.mem_cons.1 hq with hq | hq
        · have := haon q (Or.inr hq) d hqd
          exact ⟨p, List.mem_of_getElem? hp, b, hb, fun _ _ => by rw [this]⟩
        · exact ⟨q, List.mem_of_mem_drop hq, d, hqd, fun _ _ => Iff.rfl⟩
    · rw [hrows, leafRows_eq, leafRows_eq]
      simp only [List.map_append, List.map_cons, List.map_nil, List.flatten_append, List.flatten_cons, List.flatten_nil,
        List.append_nil]
      have r1 : partRows (cutPart p nl).1 = b.rows.take nl := by rw [e1]; rfl
      have r2 : partRows (cutPart p nl).2 = b.rows.drop nl := by rw [e2]; rfl
      rw [r1, r2, List.append_assoc, ← List.append_assoc (b.rows.take nl), List.take_append_drop]

theorem splitLeaf_ok {c : Ctx K R B} {U : List (Ent K B)} {lo hi : Option K} {l : Leaf K R}
    (hc : LeafCore c U lo hi l) (ha : AllMem l.parts) (hd : AllOrNone U l.parts) (mode : Mode)
    (hr : 1 < (leafRows l).length) (hm : mode = .leftHeavy → hi = none ∧ U = []) :
    ∃ a b k, splitLeaf c.sem mode l = .ok (a, b, k) ∧ Above lo k ∧ Below hi k ∧
      Good c 0 lo (some k) U a ∧ Good c 0 (some k) hi U b ∧
      leafRows a ++ leafRows b = leafRows l ∧ a.dirty = true ∧ b.dirty = true := by
  rw [leafRows_eq] at hr
  obtain ⟨nb, nl, b, q1, q2, q3, q4, q5, q6⟩ := splitLoc_ok c.sem mode hr
  rw [List.length_map] at q3 q6
  rw [List.getElem?_map] at q4
  obtain ⟨p, hp, rfl⟩ := Option.map_eq_some_iff.1 q4
  unfold splitLeaf
  simp only [q1, need_some, Out.ok_bind]
  refine splitLeafAt_ok hc ha hd q2 q3 hp q5 ?_
  intro hb
  rcases q6 hb with h | ⟨h1, h2, h3⟩
  · exact Or.inl h
  · exact Or.inr ⟨(hm h1).1, (hm h1).2, h2, h3⟩

/-- The MSN of a dirty leaf says nothing. -/
theorem good_remsn {c : Ctx K R B} {U : List (Ent K B)} {lo hi : Option K} {l : Leaf K R} (h : Good c 0 lo hi U l)
    (hd : l.dirty = true) {m : Nat} (hm : m ≤ c.mx) : Good c 0 lo hi U ({ l with msn := m } : Leaf K R) := by
  have h1 : LeafCore c U lo hi l := h.1
  refine ⟨⟨hm, h1.piv, ?_⟩, h.2⟩
  refine chain_mono h1.chain ?_
  intro lo' hi' p hp _ hP
  show PartOk c U m l.dirty lo' hi' p
  rw [hd]
  exact hP.toDirty (hP.mem hd)

theorem splitInner_ok {c : Ctx K R B} {h : Nat} {U : List (Ent K B)} {lo hi : Option K}
    {n : Inner K B (Node K R B h)} (hg : Good c (h + 1) lo hi U n) (hn : 1 < n.kids.length) :
    ∃ a b k, splitInner n = .ok (a, b, k) ∧ Above lo k ∧ Below hi k ∧
      Good c (h + 1) lo (some k) U a ∧ Good c (h + 1) (some k) hi U b := by
  obtain ⟨h1, h2, h3⟩ := hg
  have hl := Chain.length h3
  have hl : n.kids.length = n.pivots.length + 1 := hl
  have hk : n.pivots[n.kids.length / 2 - 1]? = some (n.pivots[n.kids.length / 2 - 1]'(by omega)) :=
    List.getElem?_eq_getElem _
  obtain ⟨c1, c2, c3, c4⟩ := chain_part h3 hk
  rw [show n.kids.length / 2 - 1 + 1 = n.kids.length / 2 by omega] at c1 c2
  unfold splitInner
  simp only [hk, need_some, Out.ok_bind]
  refine ⟨_, _, _, rfl, c3, c4, ⟨h1, h2, ?_⟩, ⟨h1, h2, c2⟩⟩
  have e : (n.pivots.take (n.kids.length / 2)).dropLast = n.pivots.take (n.kids.length / 2 - 1) := by
    rw [List.dropLast_eq_take, List.take_take, List.length_take]
    congr 1
    omega
  show Chain _ lo _ (n.pivots.take (n.kids.length / 2)).dropLast (n.kids.take (n.kids.length / 2))
  rw [e]
  exact c1

theorem splitNode_ok {c : Ctx K R B} : ∀ {h : Nat} {lo hi : Option K} {W : List (Ent K B)} {n : Node K R B h}
    (_ : Good c h lo hi W n) (mode : Mode) (e r : Bool), (e = true → W = []) → (r = true → hi = none) →
    splitNode c.sem h mode e r n = .skip ∨
    ∃ a b k, splitNode c.sem h mode e r n = .ok (a, b, k) ∧ Above lo k ∧ Below hi k ∧
      Good c h lo (some k) W a ∧ Good c h (some k) hi W b
  | 0, lo, hi, W, l, hg, mode, e, r, he, hr => by
    have hl := loadLeaf_ok hg.1
    unfold splitNode guardS
    simp only
    split
    · rename_i hgd
      simp only [Bool.and_eq_true, decide_eq_true_eq, Bool.or_eq_true] at hgd
      obtain ⟨⟨g1, g2⟩, g3⟩ := hgd
      right
      have hd : AllOrNone W (loadLeaf l).parts := by
        rcases g3 with g3 | g3
        · rw [loadLeaf_dirty (allMem_dirty hg.1 g3)]
          exact hg.2 g3
        · rw [he g3]
          exact aon_nil _
      obtain ⟨a, b, k, q1, q2, q3, q4, q5, _⟩ := splitLeaf_ok hl.1 hl.2 hd mode g1 (by
        intro hm
        rcases g2 with g2 | g2
        · exact absurd hm g2
        · exact ⟨hr g2.2, he g2.1⟩)
      exact ⟨a, b, k, q1, q2, q3, q4, q5⟩
    · exact Or.inl rfl
  | h + 1, lo, hi, W, n, hg, mode, e, r, he, hr => by
    have e1 : splitNode c.sem (h + 1) mode e r n =
        (guardS (decide (1 < (Inner.kids n).length)) >>= fun _ => splitInner (C := Node K R B h) n) := rfl
    rw [e1]
    unfold guardS
    by_cases hgd : 1 < (Inner.kids n).length
    · right
      simp only [hgd, decide_true, if_true, Out.ok_bind]
      exact splitInner_ok hg hgd
    · left
      simp only [hgd, decide_false, Bool.false_eq_true, if_false, Out.skip_bind]
      rfl

theorem splitChild_ok {c : Ctx K R B} {h : Nat} {lo hi : Option K} {W : List (Ent K B)}
    {n : Inner K B (Node K R B h)} (hg : Good c (h + 1) lo hi W n) (mode : Mode) (i : Nat) (e r : Bool)
    (he : e = true → W = []) (hr : r = true → hi = none) :
    splitChild c.sem h mode i e r n = .skip ∨
    ∃ n', splitChild c.sem h mode i e r n = .ok n' ∧ Good c (h + 1) lo hi W n' := by
  obtain ⟨h1, h2, h3⟩ := hg
  unfold splitChild guardS
  cases hk : n.kids[i]? with
  | none => exact Or.inl rfl
  | some p =>
    obtain ⟨s, ch⟩ := p
    simp only
    by_cases hs : s.isEmpty = true
    · simp only [hs, if_true, Out.ok_bind]
      have hs' : s = [] := List.isEmpty_iff.1 hs
      subst hs'
      have hil := lt_of_getElem? hk
      have hP := chain_get h3 hk
      rcases splitNode_ok hP.2 mode e (r && decide (i + 1 = n.kids.length)) he (by
        intro hr'
        simp only [Bool.and_eq_true, decide_eq_true_eq] at hr'
        unfold childHi
        rw [if_pos hr'.2]
        exact hr hr'.1) with q | ⟨a, b, k, q1, q2, q3, q4, q5⟩
      · rw [q]
        exact Or.inl rfl
      · rw [q1]
        refine Or.inr ⟨_, rfl, h1, h2, ?_⟩
        exact chain_insert h3 hil q2 q3 ⟨slot_nil _ _ _, q4⟩ ⟨slot_nil _ _ _, q5⟩
    · simp only [hs]
      exact Or.inl rfl

end Verif.Tree
