import Verif.Tree.Inv

/-! Messages going down: putting them into nodes, flushing, injecting. -/
namespace Verif.Tree
set_option linter.unusedSectionVars false
variable {K R B : Type} [LinearOrder K]

/-- Every basement is in memory. -/
def AllMem (ps : List (Part K R)) : Prop := ∀ p ∈ ps, ∃ b, p.mem = some b

theorem bnPut_ok {c : Ctx K R B} {lo hi : Option K} {e : Ent K B} {V : List (Ent K B)} {b : Bn K R}
    (h : BnOk c (e :: V) lo hi b) (hk : KeyIn lo hi e.msg) (hV : ∀ u ∈ V, e.msg.msn < u.msg.msn)
    (hm : e.msg.msn ≤ c.mx) :
    BnOk c V lo hi (if b.maxMsn < e.msg.msn then
      { b with rows := applyMsg c.sem b.rows e.msg, maxMsn := e.msg.msn } else b) := by
  split
  · rename_i hlt
    refine ⟨sorted_applyMsg _ h.sorted _, rowsIn_applyMsg _ h.within hk, ?_, ?_, hm⟩
    · intro k hkb
      have := h.img k hkb
      rw [show e :: V = [e] ++ V from rfl, pend_append, eff_append,
        pend_all (U := [e]) (by simpa using hlt), pend_all (U := V) (fun u hu => by have := hV u hu; omega)] at this
      simp only
      rw [pend_all hV, lookup_applyMsg _ h.sorted]
      exact this
    · intro hs e' he k hke hkb hf
      have := h.st hs e' (List.mem_cons_of_mem _ he) k hke hkb hf
      simp only
      omega
  · rename_i hlt
    refine ⟨h.sorted, h.within, ?_, ?_, h.le⟩
    · intro k hkb
      have := h.img k hkb
      rw [show e :: V = [e] ++ V from rfl, pend_append, pend_none (U := [e]) (by simpa using hlt)] at this
      exact this
    · intro hs e' he
      exact h.st hs e' (List.mem_cons_of_mem _ he)

theorem bnPut_mem {sem : Sem K R B} {m : Msg K B} {p : Part K R} {b : Bn K R} (h : p.mem = some b) :
    (bnPut sem m p).mem = some (if b.maxMsn < m.msn then
      { b with rows := applyMsg sem b.rows m, maxMsn := m.msn } else b) := by
  unfold bnPut
  rw [h]
  simp only
  split
  · rfl
  · exact h

theorem PartOk.put {c : Ctx K R B} {lo hi : Option K} {e : Ent K B} {V : List (Ent K B)} {p : Part K R}
    {msn msn' : Nat} {d : Bool}
    (h : PartOk c (e :: V) msn d lo hi p) (hp : ∃ b, p.mem = some b) (hk : KeyIn lo hi e.msg)
    (hV : ∀ u ∈ V, e.msg.msn < u.msg.msn) (hm : e.msg.msn ≤ c.mx) :
    PartOk c V msn' true lo hi (bnPut c.sem e.msg p) := by
  obtain ⟨b, hb⟩ := hp
  refine ⟨?_, fun _ => ⟨_, bnPut_mem hb⟩, fun h => by cases h⟩
  intro b' hb'
  rw [bnPut_mem hb] at hb'
  cases hb'
  exact ⟨bnPut_ok (h.bn b hb).1 hk hV hm, fun h => by cases h⟩

theorem PartOk.toDirty {c : Ctx K R B} {lo hi : Option K} {U : List (Ent K B)} {p : Part K R}
    {msn msn' : Nat} {d : Bool} (h : PartOk c U msn d lo hi p) (hp : ∃ b, p.mem = some b) :
    PartOk c U msn' true lo hi p :=
  ⟨fun b hb => ⟨(h.bn b hb).1, fun h => by cases h⟩, fun _ => hp, fun h => by cases h⟩

theorem aon_step {W : List (Ent K B)} {ps ps' : List (Part K R)} (h : AllOrNone W ps)
    (hs : ∀ p' ∈ ps', ∀ b', p'.mem = some b' → ∃ p ∈ ps, ∃ b, p.mem = some b ∧
      ∀ u ∈ W, (u.msg.msn ≤ b'.maxMsn ↔ u.msg.msn ≤ b.maxMsn)) : AllOrNone W ps' := by
  intro u hu p1 hp1 b1 hb1 p2 hp2 b2 hb2
  obtain ⟨q1, hq1, d1, hd1, e1⟩ := hs p1 hp1 b1 hb1
  obtain ⟨q2, hq2, d2, hd2, e2⟩ := hs p2 hp2 b2 hb2
  have := h u hu q1 hq1 d1 hd1 q2 hq2 d2 hd2
  have := e1 u hu
  have := e2 u hu
  omega

theorem bnPut_aon {sem : Sem K R B} {e : Ent K B} {W : List (Ent K B)} (hW : ∀ u ∈ W, e.msg.msn < u.msg.msn)
    {p : Part K R} {b' : Bn K R} (h : (bnPut sem e.msg p).mem = some b') : ∃ b, p.mem = some b ∧
      ∀ u ∈ W, (u.msg.msn ≤ b'.maxMsn ↔ u.msg.msn ≤ b.maxMsn) := by
  cases hb : p.mem with
  | none =>
    unfold bnPut at h
    rw [hb] at h
    simp only at h
    rw [hb] at h
    cases h
  | some b =>
    refine ⟨b, rfl, fun u hu => ?_⟩
    rw [bnPut_mem hb] at h
    cases h
    have := hW u hu
    split
    · simp only; omega
    · exact Iff.rfl

theorem Leaf.pivots_eq (l : Leaf K R) : l.pivots = l.ks ++ l.pivots.drop (l.parts.length - 1) :=
  (List.take_append_drop _ _).symm

theorem leafPut_ok {c : Ctx K R B} {lo hi : Option K} {e : Ent K B} {V W : List (Ent K B)} {l : Leaf K R}
    (hc : LeafCore c (e :: V) lo hi l) (ha : AllMem l.parts) (hk : KeyIn lo hi e.msg)
    (hV : ∀ u ∈ V, e.msg.msn < u.msg.msn) (hm : e.msg.msn ≤ c.mx)
    (hW : AllOrNone W l.parts) (hWe : ∀ u ∈ W, e.msg.msn < u.msg.msn) :
    ∃ l', leafPut c.sem l e.msg = .ok l' ∧ LeafCore c V lo hi l' ∧ AllMem l'.parts ∧ AllOrNone W l'.parts := by
  have hmax : max l.msn e.msg.msn ≤ c.mx := by have := hc.le; omega
  unfold leafPut
  simp only
  cases hkind : e.msg.kind with
  | once k =>
    have hkb := hk k hkind
    obtain ⟨i, p, h1, h2, h3, h4⟩ := chain_which (ext := l.pivots.drop (l.parts.length - 1)) hc.chain hkb
    rw [← Leaf.pivots_eq] at h1
    simp only [h1, h2, need_some, Out.ok_bind]
    refine ⟨_, rfl, ⟨hmax, ?_, ?_⟩, ?_, ?_⟩
    · simpa using hc.piv
    · show Chain _ lo hi (l.pivots.take ((l.parts.set i _).length - 1)) _
      rw [List.length_set]
      have hP := chain_get hc.chain h2
      refine chain_update hc.chain h3 (hP.put (ha p (List.mem_of_getElem? h2)) ?_ hV hm) ?_
      · intro k' hk'
        rw [hkind] at hk'
        cases hk'
        exact h4
      · intro lo' hi' q hq hs hd hQ
        refine ((hQ.tr (tr_drop ?_))).toDirty (ha q hq)
        unfold Irr
        rw [hkind]
        exact fun h => hd k h h4
    · intro q hq
      rcases List.mem_or_eq_of_mem_set hq with hq | rfl
      · exact ha q hq
      · obtain ⟨b, hb⟩ := ha p (List.mem_of_getElem? h2)
        exact ⟨_, bnPut_mem hb⟩
    · apply aon_step hW
      intro q hq b' hb'
      rcases List.mem_or_eq_of_mem_set hq with hq | rfl
      · exact ⟨q, hq, b', hb', fun _ _ => Iff.rfl⟩
      · obtain ⟨b, hb, h⟩ := bnPut_aon hWe hb'
        exact ⟨p, List.mem_of_getElem? h2, b, hb, h⟩
  | all =>
    refine ⟨_, rfl, ⟨hmax, ?_, ?_⟩, ?_, ?_⟩
    · simpa using hc.piv
    · show Chain _ lo hi (l.pivots.take ((l.parts.map _).length - 1)) _
      rw [List.length_map]
      refine chain_map' _ hc.chain ?_
      intro lo' hi' p hp hs hP
      refine hP.put (ha p hp) ?_ hV hm
      intro k hk'
      rw [hkind] at hk'
      cases hk'
    · intro q hq
      obtain ⟨p, hp, rfl⟩ := List.mem_map.1 hq
      obtain ⟨b, hb⟩ := ha p hp
      exact ⟨_, bnPut_mem hb⟩
    · apply aon_step hW
      intro q hq b' hb'
      obtain ⟨p, hp, rfl⟩ := List.mem_map.1 hq
      obtain ⟨b, hb, h⟩ := bnPut_aon hWe hb'
      exact ⟨p, hp, b, hb, h⟩
  | nothing =>
    refine ⟨_, rfl, ⟨hmax, hc.piv, ?_⟩, ha, hW⟩
    refine chain_mono hc.chain ?_
    intro lo' hi' p hp hs hP
    refine ((hP.tr (tr_drop ?_))).toDirty (ha p hp)
    unfold Irr
    rw [hkind]
    trivial

/-- A node while a buffer is being flushed to it: `U` are the messages above including the rest of that buffer,
`W` those above the parent. -/
def Mid (c : Ctx K R B) : (h : Nat) → Option K → Option K → List (Ent K B) → List (Ent K B) → Node K R B h → Prop
  | 0, lo, hi, U, W, l => LeafCore c U lo hi l ∧ AllMem (Leaf.parts l) ∧ AllOrNone W (Leaf.parts l)
  | h + 1, lo, hi, U, _, n => Good c (h + 1) lo hi U n

theorem Mid.good {c : Ctx K R B} : ∀ {h lo hi W} {n : Node K R B h}, Mid c h lo hi W W n → Good c h lo hi W n
  | 0, _, _, _, _, h => ⟨h.1, fun _ => h.2.2⟩
  | _ + 1, _, _, _, _, h => h

theorem flag_refr (e : Ent K B) (lo hi : Option K) : ReFr lo hi [e] [{ e with fr := e.fr.flag }] := by
  refine F2.cons ⟨rfl, fun k _ _ h => ?_⟩ F2.nil
  intro h'
  apply h
  simp only [h', Fr.flag]

theorem innerPut_ok {c : Ctx K R B} {h : Nat} {lo hi : Option K} {e : Ent K B} {V : List (Ent K B)}
    {n : Inner K B (Node K R B h)}
    (hg : Good c (h + 1) lo hi (e :: V) n) (hk : KeyIn lo hi e.msg)
    (hV : ∀ u ∈ V, e.msg.msn < u.msg.msn) (hm : e.msg.msn ≤ c.mx) (f : Fr) (hf : f ≠ .fresh → e.fr ≠ .fresh) :
    ∃ n', innerPut n { e with fr := f } = .ok n' ∧ Good c (h + 1) lo hi V n' := by
  obtain ⟨h1, h2, h3⟩ := hg
  have hlt : n.msn < e.msg.msn := h2 e (List.mem_cons_self)
  have hre : ∀ lo' hi', ReFr lo' hi' [e] [({ e with fr := f } : Ent K B)] := fun lo' hi' =>
    F2.cons ⟨rfl, fun _ _ _ h => hf h⟩ F2.nil
  -- the slot that takes the message
  have hslot : ∀ {lo' hi' : Option K} {p : Slot K B × Node K R B h}, KeyIn lo' hi' e.msg →
      (SlotOk (Inner.msn n) lo' hi' p.1 ∧ Good c h lo' hi' (p.1 ++ e :: V) p.2) →
      SlotOk e.msg.msn lo' hi' (p.1 ++ [{ e with fr := f }]) ∧
        Good c h lo' hi' ((p.1 ++ [{ e with fr := f }]) ++ V) p.2 := by
    intro lo' hi' p hkp ⟨hs, hG⟩
    refine ⟨⟨?_, ?_, ?_⟩, ?_⟩
    · refine List.pairwise_append.2 ⟨hs.incr, List.pairwise_singleton _ _, ?_⟩
      intro a ha b hb
      rw [List.mem_singleton.1 hb]
      exact Nat.lt_of_le_of_lt (hs.le a ha) hlt
    · intro a ha
      rcases List.mem_append.1 ha with ha | ha
      · exact Nat.le_of_lt (Nat.lt_of_le_of_lt (hs.le a ha) hlt)
      · rw [List.mem_singleton.1 ha]; exact Nat.le_refl _
    · intro a ha
      rcases List.mem_append.1 ha with ha | ha
      · exact hs.keys a ha
      · rw [List.mem_singleton.1 ha]; exact hkp
    · rw [List.append_assoc]
      exact hG.tr (((tr_refr ((hre lo' hi').append (ReFr.refl _ _ V)))).prefix p.1)
  -- a slot that does not
  have hother : ∀ {lo' hi' : Option K} {p : Slot K B × Node K R B h}, Irr lo' hi' e.msg →
      (SlotOk (Inner.msn n) lo' hi' p.1 ∧ Good c h lo' hi' (p.1 ++ e :: V) p.2) →
      SlotOk e.msg.msn lo' hi' p.1 ∧ Good c h lo' hi' (p.1 ++ V) p.2 := by
    intro lo' hi' p hI ⟨hs, hG⟩
    refine ⟨⟨hs.incr, fun a ha => Nat.le_of_lt (Nat.lt_of_le_of_lt (hs.le a ha) hlt), hs.keys⟩, ?_⟩
    exact hG.tr ((tr_drop hI).prefix p.1)
  unfold innerPut
  simp only [assertC, hlt, decide_true, if_true, Out.ok_bind]
  cases hkind : e.msg.kind with
  | once k =>
    have hkb := hk k hkind
    obtain ⟨i, p, w1, w2, w3, w4⟩ := chain_which (ext := []) h3 hkb
    rw [List.append_nil] at w1
    simp only [w1, w2, need_some, Out.ok_bind]
    refine ⟨_, rfl, hm, hV, ?_⟩
    refine chain_update h3 w3 (hslot ?_ (chain_get h3 w2)) ?_
    · intro k' hk'
      rw [hkind] at hk'
      cases hk'
      exact w4
    · intro lo' hi' q _ _ hd hQ
      refine hother ?_ hQ
      unfold Irr
      rw [hkind]
      exact fun h => hd k h w4
  | all =>
    refine ⟨_, rfl, hm, hV, ?_⟩
    refine chain_map' _ h3 ?_
    intro lo' hi' p hp hs hP
    refine hslot ?_ hP
    intro k hk'
    rw [hkind] at hk'
    cases hk'
  | nothing =>
    refine ⟨_, rfl, hm, hV, ?_⟩
    refine chain_mono h3 ?_
    intro lo' hi' p hp hs hP
    refine hother ?_ hP
    unfold Irr
    rw [hkind]
    trivial

theorem putNode_ok {c : Ctx K R B} : ∀ {h : Nat} {lo hi : Option K} {e : Ent K B} {V W : List (Ent K B)}
    {n : Node K R B h}, Mid c h lo hi (e :: V) W n → KeyIn lo hi e.msg →
    (∀ u ∈ V, e.msg.msn < u.msg.msn) → e.msg.msn ≤ c.mx → (∀ u ∈ W, e.msg.msn < u.msg.msn) →
    ∀ (f : Fr), (f ≠ .fresh → e.fr ≠ .fresh) →
    ∃ n', putNode c.sem h n { e with fr := f } = .ok n' ∧ Mid c h lo hi V W n'
  | 0, lo, hi, e, V, W, l, hM, hk, hV, hm, hWe, f, hf => by
    obtain ⟨l', h1, h2, h3, h4⟩ := leafPut_ok hM.1 hM.2.1 hk hV hm hM.2.2 hWe
    exact ⟨l', h1, h2, h3, h4⟩
  | h + 1, lo, hi, e, V, W, n, hM, hk, hV, hm, hWe, f, hf => innerPut_ok hM hk hV hm f hf

theorem putAll_ok {c : Ctx K R B} {h : Nat} {lo hi : Option K} {W : List (Ent K B)} :
    ∀ (s : Slot K B) {n : Node K R B h}, Mid c h lo hi (s ++ W) W n → Incr s →
    (∀ e ∈ s, KeyIn lo hi e.msg) → (∀ e ∈ s, e.msg.msn ≤ c.mx) → (∀ e ∈ s, ∀ u ∈ W, e.msg.msn < u.msg.msn) →
    ∃ n', putAll c.sem h n s = .ok n' ∧ Mid c h lo hi W W n'
  | [], n, hM, _, _, _, _ => ⟨n, rfl, hM⟩
  | e :: s, n, hM, hi', hk, hm, hW => by
    have hi'' := List.pairwise_cons.1 hi'
    obtain ⟨n1, h1, h2⟩ := putNode_ok (V := s ++ W) hM (hk e (List.mem_cons_self)) (by
        intro u hu
        rcases List.mem_append.1 hu with hu | hu
        · exact hi''.1 u hu
        · exact hW e (List.mem_cons_self) u hu)
      (hm e (List.mem_cons_self)) (hW e (List.mem_cons_self)) e.fr.flag (by
        intro h h'
        apply h
        simp only [h', Fr.flag])
    obtain ⟨n2, h3, h4⟩ := putAll_ok s h2 hi''.2 (fun x hx => hk x (List.mem_cons_of_mem _ hx))
      (fun x hx => hm x (List.mem_cons_of_mem _ hx)) (fun x hx => hW x (List.mem_cons_of_mem _ hx))
    refine ⟨n2, ?_, h4⟩
    unfold putAll
    rw [h1]
    exact h3

/-! ### Bringing leaves into memory -/

theorem PartOk.load {c : Ctx K R B} {U : List (Ent K B)} {msn : Nat} {d : Bool} {lo hi : Option K} {p : Part K R}
    (h : PartOk c U msn d lo hi p) : PartOk c U msn d lo hi (loadPart msn p) ∧ ∃ b, (loadPart msn p).mem = some b := by
  unfold loadPart
  cases hp : p.mem with
  | some b => exact ⟨h, b, hp⟩
  | none =>
    have hd : d = false := by
      cases d
      · rfl
      · obtain ⟨b, hb⟩ := h.mem rfl
        rw [hp] at hb; cases hb
    refine ⟨⟨?_, fun _ => ⟨_, rfl⟩, h.disk⟩, _, rfl⟩
    intro b hb
    cases hb
    exact ⟨h.disk hd, fun _ => Nat.le_refl _⟩

theorem loadLeaf_ok {c : Ctx K R B} {U : List (Ent K B)} {lo hi : Option K} {l : Leaf K R}
    (h : LeafCore c U lo hi l) : LeafCore c U lo hi (loadLeaf l) ∧ AllMem (loadLeaf l).parts := by
  have hc : Chain (fun lo hi p => PartOk c U l.msn l.dirty lo hi p ∧ ∃ b, p.mem = some b) lo hi l.ks
      (l.parts.map (loadPart l.msn)) := chain_map' _ h.chain fun _ _ _ _ _ hP => hP.load
  refine ⟨⟨h.le, ?_, ?_⟩, ?_⟩
  · simpa [loadLeaf] using h.piv
  · show Chain _ lo hi (l.pivots.take ((l.parts.map _).length - 1)) _
    rw [List.length_map]
    exact chain_mono hc fun _ _ _ _ _ hP => hP.1
  · intro p hp
    obtain ⟨_, _, hP, _⟩ := chain_all hc p hp
    exact hP.2

theorem allMem_dirty {c : Ctx K R B} {U : List (Ent K B)} {lo hi : Option K} {l : Leaf K R}
    (h : LeafCore c U lo hi l) (hd : l.dirty = true) : AllMem l.parts := by
  intro p hp
  obtain ⟨_, _, hP, _⟩ := chain_all h.chain p hp
  exact hP.mem hd

theorem LeafCore.toDirty {c : Ctx K R B} {U : List (Ent K B)} {lo hi : Option K} {l : Leaf K R}
    (h : LeafCore c U lo hi l) (ha : AllMem l.parts) : LeafCore c U lo hi { l with dirty := true } :=
  ⟨h.le, h.piv, chain_mono h.chain fun _ _ p hp _ hP => hP.toDirty (ha p hp)⟩

theorem loadLeaf_dirty {l : Leaf K R} (ha : AllMem l.parts) : loadLeaf l = l := by
  unfold loadLeaf
  have : l.parts.map (loadPart l.msn) = l.parts := by
    conv => rhs; rw [← List.map_id l.parts]
    apply List.map_congr_left
    intro p hp
    obtain ⟨b, hb⟩ := ha p hp
    unfold loadPart
    rw [hb]
    rfl
  rw [this]

/-- What the cleaner throws away. -/
theorem destroyAhead_ok {c : Ctx K R B} {U : List (Ent K B)} {lo hi : Option K} {l : Leaf K R} (pm : Nat)
    (h : LeafCore c U lo hi l) : LeafCore c U lo hi (destroyAhead pm l) := by
  unfold destroyAhead
  split
  · rename_i hd
    simp only [Bool.and_eq_true, Bool.not_eq_true'] at hd
    refine ⟨h.le, by simpa using h.piv, ?_⟩
    show Chain _ lo hi (l.pivots.take ((l.parts.map _).length - 1)) _
    rw [List.length_map]
    refine chain_map' _ h.chain ?_
    intro lo' hi' p hp hs hP
    simp only
    split
    · split
      · refine ⟨fun b hb => (by cases hb), fun h => ?_, hP.disk⟩
        rw [hd.2] at h; cases h
      · exact hP
    · exact hP
  · exact h

theorem prepareLeaf_ok {c : Ctx K R B} {s W : List (Ent K B)} {lo hi : Option K} {l : Leaf K R} {pm : Nat}
    (h : LeafCore c (s ++ W) lo hi l) (hd : l.dirty = true → AllOrNone (s ++ W) l.parts) (cl : Bool)
    (hW : ∀ u ∈ W, pm < u.msg.msn) (hcl : cl = false → W = []) :
    LeafCore c (s ++ W) lo hi ({ loadLeaf (if cl then destroyAhead pm l else l) with dirty := true } : Leaf K R) ∧
    AllMem (loadLeaf (if cl then destroyAhead pm l else l)).parts ∧
    AllOrNone W (loadLeaf (if cl then destroyAhead pm l else l)).parts := by
  cases cl with
  | false =>
    simp only [Bool.false_eq_true, if_false]
    have := loadLeaf_ok h
    refine ⟨this.1.toDirty this.2, this.2, ?_⟩
    rw [hcl rfl]
    intro u hu
    cases hu
  | true =>
    simp only [if_true]
    have h1 := loadLeaf_ok (destroyAhead_ok pm h)
    refine ⟨h1.1.toDirty h1.2, h1.2, ?_⟩
    by_cases hdd : l.dirty = true
    · have e1 : destroyAhead pm l = l := by
        unfold destroyAhead
        rw [if_neg (by simp [hdd])]
      rw [e1, loadLeaf_dirty (allMem_dirty h hdd)]
      intro u hu
      exact hd hdd u (List.mem_append_right _ hu)
    · have hdf : l.dirty = false := by simpa using hdd
      by_cases hn : 1 < l.parts.length
      · -- each basement is now at most at `pm`, or all were reloaded
        have hb : ∀ p ∈ (loadLeaf (destroyAhead pm l)).parts, ∀ b, p.mem = some b →
            b.maxMsn ≤ pm ∨ (pm < l.msn ∧ b.maxMsn = l.msn) := by
          intro p hp b hb
          unfold loadLeaf destroyAhead at hp
          rw [if_pos (by simp [hn, hdf])] at hp
          simp only [List.map_map, List.mem_map] at hp
          obtain ⟨q, hq, rfl⟩ := hp
          obtain ⟨_, _, hP, _⟩ := chain_all h.chain q hq
          simp only [Function.comp] at hb
          cases hqm : q.mem with
          | none =>
            rw [hqm] at hb
            simp only [loadPart, hqm] at hb
            cases hb
            rcases Nat.lt_or_ge pm l.msn with h | h
            · exact Or.inr ⟨h, rfl⟩
            · exact Or.inl h
          | some d =>
            rw [hqm] at hb
            have hle := (hP.bn d hqm).2 hdf
            by_cases hlt : pm < d.maxMsn
            · simp only [hlt, if_true, loadPart] at hb
              cases hb
              rcases Nat.lt_or_ge pm l.msn with h | h
              · exact Or.inr ⟨h, rfl⟩
              · exact Or.inl h
            · simp only [hlt, if_false, loadPart, hqm] at hb
              cases hb
              omega
        intro u hu p hp b hpb p' hp' b' hpb'
        have := hb p hp b hpb
        have := hb p' hp' b' hpb'
        have := hW u hu
        -- if one was reloaded above `pm`, every one of them was
        have hlow : ∀ p ∈ (loadLeaf (destroyAhead pm l)).parts, ∀ b, p.mem = some b → pm < l.msn → b.maxMsn = l.msn := by
          intro p hp b hpb hlt
          rcases hb p hp b hpb with hle | h'
          · obtain ⟨_, _, hP, _⟩ := chain_all h1.1.chain p hp
            have hdd : (loadLeaf (destroyAhead pm l)).dirty = false := by
              unfold loadLeaf destroyAhead
              split <;> exact hdf
            have hms : (loadLeaf (destroyAhead pm l)).msn = l.msn := by
              unfold loadLeaf destroyAhead
              split <;> rfl
            have := (hP.bn b hpb).2 hdd
            omega
          · exact h'.2
        have h3 := hlow p hp b hpb
        have h4 := hlow p' hp' b' hpb'
        omega
      · -- a single basement
        have e1 : destroyAhead pm l = l := by
          unfold destroyAhead
          rw [if_neg (by simp [hn])]
        rw [e1]
        intro u hu p hp b hpb p' hp' b' hpb'
        have hlen : (loadLeaf l).parts.length ≤ 1 := by
          simp only [loadLeaf, List.length_map]; omega
        have : p = p' := by
          match hps : (loadLeaf l).parts, hlen with
          | [], _ => rw [hps] at hp; cases hp
          | [x], _ =>
            rw [hps] at hp hp'
            rw [List.mem_singleton.1 hp, List.mem_singleton.1 hp']
        subst this
        rw [hpb] at hpb'
        cases hpb'
        omega

theorem prepareChild_ok {c : Ctx K R B} : ∀ {h : Nat} {lo hi : Option K} {s W : List (Ent K B)}
    {n : Node K R B h} {pm : Nat} {cl : Bool}, Good c h lo hi (s ++ W) n →
    (∀ u ∈ W, pm < u.msg.msn) → (cl = false → W = []) →
    Mid c h lo hi (s ++ W) W (prepareChild h cl pm n)
  | 0, _, _, _, _, l, _, cl, hg, hW, hcl => prepareLeaf_ok (l := l) hg.1 hg.2 cl hW hcl
  | _ + 1, _, _, _, _, _, _, _, hg, _, _ => hg

theorem loadNode_ok {c : Ctx K R B} : ∀ {h : Nat} {lo hi : Option K} {s W : List (Ent K B)}
    {n : Node K R B h}, Good c h lo hi (s ++ W) n → (h = 0 → W = []) →
    Mid c h lo hi (s ++ W) W (loadNode h n)
  | 0, _, _, _, _, l, hg, hW => by
    have := loadLeaf_ok hg.1
    refine ⟨this.1, this.2, ?_⟩
    rw [hW rfl]
    intro u hu
    cases hu
  | _ + 1, _, _, _, _, _, hg, _ => hg

/-! ### Flushing -/

theorem slot_nil (msn : Nat) (lo hi : Option K) : SlotOk msn lo hi ([] : Slot K B) :=
  ⟨List.Pairwise.nil, fun _ h => (by cases h), fun _ h => (by cases h)⟩

theorem flushChild_ok {c : Ctx K R B} {h : Nat} {lo hi : Option K} {W : List (Ent K B)}
    {n : Inner K B (Node K R B h)} (hg : Good c (h + 1) lo hi W n) (cl : Bool) (i : Nat) (e r : Bool)
    (he : e = true → W = []) :
    flushChild c.sem h cl i e r n = .skip ∨
    ∃ n', flushChild c.sem h cl i e r n = .ok n' ∧ Good c (h + 1) lo hi W n' := by
  obtain ⟨h1, h2, h3⟩ := hg
  unfold flushChild guardS
  by_cases hgd : (cl || e) = true
  · rw [if_pos hgd]
    cases hk : n.kids[i]? with
    | none => left; rfl
    | some p =>
      obtain ⟨s, ch⟩ := p
      right
      have hP := chain_get h3 hk
      have hil : i < n.kids.length := by
        rcases Nat.lt_or_ge i n.kids.length with h | h
        · exact h
        · rw [List.getElem?_eq_none h] at hk; cases hk
      have hM := prepareChild_ok (pm := n.msn) (cl := cl) hP.2 h2 (by
        intro hc
        rw [hc] at hgd
        exact he (by simpa using hgd))
      obtain ⟨c', q1, q2⟩ := putAll_ok s hM hP.1.incr hP.1.keys
        (fun x hx => Nat.le_trans (hP.1.le x hx) h1)
        (fun x hx u hu => Nat.lt_of_le_of_lt (hP.1.le x hx) (h2 u hu))
      refine ⟨{ n with kids := n.kids.set i ([], c') }, ?_, h1, h2, ?_⟩
      · show Out.bind (.ok ()) _ = _
        simp only [Out.bind]
        show Out.bind _ _ = _
        rw [q1]
        rfl
      · exact chain_set h3 hil ⟨slot_nil _ _ _, q2.good⟩
  · rw [if_neg hgd]
    left
    rfl

/-! ### Injecting -/

theorem after_le {c : Ctx K R B} {m : Msg K B} : m.msn ≤ (c.after m).mx := Nat.le_refl _

theorem injectHere_ok {c : Ctx K R B} {h : Nat} {lo hi : Option K} {n : Inner K B (Node K R B h)} {e : Ent K B}
    (hg : Good c (h + 1) lo hi [] n) (hk : KeyIn lo hi e.msg) (hm : c.mx < e.msg.msn) (hf : e.fr = .fresh) :
    ∃ n', innerPut n e = .ok n' ∧ Good (c.after e.msg) (h + 1) lo hi [] n' := by
  have hg' : Good (c.after e.msg) (h + 1) lo hi ([] ++ [e]) n := hg.tr (tr_extend hm hf)
  obtain ⟨n', h1, h2⟩ := innerPut_ok hg' hk (by intro u hu; cases hu) after_le e.fr (fun h => h)
  exact ⟨n', h1, h2⟩

theorem inject_ok {c : Ctx K R B} : ∀ {h : Nat} {lo hi : Option K} {n : Node K R B h} {e : Ent K B} (d : Nat),
    Good c h lo hi [] n → KeyIn lo hi e.msg → c.mx < e.msg.msn → e.fr = .fresh →
    ∃ n', inject c.sem h d n e = .ok n' ∧ Good (c.after e.msg) h lo hi [] n'
  | 0, lo, hi, l, e, d, hg, hk, hm, hf => by
    have hg' : Good (c.after e.msg) 0 lo hi ([] ++ [e]) l := hg.tr (tr_extend hm hf)
    have hl := loadLeaf_ok hg'.1
    obtain ⟨l', h1, h2, h3, h4⟩ := leafPut_ok (V := []) (W := []) hl.1 hl.2 hk (by intro u hu; cases hu) after_le
      (by intro u hu; cases hu) (by intro u hu; cases hu)
    exact ⟨l', h1, h2, fun _ => h4⟩
  | h + 1, lo, hi, n, e, 0, hg, hk, hm, hf => injectHere_ok hg hk hm hf
  | h + 1, lo, hi, n, e, d + 1, hg, hk, hm, hf => by
    unfold inject
    cases hkind : e.msg.kind with
    | all => exact injectHere_ok hg hk hm hf
    | nothing => exact injectHere_ok hg hk hm hf
    | once k =>
      obtain ⟨h1, h2, h3⟩ := hg
      obtain ⟨i, p, w1, w2, w3, w4⟩ := chain_which (ext := []) h3 (hk k hkind)
      rw [List.append_nil] at w1
      obtain ⟨s, ch⟩ := p
      simp only [w1, w2, need_some, Out.ok_bind]
      by_cases hs : s.isEmpty = true
      · simp only [hs, if_true]
        have hs' : s = [] := List.isEmpty_iff.1 hs
        subst hs'
        have hP := chain_get h3 w2
        obtain ⟨c', q1, q2⟩ := inject_ok (e := e) d hP.2 (by
          intro k' hk'
          rw [hkind] at hk'
          cases hk'
          exact w4) hm hf
        refine ⟨({ n with kids := n.kids.set i ([], c') } : Inner K B (Node K R B h)), ?_, ?_, ?_, ?_⟩
        · show Out.bind _ _ = _
          rw [q1]
          rfl
        · exact Nat.le_of_lt (Nat.lt_of_le_of_lt h1 hm)
        · intro u hu; cases hu
        · refine chain_update h3 w3 ⟨slot_nil _ _ _, q2⟩ ?_
          intro lo' hi' q _ _ hd hQ
          refine ⟨hQ.1, hQ.2.tr ((tr_irr hm ?_).prefix _)⟩
          unfold Irr
          rw [hkind]
          exact fun h => hd k h w4
      · simp only [hs, Bool.false_eq_true, if_false]
        exact injectHere_ok ⟨h1, h2, h3⟩ hk hm hf

end Verif.Tree
