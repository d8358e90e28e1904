import Verif.Tree.Merge

/-! Writing out, evicting, and whole runs. -/
namespace Verif.Tree
set_option linter.unusedSectionVars false
variable {K R B : Type} [LinearOrder K]

/-! ### Writing a leaf -/

theorem maxBnMsn_spec (ps : List (Part K R)) :
    (∀ p ∈ ps, ∀ b, p.mem = some b → b.maxMsn ≤ maxBnMsn ps) ∧
    (maxBnMsn ps = 0 ∨ ∃ p ∈ ps, ∃ b, p.mem = some b ∧ b.maxMsn = maxBnMsn ps) := by
  have gen : ∀ (ps : List (Part K R)) (a : Nat),
      let m := ps.foldl (fun a p => max a ((p.mem.map (·.maxMsn)).getD 0)) a
      a ≤ m ∧ (∀ p ∈ ps, ∀ b, p.mem = some b → b.maxMsn ≤ m) ∧
      (m = a ∨ m = 0 ∨ ∃ p ∈ ps, ∃ b, p.mem = some b ∧ b.maxMsn = m) := by
    intro ps
    induction ps with
    | nil => intro a; exact ⟨Nat.le_refl _, fun _ h => (by cases h), Or.inl rfl⟩
    | cons q ps ih =>
      intro a
      have := ih (max a ((q.mem.map (·.maxMsn)).getD 0))
      simp only at this ⊢
      rw [List.foldl_cons]
      obtain ⟨h1, h2, h3⟩ := this
      refine ⟨by omega, ?_, ?_⟩
      · intro p hp b hb
        rcases List.mem_cons.1 hp with rfl | hp
        · rw [hb] at h1 ⊢
          simp only [Option.map_some, Option.getD_some] at h1 ⊢
          omega
        · exact h2 p hp b hb
      · rcases h3 with h3 | h3 | ⟨p, hp, b, hb, h3⟩
        · cases hq : q.mem with
          | none =>
            rw [hq] at h3
            simp only [Option.map_none, Option.getD_none] at h3 ⊢
            left; omega
          | some b =>
            rw [hq] at h3
            simp only [Option.map_some, Option.getD_some] at h3 ⊢
            rcases Nat.le_total b.maxMsn a with hle | hle
            · left; omega
            · right; right
              exact ⟨q, List.mem_cons_self, b, hq, by omega⟩
        · exact Or.inr (Or.inl h3)
        · exact Or.inr (Or.inr ⟨p, List.mem_cons_of_mem _ hp, b, hb, h3⟩)
  have := gen ps 0
  refine ⟨this.2.1, ?_⟩
  rcases this.2.2 with h | h | h
  · exact Or.inl h
  · exact Or.inl h
  · exact Or.inr h

/-- All basements together, as one that has seen the messages up to `M`. -/
theorem concat_ok {c : Ctx K R B} {U : List (Ent K B)} {msn M : Nat} {d : Bool} (hM : M ≤ c.mx) :
    ∀ {lo hi : Option K} {ks : List K} {ps : List (Part K R)}, Chain (PartOk c U msn d) lo hi ks ps → AllMem ps →
    (∀ p ∈ ps, ∀ b, p.mem = some b → ∀ u ∈ U, (u.msg.msn ≤ b.maxMsn ↔ u.msg.msn ≤ M)) →
    BnOk c U lo hi ⟨(ps.map partRows).flatten, M, false⟩ := by
  have one : ∀ {lo hi : Option K} {p : Part K R}, PartOk c U msn d lo hi p → (∃ b, p.mem = some b) →
      (∀ b, p.mem = some b → ∀ u ∈ U, (u.msg.msn ≤ b.maxMsn ↔ u.msg.msn ≤ M)) → BnOk c U lo hi ⟨partRows p, M, false⟩ := by
    intro lo hi p hP ⟨b, hb⟩ hu
    have hB := (hP.bn b hb).1
    rw [partRows_mem hb]
    refine ⟨hB.sorted, hB.within, ?_, (fun h => by cases h), hM⟩
    intro k hk
    have := hB.img k hk
    have e : pend b.maxMsn U = pend M U := by
      unfold pend
      apply List.filter_congr
      intro u hu'
      have := hu b hb u hu'
      simp only [decide_eq_decide]
      omega
    rw [e] at this
    exact this
  intro lo hi ks
  induction ks generalizing lo with
  | nil =>
    intro ps h ha hu
    obtain ⟨p, rfl, hP⟩ := chain_nil h
    have := one hP (ha p (List.mem_singleton.2 rfl)) (hu p (List.mem_singleton.2 rfl))
    simpa using this
  | cons k ks ih =>
    intro ps h ha hu
    obtain ⟨p, ps', rfl, hP, hA, hBl, hC⟩ := chain_cons h
    have h1 := one hP (ha p List.mem_cons_self) (hu p List.mem_cons_self)
    have h2 := ih hC (fun q hq => ha q (List.mem_cons_of_mem _ hq)) (fun q hq => hu q (List.mem_cons_of_mem _ hq))
    rw [List.map_cons, List.flatten_cons]
    refine ⟨?_, ?_, ?_, (fun h => by cases h), hM⟩
    · refine List.pairwise_append.2 ⟨h1.sorted, h2.sorted, ?_⟩
      intro x hx y hy
      exact lt_of_le_of_lt ((h1.within x hx).2 k rfl) ((h2.within y hy).1 k rfl)
    · intro x hx
      rcases List.mem_append.1 hx with hx | hx
      · exact sub_left hBl _ (h1.within x hx)
      · exact sub_right hA _ (h2.within x hx)
    · intro x hx
      by_cases hxk : x ≤ k
      · have := h1.img x ⟨hx.1, fun y hy => by cases hy; exact hxk⟩
        simp only at this ⊢
        rw [lookup_left fun r hr => lt_of_le_of_lt hxk ((h2.within r hr).1 k rfl)]
        exact this
      · have hxk := not_le.1 hxk
        have := h2.img x ⟨fun y hy => by cases hy; exact hxk, hx.2⟩
        simp only at this ⊢
        rw [lookup_right fun r hr => lt_of_le_of_lt ((h1.within r hr).2 k rfl) hxk]
        exact this

theorem cutRows_ne (sem : Sem K R B) (limit : Nat) : ∀ (rs cur : Rows K R) (size : Nat), cutRows sem limit cur size rs ≠ []
  | [], cur, size => by unfold cutRows; simp
  | (k, r) :: rs, cur, size => by
    unfold cutRows
    split
    · simp
    · exact cutRows_ne sem limit rs _ _

theorem cutRows_flatten (sem : Sem K R B) (limit : Nat) : ∀ (rs cur : Rows K R) (size : Nat),
    (cutRows sem limit cur size rs).flatten = cur ++ rs
  | [], cur, size => by unfold cutRows; simp
  | (k, r) :: rs, cur, size => by
    unfold cutRows
    split
    · rw [List.flatten_cons, cutRows_flatten]
      simp
    · rw [cutRows_flatten]
      simp

theorem cutRows_chain {c : Ctx K R B} {U : List (Ent K B)} {M : Nat} (limit : Nat) {hi : Option K} :
    ∀ (rs cur : Rows K R) (size : Nat) {lo : Option K}, BnOk c U lo hi ⟨cur ++ rs, M, false⟩ →
    Chain (fun lo hi g => BnOk c U lo hi ⟨g, M, false⟩) lo hi
      ((cutRows c.sem limit cur size rs).dropLast.filterMap lastKey?) (cutRows c.sem limit cur size rs)
  | [], cur, size, lo, h => by
    unfold cutRows
    rw [List.append_nil] at h
    exact h
  | (k, r) :: rs, cur, size, lo, h => by
    unfold cutRows
    split
    · rename_i hc
      simp only [Bool.and_eq_true, Bool.not_eq_true'] at hc
      have hne : cur ≠ [] := by
        intro h0
        rw [h0] at hc
        simp at hc
      obtain ⟨k', hk'⟩ := lastKey_isSome hne
      have htk : (cur ++ (k, r) :: rs).take cur.length = cur := by simp
      have hdr : (cur ++ (k, r) :: rs).drop cur.length = (k, r) :: rs := by simp
      obtain ⟨g1, g2, g3, g4, _⟩ := bnCut (nl := cur.length) h (k := k') (by simp only; rw [htk]; exact hk')
      simp only [htk, hdr] at g1 g2
      have g4 := g4 (by simp)
      have ih := cutRows_chain limit rs [(k, r)] (c.sem.cutSize k r) (lo := some k') g2
      rw [List.dropLast_cons_of_ne_nil (cutRows_ne _ _ _ _ _), List.filterMap_cons, hk']
      exact ⟨g1, g3, g4, ih⟩
    · exact cutRows_chain limit rs (cur ++ [(k, r)]) _ (by rw [List.append_assoc]; exact h)

theorem chain_pmap {α β : Type} {P : Option K → Option K → α → Prop} {Q : Option K → Option K → β → Prop} {f : α → β}
    {lo hi : Option K} {ks : List K} {ps : List α} (h : Chain P lo hi ks ps) (hf : ∀ lo hi p, P lo hi p → Q lo hi (f p)) :
    Chain Q lo hi ks (ps.map f) := chain_map' f h fun lo hi p _ _ hP => hf lo hi p hP

theorem writeLeaf_ok {c : Ctx K R B} {U : List (Ent K B)} {lo hi : Option K} {l : Leaf K R} (hg : Good c 0 lo hi U l)
    (hd : l.dirty = true) (limit : Nat) : Good c 0 lo hi U (writeLeaf c.sem limit l) := by
  have hc : LeafCore c U lo hi l := hg.1
  have ha := allMem_dirty hc hd
  have hao : AllOrNone U l.parts := hg.2 hd
  have hsp := maxBnMsn_spec l.parts
  have hM : maxBnMsn l.parts ≤ c.mx := by
    rcases hsp.2 with h | ⟨p, hp, b, hb, h⟩
    · omega
    · rw [← h]
      exact hc.bnle p hp b hb
  have hcat := concat_ok hM hc.chain ha (by
    intro p hp b hb u hu
    have h1 := hsp.1 p hp b hb
    constructor
    · intro h; omega
    · intro h
      rcases hsp.2 with h0 | ⟨p', hp', b', hb', h0⟩
      · omega
      · rcases hao u hu p hp b hb p' hp' b' hb' with h2 | h2
        · exact h2
        · omega)
  rw [← leafRows_eq] at hcat
  have hch := cutRows_chain limit (leafRows l) [] 0 (lo := lo) (by rw [List.nil_append]; exact hcat)
  have hlen := hch.length
  have hfl : ((cutRows c.sem limit [] 0 (leafRows l)).dropLast.filterMap lastKey?).length
      = (cutRows c.sem limit [] 0 (leafRows l)).length - 1 := by omega
  refine ⟨⟨hM, ?_, ?_⟩, fun h => by cases h⟩
  · show (List.filterMap _ _).length ≤ (List.map _ _).length
    rw [List.length_map, hfl]
    omega
  · show Chain _ lo hi ((List.filterMap lastKey? _).take ((List.map _ _).length - 1)) (List.map _ _)
    rw [List.length_map, List.take_of_length_le (by omega)]
    refine chain_pmap hch ?_
    intro lo' hi' g hG
    refine ⟨?_, (fun h => by cases h), fun _ => hG⟩
    intro b hb
    cases hb
    exact ⟨hG, fun _ => Nat.le_refl _⟩

theorem writeOut_ok {c : Ctx K R B} {U : List (Ent K B)} {lo hi : Option K} {l : Leaf K R} (hg : Good c 0 lo hi U l)
    (limit : Nat) : writeOut c.sem limit l = .skip ∨ ∃ l', writeOut c.sem limit l = .ok l' ∧ Good c 0 lo hi U l' := by
  unfold writeOut guardS
  by_cases h : l.dirty = true
  · right
    simp only [h, if_true, Out.ok_bind]
    exact ⟨_, rfl, writeLeaf_ok hg h limit⟩
  · left
    simp only [h]
    rfl

theorem evict_ok {c : Ctx K R B} {U : List (Ent K B)} {lo hi : Option K} {l : Leaf K R} (hg : Good c 0 lo hi U l)
    (which : Nat → Bool) :
    evictParts which l = .skip ∨ ∃ l', evictParts which l = .ok l' ∧ Good c 0 lo hi U l' := by
  have hc : LeafCore c U lo hi l := hg.1
  unfold evictParts guardS
  cases h : l.dirty with
  | true => exact Or.inl rfl
  | false =>
    right
    refine ⟨_, rfl, ⟨hc.le, ?_, ?_⟩, fun h => by cases h⟩
    · simpa using hc.piv
    · show Chain _ lo hi (l.pivots.take ((List.mapIdx _ l.parts).length - 1)) (List.mapIdx _ l.parts)
      rw [List.length_mapIdx]
      have hch := hc.chain
      rw [h] at hch
      refine chain_map _ hch ?_
      intro i lo' hi' p _ _ hP
      split
      · exact ⟨(fun b hb => by cases hb), (fun h => by cases h), hP.disk⟩
      · exact hP

/-! ### Marks -/

theorem refr_slot {lo hi : Option K} : ∀ {s s' : Slot K B}, F2 (fun e e' => e'.msg = e.msg ∧ (e'.fr ≠ .fresh → e.fr ≠ .fresh)) s s' →
    ReFr lo hi s s'
  | _, _, .nil => F2.nil
  | _, _, .cons hr h => F2.cons ⟨hr.1, fun _ _ _ => hr.2⟩ (refr_slot h)

theorem f2_msgs {r : Ent K B → Ent K B → Prop} (hr : ∀ a b, r a b → b.msg = a.msg) :
    ∀ {s s' : Slot K B}, F2 r s s' → s'.map (·.msg) = s.map (·.msg)
  | _, _, .nil => rfl
  | _, _, .cons h t => by rw [List.map_cons, List.map_cons, hr _ _ h, f2_msgs hr t]

theorem slot_of_msgs {m : Nat} {lo hi : Option K} {s s' : Slot K B} (h : SlotOk m lo hi s)
    (e : s'.map (·.msg) = s.map (·.msg)) : SlotOk m lo hi s' := by
  have mem : ∀ x ∈ s', ∃ y ∈ s, y.msg = x.msg := by
    intro x hx
    have : x.msg ∈ s'.map (·.msg) := List.mem_map_of_mem hx
    rw [e] at this
    obtain ⟨y, hy, hyx⟩ := List.mem_map.1 this
    exact ⟨y, hy, hyx⟩
  refine ⟨?_, ?_, ?_⟩
  · have h1 : (s.map (·.msg)).Pairwise fun a b => a.msn < b.msn := List.pairwise_map.2 h.incr
    rw [← e] at h1
    exact (List.pairwise_map (f := fun e : Ent K B => e.msg) (R := fun a b : Msg K B => a.msn < b.msn)).1 h1
  · intro x hx
    obtain ⟨y, hy, hyx⟩ := mem x hx
    rw [← hyx]
    exact h.le y hy
  · intro x hx
    obtain ⟨y, hy, hyx⟩ := mem x hx
    rw [← hyx]
    exact h.keys y hy

theorem marks_ok {c : Ctx K R B} {h : Nat} {U : List (Ent K B)} {lo hi : Option K} {n : Inner K B (Node K R B h)}
    (hg : Good c (h + 1) lo hi U n) (f : Nat → Slot K B → Slot K B)
    (hf : ∀ i s, F2 (fun e e' => e'.msg = e.msg ∧ (e'.fr ≠ .fresh → e.fr ≠ .fresh)) s (f i s)) :
    Good c (h + 1) lo hi U ({ n with kids := n.kids.mapIdx fun i p => (f i p.1, p.2) } : Inner K B (Node K R B h)) := by
  obtain ⟨h1, h2, h3⟩ := hg
  refine ⟨h1, h2, chain_map _ h3 ?_⟩
  intro i lo' hi' p _ _ hP
  refine ⟨slot_of_msgs hP.1 (f2_msgs (fun _ _ h => h.1) (hf i p.1)), ?_⟩
  exact hP.2.tr (tr_refr ((refr_slot (hf i p.1)).append (ReFr.refl _ _ _)))

theorem f2_map {α : Type} {r : α → α → Prop} (f : α → α) (hf : ∀ x, r x (f x)) : ∀ l : List α, F2 r l (l.map f)
  | [] => F2.nil
  | x :: l => F2.cons (hf x) (f2_map f hf l)

theorem f2_mapIdx {α : Type} {r : α → α → Prop} : ∀ (l : List α) (f : Nat → α → α) (_ : ∀ i x, r x (f i x)),
    F2 r l (l.mapIdx f)
  | [], _, _ => F2.nil
  | x :: l, f, hf => by
    rw [List.mapIdx_cons]
    exact F2.cons (hf 0 x) (f2_mapIdx l (fun i => f (i + 1)) fun i x => hf (i + 1) x)

theorem moveStale_ok {c : Ctx K R B} {h : Nat} {U : List (Ent K B)} {lo hi : Option K} {n : Inner K B (Node K R B h)}
    (hg : Good c (h + 1) lo hi U n) : Good c (h + 1) lo hi U (moveStale n) := by
  have := marks_ok hg (fun _ s => s.map fun e => if e.fr = .marked then { e with fr := .stale } else e) (by
    intro i s
    apply f2_map
    intro e
    split
    · rename_i h
      exact ⟨rfl, fun _ h' => by rw [h] at h'; cases h'⟩
    · exact ⟨rfl, fun h => h⟩)
  have e : (n.kids.mapIdx fun _ p => ((p.1.map fun e => if e.fr = .marked then { e with fr := .stale } else e), p.2))
      = n.kids.map fun p => ((p.1.map fun e => if e.fr = .marked then ({ e with fr := .stale } : Ent K B) else e), p.2) := by
    apply List.ext_getElem?
    intro i
    simp
  unfold moveStale
  rw [e] at this
  exact this

theorem reread_ok {c : Ctx K R B} {h : Nat} {U : List (Ent K B)} {lo hi : Option K} {n : Inner K B (Node K R B h)}
    (hg : Good c (h + 1) lo hi U n) (which : Nat → Nat → Bool) : Good c (h + 1) lo hi U (reread which n) := by
  have := marks_ok hg (fun i s => s.mapIdx fun j e => if which i j then ({ e with fr := .fresh } : Ent K B) else e) (by
    intro i s
    apply f2_mapIdx
    intro j e
    split
    · exact ⟨rfl, fun h => absurd rfl h⟩
    · exact ⟨rfl, fun h => h⟩)
  exact this

theorem newRoot_ok {c : Ctx K R B} : ∀ {h : Nat} {n : Node K R B h} {lo hi : Option K}, Good c h lo hi [] n →
    Good c (h + 1) lo hi [] (newRoot h n)
  | 0, l, lo, hi, hg => ⟨hg.1.le, fun _ h => (by cases h), slot_nil _ _ _, hg⟩
  | h + 1, n, lo, hi, hg => ⟨hg.1, fun _ h => (by cases h), slot_nil _ _ _, hg⟩

/-! ### Anywhere in the tree -/

theorem atInner_ok {c : Ctx K R B}
    {f : (h : Nat) → Bool → Bool → Inner K B (Node K R B h) → Out (Inner K B (Node K R B h))}
    (hf : ∀ (h : Nat) (lo hi : Option K) (W : List (Ent K B)) (n : Inner K B (Node K R B h)) (e r : Bool),
      Good c (h + 1) lo hi W n → (e = true → W = []) → (r = true → hi = none) →
      f h e r n = .skip ∨ ∃ n', f h e r n = .ok n' ∧ Good c (h + 1) lo hi W n') :
    ∀ {h : Nat} {lo hi : Option K} {W : List (Ent K B)} {n : Node K R B h} (path : List Nat) {e r : Bool},
      Good c h lo hi W n → (e = true → W = []) → (r = true → hi = none) →
      atInner f h path e r n = .skip ∨ ∃ n', atInner f h path e r n = .ok n' ∧ Good c h lo hi W n'
  | 0, _, _, _, _, _, _, _, _, _, _ => Or.inl rfl
  | h + 1, lo, hi, W, n, [], e, r, hg, he, hr => hf h lo hi W n e r hg he hr
  | h + 1, lo, hi, W, n, i :: path, e, r, hg, he, hr => by
    obtain ⟨h1, h2, h3⟩ := hg
    cases hk : (Inner.kids n)[i]? with
    | none =>
      left
      show (match (Inner.kids n)[i]? with
        | none => Out.skip
        | some (s, c) => _) = _
      rw [hk]
    | some p =>
      obtain ⟨s, ch⟩ := p
      have hil := lt_of_getElem? hk
      have hP := chain_get h3 hk
      have q : atInner f (h + 1) (i :: path) e r n =
          (atInner f h path (e && s.isEmpty) (r && decide (i + 1 = (Inner.kids n).length)) ch >>= fun c' =>
            Out.ok ({ msn := Inner.msn n, pivots := Inner.pivots n, kids := (Inner.kids n).set i (s, c') } : Inner K B (Node K R B h))) := by
        show (match (Inner.kids n)[i]? with
          | none => Out.skip
          | some (s, c) => _) = _
        rw [hk]
        rfl
      rcases atInner_ok hf path (e := e && s.isEmpty) (r := r && decide (i + 1 = (Inner.kids n).length)) hP.2 (by
          intro h'
          simp only [Bool.and_eq_true] at h'
          rw [he h'.1, List.isEmpty_iff.1 h'.2]
          rfl) (by
          intro h'
          simp only [Bool.and_eq_true, decide_eq_true_eq] at h'
          unfold childHi
          rw [if_pos h'.2]
          exact hr h'.1) with w | ⟨c', w, gc⟩
      · left
        rw [q, w]
        rfl
      · right
        refine ⟨({ msn := Inner.msn n, pivots := Inner.pivots n, kids := (Inner.kids n).set i (s, c') } : Inner K B (Node K R B h)),
          by rw [q, w]; rfl, h1, h2, ?_⟩
        exact chain_set h3 hil (p' := (s, c')) ⟨hP.1, gc⟩

theorem atLeaf_ok {c : Ctx K R B} {f : Leaf K R → Out (Leaf K R)}
    (hf : ∀ (lo hi : Option K) (W : List (Ent K B)) (l : Leaf K R), Good c 0 lo hi W l →
      f l = .skip ∨ ∃ l', f l = .ok l' ∧ Good c 0 lo hi W l') :
    ∀ {h : Nat} {lo hi : Option K} {W : List (Ent K B)} {n : Node K R B h} (path : List Nat),
      Good c h lo hi W n → atLeaf f h path n = .skip ∨ ∃ n', atLeaf f h path n = .ok n' ∧ Good c h lo hi W n'
  | 0, lo, hi, W, l, [], hg => hf lo hi W l hg
  | 0, _, _, _, _, _ :: _, _ => Or.inl rfl
  | h + 1, _, _, _, _, [], _ => Or.inl rfl
  | h + 1, lo, hi, W, n, i :: path, hg => by
    obtain ⟨h1, h2, h3⟩ := hg
    cases hk : (Inner.kids n)[i]? with
    | none =>
      left
      show (match (Inner.kids n)[i]? with
        | none => Out.skip
        | some (s, c) => _) = _
      rw [hk]
    | some p =>
      obtain ⟨s, ch⟩ := p
      have hil := lt_of_getElem? hk
      have hP := chain_get h3 hk
      have q : atLeaf f (h + 1) (i :: path) n =
          (atLeaf f h path ch >>= fun c' =>
            Out.ok ({ msn := Inner.msn n, pivots := Inner.pivots n, kids := (Inner.kids n).set i (s, c') } : Inner K B (Node K R B h))) := by
        show (match (Inner.kids n)[i]? with
          | none => Out.skip
          | some (s, c) => _) = _
        rw [hk]
        rfl
      rcases atLeaf_ok hf path hP.2 with w | ⟨c', w, gc⟩
      · left
        rw [q, w]
        rfl
      · right
        refine ⟨({ msn := Inner.msn n, pivots := Inner.pivots n, kids := (Inner.kids n).set i (s, c') } : Inner K B (Node K R B h)),
          by rw [q, w]; rfl, h1, h2, ?_⟩
        exact chain_set h3 hil (p' := (s, c')) ⟨hP.1, gc⟩

/-! ### Runs -/

/-- The invariant of a dictionary to which `hist` was sent. -/
def TreeOk (sem : Sem K R B) (hist : List (Kind K × B)) (t : Tree K R B) : Prop :=
  Good ⟨sem, rowAfter sem hist, t.maxMsn⟩ t.h none none [] t.root

theorem inB_none (k : K) : InB none none k := ⟨fun _ h => (by cases h), fun _ h => (by cases h)⟩

theorem empty_ok (sem : Sem K R B) : TreeOk sem [] (Tree.empty : Tree K R B) := by
  refine ⟨⟨Nat.le_refl _, Nat.zero_le _, ?_⟩, fun _ => aon_nil _⟩
  show PartOk _ _ 0 true none none (emptyPart : Part K R)
  refine ⟨?_, fun _ => ⟨_, rfl⟩, fun h => (by cases h)⟩
  intro b hb
  cases hb
  exact ⟨⟨List.Pairwise.nil, fun _ h => (by cases h), fun _ _ => rfl, fun h => (by cases h), Nat.le_refl _⟩, fun h => (by cases h)⟩

theorem after_spec (sem : Sem K R B) (hist : List (Kind K × B)) (mx : Nat) (kind : Kind K) (body : B) :
    (⟨sem, rowAfter sem hist, mx⟩ : Ctx K R B).after ⟨mx + 1, kind, body⟩ = ⟨sem, rowAfter sem (hist ++ [(kind, body)]), mx + 1⟩ := by
  unfold Ctx.after
  simp only
  congr 1
  funext k
  unfold rowAfter
  rw [List.foldl_append]
  rfl

/-- What one step adds to the history. -/
def sentBy : Op K B → List (Kind K × B)
  | .put kind body _ => [(kind, body)]
  | _ => []

theorem sent_cons (op : Op K B) (ops : List (Op K B)) : sent (op :: ops) = sentBy op ++ sent ops := by
  cases op <;> rfl

theorem withRoot_ok {sem : Sem K R B} {hist : List (Kind K × B)} {t : Tree K R B} {r : Out (Node K R B t.h)}
    (h : r = .skip ∨ ∃ n', r = .ok n' ∧ Good ⟨sem, rowAfter sem hist, t.maxMsn⟩ t.h none none [] n') :
    t.withRoot r = .skip ∨ ∃ t', t.withRoot r = .ok t' ∧ TreeOk sem hist t' := by
  rcases h with rfl | ⟨n', rfl, hg⟩
  · exact Or.inl rfl
  · exact Or.inr ⟨_, rfl, hg⟩

theorem step_ok {sem : Sem K R B} {hist : List (Kind K × B)} {t : Tree K R B} (h : TreeOk sem hist t) (op : Op K B) :
    (step sem t op = .skip ∧ sentBy op = []) ∨ ∃ t', step sem t op = .ok t' ∧ TreeOk sem (hist ++ sentBy op) t' := by
  have drop : ∀ {r : Out (Tree K R B)}, (r = .skip ∨ ∃ t', r = .ok t' ∧ TreeOk sem hist t') →
      (r = .skip ∧ ([] : List (Kind K × B)) = []) ∨ ∃ t', r = .ok t' ∧ TreeOk sem (hist ++ []) t' := by
    intro r hr
    rw [List.append_nil]
    rcases hr with hr | hr
    · exact Or.inl ⟨hr, rfl⟩
    · exact Or.inr hr
  cases op with
  | put kind body depth =>
    right
    obtain ⟨n', q1, q2⟩ := inject_ok (e := ⟨⟨t.maxMsn + 1, kind, body⟩, .fresh⟩) depth h (by
      unfold KeyIn
      simp only
      cases kind <;> simp [inB_none]) (Nat.lt_succ_self _) rfl
    refine ⟨{ t with root := n', maxMsn := t.maxMsn + 1 }, ?_, ?_⟩
    · unfold step
      simp only at q1 ⊢
      rw [q1]
    · unfold TreeOk
      simp only at q2 ⊢
      rw [after_spec] at q2
      exact q2
  | flush path i cleaner =>
    apply drop
    apply withRoot_ok
    exact atInner_ok (c := ⟨sem, rowAfter sem hist, t.maxMsn⟩) (fun h lo hi W n e r hg he _ => flushChild_ok hg cleaner i e r he) path h (fun _ => rfl) (fun _ => rfl)
  | split path i mode =>
    apply drop
    apply withRoot_ok
    exact atInner_ok (c := ⟨sem, rowAfter sem hist, t.maxMsn⟩) (fun h lo hi W n e r hg he hr => splitChild_ok hg mode i e r he hr) path h (fun _ => rfl) (fun _ => rfl)
  | merge path i act =>
    apply drop
    apply withRoot_ok
    exact atInner_ok (c := ⟨sem, rowAfter sem hist, t.maxMsn⟩) (fun h lo hi W n e r hg he _ => mergeChildren_ok hg act i e r he) path h (fun _ => rfl) (fun _ => rfl)
  | newRoot =>
    apply drop
    exact Or.inr ⟨_, rfl, newRoot_ok h⟩
  | write path limit =>
    apply drop
    apply withRoot_ok
    exact atLeaf_ok (c := ⟨sem, rowAfter sem hist, t.maxMsn⟩) (fun lo hi W l hg => writeOut_ok hg limit) path h
  | evict path which =>
    apply drop
    apply withRoot_ok
    exact atLeaf_ok (c := ⟨sem, rowAfter sem hist, t.maxMsn⟩) (fun lo hi W l hg => evict_ok hg which) path h
  | moveStale path =>
    apply drop
    apply withRoot_ok
    exact atInner_ok (c := ⟨sem, rowAfter sem hist, t.maxMsn⟩) (fun h lo hi W n e r hg _ _ => Or.inr ⟨_, rfl, moveStale_ok hg⟩) path h (fun _ => rfl) (fun _ => rfl)
  | reread path which =>
    apply drop
    apply withRoot_ok
    exact atInner_ok (c := ⟨sem, rowAfter sem hist, t.maxMsn⟩) (fun h lo hi W n e r hg _ _ => Or.inr ⟨_, rfl, reread_ok hg which⟩) path h (fun _ => rfl) (fun _ => rfl)
  | read route =>
    apply drop
    show (match readAt sem t.h none none [] route t.root with
      | .ok (_, n, _) => Out.ok { t with root := n }
      | .skip => .skip
      | .crash => .crash) = .skip ∨ _
    cases hb : boundsAt t.h none none route t.root with
    | none =>
      left
      rw [readAt_skip (c := ⟨sem, rowAfter sem hist, t.maxMsn⟩) hb]
    | some p =>
      obtain ⟨lo', hi'⟩ := p
      right
      obtain ⟨rows, n', fs', q1, q2, q3, q4, q5, q6⟩ := readAt_ok (fs := []) h (by trivial) hb
      have : fs' = [] := by
        cases fs' with
        | nil => rfl
        | cons _ _ => cases q6
      subst this
      simp only at q1
      refine ⟨{ t with root := n' }, ?_, q5⟩
      unfold step
      simp only
      rw [q1]

theorem run_ok {sem : Sem K R B} : ∀ {ops : List (Op K B)} {hist : List (Kind K × B)} {t : Tree K R B}, TreeOk sem hist t →
    ∃ t', run sem t ops = some t' ∧ TreeOk sem (hist ++ sent ops) t'
  | [], hist, t, h => ⟨t, rfl, by rw [sent, List.append_nil]; exact h⟩
  | op :: ops, hist, t, h => by
    unfold run
    rw [sent_cons, ← List.append_assoc]
    rcases step_ok h op with ⟨q1, q2⟩ | ⟨t', q1, q2⟩
    · rw [q1, q2, List.append_nil]
      exact run_ok h
    · rw [q1]
      exact run_ok q2

theorem get_ok {sem : Sem K R B} {hist : List (Kind K × B)} {t : Tree K R B} (h : TreeOk sem hist t) (k : K) :
    get sem t k = .ok (rowAfter sem hist k) := by
  obtain ⟨route, lo', hi', q1, q2, q3⟩ := routeOf_ok h (inB_none k)
  obtain ⟨rows, n', fs', w1, w2, w3, w4, _⟩ := readAt_ok (fs := []) h (by trivial) q2
  unfold get
  rw [q1]
  simp only at w1 ⊢
  rw [w1]
  simp only
  rw [w4 k q3]

end Verif.Tree
