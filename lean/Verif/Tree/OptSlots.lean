import Verif.Tree.Opt
import Verif.Tree.Run
import Verif.Tree.RightPath

/-! A condition on buffered messages that depends on the bounds of the child, and passes to children's children, stays true of
all buffers whatever is done to the tree. -/
namespace Verif.Tree
set_option linter.unusedSectionVars false
variable {K R B : Type} [LinearOrder K]

/-- All buffered messages satisfy `Q` with the bounds of the child they are for. -/
def Slots (Q : Option K → Option K → Msg K B → Prop) : (h : Nat) → Option K → Option K → Node K R B h → Prop
  | 0, _, _, _ => True
  | h + 1, lo, hi, n =>
    Chain (fun lo hi p => (∀ e ∈ p.1, Q lo hi e.msg) ∧ Slots Q h lo hi p.2) lo hi (Inner.pivots n) (Inner.kids n)

def Anti (Q : Option K → Option K → Msg K B → Prop) : Prop :=
  ∀ lo hi lo' hi' m, Sub lo' hi' lo hi → Q lo hi m → Q lo' hi' m

variable {Q Q' : Option K → Option K → Msg K B → Prop}

theorem Slots.mono : ∀ {h : Nat} {lo hi : Option K} {n : Node K R B h}, Slots Q h lo hi n →
    (∀ lo' hi' m, Sub lo' hi' lo hi → Q lo' hi' m → Q' lo' hi' m) → Slots Q' h lo hi n
  | 0, _, _, _, _, _ => trivial
  | h + 1, lo, hi, n, hs, hq => by
    refine chain_mono hs ?_
    intro lo' hi' p _ hsub hP
    exact ⟨fun e he => hq _ _ _ hsub (hP.1 e he), Slots.mono hP.2 fun a b m hab hm => hq _ _ _ (hab.trans hsub) hm⟩

theorem kid_lt {h : Nat} {n : Inner K B (Node K R B h)} {i : Nat} {x : Slot K B × Node K R B h}
    (hi : n.kids[i]? = some x) : i < n.kids.length := last_of hi

theorem leafPut_slots {sem : Sem K R B} {lo hi : Option K} {l : Leaf K R} {m : Msg K B} {l' : Leaf K R}
    (_ : leafPut sem l m = .ok l') : Slots Q 0 lo hi (l' : Node K R B 0) := trivial

theorem innerPut_slots (ha : Anti Q) {h : Nat} {lo hi : Option K} {n n' : Inner K B (Node K R B h)} {e : Ent K B}
    (hs : Slots Q (h + 1) lo hi (n : Node K R B (h + 1))) (he : Q lo hi e.msg) (hr : innerPut n e = .ok n') :
    Slots Q (h + 1) lo hi (n' : Node K R B (h + 1)) := by
  unfold innerPut assertC at hr
  split at hr
  case isFalse => cases hr
  simp only [Out.ok_bind] at hr
  split at hr
  · rename_i k _
    cases hw : whichChild n.kids.length n.pivots k with
    | none => rw [hw] at hr; cases hr
    | some i =>
      rw [hw] at hr
      simp only [need_some, Out.ok_bind] at hr
      cases hk : n.kids[i]? with
      | none => rw [hk] at hr; cases hr
      | some p =>
        obtain ⟨s, c⟩ := p
        rw [hk] at hr
        simp only [need_some, Out.ok_bind] at hr
        cases hr
        have hP := chain_get hs hk
        refine chain_set hs (kid_lt hk) ⟨?_, hP.2⟩
        intro x hx
        rcases List.mem_append.1 hx with hx | hx
        · exact hP.1 x hx
        · rw [List.mem_singleton.1 hx]
          exact ha _ _ _ _ _ (childLo_inB hs (kid_lt hk)) he
  · cases hr
    refine chain_map' (fun p => (p.1 ++ [e], p.2)) hs ?_
    intro lo' hi' p _ hsub hP
    refine ⟨?_, hP.2⟩
    intro x hx
    rcases List.mem_append.1 hx with hx | hx
    · exact hP.1 x hx
    · rw [List.mem_singleton.1 hx]
      exact ha _ _ _ _ _ hsub he
  · cases hr
    exact hs

theorem putNode_slots (ha : Anti Q) {sem : Sem K R B} : ∀ {h : Nat} {lo hi : Option K} {n n' : Node K R B h} {e : Ent K B},
    Slots Q h lo hi n → Q lo hi e.msg → putNode sem h n e = .ok n' → Slots Q h lo hi n'
  | 0, _, _, _, _, _, _, _, _ => trivial
  | _ + 1, _, _, _, _, _, hs, he, hr => innerPut_slots ha hs he hr

theorem putAll_slots (ha : Anti Q) {sem : Sem K R B} {h : Nat} {lo hi : Option K} : ∀ {s : List (Ent K B)} {n n' : Node K R B h},
    Slots Q h lo hi n → (∀ e ∈ s, Q lo hi e.msg) → putAll sem h n s = .ok n' → Slots Q h lo hi n'
  | [], _, _, hs, _, hr => by cases hr; exact hs
  | e :: s, n, n', hs, he, hr => by
    unfold putAll at hr
    cases hq : putNode sem h n { e with fr := e.fr.flag } with
    | skip => rw [hq] at hr; cases hr
    | crash => rw [hq] at hr; cases hr
    | ok c =>
      rw [hq] at hr
      simp only [Out.ok_bind] at hr
      exact putAll_slots ha (putNode_slots (e := { e with fr := e.fr.flag }) ha hs (he e List.mem_cons_self) hq) (fun x hx => he x (List.mem_cons_of_mem _ hx)) hr

theorem prepare_slots : ∀ {h : Nat} {lo hi : Option K} {cl : Bool} {pm : Nat} {c : Node K R B h}, Slots Q h lo hi c →
    Slots Q h lo hi (prepareChild h cl pm c)
  | 0, _, _, _, _, _, _ => trivial
  | _ + 1, _, _, _, _, _, h => h

theorem load_slots : ∀ {h : Nat} {lo hi : Option K} {c : Node K R B h}, Slots Q h lo hi c → Slots Q h lo hi (loadNode h c)
  | 0, _, _, _, _ => trivial
  | _ + 1, _, _, _, h => h

/-- What a flush gives. -/
theorem flush_inv {sem : Sem K R B} {h : Nat} {cl : Bool} {i : Nat} {e r : Bool} {n n' : Inner K B (Node K R B h)}
    (hr : flushChild sem h cl i e r n = .ok n') : ∃ s c c', n.kids[i]? = some (s, c) ∧
      putAll sem h (prepareChild h cl n.msn c) s = .ok c' ∧ n' = { n with kids := n.kids.set i ([], c') } := by
  unfold flushChild guardS at hr
  split at hr
  case isFalse => cases hr
  simp only [Out.ok_bind] at hr
  split at hr
  · cases hr
  · rename_i s c hi
    cases hq : putAll sem h (prepareChild h cl n.msn c) s with
    | skip => rw [hq] at hr; cases hr
    | crash => rw [hq] at hr; cases hr
    | ok c' =>
      rw [hq] at hr
      cases hr
      exact ⟨s, c, c', hi, hq, rfl⟩

theorem flush_slots (ha : Anti Q) {sem : Sem K R B} {h : Nat} {lo hi : Option K} {cl : Bool} {i : Nat} {e r : Bool}
    {n n' : Inner K B (Node K R B h)} (hs : Slots Q (h + 1) lo hi (n : Node K R B (h + 1)))
    (hr : flushChild sem h cl i e r n = .ok n') : Slots Q (h + 1) lo hi (n' : Node K R B (h + 1)) := by
  obtain ⟨s, c, c', hi', hq, rfl⟩ := flush_inv hr
  have hP := chain_get hs hi'
  exact chain_set hs (kid_lt hi') ⟨fun _ h => (by cases h), putAll_slots ha (prepare_slots hP.2) hP.1 hq⟩

theorem splitNode_slots {sem : Sem K R B} : ∀ {h : Nat} {lo hi : Option K} {mode : Mode} {e r : Bool} {c a b : Node K R B h} {k : K},
    splitNode sem h mode e r c = .ok (a, b, k) → Slots Q h lo hi c → Slots Q h lo (some k) a ∧ Slots Q h (some k) hi b
  | 0, _, _, _, _, _, _, _, _, _, _, _ => ⟨trivial, trivial⟩
  | h + 1, lo, hi, mode, e, r, n, a, b, k, hr, hs => by
    have hr : (guardS (decide (1 < (Inner.kids n).length)) >>= fun _ => splitInner (n : Inner K B (Node K R B h))) = .ok (a, b, k) := hr
    unfold guardS at hr
    split at hr
    case isFalse => cases hr
    rename_i hl
    simp only [Out.ok_bind] at hr
    unfold splitInner at hr
    cases hp : (Inner.pivots n)[(Inner.kids n).length / 2 - 1]? with
    | none => simp only [hp] at hr; cases hr
    | some k' =>
      simp only [hp, need_some, Out.ok_bind] at hr
      cases hr
      have hl' : 1 < (Inner.kids n).length := of_decide_eq_true hl
      have hl2 : (Inner.kids n).length = (Inner.pivots n).length + 1 := Chain.length hs
      obtain ⟨c1, c2, _, _⟩ := chain_part hs hp
      rw [show (Inner.kids n).length / 2 - 1 + 1 = (Inner.kids n).length / 2 by omega] at c1 c2
      have e : ((Inner.pivots n).take ((Inner.kids n).length / 2)).dropLast = (Inner.pivots n).take ((Inner.kids n).length / 2 - 1) := by
        rw [List.dropLast_eq_take, List.take_take, List.length_take]
        congr 1
        omega
      refine ⟨?_, c2⟩
      show Chain _ lo _ ((Inner.pivots n).take ((Inner.kids n).length / 2)).dropLast ((Inner.kids n).take ((Inner.kids n).length / 2))
      rw [e]
      exact c1

/-- What a split gives. -/
theorem split_inv {sem : Sem K R B} {h : Nat} {mode : Mode} {i : Nat} {e r : Bool} {n n' : Inner K B (Node K R B h)}
    (hr : splitChild sem h mode i e r n = .ok n') : ∃ c a b k, n.kids[i]? = some ([], c) ∧
      splitNode sem h mode e (r && decide (i + 1 = n.kids.length)) c = .ok (a, b, k) ∧
      n' = { n with pivots := n.pivots.take i ++ k :: n.pivots.drop i,
                    kids := n.kids.take i ++ ([], a) :: ([], b) :: n.kids.drop (i + 1) } := by
  unfold splitChild at hr
  split at hr
  · cases hr
  · rename_i s c hi
    unfold guardS at hr
    split at hr
    case isFalse => cases hr
    rename_i hse
    have := List.isEmpty_iff.1 hse
    subst this
    simp only [Out.ok_bind] at hr
    cases hq : splitNode sem h mode e (r && decide (i + 1 = n.kids.length)) c with
    | skip => rw [hq] at hr; cases hr
    | crash => rw [hq] at hr; cases hr
    | ok x =>
      obtain ⟨a, b, k⟩ := x
      rw [hq] at hr
      cases hr
      exact ⟨c, a, b, k, hi, hq, rfl⟩

theorem split_slots {c : Ctx K R B} {h : Nat} {lo hi : Option K} {W : List (Ent K B)} {mode : Mode} {i : Nat} {e r : Bool}
    {n n' : Inner K B (Node K R B h)} (hg : Good c (h + 1) lo hi W n) (he : e = true → W = []) (hrr : r = true → hi = none)
    (hs : Slots Q (h + 1) lo hi (n : Node K R B (h + 1)))
    (hr : splitChild c.sem h mode i e r n = .ok n') : Slots Q (h + 1) lo hi (n' : Node K R B (h + 1)) := by
  obtain ⟨ch, a, b, k, hi', hq, rfl⟩ := split_inv hr
  have hP := chain_get hg.2.2 hi'
  rcases splitNode_ok hP.2 mode e (r && decide (i + 1 = n.kids.length)) he (by
      intro hr'
      simp only [Bool.and_eq_true, decide_eq_true_eq] at hr'
      unfold childHi
      rw [if_pos hr'.2]
      exact hrr hr'.1) with q | ⟨a', b', k', q1, q2, q3, _⟩
  · rw [q] at hq; cases hq
  · rw [q1] at hq
    cases hq
    have hS := splitNode_slots q1 (chain_get hs hi').2
    exact chain_insert hs (kid_lt hi') q2 q3 ⟨fun _ h => (by cases h), hS.1⟩ ⟨fun _ h => (by cases h), hS.2⟩

theorem chain_and {α : Type} {P P' : Option K → Option K → α → Prop} : ∀ {lo hi ks ps}, Chain P lo hi ks ps → Chain P' lo hi ks ps →
    Chain (fun lo hi p => P lo hi p ∧ P' lo hi p) lo hi ks ps
  | lo, hi, [], ps, h, h' => by
    obtain ⟨q, rfl, hq⟩ := chain_nil h
    exact ⟨hq, h'⟩
  | lo, hi, k :: ks, ps, h, h' => by
    obtain ⟨q, ps', rfl, hq, ha, hb, hc⟩ := chain_cons h
    exact ⟨⟨hq, h'.1⟩, ha, hb, chain_and hc h'.2.2.2⟩

theorem mergeNodes_slots {sem : Sem K R B} : ∀ {h : Nat} {lo hi : Option K} {k : K} {act : Act} {a b : Node K R B h}
    {m : Merged (Node K R B h) K}, mergeNodes sem h act a b k = .ok m → Slots Q h lo (some k) a → Slots Q h (some k) hi b →
    Above lo k → Below hi k →
    match m with
    | .one c => Slots Q h lo hi c
    | .two a' b' k' => h = 0
  | 0, _, _, _, _, _, _, m, _, _, _, _, _ => by cases m <;> trivial
  | h + 1, lo, hi, k, act, a, b, m, hr, ha, hb, h1, h2 => by
    unfold mergeNodes at hr
    cases hr
    exact chain_append ha h1 h2 hb

/-- What a merge gives. -/
theorem merge_inv {sem : Sem K R B} {h : Nat} {act : Act} {i : Nat} {e r : Bool} {n n' : Inner K B (Node K R B h)}
    (hr : mergeChildren sem h act i e r n = .ok n') : ∃ sa ca sb cb a b k m, n.kids[i]? = some (sa, ca) ∧
      n.kids[i + 1]? = some (sb, cb) ∧ (e || decide (h ≠ 0)) = true ∧ putAll sem h (loadNode h ca) sa = .ok a ∧
      putAll sem h (loadNode h cb) sb = .ok b ∧ n.pivots[i]? = some k ∧ mergeNodes sem h act a b k = .ok m ∧
      n' = (match m with
        | .one c => { n with pivots := n.pivots.eraseIdx i, kids := n.kids.take i ++ ([], c) :: n.kids.drop (i + 2) }
        | .two a' b' k' => { n with pivots := n.pivots.set i k',
                                    kids := n.kids.take i ++ ([], a') :: ([], b') :: n.kids.drop (i + 2) }) := by
  unfold mergeChildren at hr
  split at hr
  case h_2 => cases hr
  rename_i sa ca sb cb ha hb
  unfold guardS at hr
  split at hr
  case isFalse => cases hr
  rename_i hgd
  simp only [Out.ok_bind] at hr
  cases hqa : putAll sem h (loadNode h ca) sa with
  | skip => rw [hqa] at hr; cases hr
  | crash => rw [hqa] at hr; cases hr
  | ok a =>
    rw [hqa] at hr
    simp only [Out.ok_bind] at hr
    cases hqb : putAll sem h (loadNode h cb) sb with
    | skip => rw [hqb] at hr; cases hr
    | crash => rw [hqb] at hr; cases hr
    | ok b =>
      rw [hqb] at hr
      simp only [Out.ok_bind] at hr
      cases hp : n.pivots[i]? with
      | none => rw [hp] at hr; cases hr
      | some k =>
        rw [hp] at hr
        simp only [Out.ok_bind, need_some] at hr
        cases hm : mergeNodes sem h act a b k with
        | skip => rw [hm] at hr; cases hr
        | crash => rw [hm] at hr; cases hr
        | ok m =>
          rw [hm] at hr
          simp only [Out.ok_bind] at hr
          refine ⟨sa, ca, sb, cb, a, b, k, m, ha, hb, hgd, hqa, hqb, rfl, hm, ?_⟩
          cases m with
          | one c => cases hr; rfl
          | two a' b' k' => cases hr; rfl

theorem merge_slots (ha : Anti Q) {c : Ctx K R B} {h : Nat} {lo hi : Option K} {W : List (Ent K B)} {act : Act} {i : Nat} {e r : Bool}
    {n n' : Inner K B (Node K R B h)} (hg : Good c (h + 1) lo hi W n) (he : e = true → W = [])
    (hs : Slots Q (h + 1) lo hi (n : Node K R B (h + 1)))
    (hr : mergeChildren c.sem h act i e r n = .ok n') : Slots Q (h + 1) lo hi (n' : Node K R B (h + 1)) := by
  obtain ⟨sa, ca, sb, cb, a, b, k, m, hka, hkb, hgd, hqa, hqb, hk, hm, rfl⟩ := merge_inv hr
  obtain ⟨h1, h2, h3⟩ := hg
  obtain ⟨lo', hi', k1, q1, q2, q3, q4, q5, q6, q7, q8⟩ := chain_pair (chain_and h3 hs) hka hkb
  have q1' : n.pivots[i]? = some k1 := q1
  rw [hk] at q1'
  cases q1'
  have hW : h = 0 → W = [] := by
    intro h0
    apply he
    subst h0
    simpa using hgd
  have hmx : ∀ s : Slot K B, ∀ lo' hi', SlotOk n.msn lo' hi' s →
      (∀ x ∈ s, x.msg.msn ≤ c.mx) ∧ (∀ x ∈ s, ∀ u ∈ W, x.msg.msn < u.msg.msn) := by
    intro s lo' hi' hs
    refine ⟨fun x hx => Nat.le_trans (hs.le x hx) h1, fun x hx u hu => ?_⟩
    have g1 := hs.le x hx
    have g2 : n.msn < u.msg.msn := h2 u hu
    omega
  obtain ⟨a', ea, ga⟩ := putAll_ok sa (loadNode_ok q2.1.2 hW) q2.1.1.incr q2.1.1.keys (hmx _ _ _ q2.1.1).1 (hmx _ _ _ q2.1.1).2
  obtain ⟨b', eb, gb⟩ := putAll_ok sb (loadNode_ok q3.1.2 hW) q3.1.1.incr q3.1.1.keys (hmx _ _ _ q3.1.1).1 (hmx _ _ _ q3.1.1).2
  rw [hqa] at ea
  cases ea
  rw [hqb] at eb
  cases eb
  have sA := putAll_slots ha (load_slots q2.2.2) q2.2.1 hqa
  have sB := putAll_slots ha (load_slots q3.2.2) q3.2.1 hqb
  have hM := mergeNodes_slots hm sA sB q4 q5
  have drop : ∀ {ks : List K} {ps : List (Slot K B × Node K R B h)}, Chain (fun lo hi p =>
      (SlotOk n.msn lo hi p.1 ∧ Good c h lo hi (p.1 ++ W) p.2) ∧ (∀ e ∈ p.1, Q lo hi e.msg) ∧ Slots Q h lo hi p.2) lo hi ks ps →
      Chain (fun lo hi p => (∀ e ∈ p.1, Q lo hi e.msg) ∧ Slots Q h lo hi p.2) lo hi ks ps :=
    fun h => chain_mono h fun _ _ _ _ _ hP => hP.2
  rcases mergeNodes_ok act ga gb q4 q5 hW with w | ⟨l, w, gl⟩ | ⟨a2, b2, k2, w, w1, w2, w3, w4⟩
  · rw [w] at hm; cases hm
  · rw [w] at hm
    cases hm
    exact drop (q6 ([], l) ⟨⟨slot_nil _ _ _, gl⟩, fun _ h => (by cases h), hM⟩)
  · rw [w] at hm
    cases hm
    have hM : h = 0 := hM
    subst hM
    exact drop (q7 ([], a2) ([], b2) k2 w1 w2 ⟨⟨slot_nil _ _ _, w3⟩, fun _ h => (by cases h), trivial⟩
      ⟨⟨slot_nil _ _ _, w4⟩, fun _ h => (by cases h), trivial⟩)

/-! ### The other steps -/

/-- Marks in the buffers do not matter. -/
theorem marks_slots {h : Nat} {lo hi : Option K} {n : Inner K B (Node K R B h)} (f : Nat → Slot K B → Slot K B)
    (hf : ∀ i s, (f i s).map (·.msg) = s.map (·.msg)) (hs : Slots Q (h + 1) lo hi (n : Node K R B (h + 1))) :
    Slots Q (h + 1) lo hi (({ n with kids := n.kids.mapIdx fun i p => (f i p.1, p.2) } : Inner K B (Node K R B h)) : Node K R B (h + 1)) := by
  refine chain_map (fun i p => (f i p.1, p.2)) hs ?_
  intro i lo' hi' p _ _ hP
  refine ⟨?_, hP.2⟩
  intro e he
  have : e.msg ∈ (f i p.1).map (·.msg) := List.mem_map_of_mem he
  rw [hf] at this
  obtain ⟨e0, h0, h1⟩ := List.mem_map.1 this
  rw [← h1]
  exact hP.1 e0 h0

theorem atLeaf_slots {f : Leaf K R → Out (Leaf K R)} : ∀ {h : Nat} {lo hi : Option K} {path : List Nat} {n n' : Node K R B h},
    atLeaf f h path n = .ok n' → Slots Q h lo hi n → Slots Q h lo hi n'
  | 0, _, _, _, _, _, _, _ => trivial
  | h + 1, _, _, [], n, n', hr, hs => by cases hr
  | h + 1, lo, hi, i :: path, n, n', hr, hs => by
    unfold atLeaf at hr
    split at hr
    · cases hr
    · rename_i s c hi
      cases hq : atLeaf f h path c with
      | skip => rw [hq] at hr; cases hr
      | crash => rw [hq] at hr; cases hr
      | ok c' =>
        rw [hq] at hr
        cases hr
        have hP := chain_get hs hi
        exact chain_set hs (kid_lt hi) (p' := (s, c')) ⟨hP.1, atLeaf_slots hq hP.2⟩

theorem atInner_slots {c : Ctx K R B}
    {f : (h : Nat) → Bool → Bool → Inner K B (Node K R B h) → Out (Inner K B (Node K R B h))}
    (hf : ∀ (h : Nat) (lo hi : Option K) (W : List (Ent K B)) (n n' : Inner K B (Node K R B h)) (e r : Bool),
      Good c (h + 1) lo hi W n → (e = true → W = []) → (r = true → hi = none) → f h e r n = .ok n' →
      Slots Q (h + 1) lo hi (n : Node K R B (h + 1)) → Slots Q (h + 1) lo hi (n' : Node K R B (h + 1))) :
    ∀ {h : Nat} {lo hi : Option K} {W : List (Ent K B)} {n n' : Node K R B h} {path : List Nat} {e r : Bool},
      Good c h lo hi W n → (e = true → W = []) → (r = true → hi = none) →
      atInner f h path e r n = .ok n' → Slots Q h lo hi n → Slots Q h lo hi n'
  | 0, _, _, _, _, _, _, _, _, _, _, _, _, _ => trivial
  | h + 1, lo, hi, W, n, n', [], e, r, hg, he, hr, hq, hs => hf h lo hi W n n' e r hg he hr hq hs
  | h + 1, lo, hi, W, n, n', i :: path, e, r, hg, he, hr, hq, hs => by
    unfold atInner at hq
    split at hq
    · cases hq
    · rename_i s ch hk
      cases hc : atInner f h path (e && s.isEmpty) (r && decide (i + 1 = (Inner.kids n).length)) ch with
      | skip => rw [hc] at hq; cases hq
      | crash => rw [hc] at hq; cases hq
      | ok c' =>
        rw [hc] at hq
        cases hq
        have hP := chain_get hs hk
        have hG := chain_get hg.2.2 hk
        refine chain_set hs (kid_lt hk) (p' := (s, c')) ⟨hP.1, atInner_slots hf hG.2 ?_ ?_ hc hP.2⟩
        · intro h'
          simp only [Bool.and_eq_true, List.isEmpty_iff] at h'
          rw [h'.2, he h'.1]
          rfl
        · intro h'
          simp only [Bool.and_eq_true, decide_eq_true_eq] at h'
          unfold childHi
          rw [if_pos h'.2]
          exact hr h'.1

def fmsgs (fs : List (Frame K B)) : List (List (Msg K B)) := fs.map fun f => f.slot.map (·.msg)

theorem markSlot_msgs {lo hi : Option K} (s : Slot K B) : (markSlot lo hi s).map (·.msg) = s.map (·.msg) := by
  unfold markSlot
  rw [List.map_map]
  apply List.map_congr_left
  intro e _
  simp only [Function.comp]
  split <;> rfl

theorem applyFrames_msgs {sem : Sem K R B} {lo hi : Option K} : ∀ {fs : List (Frame K B)} {b : Bn K R},
    fmsgs (applyFrames sem lo hi b fs).2 = fmsgs fs
  | [], _ => rfl
  | f :: fs, b => by
    have h1 : (applyFrame sem lo hi b f).2.slot.map (·.msg) = f.slot.map (·.msg) := by
      unfold applyFrame
      split
      · exact markSlot_msgs _
      · rfl
    unfold applyFrames fmsgs
    simp only [List.map_cons, h1]
    congr 1
    exact applyFrames_msgs

theorem applyAncestors_msgs {sem : Sem K R B} {lo hi : Option K} {fs : List (Frame K B)} {b : Bn K R} :
    fmsgs (applyAncestors sem lo hi b fs).2 = fmsgs fs := applyFrames_msgs

theorem applyAll_msgs {sem : Sem K R B} {lo hi : Option K} {ps : List K} {n : Nat} : ∀ {parts : List (Part K R)} {i : Nat}
    {fs : List (Frame K B)}, fmsgs (applyAll sem lo hi ps n i parts fs).2 = fmsgs fs
  | [], _, _ => rfl
  | p :: rest, i, fs => by
    unfold applyAll
    split
    · exact applyAll_msgs (parts := rest)
    · exact (applyAll_msgs (parts := rest)).trans applyAncestors_msgs

theorem readLeaf_msgs {sem : Sem K R B} {lo hi : Option K} {l l' : Leaf K R} {j : Nat} {fs fs' : List (Frame K B)} {rows : Rows K R}
    (h : readLeaf sem lo hi l j fs = .ok (rows, l', fs')) : fmsgs fs' = fmsgs fs := by
  unfold readLeaf at h
  cases hj : l.parts[j]? with
  | none => rw [hj] at h; cases h
  | some p =>
    rw [hj] at h
    simp only [Out.ok_bind] at h
    cases hm : (loadPart l.msn p).mem with
    | none => rw [hm] at h; cases h
    | some b =>
      rw [hm] at h
      simp only [need_some, Out.ok_bind] at h
      split at h
      · split at h
        · cases hq : (applyAll sem lo hi l.pivots l.parts.length 0 (l.parts.set j (loadPart l.msn p)) fs).1[j]? with
          | none => rw [hq] at h; cases h
          | some q =>
            rw [hq] at h
            simp only [need_some, Out.ok_bind] at h
            cases hb : q.mem with
            | none => rw [hb] at h; cases h
            | some b' =>
              rw [hb] at h
              simp only [need_some, Out.ok_bind] at h
              cases h
              exact applyAll_msgs
        · cases h
          rfl
      · split at h
        · cases h
          exact applyAncestors_msgs
        · cases h
          rfl

theorem readAt_slots {sem : Sem K R B} : ∀ {h : Nat} {lo hi lo2 hi2 : Option K} {fs fs' : List (Frame K B)} {route : List Nat}
    {n n' : Node K R B h} {rows : Rows K R}, readAt sem h lo hi fs route n = .ok (rows, n', fs') →
    fmsgs fs' = fmsgs fs ∧ (Slots Q h lo2 hi2 n → Slots Q h lo2 hi2 n')
  | 0, lo, hi, _, _, fs, fs', [j], l, l', rows, hr => ⟨readLeaf_msgs hr, fun _ => trivial⟩
  | 0, _, _, _, _, _, _, [], _, _, _, hr => by cases hr
  | 0, _, _, _, _, _, _, _ :: _ :: _, _, _, _, hr => by cases hr
  | h + 1, _, _, _, _, _, _, [], _, _, _, hr => by cases hr
  | h + 1, lo, hi, lo2, hi2, fs, fs', i :: route, n, n', rows, hr => by
    replace hr := (readAt_cons sem h lo hi fs i route n).symm.trans hr
    split at hr
    · cases hr
    · rename_i s c hi'
      cases hq : readAt sem h (childLo lo (Inner.pivots n) i) (childHi hi (Inner.pivots n) (Inner.kids n).length i)
          (⟨Inner.msn n, s⟩ :: fs) route c with
      | skip => rw [hq] at hr; cases hr
      | crash => rw [hq] at hr; cases hr
      | ok x =>
        obtain ⟨rows1, c1, fs1⟩ := x
        rw [hq] at hr
        simp only [Out.ok_bind] at hr
        cases fs1 with
        | nil => cases hr
        | cons f fs2 =>
          cases hr
          have ih := readAt_slots (lo2 := childLo lo2 (Inner.pivots n) i)
            (hi2 := childHi hi2 (Inner.pivots n) (Inner.kids n).length i) hq
          have hl : f.slot.map (·.msg) = s.map (·.msg) ∧ fmsgs fs' = fmsgs fs := by
            have := ih.1
            unfold fmsgs at this ⊢
            simp only [List.map_cons, List.cons.injEq] at this
            exact this
          refine ⟨hl.2, fun hs => ?_⟩
          have hP := chain_get hs hi'
          refine chain_set hs (kid_lt hi') (p' := (f.slot, c1)) ⟨?_, ih.2 hP.2⟩
          intro e he
          have : e.msg ∈ f.slot.map (·.msg) := List.mem_map_of_mem he
          rw [hl.1] at this
          obtain ⟨e0, h0, h1⟩ := List.mem_map.1 this
          rw [← h1]
          exact hP.1 e0 h0

theorem inject_slots {sem : Sem K R B} {e : Ent K B} (ha : Anti Q) (he : ∀ lo hi, Q lo hi e.msg) :
    ∀ {h d : Nat} {lo hi : Option K} {n n' : Node K R B h}, inject sem h d n e = .ok n' → Slots Q h lo hi n → Slots Q h lo hi n'
  | 0, _, _, _, _, _, _, _ => trivial
  | h + 1, 0, lo, hi, n, n', hr, hs => innerPut_slots ha hs (he _ _) hr
  | h + 1, d + 1, lo, hi, n, n', hr, hs => by
    unfold inject at hr
    cases hkind : e.msg.kind with
    | all => simp only [hkind] at hr; exact innerPut_slots ha hs (he _ _) hr
    | nothing => simp only [hkind] at hr; exact innerPut_slots ha hs (he _ _) hr
    | once k =>
      simp only [hkind] at hr
      cases hw : whichChild (Inner.kids n).length (Inner.pivots n) k with
      | none => rw [hw] at hr; cases hr
      | some i =>
        rw [hw] at hr
        simp only [need_some, Out.ok_bind] at hr
        cases hk : (Inner.kids n)[i]? with
        | none => rw [hk] at hr; cases hr
        | some p =>
          obtain ⟨s, c⟩ := p
          rw [hk] at hr
          simp only [need_some, Out.ok_bind] at hr
          by_cases hse : s.isEmpty = true
          · replace hr := (if_pos hse).symm.trans hr
            cases hq : inject sem h d c e with
            | skip => rw [hq] at hr; cases hr
            | crash => rw [hq] at hr; cases hr
            | ok c' =>
              rw [hq] at hr
              cases hr
              have hP := chain_get hs hk
              exact chain_set hs (kid_lt hk) (p' := (s, c')) ⟨hP.1, inject_slots ha he hq hP.2⟩
          · exact innerPut_slots ha hs (he _ _) ((if_neg hse).symm.trans hr)

theorem withRoot_slots {t t' : Tree K R B} {r : Out (Node K R B t.h)} (h : t.withRoot r = .ok t')
    (hr : ∀ n, r = .ok n → Slots Q t.h none none n) : Slots Q t'.h none none t'.root ∧ t'.maxMsn = t.maxMsn := by
  unfold Tree.withRoot at h
  split at h
  · cases h
    exact ⟨hr _ rfl, rfl⟩
  · cases h
  · cases h

/-- Any step keeps the condition, if it holds of all new messages. -/
theorem step_slots (ha : Anti Q) {sem : Sem K R B} {hist : List (Kind K × B)} {t t' : Tree K R B} {op : Op K B}
    (hok : TreeOk sem hist t) (hn : ∀ lo hi m, t.maxMsn < m.msn → Q lo hi m) (h : step sem t op = .ok t')
    (hs : Slots Q t.h none none t.root) : Slots Q t'.h none none t'.root ∧ t.maxMsn ≤ t'.maxMsn := by
  have fin : ∀ {t' : Tree K R B}, Slots Q t'.h none none t'.root ∧ t'.maxMsn = t.maxMsn →
      Slots Q t'.h none none t'.root ∧ t.maxMsn ≤ t'.maxMsn := fun h => ⟨h.1, h.2 ▸ Nat.le_refl _⟩
  cases op with
  | put kind body depth =>
    unfold step at h
    simp only at h
    split at h
    · rename_i n hq
      cases h
      exact ⟨inject_slots ha (fun lo hi => hn _ _ _ (Nat.lt_succ_self _)) hq hs, Nat.le_succ _⟩
    · cases h
    · cases h
  | flush path i cl =>
    exact fin (withRoot_slots h fun n hq => atInner_slots (c := ⟨sem, rowAfter sem hist, t.maxMsn⟩)
      (fun _ _ _ _ _ _ _ _ _ _ _ hr hs => flush_slots ha hs hr) hok (fun _ => rfl) (fun _ => rfl) hq hs)
  | split path i mode =>
    exact fin (withRoot_slots h fun n hq => atInner_slots (c := ⟨sem, rowAfter sem hist, t.maxMsn⟩)
      (fun _ _ _ _ _ _ _ _ hg he hrr hr hs => split_slots hg he hrr hs hr) hok (fun _ => rfl) (fun _ => rfl) hq hs)
  | merge path i act =>
    exact fin (withRoot_slots h fun n hq => atInner_slots (c := ⟨sem, rowAfter sem hist, t.maxMsn⟩)
      (fun _ _ _ _ _ _ _ _ hg he _ hr hs => merge_slots ha hg he hs hr) hok (fun _ => rfl) (fun _ => rfl) hq hs)
  | newRoot =>
    cases h
    exact ⟨⟨fun _ h => (by cases h), hs⟩, Nat.le_refl _⟩
  | write path limit =>
    exact fin (withRoot_slots h fun n hq => atLeaf_slots hq hs)
  | evict path which =>
    exact fin (withRoot_slots h fun n hq => atLeaf_slots hq hs)
  | moveStale path =>
    refine fin (withRoot_slots h fun n hq => atInner_slots (c := ⟨sem, rowAfter sem hist, t.maxMsn⟩)
      (fun h lo hi W n n' e r _ _ _ hr hs => ?_) hok (fun _ => rfl) (fun _ => rfl) hq hs)
    cases hr
    have := marks_slots (fun _ s => s.map fun e => if e.fr = .marked then { e with fr := .stale } else e) (by
      intro i s
      rw [List.map_map]
      apply List.map_congr_left
      intro e _
      simp only [Function.comp]
      split <;> rfl) hs
    have e : moveStale n = { n with kids := n.kids.mapIdx fun _ p =>
        (p.1.map fun e => if e.fr = .marked then { e with fr := .stale } else e, p.2) } := by
      unfold moveStale
      congr 1
      apply List.ext_getElem?
      intro i
      simp
    rw [e]
    exact this
  | reread path which =>
    refine fin (withRoot_slots h fun n hq => atInner_slots (c := ⟨sem, rowAfter sem hist, t.maxMsn⟩)
      (fun h lo hi W n n' e r _ _ _ hr hs => ?_) hok (fun _ => rfl) (fun _ => rfl) hq hs)
    cases hr
    refine marks_slots (fun i s => s.mapIdx fun j e => if which i j then { e with fr := .fresh } else e) ?_ hs
    intro i s
    apply List.ext_getElem?
    intro j
    simp only [List.getElem?_map, List.getElem?_mapIdx]
    cases s[j]? with
    | none => rfl
    | some e =>
      simp only [Option.map_some]
      split <;> rfl
  | read route =>
    have h : (match readAt sem t.h none none [] route t.root with
      | .ok (_, n, _) => Out.ok { t with root := n }
      | .skip => .skip
      | .crash => .crash) = .ok t' := h
    cases hq : readAt sem t.h none none [] route t.root with
    | skip => rw [hq] at h; cases h
    | crash => rw [hq] at h; cases h
    | ok x =>
      obtain ⟨rows, n, fs⟩ := x
      rw [hq] at h
      cases h
      exact ⟨(readAt_slots hq).2 hs, Nat.le_refl _⟩

end Verif.Tree
