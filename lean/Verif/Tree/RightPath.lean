import Verif.Tree.RightSpec
import Verif.Tree.Inv

/-! The buffers above the last leaf stay empty as long as the score is not zero, whatever the run. -/
namespace Verif.Tree
set_option linter.unusedSectionVars false
variable {K R B V : Type} [LinearOrder K]

/-- Every node on the way to the last leaf has a last child with an empty buffer. -/
def Clear : (h : Nat) → Node K R B h → Prop
  | 0, _ => True
  | h + 1, n => ∃ c, (Inner.kids n)[(Inner.kids n).length - 1]? = some ([], c) ∧ Clear h c

theorem Clear.buffers : ∀ {h : Nat} {n : Node K R B h}, Clear h n → ∀ s ∈ buffersAbove h n, s = []
  | 0, _, _, _, hs => by cases hs
  | h + 1, n, ⟨c, h1, h2⟩, s, hs => by
    unfold buffersAbove at hs
    rw [h1] at hs
    rcases List.mem_cons.1 hs with rfl | hs
    · rfl
    · exact h2.buffers s hs

/-- A child is replaced. -/
theorem Clear.set {h : Nat} {n : Inner K B (Node K R B h)} (hc : Clear (h + 1) (n : Node K R B (h + 1))) {i : Nat}
    {s s' : Slot K B} {c c' : Node K R B h} (hi : n.kids[i]? = some (s, c)) (hs : s = [] → s' = [])
    (hcc : Clear h c → Clear h c') :
    Clear (h + 1) (({ n with kids := n.kids.set i (s', c') } : Inner K B (Node K R B h)) : Node K R B (h + 1)) := by
  obtain ⟨d, h1, h2⟩ := hc
  have hl : i < n.kids.length := by
    rcases Nat.lt_or_ge i n.kids.length with h | h
    · exact h
    · rw [List.getElem?_eq_none h] at hi; cases hi
  by_cases e : i = n.kids.length - 1
  · have h1' : n.kids[i]? = some ([], d) := by rw [e]; exact h1
    rw [hi] at h1'
    cases h1'
    refine ⟨c', ?_, hcc h2⟩
    show (n.kids.set i (s', c'))[(n.kids.set i (s', c')).length - 1]? = _
    rw [List.length_set, ← e, List.getElem?_set_self hl, hs rfl]
  · refine ⟨d, ?_, h2⟩
    show (n.kids.set i (s', c'))[(n.kids.set i (s', c')).length - 1]? = _
    rw [List.length_set, List.getElem?_set_ne e]
    exact h1

theorem atInner_clear {f : (h : Nat) → Bool → Bool → Inner K B (Node K R B h) → Out (Inner K B (Node K R B h))}
    (hf : ∀ (h : Nat) (e r : Bool) (n n' : Inner K B (Node K R B h)), f h e r n = .ok n' →
      Clear (h + 1) (n : Node K R B (h + 1)) → Clear (h + 1) (n' : Node K R B (h + 1))) :
    ∀ {h : Nat} {path : List Nat} {e r : Bool} {n n' : Node K R B h}, atInner f h path e r n = .ok n' → Clear h n → Clear h n'
  | 0, _, _, _, _, _, _, _ => trivial
  | h + 1, [], e, r, n, n', hr, hc => hf h e r n n' hr hc
  | h + 1, i :: path, e, r, n, n', hr, hc => by
    unfold atInner at hr
    split at hr
    · cases hr
    · rename_i s c hi
      cases hq : atInner f h path (e && s.isEmpty) (r && decide (i + 1 = (Inner.kids n).length)) c with
      | skip => rw [hq] at hr; cases hr
      | crash => rw [hq] at hr; cases hr
      | ok c' =>
        rw [hq] at hr
        cases hr
        exact Clear.set hc hi (fun h => h) (atInner_clear hf hq)

theorem atLeaf_clear {f : Leaf K R → Out (Leaf K R)} :
    ∀ {h : Nat} {path : List Nat} {n n' : Node K R B h}, atLeaf f h path n = .ok n' → Clear h n → Clear h n'
  | 0, _, _, _, _, _ => trivial
  | h + 1, [], n, n', hr, hc => by cases hr
  | h + 1, i :: path, n, n', hr, hc => by
    unfold atLeaf at hr
    split at hr
    · cases hr
    · rename_i s c hi
      cases hq : atLeaf f h path c with
      | skip => rw [hq] at hr; cases hr
      | crash => rw [hq] at hr; cases hr
      | ok c' =>
        rw [hq] at hr
        cases hr
        exact Clear.set hc hi (fun h => h) (atLeaf_clear hq)

theorem putAll_nil (sem : Sem K R B) (h : Nat) (c : Node K R B h) : putAll sem h c [] = .ok c := rfl

theorem prepare_clear : ∀ {h : Nat} {cl : Bool} {pm : Nat} {c : Node K R B h}, Clear h c → Clear h (prepareChild h cl pm c)
  | 0, _, _, _, _ => trivial
  | _ + 1, _, _, _, h => h

theorem load_clear : ∀ {h : Nat} {c : Node K R B h}, Clear h c → Clear h (loadNode h c)
  | 0, _, _ => trivial
  | _ + 1, _, h => h

theorem last_of {h : Nat} {n : Inner K B (Node K R B h)} {i : Nat} {x : Slot K B × Node K R B h}
    (hi : n.kids[i]? = some x) : i < n.kids.length := by
  rcases Nat.lt_or_ge i n.kids.length with h | h
  · exact h
  · rw [List.getElem?_eq_none h] at hi; cases hi

theorem flush_clear {sem : Sem K R B} {h : Nat} {cl : Bool} {i : Nat} {e r : Bool} {n n' : Inner K B (Node K R B h)}
    (hr : flushChild sem h cl i e r n = .ok n') (hc : Clear (h + 1) (n : Node K R B (h + 1))) :
    Clear (h + 1) (n' : Node K R B (h + 1)) := by
  unfold flushChild guardS at hr
  split at hr
  case isFalse => cases hr
  simp only [Out.ok_bind] at hr
  split at hr
  · cases hr
  · rename_i s c hi
    cases hq : putAll sem h (prepareChild h cl n.msn c) s with
    | skip => rw [hq] at hr; cases hr
    | crash => rw [hq] at hr; cases hr
    | ok c' =>
      rw [hq] at hr
      cases hr
      by_cases hs : s = []
      · subst hs
        rw [putAll_nil] at hq
        cases hq
        exact Clear.set hc hi (fun h => h) prepare_clear
      · obtain ⟨d, h1, h2⟩ := hc
        have e : i ≠ n.kids.length - 1 := by
          intro e
          have h1' : n.kids[i]? = some ([], d) := by rw [e]; exact h1
          rw [hi] at h1'
          cases h1'
          exact hs rfl
        refine ⟨d, ?_, h2⟩
        show (n.kids.set i ([], c'))[(n.kids.set i ([], c')).length - 1]? = _
        rw [List.length_set, List.getElem?_set_ne e]
        exact h1

theorem splitNode_clear {sem : Sem K R B} : ∀ {h : Nat} {mode : Mode} {e r : Bool} {c a b : Node K R B h} {k : K},
    splitNode sem h mode e r c = .ok (a, b, k) → Clear h c → Clear h b
  | 0, _, _, _, _, _, _, _, _, _ => trivial
  | h + 1, mode, e, r, n, a, b, k, hr, hc => by
    have hr : (guardS (decide (1 < (Inner.kids n).length)) >>= fun _ => splitInner (n : Inner K B (Node K R B h))) = .ok (a, b, k) := hr
    unfold guardS at hr
    split at hr
    case isFalse => cases hr
    rename_i hl
    simp only [Out.ok_bind] at hr
    unfold splitInner at hr
    cases hp : (Inner.pivots n)[(Inner.kids n).length / 2 - 1]? with
    | none => simp only [hp] at hr; cases hr
    | some k' =>
      simp only [hp, need_some, Out.ok_bind] at hr
      cases hr
      obtain ⟨d, h1, h2⟩ := hc
      refine ⟨d, ?_, h2⟩
      have hl' : 1 < (Inner.kids n).length := of_decide_eq_true hl
      show ((Inner.kids n).drop ((Inner.kids n).length / 2))[((Inner.kids n).drop ((Inner.kids n).length / 2)).length - 1]? = _
      rw [List.getElem?_drop, List.length_drop, ← h1]
      congr 1
      omega

theorem split_clear {sem : Sem K R B} {h : Nat} {mode : Mode} {i : Nat} {e r : Bool} {n n' : Inner K B (Node K R B h)}
    (hr : splitChild sem h mode i e r n = .ok n') (hc : Clear (h + 1) (n : Node K R B (h + 1))) :
    Clear (h + 1) (n' : Node K R B (h + 1)) := by
  unfold splitChild at hr
  split at hr
  · cases hr
  · rename_i s c hi
    have hl := last_of hi
    unfold guardS at hr
    split at hr
    case isFalse => cases hr
    simp only [Out.ok_bind] at hr
    cases hq : splitNode sem h mode e (r && decide (i + 1 = n.kids.length)) c with
    | skip => rw [hq] at hr; cases hr
    | crash => rw [hq] at hr; cases hr
    | ok x =>
      obtain ⟨a, b, k⟩ := x
      rw [hq] at hr
      cases hr
      obtain ⟨d, h1, h2⟩ := hc
      by_cases e' : i = n.kids.length - 1
      · have h1' : n.kids[i]? = some ([], d) := by rw [e']; exact h1
        rw [hi] at h1'
        cases h1'
        refine ⟨b, ?_, splitNode_clear hq h2⟩
        show (n.kids.take i ++ ([], a) :: ([], b) :: n.kids.drop (i + 1))[(n.kids.take i ++ ([], a) :: ([], b) :: n.kids.drop (i + 1)).length - 1]? = _
        have hd : n.kids.drop (i + 1) = [] := List.drop_eq_nil_of_le (by omega)
        rw [hd]
        have ht : (n.kids.take i).length = i := by rw [List.length_take]; omega
        rw [List.getElem?_append_right (by simp)]
        simp [ht]
      · refine ⟨d, ?_, h2⟩
        show (n.kids.take i ++ (s, a) :: ([], b) :: n.kids.drop (i + 1))[(n.kids.take i ++ (s, a) :: ([], b) :: n.kids.drop (i + 1)).length - 1]? = _
        have ht : (n.kids.take i).length = i := by rw [List.length_take]; omega
        rw [← h1, List.getElem?_append_right (by simp)]
        have : (n.kids.take i ++ (s, a) :: ([], b) :: n.kids.drop (i + 1)).length - 1 - (n.kids.take i).length
            = (n.kids.length - (i + 1) - 1) + 1 + 1 := by simp; omega
        rw [this, List.getElem?_cons_succ, List.getElem?_cons_succ, List.getElem?_drop]
        congr 1
        omega

theorem mergeNodes_one {sem : Sem K R B} : ∀ {h : Nat} {act : Act} {a b c : Node K R B h} {k : K},
    mergeNodes sem h act a b k = .ok (.one c) → Clear h b → Clear h c
  | 0, _, _, _, _, _, _, _ => trivial
  | h + 1, act, a, b, c, k, hr, hc => by
    unfold mergeNodes at hr
    cases hr
    obtain ⟨d, h1, h2⟩ := hc
    refine ⟨d, ?_, h2⟩
    have hl : (Inner.kids b).length - 1 < (Inner.kids b).length := last_of h1
    show ((Inner.kids a) ++ (Inner.kids b))[((Inner.kids a) ++ (Inner.kids b)).length - 1]? = _
    rw [List.getElem?_append_right (by simp; omega), ← h1]
    congr 1
    simp
    omega

theorem mergeNodes_two {sem : Sem K R B} : ∀ {h : Nat} {act : Act} {a b a' b' : Node K R B h} {k k' : K},
    mergeNodes sem h act a b k = .ok (.two a' b' k') → Clear h b'
  | 0, _, _, _, _, _, _, _, _ => trivial
  | h + 1, act, a, b, a', b', k, k', hr => by
    unfold mergeNodes at hr
    cases hr

theorem merge_clear {sem : Sem K R B} {h : Nat} {act : Act} {i : Nat} {e r : Bool} {n n' : Inner K B (Node K R B h)}
    (hr : mergeChildren sem h act i e r n = .ok n') (hc : Clear (h + 1) (n : Node K R B (h + 1))) :
    Clear (h + 1) (n' : Node K R B (h + 1)) := by
  unfold mergeChildren at hr
  split at hr
  case h_2 => cases hr
  rename_i sa ca sb cb ha hb
  have hl := last_of hb
  unfold guardS at hr
  split at hr
  case isFalse => cases hr
  simp only [Out.ok_bind] at hr
  cases hqa : putAll sem h (loadNode h ca) sa with
  | skip => rw [hqa] at hr; cases hr
  | crash => rw [hqa] at hr; cases hr
  | ok a =>
    rw [hqa] at hr
    simp only [Out.ok_bind] at hr
    cases hqb : putAll sem h (loadNode h cb) sb with
    | skip => rw [hqb] at hr; cases hr
    | crash => rw [hqb] at hr; cases hr
    | ok b =>
      rw [hqb] at hr
      simp only [Out.ok_bind] at hr
      cases hp : n.pivots[i]? with
      | none => rw [hp] at hr; cases hr
      | some k =>
        rw [hp] at hr
        simp only [Out.ok_bind, need_some] at hr
        obtain ⟨d, h1, h2⟩ := hc
        have hlast : i + 1 = n.kids.length - 1 → Clear h b := by
          intro e
          have h1' : n.kids[i + 1]? = some ([], d) := by rw [e]; exact h1
          rw [hb] at h1'
          cases h1'
          rw [putAll_nil] at hqb
          cases hqb
          exact load_clear h2
        have ht : (n.kids.take i).length = i := by rw [List.length_take]; omega
        cases hm : mergeNodes sem h act a b k with
        | skip => rw [hm] at hr; cases hr
        | crash => rw [hm] at hr; cases hr
        | ok m =>
          rw [hm] at hr
          simp only [Out.ok_bind] at hr
          cases m with
          | one c =>
            cases hr
            by_cases e' : i + 1 = n.kids.length - 1
            · refine ⟨c, ?_, mergeNodes_one hm (hlast e')⟩
              show (n.kids.take i ++ ([], c) :: n.kids.drop (i + 2))[(n.kids.take i ++ ([], c) :: n.kids.drop (i + 2)).length - 1]? = _
              have hd : n.kids.drop (i + 2) = [] := List.drop_eq_nil_of_le (by omega)
              rw [hd, List.getElem?_append_right (by simp)]
              simp [ht]
            · refine ⟨d, ?_, h2⟩
              show (n.kids.take i ++ ([], c) :: n.kids.drop (i + 2))[(n.kids.take i ++ ([], c) :: n.kids.drop (i + 2)).length - 1]? = _
              rw [← h1, List.getElem?_append_right (by simp)]
              have : (n.kids.take i ++ ([], c) :: n.kids.drop (i + 2)).length - 1 - (n.kids.take i).length
                  = (n.kids.length - (i + 2) - 1) + 1 := by simp; omega
              rw [this, List.getElem?_cons_succ, List.getElem?_drop]
              congr 1
              omega
          | two a' b' k' =>
            cases hr
            by_cases e' : i + 1 = n.kids.length - 1
            · refine ⟨b', ?_, mergeNodes_two hm⟩
              show (n.kids.take i ++ ([], a') :: ([], b') :: n.kids.drop (i + 2))[(n.kids.take i ++ ([], a') :: ([], b') :: n.kids.drop (i + 2)).length - 1]? = _
              have hd : n.kids.drop (i + 2) = [] := List.drop_eq_nil_of_le (by omega)
              rw [hd, List.getElem?_append_right (by simp)]
              simp [ht]
            · refine ⟨d, ?_, h2⟩
              show (n.kids.take i ++ ([], a') :: ([], b') :: n.kids.drop (i + 2))[(n.kids.take i ++ ([], a') :: ([], b') :: n.kids.drop (i + 2)).length - 1]? = _
              rw [← h1, List.getElem?_append_right (by simp)]
              have : (n.kids.take i ++ ([], a') :: ([], b') :: n.kids.drop (i + 2)).length - 1 - (n.kids.take i).length
                  = (n.kids.length - (i + 2) - 1) + 1 + 1 := by simp; omega
              rw [this, List.getElem?_cons_succ, List.getElem?_cons_succ, List.getElem?_drop]
              congr 1
              omega

theorem mapSlots_clear {h : Nat} {n : Inner K B (Node K R B h)} (f : Nat → Slot K B → Slot K B) (hf : ∀ i, f i [] = [])
    (hc : Clear (h + 1) (n : Node K R B (h + 1))) :
    Clear (h + 1) (({ n with kids := n.kids.mapIdx fun i p => (f i p.1, p.2) } : Inner K B (Node K R B h)) : Node K R B (h + 1)) := by
  obtain ⟨d, h1, h2⟩ := hc
  refine ⟨d, ?_, h2⟩
  show (n.kids.mapIdx fun i p => (f i p.1, p.2))[(n.kids.mapIdx fun i p => (f i p.1, p.2)).length - 1]? = _
  rw [List.length_mapIdx, List.getElem?_mapIdx, h1]
  simp [hf]

theorem moveStale_clear {h : Nat} {n : Inner K B (Node K R B h)} (hc : Clear (h + 1) (n : Node K R B (h + 1))) :
    Clear (h + 1) ((moveStale n : Inner K B (Node K R B h)) : Node K R B (h + 1)) := by
  obtain ⟨d, h1, h2⟩ := hc
  refine ⟨d, ?_, h2⟩
  show (moveStale n).kids[(moveStale n).kids.length - 1]? = _
  unfold moveStale
  simp only [List.length_map, List.getElem?_map, h1]
  rfl

/-! ### Reads leave every buffer as long as it was -/

def lens (fs : List (Frame K B)) : List Nat := fs.map fun f => f.slot.length

theorem applyFrames_lens {sem : Sem K R B} {lo hi : Option K} : ∀ {fs : List (Frame K B)} {b : Bn K R},
    lens (applyFrames sem lo hi b fs).2 = lens fs
  | [], _ => rfl
  | f :: fs, b => by
    have h1 : (applyFrame sem lo hi b f).2.slot.length = f.slot.length := by
      unfold applyFrame
      split
      · simp [markSlot]
      · rfl
    unfold applyFrames lens
    simp only [List.map_cons, h1]
    congr 1
    exact applyFrames_lens

theorem applyAncestors_lens {sem : Sem K R B} {lo hi : Option K} {fs : List (Frame K B)} {b : Bn K R} :
    lens (applyAncestors sem lo hi b fs).2 = lens fs := applyFrames_lens

theorem applyAll_lens {sem : Sem K R B} {lo hi : Option K} {ps : List K} {n : Nat} : ∀ {parts : List (Part K R)} {i : Nat}
    {fs : List (Frame K B)}, lens (applyAll sem lo hi ps n i parts fs).2 = lens fs
  | [], _, _ => rfl
  | p :: rest, i, fs => by
    unfold applyAll
    split
    · exact applyAll_lens (parts := rest)
    · exact (applyAll_lens (parts := rest)).trans applyAncestors_lens

theorem readLeaf_lens {sem : Sem K R B} {lo hi : Option K} {l l' : Leaf K R} {j : Nat} {fs fs' : List (Frame K B)} {rows : Rows K R}
    (h : readLeaf sem lo hi l j fs = .ok (rows, l', fs')) : lens fs' = lens fs := by
  unfold readLeaf at h
  cases hj : l.parts[j]? with
  | none => rw [hj] at h; cases h
  | some p =>
    rw [hj] at h
    simp only [Out.ok_bind] at h
    cases hm : (loadPart l.msn p).mem with
    | none => rw [hm] at h; cases h
    | some b =>
      rw [hm] at h
      simp only [need_some, Out.ok_bind] at h
      split at h
      · split at h
        · cases hq : (applyAll sem lo hi l.pivots l.parts.length 0 (l.parts.set j (loadPart l.msn p)) fs).1[j]? with
          | none => rw [hq] at h; cases h
          | some q =>
            rw [hq] at h
            simp only [need_some, Out.ok_bind] at h
            cases hb : q.mem with
            | none => rw [hb] at h; cases h
            | some b' =>
              rw [hb] at h
              simp only [need_some, Out.ok_bind] at h
              cases h
              exact applyAll_lens
        · cases h
          rfl
      · split at h
        · cases h
          exact applyAncestors_lens
        · cases h
          rfl

theorem readAt_cons (sem : Sem K R B) (h : Nat) (lo hi : Option K) (fs : List (Frame K B)) (i : Nat) (route : List Nat)
    (n : Inner K B (Node K R B h)) : readAt sem (h + 1) lo hi fs (i :: route) (n : Node K R B (h + 1)) =
    (match n.kids[i]? with
    | none => .skip
    | some (s, c) => do
      let (rows, c', fs') ← readAt sem h (childLo lo n.pivots i) (childHi hi n.pivots n.kids.length i) (⟨n.msn, s⟩ :: fs) route c
      match fs' with
      | [] => .crash
      | f :: fs'' => .ok (rows, ({ n with kids := n.kids.set i (f.slot, c') } : Inner K B (Node K R B h)), fs'')) := rfl

theorem readAt_clear {sem : Sem K R B} : ∀ {h : Nat} {lo hi : Option K} {fs fs' : List (Frame K B)} {route : List Nat}
    {n n' : Node K R B h} {rows : Rows K R}, readAt sem h lo hi fs route n = .ok (rows, n', fs') →
    lens fs' = lens fs ∧ (Clear h n → Clear h n')
  | 0, lo, hi, fs, fs', [j], l, l', rows, hr => ⟨readLeaf_lens hr, fun _ => trivial⟩
  | 0, _, _, _, _, [], _, _, _, hr => by cases hr
  | 0, _, _, _, _, _ :: _ :: _, _, _, _, hr => by cases hr
  | h + 1, _, _, _, _, [], _, _, _, hr => by cases hr
  | h + 1, lo, hi, fs, fs', i :: route, n, n', rows, hr => by
    replace hr := (readAt_cons sem h lo hi fs i route n).symm.trans hr
    split at hr
    · cases hr
    · rename_i s c hi'
      cases hq : readAt sem h (childLo lo (Inner.pivots n) i) (childHi hi (Inner.pivots n) (Inner.kids n).length i)
          (⟨Inner.msn n, s⟩ :: fs) route c with
      | skip => rw [hq] at hr; cases hr
      | crash => rw [hq] at hr; cases hr
      | ok x =>
        obtain ⟨rows1, c1, fs1⟩ := x
        rw [hq] at hr
        simp only [Out.ok_bind] at hr
        have ih := readAt_clear hq
        cases fs1 with
        | nil => cases hr
        | cons f fs2 =>
          cases hr
          have hl : f.slot.length = s.length ∧ lens fs' = lens fs := by
            have := ih.1
            unfold lens at this ⊢
            simp only [List.map_cons, List.cons.injEq] at this
            exact this
          refine ⟨hl.2, fun hc => Clear.set hc hi' ?_ ih.2⟩
          intro hs
          rw [hs] at hl
          exact List.eq_nil_of_length_eq_zero hl.1

/-! ### Steps -/

theorem withRoot_clear {t t' : Tree K R B} {r : Out (Node K R B t.h)} (h : t.withRoot r = .ok t')
    (hr : ∀ n, r = .ok n → Clear t.h n) : t'.h = t.h ∧ Clear t'.h t'.root := by
  unfold Tree.withRoot at h
  split at h
  · cases h
    exact ⟨rfl, hr _ rfl⟩
  · cases h
  · cases h

/-- Steps that send nothing. -/
theorem step_clear {sem : Sem K R B} {t t' : Tree K R B} {op : Op K B} (h : step sem t op = .ok t')
    (hp : ∀ kind body depth, op ≠ .put kind body depth) (h0 : t.h ≠ 0) (hc : Clear t.h t.root) :
    t'.h ≠ 0 ∧ Clear t'.h t'.root := by
  cases op with
  | put kind body depth => exact absurd rfl (hp kind body depth)
  | flush path i cl =>
    have := withRoot_clear h fun n hn => atInner_clear (fun _ _ _ _ _ hr hc => flush_clear hr hc) hn hc
    exact ⟨by rw [this.1]; exact h0, this.2⟩
  | split path i mode =>
    have := withRoot_clear h fun n hn => atInner_clear (fun _ _ _ _ _ hr hc => split_clear hr hc) hn hc
    exact ⟨by rw [this.1]; exact h0, this.2⟩
  | merge path i act =>
    have := withRoot_clear h fun n hn => atInner_clear (fun _ _ _ _ _ hr hc => merge_clear hr hc) hn hc
    exact ⟨by rw [this.1]; exact h0, this.2⟩
  | newRoot =>
    cases h
    exact ⟨Nat.succ_ne_zero _, t.root, rfl, hc⟩
  | write path limit =>
    have := withRoot_clear h fun n hn => atLeaf_clear hn hc
    exact ⟨by rw [this.1]; exact h0, this.2⟩
  | evict path which =>
    have := withRoot_clear h fun n hn => atLeaf_clear hn hc
    exact ⟨by rw [this.1]; exact h0, this.2⟩
  | moveStale path =>
    have := withRoot_clear h fun n hn => atInner_clear (fun _ _ _ _ _ hr hc => by cases hr; exact moveStale_clear hc) hn hc
    exact ⟨by rw [this.1]; exact h0, this.2⟩
  | reread path which =>
    have := withRoot_clear h fun n hn => atInner_clear (fun _ _ _ _ _ hr hc => by
      cases hr; exact mapSlots_clear (fun i s => s.mapIdx fun j e => if which i j then { e with fr := .fresh } else e)
        (fun _ => rfl) hc) hn hc
    exact ⟨by rw [this.1]; exact h0, this.2⟩
  | read route =>
    have h : (match readAt sem t.h none none [] route t.root with
      | .ok (_, n, _) => Out.ok { t with root := n }
      | .skip => .skip
      | .crash => .crash) = .ok t' := h
    cases hq : readAt sem t.h none none [] route t.root with
    | skip => rw [hq] at h; cases h
    | crash => rw [hq] at h; cases h
    | ok x =>
      obtain ⟨rows, n, fs⟩ := x
      rw [hq] at h
      cases h
      exact ⟨h0, (readAt_clear hq).2 hc⟩

/-- A message that landed in the last leaf went past empty buffers only. -/
theorem inject_clear {sem : Sem K R B} : ∀ {h d : Nat} {n n' : Node K R B h} {e : Ent K B},
    inject sem h d n e = .ok n' → landsRight h d n e.msg.kind = true → Clear h n'
  | 0, _, _, _, _, _, _ => trivial
  | h + 1, 0, _, _, _, _, hl => by cases hl
  | h + 1, d + 1, n, n', e, hr, hl => by
    unfold landsRight at hl
    unfold inject at hr
    cases hk : e.msg.kind with
    | all => rw [hk] at hl; cases hl
    | nothing => rw [hk] at hl; cases hl
    | once k =>
      rw [hk] at hl hr
      simp only at hl hr
      cases hw : whichChild (Inner.kids n).length (Inner.pivots n) k with
      | none => rw [hw] at hl; cases hl
      | some i =>
        rw [hw] at hl hr
        simp only [need_some, Out.ok_bind] at hl hr
        cases hi : (Inner.kids n)[i]? with
        | none => rw [hi] at hl; cases hl
        | some x =>
          obtain ⟨s, c⟩ := x
          rw [hi] at hl hr
          simp only [need_some, Out.ok_bind, Bool.and_eq_true, decide_eq_true_eq] at hl hr
          obtain ⟨⟨hlast, hs⟩, hrest⟩ := hl
          replace hr := (if_pos hs).symm.trans hr
          cases hq : inject sem h d c e with
          | skip => rw [hq] at hr; cases hr
          | crash => rw [hq] at hr; cases hr
          | ok c' =>
            rw [hq] at hr
            cases hr
            have hil := last_of (n := (n : Inner K B (Node K R B h))) hi
            refine ⟨c', ?_, inject_clear hq (by rw [hk]; exact hrest)⟩
            show ((Inner.kids n).set i (s, c'))[((Inner.kids n).set i (s, c')).length - 1]? = _
            rw [List.length_set, show (Inner.kids n).length - 1 = i by omega, List.getElem?_set_self hil, List.isEmpty_iff.1 hs]

theorem setLast_clear {l : Leaf K R} : ∀ {h : Nat} {n : Node K R B h}, Clear h n → Clear h (setLastLeaf l h n)
  | 0, _, _ => trivial
  | h + 1, n, hc => by
    obtain ⟨d, h1, h2⟩ := hc
    unfold setLastLeaf
    rw [h1]
    exact Clear.set ⟨d, h1, h2⟩ h1 (fun h => h) (fun h => setLast_clear h)

/-- What a score that is not zero means. -/
def PathInv (s : Dict K R B) : Prop := 0 < s.score → s.known = true ∧ s.tree.h ≠ 0 ∧ Clear s.tree.h s.tree.root

theorem step_put (sem : Sem K R B) (t : Tree K R B) (kind : Kind K) (body : B) (depth : Nat) :
    step sem t (.put kind body depth) =
    match inject sem t.h depth t.root ⟨⟨t.maxMsn + 1, kind, body⟩, .fresh⟩ with
    | .ok n => Out.ok { t with root := n, maxMsn := t.maxMsn + 1 }
    | .skip => .skip
    | .crash => .crash := rfl

theorem send_path {sem : Sem K R B} {s s' : Dict K R B} {kind : Kind K} {body : B} {depth : Nat}
    (h : send sem s kind body depth = .ok s') : PathInv s' := by
  unfold send at h
  cases hq : step sem s.tree (.put kind body depth) with
  | skip => rw [hq] at h; cases h
  | crash => rw [hq] at h; cases h
  | ok t =>
    rw [hq] at h
    cases h
    intro hs
    simp only at hs
    split at hs
    case isFalse => cases hs
    rename_i hc
    simp only [Bool.and_eq_true, decide_eq_true_eq] at hc
    refine ⟨hc.2, ?_⟩
    rw [step_put] at hq
    cases hn : inject sem s.tree.h depth s.tree.root ⟨⟨s.tree.maxMsn + 1, kind, body⟩, .fresh⟩ with
    | skip => rw [hn] at hq; cases hq
    | crash => rw [hn] at hq; cases hq
    | ok n =>
      rw [hn] at hq
      cases hq
      exact ⟨hc.1.1, inject_clear hn hc.1.2⟩

theorem fast_path {sem : Sem K R B} {live : R → Bool} {s s' : Dict K R B} {k : K} {body : B} {u st : Bool}
    (h : fast sem live s k body u st = .ok (.inserted s')) (hp : PathInv s) : PathInv s' := by
  unfold fast at h
  split at h
  · cases h
  · split at h
    · cases h
    · cases hl : lastLeaf s.tree.h s.tree.root with
      | none => rw [hl] at h; cases h
      | some l0 =>
        rw [hl] at h
        simp only [need_some, Out.ok_bind] at h
        split at h
        · cases h
        · cases hr : relPos live u (loadLeaf l0) k with
          | skip => rw [hr] at h; cases h
          | crash => rw [hr] at h; cases h
          | ok pos =>
            rw [hr] at h
            simp only [Out.ok_bind] at h
            split at h
            · cases h
            · split at h
              · cases h
              · cases hq : leafPutAt sem (loadLeaf l0) pos.target ⟨s.tree.maxMsn + 1, .once k, body⟩ k with
                | skip => rw [hq] at h; cases h
                | crash => rw [hq] at h; cases h
                | ok l' =>
                  rw [hq] at h
                  cases h
                  intro hs
                  obtain ⟨h1, h2, h3⟩ := hp hs
                  exact ⟨h1, h2, setLast_clear h3⟩

theorem tree_path {sem : Sem K R B} {s : Dict K R B} {t : Tree K R B} {op : Op K B} (h : step sem s.tree op = .ok t)
    (hp : ∀ kind body depth, op ≠ .put kind body depth) (hi : PathInv s) : PathInv { s with tree := t } := by
  intro hs
  obtain ⟨h1, h2, h3⟩ := hi hs
  exact ⟨h1, step_clear h hp h2 h3⟩

theorem dstep_path {sem : Sem K R B} {w : Puts V R B} {s s' : Dict K R B} {op : DOp K B V} {r : Ret}
    (h : dstep sem w s op = .ok (s', r)) (hp : PathInv s) : PathInv s' := by
  have ins : ∀ {silent k v depth stable}, maybeInsert sem w s silent k v depth stable = .ok (s', r) → PathInv s' := by
    intro silent k v depth stable h
    unfold maybeInsert at h
    cases hf : fast sem w.live s k (w.ins v) false stable with
    | skip => rw [hf] at h; cases h
    | crash => rw [hf] at h; cases h
    | ok f =>
      rw [hf] at h
      simp only [Out.ok_bind] at h
      have snd : ∀ {body}, (send sem s (.once k) body depth >>= fun s' => Out.ok (s', Ret.done)) = .ok (s', r) → PathInv s' := by
        intro body h
        cases hq : send sem s (.once k) body depth with
        | skip => rw [hq] at h; cases h
        | crash => rw [hq] at h; cases h
        | ok s1 => rw [hq] at h; cases h; exact send_path hq
      cases f with
      | inserted s1 => cases h; exact fast_path hf hp
      | no => exact snd h
      | «exists» => exact snd h
  cases op with
  | put how k v depth stable =>
    cases how with
    | over => exact ins h
    | silent => exact ins h
    | unique =>
      have h : insertUnique sem w s k v depth stable = .ok (s', r) := h
      unfold insertUnique at h
      cases hf : fast sem w.live s k (w.ins v) true stable with
      | skip => rw [hf] at h; cases h
      | crash => rw [hf] at h; cases h
      | ok f =>
        rw [hf] at h
        simp only [Out.ok_bind] at h
        cases f with
        | inserted s1 => cases h; exact fast_path hf hp
        | «exists» => cases h; exact hp
        | no =>
          simp only at h
          cases hg : get sem s.tree k with
          | skip => rw [hg] at h; cases h
          | crash => rw [hg] at h; cases h
          | ok g =>
            rw [hg] at h
            simp only [Out.ok_bind] at h
            cases hro : routeOf k s.tree.h s.tree.root with
            | none => rw [hro] at h; cases h
            | some route =>
              rw [hro] at h
              simp only [need_some, Out.ok_bind] at h
              cases hst : step sem s.tree (.read route) with
              | skip => rw [hst] at h; cases h
              | crash => rw [hst] at h; cases h
              | ok t =>
                rw [hst] at h
                simp only [Out.ok_bind] at h
                split at h
                · cases h
                  exact tree_path hst (fun _ _ _ => by simp) hp
                · cases hq : send sem { s with tree := t } (.once k) (w.ins v) depth with
                  | skip => rw [hq] at h; cases h
                  | crash => rw [hq] at h; cases h
                  | ok s1 => rw [hq] at h; cases h; exact send_path hq
  | tree op =>
    have other : (∀ kind body depth, op ≠ .put kind body depth) →
        (step sem s.tree op >>= fun t => Out.ok ({ s with tree := t }, Ret.done)) = .ok (s', r) → PathInv s' := by
      intro hn h
      cases hq : step sem s.tree op with
      | skip => rw [hq] at h; cases h
      | crash => rw [hq] at h; cases h
      | ok t => rw [hq] at h; cases h; exact tree_path hq hn hp
    cases op with
    | put kind body depth =>
      have h : (send sem s kind body depth >>= fun s' => Out.ok (s', Ret.done)) = .ok (s', r) := h
      cases hq : send sem s kind body depth with
      | skip => rw [hq] at h; cases h
      | crash => rw [hq] at h; cases h
      | ok s1 => rw [hq] at h; cases h; exact send_path hq
    | flush => exact other (fun _ _ _ => by simp) h
    | split => exact other (fun _ _ _ => by simp) h
    | merge => exact other (fun _ _ _ => by simp) h
    | newRoot => exact other (fun _ _ _ => by simp) h
    | write => exact other (fun _ _ _ => by simp) h
    | evict => exact other (fun _ _ _ => by simp) h
    | moveStale => exact other (fun _ _ _ => by simp) h
    | reread => exact other (fun _ _ _ => by simp) h
    | read => exact other (fun _ _ _ => by simp) h

theorem drun_path {sem : Sem K R B} {w : Puts V R B} : ∀ {ops : List (DOp K B V)} {s s' : Dict K R B} {rs : List Ret},
    drun sem w s ops = some (s', rs) → PathInv s → PathInv s'
  | [], s, s', rs, h, hp => by cases h; exact hp
  | op :: ops, s, s', rs, h, hp => by
    unfold drun at h
    split at h
    · rename_i s1 r hq
      obtain ⟨x, hx, e⟩ := Option.map_eq_some_iff.1 h
      cases e
      exact drun_path (s := s1) (rs := x.2) hx (dstep_path hq hp)
    · obtain ⟨x, hx, e⟩ := Option.map_eq_some_iff.1 h
      cases e
      exact drun_path (s := s) (rs := x.2) hx hp
    · cases h

end Verif.Tree
