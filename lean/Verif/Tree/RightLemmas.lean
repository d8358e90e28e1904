import Verif.Tree.RightPath
import Verif.Tree.SearchLemmas
import Verif.Tree.Run

/-! With nothing in the buffers above it, and rows in its first and last basement, inserting straight into the last leaf
is what sending the message from the root would have done. -/
namespace Verif.Tree
set_option linter.unusedSectionVars false
variable {K R B V : Type} [LinearOrder K]

theorem rank_unique {α : Type} {P : Option K → Option K → α → Prop} {lo hi : Option K} {ks : List K} {ps : List α} (h : Chain P lo hi ks ps)
    {i : Nat} (hi' : i < ps.length) {k : K} (hk : InB (childLo lo ks i) (childHi hi ks ps.length i) k) : rank ks k = i := by
  have hs := chain_sorted h
  have hl := h.length
  have h1 : i ≤ rank ks k := by
    cases i with
    | zero => exact Nat.zero_le _
    | succ j =>
      have hj : j < ks.length := by omega
      have := hk.1 ks[j] (by simp [childLo, hj])
      exact (rank_spec hs k j _ (List.getElem?_eq_getElem hj)).1 this
  have h2 : rank ks k ≤ i := by
    rcases Nat.lt_or_ge i ks.length with hj | hj
    · have := hk.2 ks[i] (by simp [childHi, hj]; intro h; omega)
      refine Nat.le_of_not_lt fun hlt => ?_
      exact absurd ((rank_spec hs k i _ (List.getElem?_eq_getElem hj)).2 hlt) (not_lt.2 this)
    · exact Nat.le_trans (rank_le ks k) hj
  omega

theorem which_unique {α : Type} {P : Option K → Option K → α → Prop} {lo hi : Option K} {ks ext : List K} {ps : List α} (h : Chain P lo hi ks ps)
    {i : Nat} (hi' : i < ps.length) {k : K} (hk : InB (childLo lo ks i) (childHi hi ks ps.length i) k) :
    whichChild ps.length (ks ++ ext) k = some i := by
  have e := whichChild_eq (ext := ext) (chain_sorted h) k
  rw [rank_unique h hi' hk, ← h.length] at e
  exact e

theorem leaf_which {c : Ctx K R B} {U : List (Ent K B)} {lo hi : Option K} {l : Leaf K R} (h : LeafCore c U lo hi l)
    {i : Nat} (hi' : i < l.parts.length) {k : K} (hk : InB (childLo lo l.ks i) (childHi hi l.ks l.parts.length i) k) :
    whichChild l.parts.length l.pivots k = some i := by
  have := which_unique (ext := l.pivots.drop (l.parts.length - 1)) h.chain hi' hk
  rw [← Leaf.pivots_eq] at this
  exact this

/-- All rows of a leaf with nothing above it. -/
theorem leaf_rows {c : Ctx K R B} {lo hi : Option K} {l : Leaf K R} (h : LeafCore c [] lo hi l) (ha : AllMem l.parts) :
    Sorted (leafRows l) ∧ RowsIn lo hi (leafRows l) ∧ ∀ k, InB lo hi k → lookup (leafRows l) k = c.spec k := by
  have := concat_ok (M := 0) (Nat.zero_le _) h.chain ha (by intro _ _ _ _ u hu; cases hu)
  rw [leafRows_eq]
  exact ⟨this.sorted, this.within, fun k hk => this.img k hk⟩

theorem mem_leafRows {l : Leaf K R} {i : Nat} {p : Part K R} (h : l.parts[i]? = some p) {x : K × R} (hx : x ∈ partRows p) :
    x ∈ leafRows l := by
  rw [leafRows_eq]
  exact List.mem_flatten.2 ⟨_, List.mem_map_of_mem (List.mem_of_getElem? h), hx⟩

theorem le_last {rows : Rows K R} (hs : Sorted rows) {x : K × R} (h : rows.getLast? = some x) : ∀ y ∈ rows, y.1 ≤ x.1 := by
  have e : rows = rows.dropLast ++ [x] := by
    have hne : rows ≠ [] := by intro hn; rw [hn] at h; cases h
    have := List.dropLast_concat_getLast hne
    rw [List.getLast?_eq_some_getLast hne] at h
    cases h
    exact this.symm
  intro y hy
  rw [e] at hy hs
  rcases List.mem_append.1 hy with hy | hy
  · exact le_of_lt ((List.pairwise_append.1 hs).2.2 y hy x (List.mem_singleton.2 rfl))
  · rw [List.mem_singleton.1 hy]

theorem head_le {rows : Rows K R} (hs : Sorted rows) {x : K × R} (h : rows.head? = some x) : ∀ y ∈ rows, x.1 ≤ y.1 := by
  cases rows with
  | nil => cases h
  | cons a rows =>
    cases h
    intro y hy
    rcases List.mem_cons.1 hy with rfl | hy
    · exact le_refl _
    · exact le_of_lt ((List.pairwise_cons.1 hs).1 y hy)

theorem exists_row {p : Part K R} (h : partRows p ≠ []) : ∃ x, x ∈ partRows p := by
  cases hp : partRows p with
  | nil => exact absurd hp h
  | cons a _ => exact ⟨a, List.mem_cons_self⟩

theorem part_within {c : Ctx K R B} {U : List (Ent K B)} {lo hi : Option K} {l : Leaf K R} (h : LeafCore c U lo hi l) (ha : AllMem l.parts)
    {i : Nat} {p : Part K R} (hp : l.parts[i]? = some p) {x : K × R} (hx : x ∈ partRows p) :
    InB (childLo lo l.ks i) (childHi hi l.ks l.parts.length i) x.1 := by
  obtain ⟨b, hb⟩ := ha p (List.mem_of_getElem? hp)
  rw [partRows_mem hb] at hx
  exact ((chain_get h.chain hp).bn b hb).1.within x hx

theorem last_which {c : Ctx K R B} {lo : Option K} {l : Leaf K R} (h : LeafCore c [] lo none l) (ha : AllMem l.parts)
    (he : EndsFull l) {rk : K} {rr : R} (hr : (leafRows l).getLast? = some (rk, rr)) {k : K} (hk : rk ≤ k) :
    whichChild l.parts.length l.pivots k = some (l.parts.length - 1) := by
  rcases he with he | ⟨_, p, hp, hne⟩
  · rw [he]; rfl
  · have hpos := h.chain.pos
    obtain ⟨x, hx⟩ := exists_row hne
    have hw := part_within h ha hp hx
    have hle := le_last (leaf_rows h ha).1 hr x (mem_leafRows hp hx)
    refine leaf_which h (by omega) ⟨fun a e => lt_of_lt_of_le (hw.1 a e) (le_trans hle hk), ?_⟩
    intro b e
    rw [childHi, if_pos (by omega)] at e
    cases e

theorem first_which {c : Ctx K R B} {lo : Option K} {l : Leaf K R} (h : LeafCore c [] lo none l) (ha : AllMem l.parts)
    (he : EndsFull l) {lk : K} {lr : R} (hr : (leafRows l).head? = some (lk, lr)) :
    whichChild l.parts.length l.pivots lk = some 0 := by
  rcases he with he | ⟨⟨p, hp, hne⟩, _⟩
  · rw [he]; rfl
  · have hpos := h.chain.pos
    obtain ⟨x, hx⟩ := exists_row hne
    have hw := part_within h ha hp hx
    have hle := head_le (leaf_rows h ha).1 hr x (mem_leafRows hp hx)
    have hin := (leaf_rows h ha).2.1 _ (List.mem_of_mem_head? hr)
    exact leaf_which h hpos ⟨fun a e => hin.1 a e, fun b e => le_trans hle (hw.2 b e)⟩

/-- What `relPos` finds. -/
theorem relPos_ok {c : Ctx K R B} {lo : Option K} {l : Leaf K R} (h : LeafCore c [] lo none l) (ha : AllMem l.parts)
    (he : EndsFull l) (live : R → Bool) (u : Bool) (k : K) :
    ∃ pos, relPos live u l k = .ok pos ∧ (pos.inside = true → InB lo none k ∧
      (∀ i, pos.target = some i → whichChild l.parts.length l.pivots k = some i) ∧
      (u = true → pos.found = ((c.spec k).map live).getD false)) := by
  obtain ⟨hs, hw, hl⟩ := leaf_rows h ha
  have up : ∀ {x y : K}, InB lo none x → x ≤ y → InB lo none y := fun hx hxy =>
    ⟨fun a e => lt_of_lt_of_le (hx.1 a e) hxy, fun _ e => by cases e⟩
  unfold relPos
  cases hr : (leafRows l).getLast? with
  | none => exact ⟨_, rfl, fun h => by cases h⟩
  | some x =>
    obtain ⟨rk, rr⟩ := x
    have hin := hw _ (List.mem_of_getLast? hr)
    simp only
    by_cases h1 : rk < k
    · rw [if_pos h1]
      have hk := up hin (le_of_lt h1)
      refine ⟨_, rfl, fun _ => ⟨hk, ?_, ?_⟩⟩
      · intro i e
        cases e
        exact last_which h ha he hr (le_of_lt h1)
      · intro _
        rw [← hl k hk, lookup_none_of]
        · rfl
        · intro p hp
          exact ne_of_lt (lt_of_le_of_lt (le_last hs hr p hp) h1)
    · rw [if_neg h1]
      by_cases h2 : k = rk
      · rw [if_pos h2]
        subst h2
        refine ⟨_, rfl, fun _ => ⟨hin, ?_, ?_⟩⟩
        · intro i e
          cases e
          exact last_which h ha he hr (le_refl _)
        · intro hu
          rw [← hl k hin, mem_lookup hs (List.mem_of_getLast? hr), hu]
          rfl
      · rw [if_neg h2]
        cases hh : (leafRows l).head? with
        | none =>
          rw [List.head?_eq_none_iff] at hh
          rw [hh] at hr
          cases hr
        | some y =>
          obtain ⟨lk, lr⟩ := y
          have hin' := hw _ (List.mem_of_mem_head? hh)
          simp only
          by_cases h3 : lk < k
          · rw [if_pos h3]
            have hk := up hin' (le_of_lt h3)
            cases u with
            | false => exact ⟨_, rfl, fun _ => ⟨hk, fun i e => (by cases e), fun h => (by cases h)⟩⟩
            | true =>
              obtain ⟨i, p, w1, w2, w3, w4⟩ := chain_which (ext := l.pivots.drop (l.parts.length - 1)) h.chain hk
              rw [← Leaf.pivots_eq] at w1
              simp only [if_true, w1, w2, need_some, Out.ok_bind]
              refine ⟨_, rfl, fun _ => ⟨hk, ?_, ?_⟩⟩
              · intro j e
                cases e
                rfl
              · intro _
                obtain ⟨b, hb⟩ := ha p (List.mem_of_getElem? w2)
                have hi := ((chain_get h.chain w2).bn b hb).1.img k w4
                simp only [partRows_mem hb]
                rw [← hi]
                rfl
          · rw [if_neg h3]
            by_cases h4 : k = lk
            · rw [if_pos h4]
              subst h4
              refine ⟨_, rfl, fun _ => ⟨hin', ?_, ?_⟩⟩
              · intro i e
                cases e
                exact first_which h ha he hh
              · intro hu
                rw [← hl k hin', mem_lookup hs (List.mem_of_mem_head? hh), hu]
                rfl
            · rw [if_neg h4]
              exact ⟨_, rfl, fun h => by cases h⟩

theorem leafPutAt_eq {sem : Sem K R B} {l : Leaf K R} {target : Option Nat} {m : Msg K B} {k : K} (hk : m.kind = .once k)
    (ht : ∀ i, target = some i → whichChild l.parts.length l.pivots k = some i) :
    leafPutAt sem l target m k = leafPut sem l m := by
  unfold leafPutAt leafPut
  rw [hk]
  cases target with
  | none => rfl
  | some i =>
    simp only [ht i rfl, need_some, Out.ok_bind]

/-- The last leaf of a tree with nothing on the way to it. -/
theorem lastLeaf_ok {c : Ctx K R B} : ∀ {h : Nat} {lo : Option K} {n : Node K R B h}, Good c h lo none [] n → Clear h n →
    ∃ l lo', lastLeaf h n = some l ∧ Good c 0 lo' none [] l ∧ ∀ k, InB lo' none k → InB lo none k ∧
      ∀ (e : Ent K B), e.msg.kind = .once k → ∀ l', leafPut c.sem (loadLeaf l) e.msg = .ok l' →
        inject c.sem h h n e = .ok (setLastLeaf l' h n)
  | 0, lo, l, hg, _ => ⟨l, lo, rfl, hg, fun _ hk => ⟨hk, fun _ _ _ h => h⟩⟩
  | h + 1, lo, n, hg, hc => by
    obtain ⟨d, c1, c2⟩ := hc
    obtain ⟨h1, h2, h3⟩ := hg
    have hpos := h3.pos
    have hi : childHi none (Inner.pivots n) (Inner.kids n).length ((Inner.kids n).length - 1) = none :=
      if_pos (by omega)
    have hP := chain_get h3 c1
    rw [hi] at hP
    obtain ⟨l, lo', q1, q2, q3⟩ := lastLeaf_ok hP.2 c2
    refine ⟨l, lo', ?_, q2, ?_⟩
    · unfold lastLeaf
      rw [c1]
      exact q1
    · intro k hk
      obtain ⟨r1, r2⟩ := q3 k hk
      have r1' : InB (childLo lo (Inner.pivots n) ((Inner.kids n).length - 1))
          (childHi none (Inner.pivots n) (Inner.kids n).length ((Inner.kids n).length - 1)) k := by rw [hi]; exact r1
      refine ⟨childLo_inB h3 (by omega) k r1', ?_⟩
      intro e he l' hl'
      have hw := which_unique (ext := []) h3 (by omega) r1'
      rw [List.append_nil] at hw
      have := r2 e he l' hl'
      unfold inject setLastLeaf
      rw [he]
      simp only [hw, c1, need_some, Out.ok_bind]
      refine Eq.trans (if_pos rfl) ?_
      rw [this]
      rfl

theorem present_eq (sem : Sem K R B) (w : Puts V R B) (hist : List (Kind K × B)) (k : K) :
    ((rowAfter sem hist k).map w.live).getD false = present sem w hist k := by
  unfold present
  cases rowAfter sem hist k <;> rfl

theorem send_ok {sem : Sem K R B} {hist : List (Kind K × B)} {s : Dict K R B} (h : TreeOk sem hist s.tree) (kind : Kind K)
    (body : B) (depth : Nat) :
    ∃ s', send sem s kind body depth = .ok s' ∧ TreeOk sem (hist ++ [(kind, body)]) s'.tree := by
  rcases step_ok h (.put kind body depth) with ⟨_, q⟩ | ⟨t', q1, q2⟩
  · cases q
  · unfold send
    rw [q1]
    exact ⟨_, rfl, q2⟩

/-- The shortcut when it is allowed to be tried. -/
theorem fast_ok {sem : Sem K R B} {w : Puts V R B} {hist : List (Kind K × B)} {s : Dict K R B} (h : TreeOk sem hist s.tree)
    (hp : PathInv s) {k : K} {body : B} {u st : Bool}
    (ht : scoreThreshold ≤ s.score → st = true → ∀ l, lastLeaf s.tree.h s.tree.root = some l → EndsFull (loadLeaf l)) :
    fast sem w.live s k body u st = .ok .no ∨
    (fast sem w.live s k body u st = .ok .exists ∧ u = true ∧ present sem w hist k = true) ∨
    ∃ s', fast sem w.live s k body u st = .ok (.inserted s') ∧ TreeOk sem (hist ++ [(.once k, body)]) s'.tree ∧
      (u = true → present sem w hist k = false) := by
  unfold fast
  by_cases h1 : s.score < scoreThreshold
  · exact Or.inl (if_pos h1)
  · rw [if_neg h1]
    have h1 := Nat.le_of_not_lt h1
    obtain ⟨p1, p2, p3⟩ := hp (Nat.lt_of_lt_of_le (by decide) h1)
    obtain ⟨l, lo', q1, q2, q3⟩ := lastLeaf_ok h p3
    rw [p1, q1]
    simp only [Bool.not_true, Bool.false_eq_true, if_false, need_some, Out.ok_bind]
    cases st with
    | false => exact Or.inl rfl
    | true =>
      simp only [Bool.not_true, Bool.false_eq_true, if_false]
      have hl := loadLeaf_ok q2.1
      obtain ⟨pos, r1, r2⟩ := relPos_ok hl.1 hl.2 (ht h1 rfl l q1) w.live u k
      rw [r1]
      simp only [Out.ok_bind]
      cases hin : pos.inside with
      | false => exact Or.inl rfl
      | true =>
        obtain ⟨w1, w2, w3⟩ := r2 hin
        simp only [Bool.not_true, Bool.false_eq_true, if_false]
        by_cases hf : (u && pos.found) = true
        · rw [if_pos hf]
          have hf' := Bool.and_eq_true_iff.1 hf
          refine Or.inr (Or.inl ⟨rfl, hf'.1, ?_⟩)
          have := w3 hf'.1
          rw [hf'.2] at this
          rw [← present_eq]
          exact this.symm
        · rw [if_neg hf]
          refine Or.inr (Or.inr ?_)
          rw [leafPutAt_eq rfl w2]
          obtain ⟨i1, i2⟩ := q3 k w1
          obtain ⟨n', j1, j2⟩ := inject_ok (e := ⟨⟨s.tree.maxMsn + 1, .once k, body⟩, .fresh⟩) s.tree.h h (by
            intro k' _
            exact inB_none k') (Nat.lt_succ_self _) rfl
          have hg' := q2.tr (tr_extend (c := ⟨sem, rowAfter sem hist, s.tree.maxMsn⟩)
            (e := ⟨⟨s.tree.maxMsn + 1, .once k, body⟩, .fresh⟩) (Nat.lt_succ_self _) rfl)
          have hl' := loadLeaf_ok hg'.1
          obtain ⟨l', k1, k2, k3, k4⟩ := leafPut_ok (V := []) (W := []) hl'.1 hl'.2 (by
            intro k' e
            cases e
            exact w1) (by intro x hx; cases hx) after_le (by intro x hx; cases hx) (by intro x hx; cases hx)
          have k1 : leafPut sem (loadLeaf l) ⟨s.tree.maxMsn + 1, .once k, body⟩ = .ok l' := k1
          have e := i2 ⟨⟨s.tree.maxMsn + 1, .once k, body⟩, .fresh⟩ rfl l' k1
          have e : n' = setLastLeaf l' s.tree.h s.tree.root := by
            have := j1.symm.trans e
            cases this
            rfl
          rw [k1]
          refine ⟨_, rfl, ?_, ?_⟩
          · show Good _ _ _ _ _ _
            simp only at j2 ⊢
            rw [after_spec, e] at j2
            exact j2
          · intro hu
            have := w3 hu
            rw [present_eq] at this
            rw [← this]
            rw [hu] at hf
            simpa using hf

theorem step_read {sem : Sem K R B} {hist : List (Kind K × B)} {t : Tree K R B} (h : TreeOk sem hist t) (k : K) :
    ∃ route t', routeOf k t.h t.root = some route ∧ step sem t (.read route) = .ok t' ∧ TreeOk sem hist t' := by
  obtain ⟨route, lo', hi', q1, q2, q3⟩ := routeOf_ok h (inB_none k)
  obtain ⟨rows, n', fs', w1, w2, w3, w4, w5, w6⟩ := readAt_ok (fs := []) h (by trivial) q2
  refine ⟨route, { t with root := n' }, q1, ?_, ?_⟩
  · have e : step sem t (.read route) = (match readAt sem t.h none none [] route t.root with
      | .ok (_, n, _) => Out.ok { t with root := n }
      | .skip => .skip
      | .crash => .crash) := rfl
    rw [e]
    simp only at w1
    rw [w1]
  · cases w6
    exact w5

theorem dstep_ok {sem : Sem K R B} {w : Puts V R B} {hist : List (Kind K × B)} {s : Dict K R B} (h : TreeOk sem hist s.tree)
    (hp : PathInv s) (op : DOp K B V) (ht : TameStep s op) :
    (dstep sem w s op = .skip ∧ expected sem w hist op = ([], .done)) ∨
    ∃ s', dstep sem w s op = .ok (s', (expected sem w hist op).2) ∧ TreeOk sem (hist ++ (expected sem w hist op).1) s'.tree := by
  cases op with
  | tree op =>
    have other : sentBy op = [] → (∀ kind body depth, op ≠ .put kind body depth) →
        (dstep sem w s (.tree op) = (step sem s.tree op >>= fun t => Out.ok ({ s with tree := t }, Ret.done))) →
        expected sem w hist (.tree op) = ([], .done) →
        (dstep sem w s (.tree op) = .skip ∧ expected sem w hist (.tree op) = ([], .done)) ∨
        ∃ s', dstep sem w s (.tree op) = .ok (s', (expected sem w hist (.tree op)).2) ∧
          TreeOk sem (hist ++ (expected sem w hist (.tree op)).1) s'.tree := by
      intro h1 h2 h3 h4
      rw [h3, h4]
      rcases step_ok h op with ⟨q, _⟩ | ⟨t', q1, q2⟩
      · rw [q]
        exact Or.inl ⟨rfl, rfl⟩
      · rw [q1]
        rw [h1] at q2
        exact Or.inr ⟨_, rfl, q2⟩
    cases op with
    | put kind body depth =>
      obtain ⟨s', q1, q2⟩ := send_ok h kind body depth
      refine Or.inr ⟨s', ?_, q2⟩
      show (send sem s kind body depth >>= fun s' => Out.ok (s', Ret.done)) = _
      rw [q1]
      rfl
    | flush => exact other rfl (fun _ _ _ => by simp) rfl rfl
    | split => exact other rfl (fun _ _ _ => by simp) rfl rfl
    | merge => exact other rfl (fun _ _ _ => by simp) rfl rfl
    | newRoot => exact other rfl (fun _ _ _ => by simp) rfl rfl
    | write => exact other rfl (fun _ _ _ => by simp) rfl rfl
    | evict => exact other rfl (fun _ _ _ => by simp) rfl rfl
    | moveStale => exact other rfl (fun _ _ _ => by simp) rfl rfl
    | reread => exact other rfl (fun _ _ _ => by simp) rfl rfl
    | read => exact other rfl (fun _ _ _ => by simp) rfl rfl
  | put how k v depth stable =>
    right
    have hf : ∀ u, _ := fun u => fast_ok (w := w) (u := u) (k := k) (body := w.ins v) h hp (st := stable) fun h1 h2 => (ht h1 h2).2
    have plain : how ≠ .unique → ∃ s', maybeInsert sem w s (how == .silent) k v depth stable = .ok (s', .done) ∧
        TreeOk sem (hist ++ [(.once k, if how = .silent then w.insNo v else w.ins v)]) s'.tree := by
      intro hu
      unfold maybeInsert
      have snd : ∃ s', (send sem s (.once k) (if (how == .silent) then w.insNo v else w.ins v) depth >>= fun s' =>
          Out.ok (s', Ret.done)) = .ok (s', .done) ∧
          TreeOk sem (hist ++ [(.once k, if how = .silent then w.insNo v else w.ins v)]) s'.tree := by
        obtain ⟨s', q1, q2⟩ := send_ok h (.once k) (if (how == .silent) then w.insNo v else w.ins v) depth
        rw [q1]
        refine ⟨s', rfl, ?_⟩
        simpa using q2
      rcases hf false with q | ⟨_, q, _⟩ | ⟨s', q1, q2, _⟩
      · rw [q]
        exact snd
      · cases q
      · have hn : how ≠ .silent := by
          by_cases h1 : scoreThreshold ≤ s.score
          · cases hst : stable with
            | true => exact (ht h1 hst).1
            | false =>
              unfold fast at q1
              rw [if_neg (Nat.not_lt.2 h1), hst] at q1
              split at q1
              · cases q1
              · cases hl : lastLeaf s.tree.h s.tree.root with
                | none => rw [hl] at q1; cases q1
                | some l => rw [hl] at q1; cases q1
          · unfold fast at q1
            rw [if_pos (Nat.lt_of_not_le h1)] at q1
            cases q1
        rw [q1, if_neg hn]
        exact ⟨s', rfl, q2⟩
    cases how with
    | over => exact plain (by decide)
    | silent => exact plain (by decide)
    | unique =>
      show ∃ s', insertUnique sem w s k v depth stable = _ ∧ _
      unfold insertUnique expected
      rcases hf true with q | ⟨q, _, hpr⟩ | ⟨s', q1, q2, hpr⟩
      · rw [q]
        simp only [Out.ok_bind, get_ok h k]
        obtain ⟨route, t', r1, r2, r3⟩ := step_read h k
        simp only [r1, r2, need_some, Out.ok_bind, present_eq]
        cases hpr : present sem w hist k with
        | true =>
          simp only [if_true]
          exact ⟨_, rfl, by rw [List.append_nil]; exact r3⟩
        | false =>
          simp only [Bool.false_eq_true, if_false]
          obtain ⟨s', q1, q2⟩ := send_ok (s := { s with tree := t' }) r3 (.once k) (w.ins v) depth
          rw [q1]
          exact ⟨s', rfl, q2⟩
      · rw [q]
        simp only [hpr, if_true]
        exact ⟨s, rfl, by simpa using h⟩
      · rw [q1]
        simp only [hpr rfl, Bool.false_eq_true, if_false]
        exact ⟨s', rfl, q2⟩

theorem drun_ok {sem : Sem K R B} {w : Puts V R B} : ∀ {ops : List (DOp K B V)} {hist : List (Kind K × B)} {s : Dict K R B},
    TreeOk sem hist s.tree → PathInv s → Tame sem w s ops →
    ∃ s', drun sem w s ops = some (s', (expectedRun sem w hist ops).2) ∧ TreeOk sem (expectedRun sem w hist ops).1 s'.tree
  | [], hist, s, h, _, _ => ⟨s, rfl, h⟩
  | op :: ops, hist, s, h, hp, ht => by
    obtain ⟨t1, t2⟩ := ht
    unfold drun expectedRun
    rcases dstep_ok (w := w) h hp op t1 with ⟨q1, q2⟩ | ⟨s', q1, q2⟩
    · rw [q1] at t2 ⊢
      obtain ⟨s', r1, r2⟩ := drun_ok h hp t2
      refine ⟨s', ?_, ?_⟩
      · simp only [q2, List.append_nil, r1, Option.map_some]
      · simp only [q2, List.append_nil]
        exact r2
    · rw [q1] at t2 ⊢
      obtain ⟨s2, r1, r2⟩ := drun_ok q2 (dstep_path q1 hp) t2
      refine ⟨s2, ?_, r2⟩
      simp only [r1, Option.map_some]

end Verif.Tree
