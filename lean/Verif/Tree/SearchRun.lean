import Verif.Tree.SearchRoute

/-! One attempt, and a whole search with other work in between. -/
namespace Verif.Tree
set_option linter.unusedSectionVars false
variable {K R B : Type} [LinearOrder K]

/-- Nearer to where the search starts. -/
def Before (g : Goal K) (x k : K) : Prop := if g.left then x < k else k < x

/-- What one attempt gives. -/
def AttemptOk (vis : K → R → Bool) (g : Goal K) (pb : Option K) (v : K → Option R) (res : Res K R) (b : Option K) : Prop :=
  match res with
  | .found k r => v k = some r ∧ vis k r = true ∧ g.cmp k = true ∧ ∀ x, Left g pb x → Before g x k → Hidden vis v x
  | .missing => ∀ x, Left g pb x → Within g x → Hidden vis v x
  | .again => (∃ y, b = some y ∧ ∀ c, pb = some c → Before g c y) ∧ ∀ x, Left g pb x → Left g b x ∨ Hidden vis v x

theorem right_within {g : Goal K} (hg : g.left = false) (x : K) : Within g x := by
  intro b hb
  cases g with
  | first => cases hg
  | atLeast => cases hg
  | after => cases hg
  | last => cases hb
  | atMost => cases hb
  | before => cases hb

theorem attempt_ok {sem : Sem K R B} {hist : List (Kind K × B)} {t : Tree K R B} (h : TreeOk sem hist t) (vis : K → R → Bool)
    (g : Goal K) (pb : Option K) :
    ∃ res t' b, attempt sem vis g pb t = .ok (res, t', b) ∧ TreeOk sem hist t' ∧
      AttemptOk vis g pb (rowAfter sem hist) res b := by
  have read : ∀ {route lo' hi'}, boundsAt t.h none none route t.root = some (lo', hi') →
      ∃ rows n', readAt sem t.h none none [] route t.root = .ok (rows, n', []) ∧ Sorted rows ∧ RowsIn lo' hi' rows ∧
        (∀ k, InB lo' hi' k → lookup rows k = rowAfter sem hist k) ∧ TreeOk sem hist { t with root := n' } := by
    intro route lo' hi' hb
    obtain ⟨rows, n', fs', q1, q2, q3, q4, q5, q6⟩ := readAt_ok (fs := []) h (by trivial) hb
    have : fs' = [] := by
      cases fs' with
      | nil => rfl
      | cons _ _ => cases q6
    subst this
    exact ⟨rows, n', q1, q2, q3, q4, q5⟩
  have hid : ∀ {lo' hi' : Option K} {rows : Rows K R}, (∀ k, InB lo' hi' k → lookup rows k = rowAfter sem hist k) →
      ∀ {x}, InB lo' hi' x → Hidden vis (lookup rows) x → Hidden vis (rowAfter sem hist) x := by
    intro lo' hi' rows hl x hx hh r hr
    exact hh r (by rw [hl x hx]; exact hr)
  unfold attempt
  cases hg : g.left with
  | true =>
    obtain ⟨route, lo', hi', q1, q2, q0, q3, q4, q5⟩ := route_left hg (pb := pb) h
    obtain ⟨rows, n', r1, r2, r3, r4, r5⟩ := read q2
    rw [q1]
    simp only [r1]
    cases hs : searchRows vis g rows with
    | some p =>
      obtain ⟨k, r⟩ := p
      obtain ⟨w1, w2, w3, w4⟩ := searchRows_found r2 hs
      have hk : InB lo' hi' k := r3 _ (lookup_mem w1)
      refine ⟨_, _, _, rfl, r5, (r4 k hk).symm.trans w1, w2, w3, ?_⟩
      intro x hx hb
      have hlt := hb
      unfold Before at hlt
      rw [hg, if_pos rfl] at hlt
      exact hid r4 (q3 x k (inB_none x) hx hk (le_of_lt hlt)) (w4 x hx.1 hb)
    | none =>
      have w := searchRows_none r2 hs
      cases hm : missedUp g t.h route t.root pb with
      | mk a b =>
        cases a with
        | true =>
          refine ⟨_, _, _, rfl, r5, ?_⟩
          obtain ⟨y, w1, w2, w3, w4, w5⟩ := q4 b hm
          refine ⟨⟨y, w1, fun c hc => ?_⟩, ?_⟩
          · unfold Before
            rw [hg, if_pos rfl]
            exact w2 c hc
          · intro x hx
            rcases lt_or_ge y x with hyx | hxy
            · left
              refine ⟨hx.1, fun c hc => ?_⟩
              rw [w1] at hc
              cases hc
              rw [hg, if_pos rfl]
              exact hyx
            · right
              exact hid r4 (w5 x (inB_none x) hx hxy) (w x hx.1 fun kb hkb => le_trans hxy (w4 kb hkb))
        | false =>
          refine ⟨_, _, _, rfl, r5, ?_⟩
          intro x hx hw
          exact hid r4 (q5 b hm x (inB_none x) hx hw) (w x hx.1 hw)
  | false =>
    obtain ⟨route, lo', hi', q1, q2, q0, q3, q4, q5⟩ := route_right hg (pb := pb) h
    obtain ⟨rows, n', r1, r2, r3, r4, r5⟩ := read q2
    rw [q1]
    simp only [r1]
    cases hs : searchRows vis g rows with
    | some p =>
      obtain ⟨k, r⟩ := p
      obtain ⟨w1, w2, w3, w4⟩ := searchRows_found r2 hs
      have hk : InB lo' hi' k := r3 _ (lookup_mem w1)
      refine ⟨_, _, _, rfl, r5, (r4 k hk).symm.trans w1, w2, w3, ?_⟩
      intro x hx hb
      have hlt := hb
      unfold Before at hlt
      rw [hg] at hlt
      simp only [Bool.false_eq_true, if_false] at hlt
      exact hid r4 (q3 x k (inB_none x) hx hk (le_of_lt hlt)) (w4 x hx.1 hb)
    | none =>
      have w := searchRows_none r2 hs
      cases hm : missedUp g t.h route t.root pb with
      | mk a b =>
        cases a with
        | true =>
          refine ⟨_, _, _, rfl, r5, ?_⟩
          obtain ⟨y, w1, w2, w3, w4⟩ := q4 b hm
          refine ⟨⟨y, w1, fun c hc => ?_⟩, ?_⟩
          · unfold Before
            rw [hg]
            exact w2 c hc
          · intro x hx
            rcases lt_or_ge y x with hyx | hxy
            · right
              exact hid r4 (w4 x (inB_none x) hx hyx) (w x hx.1 (right_within hg x))
            · left
              refine ⟨hx.1, fun c hc => ?_⟩
              rw [w1] at hc
              cases hc
              rw [hg]
              exact hxy
        | false =>
          refine ⟨_, _, _, rfl, r5, ?_⟩
          intro x hx hw
          exact hid r4 (q5 b hm x (inB_none x) hx) (w x hx.1 hw)

/-- The messages sent up to attempt number `i`. -/
def histAt (hist : List (Kind K × B)) (segs : List (List (Op K B))) (i : Nat) : List (Kind K × B) :=
  hist ++ sent (segs.take (i + 1)).flatten

theorem sent_append : ∀ (a b : List (Op K B)), sent (a ++ b) = sent a ++ sent b
  | [], b => rfl
  | op :: a, b => by
    rw [List.cons_append, sent_cons, sent_cons, sent_append a b, List.append_assoc]

theorem histAt_zero (hist : List (Kind K × B)) (ops : List (Op K B)) (segs : List (List (Op K B))) :
    histAt hist (ops :: segs) 0 = hist ++ sent ops := by
  unfold histAt
  simp

theorem histAt_succ (hist : List (Kind K × B)) (ops : List (Op K B)) (segs : List (List (Op K B))) (i : Nat) :
    histAt hist (ops :: segs) (i + 1) = histAt (hist ++ sent ops) segs i := by
  unfold histAt
  rw [List.take_succ_cons, List.flatten_cons, sent_append, List.append_assoc]

/-- What a search that ended at attempt `n` gives. -/
def SearchOk (vis : K → R → Bool) (g : Goal K) (pb : Option K) (v : Nat → K → Option R) (n : Nat) : Res K R → Prop
  | .found k r => v n k = some r ∧ vis k r = true ∧ g.cmp k = true ∧
      ∀ x, Left g pb x → Before g x k → ∃ i, i ≤ n ∧ Hidden vis (v i) x
  | .missing => ∀ x, Left g pb x → Within g x → ∃ i, i ≤ n ∧ Hidden vis (v i) x
  | .again => False

theorem search_ok {sem : Sem K R B} {vis : K → R → Bool} {g : Goal K} : ∀ {segs : List (List (Op K B))} {hist : List (Kind K × B)}
    {t : Tree K R B} (pb : Option K), TreeOk sem hist t →
    (∃ t', search sem vis g pb t segs = .ok (.again, t') ∧ TreeOk sem (hist ++ sent segs.flatten) t') ∨
    ∃ n, n < segs.length ∧ ∃ res t', search sem vis g pb t segs = .ok (res, t') ∧ TreeOk sem (histAt hist segs n) t' ∧
      SearchOk vis g pb (fun i => rowAfter sem (histAt hist segs i)) n res
  | [], hist, t, pb, h => Or.inl ⟨t, rfl, by simpa [sent] using h⟩
  | ops :: segs, hist, t, pb, h => by
    unfold search
    obtain ⟨t1, e1, h1⟩ := run_ok (ops := ops) h
    obtain ⟨res, t2, b, e2, h2, h3⟩ := attempt_ok h1 vis g pb
    rw [e1]
    simp only [e2]
    cases res with
    | found k r =>
      right
      refine ⟨0, Nat.succ_pos _, _, _, rfl, by rw [histAt_zero]; exact h2, ?_⟩
      obtain ⟨w1, w2, w3, w4⟩ := h3
      simp only [SearchOk]
      rw [histAt_zero]
      refine ⟨w1, w2, w3, fun x hx hb => ⟨0, Nat.le_refl _, ?_⟩⟩
      rw [histAt_zero]
      exact w4 x hx hb
    | missing =>
      right
      refine ⟨0, Nat.succ_pos _, _, _, rfl, by rw [histAt_zero]; exact h2, ?_⟩
      intro x hx hw
      refine ⟨0, Nat.le_refl _, ?_⟩
      simp only [histAt_zero]
      exact h3 x hx hw
    | again =>
      simp only
      obtain ⟨⟨y, hy, _⟩, h4⟩ := h3
      rcases search_ok (vis := vis) (g := g) (segs := segs) b h2 with ⟨t', e, q⟩ | ⟨n, hn, res, t', e, q, hok⟩
      · left
        refine ⟨t', e, ?_⟩
        rw [List.flatten_cons, sent_append, ← List.append_assoc]
        exact q
      · right
        refine ⟨n + 1, by simpa using hn, res, t', e, by rw [histAt_succ]; exact q, ?_⟩
        have up : ∀ {x}, (∃ i, i ≤ n ∧ Hidden vis (rowAfter sem (histAt (hist ++ sent ops) segs i)) x) →
            ∃ i, i ≤ n + 1 ∧ Hidden vis (rowAfter sem (histAt hist (ops :: segs) i)) x := by
          intro x ⟨i, hi, hh⟩
          exact ⟨i + 1, by omega, by rw [histAt_succ]; exact hh⟩
        have now : ∀ {x}, Hidden vis (rowAfter sem (hist ++ sent ops)) x →
            ∃ i, i ≤ n + 1 ∧ Hidden vis (rowAfter sem (histAt hist (ops :: segs) i)) x := by
          intro x hh
          exact ⟨0, by omega, by rw [histAt_zero]; exact hh⟩
        cases res with
        | again => exact hok
        | found k r =>
          obtain ⟨w1, w2, w3, w4⟩ := hok
          simp only [SearchOk]
          rw [histAt_succ]
          refine ⟨w1, w2, w3, fun x hx hb => ?_⟩
          rcases h4 x hx with h5 | h5
          · exact up (w4 x h5 hb)
          · exact now h5
        | missing =>
          intro x hx hw
          rcases h4 x hx with h5 | h5
          · exact up (hok x h5 hw)
          · exact now h5

/-! ### A search left alone ends -/

/-- All pivots of a subtree. -/
def allPivots : (h : Nat) → Node K R B h → List K
  | 0, l => Leaf.ks l
  | h + 1, n => Inner.pivots n ++ (Inner.kids n).flatMap fun p => allPivots h p.2

theorem applyAll_length (sem : Sem K R B) (lo hi : Option K) (ps : List K) (n : Nat) : ∀ (i : Nat) (parts : List (Part K R))
    (fs : List (Frame K B)), (applyAll sem lo hi ps n i parts fs).1.length = parts.length
  | _, [], _ => rfl
  | i, p :: rest, fs => by
    unfold applyAll
    split
    · simp [applyAll_length sem lo hi ps n (i + 1) rest]
    · simp [applyAll_length sem lo hi ps n (i + 1) rest]

theorem readLeaf_shape {sem : Sem K R B} {lo hi : Option K} {l l' : Leaf K R} {j : Nat} {fs fs' : List (Frame K B)} {rows : Rows K R}
    (h : readLeaf sem lo hi l j fs = .ok (rows, l', fs')) : l'.pivots = l.pivots ∧ l'.parts.length = l.parts.length := by
  unfold readLeaf at h
  cases hp : l.parts[j]? with
  | none => rw [hp] at h; cases h
  | some p =>
    rw [hp] at h
    simp only [Out.ok_bind] at h
    cases hm : (loadPart l.msn p).mem with
    | none => rw [hm] at h; cases h
    | some b =>
      rw [hm] at h
      simp only [need_some, Out.ok_bind] at h
      split at h
      · split at h
        · cases hq : (applyAll sem lo hi l.pivots l.parts.length 0 (l.parts.set j (loadPart l.msn p)) fs).1[j]? with
          | none => rw [hq] at h; cases h
          | some q =>
            rw [hq] at h
            simp only [need_some, Out.ok_bind] at h
            cases hb : q.mem with
            | none => rw [hb] at h; cases h
            | some b' =>
              rw [hb] at h
              simp only [need_some, Out.ok_bind] at h
              cases h
              exact ⟨rfl, by rw [applyAll_length, List.length_set]⟩
        · cases h
          exact ⟨rfl, by rw [List.length_set]⟩
      · split at h
        · cases h
          exact ⟨rfl, by rw [List.length_set]⟩
        · cases h
          exact ⟨rfl, by rw [List.length_set]⟩

theorem flatMap_set {α β : Type} {f : α → List β} : ∀ {l : List α} {i : Nat} {a b : α}, l[i]? = some a → f b = f a →
    (l.set i b).flatMap f = l.flatMap f
  | [], _, _, _, h, _ => by cases h
  | x :: l, 0, a, b, h, e => by
    cases h
    simp [e]
  | x :: l, i + 1, a, b, h, e => by
    simp only [List.set_cons_succ, List.flatMap_cons]
    rw [flatMap_set (l := l) (i := i) (by simpa using h) e]

theorem readAt_pivots {sem : Sem K R B} : ∀ {h : Nat} {lo hi : Option K} {fs fs' : List (Frame K B)} {route : List Nat}
    {n n' : Node K R B h} {rows : Rows K R}, readAt sem h lo hi fs route n = .ok (rows, n', fs') → allPivots h n' = allPivots h n
  | 0, lo, hi, fs, fs', route, l, l', rows, h => by
    match route, h with
    | [], h => cases h
    | _ :: _ :: _, h => cases h
    | [j], h =>
      have := readLeaf_shape (l := l) (l' := l') h
      show Leaf.ks l' = Leaf.ks l
      unfold Leaf.ks
      rw [this.1, this.2]
  | h + 1, lo, hi, fs, fs', [], n, n', rows, hr => by cases hr
  | h + 1, lo, hi, fs, fs', i :: route, n, n', rows, hr => by
    cases hk : (Inner.kids n)[i]? with
    | none => rw [readAt_none hk] at hr; cases hr
    | some p =>
      obtain ⟨s, ch⟩ := p
      rw [readAt_some hk] at hr
      cases hc : readAt sem h (childLo lo (Inner.pivots n) i) (childHi hi (Inner.pivots n) (Inner.kids n).length i)
            (⟨Inner.msn n, s⟩ :: fs) route ch with
      | skip => rw [hc] at hr; cases hr
      | crash => rw [hc] at hr; cases hr
      | ok q =>
        obtain ⟨rows1, c1, fs1⟩ := q
        rw [hc] at hr
        simp only [Out.ok_bind] at hr
        cases fs1 with
        | nil => cases hr
        | cons f fs2 =>
          simp only at hr
          cases hr
          have ih := readAt_pivots hc
          show Inner.pivots n ++ ((Inner.kids n).set i (f.slot, c1)).flatMap (fun p => allPivots h p.2) = _
          rw [flatMap_set hk ih]
          rfl

theorem missed_mem {g : Goal K} {ks ext : List K} {i : Nat} {b0 b' : Option K} (hi : i ≤ ks.length)
    (h : missed g (ks.length + 1) (ks ++ ext) i b0 = (true, b')) : ∃ y, b' = some y ∧ y ∈ ks := by
  unfold missed at h
  split at h
  · split at h
    · rename_i hlt
      have hk : i < ks.length := by omega
      rw [List.getElem?_append_left hk, List.getElem?_eq_getElem hk] at h
      exact ⟨_, (Prod.mk.inj h).2.symm, List.getElem_mem _⟩
    · cases (Prod.mk.inj h).1
  · split at h
    · have hk : i - 1 < ks.length := by omega
      rw [List.getElem?_append_left hk, List.getElem?_eq_getElem hk] at h
      exact ⟨_, (Prod.mk.inj h).2.symm, List.getElem_mem _⟩
    · cases (Prod.mk.inj h).1

theorem missedUp_mem {c : Ctx K R B} {g : Goal K} {pb : Option K} : ∀ {h : Nat} {lo hi : Option K} {U : List (Ent K B)}
    {route : List Nat} {n : Node K R B h} {b' : Option K} {z : Option K × Option K}, Good c h lo hi U n →
    boundsAt h lo hi route n = some z → missedUp g h route n pb = (true, b') → ∃ y, b' = some y ∧ y ∈ allPivots h n
  | 0, lo, hi, U, route, l, b', z, hg, hb, hm => by
    match route, hb, hm with
    | [j], hb, hm =>
      unfold boundsAt at hb
      split at hb
      · rename_i hj
        have e := Leaf.pivots_eq (l : Leaf K R)
        have hl := hg.1.chain.length
        have hm' : missed g (Leaf.parts l).length (Leaf.pivots l) j pb = (true, b') := hm
        rw [e, hl] at hm'
        exact missed_mem (ks := Leaf.ks l) (by omega) hm'
      · cases hb
  | h + 1, lo, hi, U, [], n, b', z, hg, hb, hm => by cases hb
  | h + 1, lo, hi, U, i :: route, n, b', z, hg, hb, hm => by
    obtain ⟨h1, h2, h3⟩ := hg
    unfold boundsAt at hb
    cases hk : (Inner.kids n)[i]? with
    | none => rw [hk] at hb; cases hb
    | some p =>
      obtain ⟨s, ch⟩ := p
      rw [hk] at hb
      simp only at hb
      rw [missedUp_cons hk] at hm
      split at hm
      · rename_i b hb'
        cases (Prod.mk.inj hm).2
        obtain ⟨y, w1, w2⟩ := missedUp_mem (chain_get h3 hk).2 hb hb'
        refine ⟨y, w1, List.mem_append_right _ (List.mem_flatMap.2 ⟨(s, ch), List.mem_of_getElem? hk, w2⟩)⟩
      · have hl := h3.length
        have hi' := lt_of_getElem? hk
        rw [hl] at hm
        have hle : i ≤ (Inner.pivots n).length := by omega
        obtain ⟨y, w1, w2⟩ := missed_mem (ext := []) hle (by rw [List.append_nil]; exact hm)
        exact ⟨y, w1, List.mem_append_left _ w2⟩

/-- The pivots of a tree. -/
def Tree.pivots (t : Tree K R B) : List K := allPivots t.h t.root

theorem attempt_pivots {sem : Sem K R B} {hist : List (Kind K × B)} {t : Tree K R B} (h : TreeOk sem hist t) {vis : K → R → Bool}
    {g : Goal K} {pb : Option K} {res : Res K R} {t' : Tree K R B} {b : Option K} (ha : attempt sem vis g pb t = .ok (res, t', b)) :
    t'.pivots = t.pivots ∧ (res = .again → ∃ y, b = some y ∧ y ∈ t.pivots) := by
  have hr : ∃ route z, searchRoute g pb t.h t.root = some route ∧ boundsAt t.h none none route t.root = some z := by
    cases hg : g.left with
    | true =>
      obtain ⟨route, lo', hi', q1, q2, _⟩ := route_left hg (pb := pb) h
      exact ⟨route, _, q1, q2⟩
    | false =>
      obtain ⟨route, lo', hi', q1, q2, _⟩ := route_right hg (pb := pb) h
      exact ⟨route, _, q1, q2⟩
  obtain ⟨route, z, q1, q2⟩ := hr
  unfold attempt at ha
  rw [q1] at ha
  simp only at ha
  cases hc : readAt sem t.h none none [] route t.root with
  | skip => rw [hc] at ha; cases ha
  | crash => rw [hc] at ha; cases ha
  | ok q =>
    obtain ⟨rows, n, fs⟩ := q
    rw [hc] at ha
    simp only at ha
    have hp := readAt_pivots hc
    split at ha
    · cases ha
      exact ⟨hp, fun e => by cases e⟩
    · split at ha
      · rename_i b1 hm
        cases ha
        exact ⟨hp, fun _ => missedUp_mem h q2 hm⟩
      · cases ha
        exact ⟨hp, fun e => by cases e⟩

instance (g : Goal K) (x k : K) : Decidable (Before g x k) := by unfold Before; infer_instance

/-- The pivots a search with bound `pb` has yet to pass. -/
def ahead (g : Goal K) (pb : Option K) (ps : List K) : List K :=
  ps.filter fun p => match pb with
    | none => true
    | some b => decide (Before g b p)

theorem Before.trans {g : Goal K} {a b c : K} (h : Before g a b) (h' : Before g b c) : Before g a c := by
  unfold Before at *
  split
  · rename_i hg; rw [if_pos hg] at h h'; exact lt_trans h h'
  · rename_i hg; rw [if_neg hg] at h h'; exact lt_trans h' h

theorem Before.irrefl {g : Goal K} (a : K) : ¬ Before g a a := by
  unfold Before
  split <;> exact lt_irrefl _

theorem filter_lt {α : Type} {p q : α → Bool} : ∀ {l : List α}, (∀ x, p x = true → q x = true) → (∃ x ∈ l, p x = false ∧ q x = true) →
    (l.filter p).length < (l.filter q).length
  | [], _, ⟨_, h, _⟩ => by cases h
  | a :: l, hpq, ⟨x, hx, h1, h2⟩ => by
    have hle : ∀ l : List α, (l.filter p).length ≤ (l.filter q).length := by
      intro l
      rw [← List.countP_eq_length_filter, ← List.countP_eq_length_filter]
      exact List.countP_mono_left fun x _ hx => hpq x hx
    rcases List.mem_cons.1 hx with rfl | hx
    · rw [List.filter_cons_of_neg (by simp [h1]), List.filter_cons_of_pos h2, List.length_cons]
      exact Nat.lt_succ_of_le (hle l)
    · have ih := filter_lt hpq ⟨x, hx, h1, h2⟩
      cases hp : p a with
      | true =>
        rw [List.filter_cons_of_pos hp, List.filter_cons_of_pos (hpq a hp), List.length_cons, List.length_cons]
        omega
      | false =>
        rw [List.filter_cons_of_neg (by simp [hp]), List.filter_cons]
        split
        · rw [List.length_cons]; omega
        · exact ih

theorem ahead_lt {g : Goal K} {pb : Option K} {y : K} {ps : List K} (hy : y ∈ ps) (h : ∀ c, pb = some c → Before g c y) :
    (ahead g (some y) ps).length < (ahead g pb ps).length := by
  unfold ahead
  apply filter_lt
  · intro x hx
    cases pb with
    | none => rfl
    | some b =>
      simp only [decide_eq_true_eq] at hx ⊢
      exact (h b rfl).trans hx
  · refine ⟨y, hy, by simpa using Before.irrefl y, ?_⟩
    cases pb with
    | none => rfl
    | some b => simpa using h b rfl

theorem search_ends {sem : Sem K R B} {hist : List (Kind K × B)} {vis : K → R → Bool} {g : Goal K} : ∀ (N : Nat) {t : Tree K R B}
    (pb : Option K), TreeOk sem hist t → (ahead g pb t.pivots).length ≤ N →
    ∃ res t', search sem vis g pb t (List.replicate (N + 1) []) = .ok (res, t') ∧ res ≠ .again
  | N, t, pb, h, hN => by
    obtain ⟨res, t1, b, e1, h1, h2⟩ := attempt_ok h vis g pb
    have hp := attempt_pivots h e1
    rw [List.replicate_succ]
    unfold search
    simp only [run, e1]
    cases res with
    | found k r => exact ⟨_, _, rfl, by intro e; cases e⟩
    | missing => exact ⟨_, _, rfl, by intro e; cases e⟩
    | again =>
      simp only
      obtain ⟨y, hy, hm⟩ := hp.2 rfl
      obtain ⟨⟨y', hy', hb⟩, _⟩ := h2
      rw [hy] at hy'
      cases hy'
      have hlt := ahead_lt hm hb
      match N, hN with
      | 0, hN => omega
      | N + 1, hN =>
        rw [hy]
        exact search_ends N (some y) h1 (by rw [hp.1]; omega)

end Verif.Tree
