import Verif.Tree.OptSlots

/-! A round of `toku_ft_hot_optimize` leaves no old message about keys above the start and up to its `max_current_key` in a
buffer, and the rounds join up. -/
namespace Verif.Tree
set_option linter.unusedSectionVars false
variable {K R B : Type} [LinearOrder K]

/-- No message numbered up to `M` waits for a key in `S`. -/
def QS (M : Nat) (S : K → Prop) (lo hi : Option K) (m : Msg K B) : Prop :=
  m.msn ≤ M → ∀ k, InB lo hi k → S k → m.about k = false

theorem qs_anti {M : Nat} {S : K → Prop} : Anti (B := B) (QS M S) :=
  fun _ _ _ _ _ hs h hm k hk hS => h hm k (hs k hk) hS

/-- Where a round is: above or at the lower bound of the node, below its own end, which is not beyond the node. -/
structure Range (lo hi high mx : Option K) : Prop where
  low : ∀ a, lo = some a → ∃ b, high = some b ∧ a ≤ b
  lt : ∀ b m, high = some b → mx = some m → b < m
  up : ∀ b, hi = some b → ∃ m, mx = some m ∧ m ≤ b

theorem Range.sub {lo hi high mx : Option K} (h : Range lo hi high mx) : Sub high mx lo hi := by
  intro k hk
  refine ⟨?_, ?_⟩
  · intro a ha
    obtain ⟨b, hb, hab⟩ := h.low a ha
    exact lt_of_le_of_lt hab (hk.1 b hb)
  · intro b hb
    obtain ⟨m, hm, hmb⟩ := h.up b hb
    exact le_trans (hk.2 m hm) hmb

/-- `i` pivots are at most `k`. -/
def Cut (ks : List K) (k : K) (i : Nat) : Prop := i ≤ ks.length ∧ ∀ j p, ks[j]? = some p → (j < i ↔ p ≤ k)

theorem hotSearch_cut {ks : List K} (hs : ks.Pairwise (· < ·)) (k : K) : ∀ fuel lo hi, hi - lo ≤ fuel → lo ≤ hi → hi ≤ ks.length →
    (∀ j p, ks[j]? = some p → j < lo → p ≤ k) → (∀ j p, ks[j]? = some p → hi ≤ j → k < p) →
    ∃ i, hotSearch ks k fuel lo hi = some i ∧ Cut ks k i := by
  have fin : ∀ lo hi, lo = hi → hi ≤ ks.length → (∀ j p, ks[j]? = some p → j < lo → p ≤ k) →
      (∀ j p, ks[j]? = some p → hi ≤ j → k < p) → Cut ks k lo := by
    intro lo hi h1 h2 h3 h4
    subst h1
    refine ⟨h2, fun j p hj => ⟨h3 j p hj, fun hp => ?_⟩⟩
    rcases Nat.lt_or_ge j lo with h | h
    · exact h
    · exact absurd hp (not_le.2 (h4 j p hj h))
  have mono : ∀ (j j' : Nat) (p p' : K), ks[j]? = some p → ks[j']? = some p' → j ≤ j' → p ≤ p' := by
    intro j j' p p' h h' hjj
    rcases Nat.lt_or_ge j j' with hlt | hge
    · obtain ⟨l1, e1⟩ := List.getElem?_eq_some_iff.1 h
      obtain ⟨l2, e2⟩ := List.getElem?_eq_some_iff.1 h'
      rw [← e1, ← e2]
      exact le_of_lt (List.pairwise_iff_getElem.1 hs _ _ l1 l2 hlt)
    · have : j = j' := by omega
      subst this
      rw [h] at h'
      cases h'
      exact le_refl _
  intro fuel
  induction fuel with
  | zero =>
    intro lo hi h1 h2 h3 h4 h5
    exact ⟨lo, rfl, fin lo hi (by omega) h3 h4 h5⟩
  | succ f ih =>
    intro lo hi h1 h2 h3 h4 h5
    unfold hotSearch
    by_cases hlt : lo < hi
    · rw [if_pos hlt]
      have hm : (lo + hi) / 2 < ks.length := by omega
      have hg : ks[(lo + hi) / 2]? = some ks[(lo + hi) / 2] := List.getElem?_eq_getElem hm
      simp only [hg]
      by_cases c1 : ks[(lo + hi) / 2] < k
      · rw [if_pos c1]
        exact ih _ _ (by omega) (by omega) h3 (fun j p hj hl => le_trans (mono _ _ _ _ hj hg (by omega)) (le_of_lt c1)) h5
      · rw [if_neg c1]
        by_cases c2 : k < ks[(lo + hi) / 2]
        · rw [if_pos c2]
          exact ih _ _ (by omega) (by omega) (by omega) h4 (fun j p hj hl => lt_of_lt_of_le c2 (mono _ _ _ _ hg hj (by omega)))
        · rw [if_neg c2]
          have he : ks[(lo + hi) / 2] = k := le_antisymm (not_lt.1 c2) (not_lt.1 c1)
          refine ⟨_, rfl, by omega, fun j p hj => ⟨fun hl => ?_, fun hp => ?_⟩⟩
          · rw [← he]
            exact mono _ _ _ _ hj hg (by omega)
          · rcases Nat.lt_or_ge j ((lo + hi) / 2 + 1) with h | h
            · exact h
            · exfalso
              obtain ⟨l1, e1⟩ := List.getElem?_eq_some_iff.1 hj
              have := List.pairwise_iff_getElem.1 hs _ _ hm l1 (by omega)
              rw [e1, he] at this
              exact absurd hp (not_le.2 this)
    · rw [if_neg hlt]
      exact ⟨lo, rfl, fin lo hi (by omega) h3 h4 h5⟩

/-- Where `hot_just_pick_child` goes. -/
def PickAt (ks : List K) (high : Option K) (i : Nat) : Prop :=
  match high with
  | none => i = 0
  | some k => Cut ks k i

theorem childHi_le {α : Type} {P : Option K → Option K → α → Prop} {lo hi : Option K} {ks : List K} {ps : List α}
    (h : Chain P lo hi ks ps) {i : Nat} (hi' : i < ps.length) : ∀ b, hi = some b → ∃ m, childHi hi ks ps.length i = some m ∧ m ≤ b := by
  intro b hb
  have hl := h.length
  unfold childHi
  split
  · exact ⟨b, hb, le_refl _⟩
  · have hk : i < ks.length := by omega
    refine ⟨ks[i], List.getElem?_eq_getElem hk, le_of_lt ((chain_below h _ (List.getElem_mem hk)).1 b hb)⟩

theorem childLo_ge {α : Type} {P : Option K → Option K → α → Prop} {lo hi : Option K} {ks : List K} {ps : List α}
    (h : Chain P lo hi ks ps) {i : Nat} (hi' : i < ps.length) : ∀ a, lo = some a → ∃ m, childLo lo ks i = some m ∧ a ≤ m := by
  intro a ha
  have hl := h.length
  unfold childLo
  split
  · exact ⟨a, ha, le_refl _⟩
  · have hk : i - 1 < ks.length := by omega
    refine ⟨ks[i - 1], List.getElem?_eq_getElem hk, le_of_lt ((chain_below h _ (List.getElem_mem hk)).2 a ha)⟩

theorem Range.widen {lo hi lo' hi' high mx : Option K} (h : Range lo' hi' high mx)
    (h1 : ∀ a, lo = some a → ∃ m, lo' = some m ∧ a ≤ m) (h2 : ∀ b, hi = some b → ∃ m, hi' = some m ∧ m ≤ b) : Range lo hi high mx := by
  refine ⟨?_, h.lt, ?_⟩
  · intro a ha
    obtain ⟨m, hm, ham⟩ := h1 a ha
    obtain ⟨b, hb, hmb⟩ := h.low m hm
    exact ⟨b, hb, le_trans ham hmb⟩
  · intro b hb
    obtain ⟨m, hm, hmb⟩ := h2 b hb
    obtain ⟨x, hx, hxm⟩ := h.up m hm
    exact ⟨x, hx, le_trans hxm hmb⟩

theorem pick_ok {P : Option K → Option K → Slot K B × C → Prop} {lo hi high mx : Option K} {n : Inner K B C}
    (h : Chain P lo hi n.pivots n.kids) (hr : Range lo hi high mx) :
    ∃ i mx1, hotPick n high = some i ∧ i < n.kids.length ∧ hotKeys n i mx = some mx1 ∧ PickAt n.pivots high i ∧
      Range (childLo lo n.pivots i) (childHi hi n.pivots n.kids.length i) high mx1 := by
  have hl := h.length
  have hpick : ∃ i, hotPick n high = some i ∧ i < n.kids.length ∧ PickAt n.pivots high i := by
    unfold hotPick PickAt
    cases high with
    | none => exact ⟨0, rfl, by omega, rfl⟩
    | some k =>
      obtain ⟨i, q1, q2⟩ := hotSearch_cut (chain_sorted h) k n.kids.length 0 (n.kids.length - 1) (by omega) (by omega) (by omega)
        (fun _ _ _ h => absurd h (by omega)) (fun j p hj hl' => by
          have := (List.getElem?_eq_some_iff.1 hj).1
          omega)
      exact ⟨i, q1, by have := q2.1; omega, q2⟩
  obtain ⟨i, q1, q2, q3⟩ := hpick
  have hlow : ∀ a, childLo lo n.pivots i = some a → ∃ b, high = some b ∧ a ≤ b := by
    intro a ha
    unfold childLo at ha
    split at ha
    · exact hr.low a ha
    · rename_i h0
      cases high with
      | none => exact absurd q3 h0
      | some k => exact ⟨k, rfl, (q3.2 _ a ha).1 (by omega)⟩
  by_cases hlast : i + 1 < n.kids.length
  · have hk : i < n.pivots.length := by omega
    refine ⟨i, some n.pivots[i], q1, q2, ?_, q3, hlow, ?_, ?_⟩
    · unfold hotKeys
      rw [if_pos hlast, List.getElem?_eq_getElem hk]
      rfl
    · intro b m hb hm
      cases hm
      subst hb
      have := q3.2 i _ (List.getElem?_eq_getElem hk)
      exact not_le.1 fun h => absurd (this.2 h) (by omega)
    · intro b hb
      unfold childHi at hb
      rw [if_neg (by omega), List.getElem?_eq_getElem hk] at hb
      cases hb
      exact ⟨_, rfl, le_refl _⟩
  · refine ⟨i, mx, q1, q2, ?_, q3, hlow, hr.lt, ?_⟩
    · unfold hotKeys
      rw [if_neg hlast]
    · intro b hb
      unfold childHi at hb
      rw [if_pos (by omega)] at hb
      exact hr.up b hb

/-- The keys of `S`, and those the round has just seen to. -/
def orIn (S : K → Prop) (high mx : Option K) : K → Prop := fun k => S k ∨ InB high mx k

/-- An emptied buffer, and nothing below. -/
theorem slots_grow {h : Nat} {lo hi high mx : Option K} {M : Nat} {S : K → Prop} {n : Inner K B (Node K R B h)} {i : Nat}
    {c c' : Node K R B h} (hs : Slots (QS M S) (h + 1) lo hi (n : Node K R B (h + 1))) (hk : n.kids[i]? = some ([], c))
    (hr : Range (childLo lo n.pivots i) (childHi hi n.pivots n.kids.length i) high mx)
    (hc : Slots (QS M (orIn S high mx)) h (childLo lo n.pivots i) (childHi hi n.pivots n.kids.length i) c') :
    Slots (QS M (orIn S high mx)) (h + 1) lo hi (({ n with kids := n.kids.set i ([], c') } : Inner K B (Node K R B h)) : Node K R B (h + 1)) := by
  refine chain_update hs (kid_lt hk) ⟨fun _ h => (by cases h), hc⟩ ?_
  intro lo' hi' p _ _ hd hP
  have key : ∀ lo2 hi2 (m : Msg K B), Sub lo2 hi2 lo' hi' → QS M S lo2 hi2 m → QS M (orIn S high mx) lo2 hi2 m := by
    intro lo2 hi2 m hsub hq hm k hk hS
    rcases hS with hS | hS
    · exact hq hm k hk hS
    · exact absurd (hr.sub k hS) (hd k (hsub k hk))
  exact ⟨fun e he => key _ _ _ (Sub.refl _ _) (hP.1 e he), Slots.mono hP.2 key⟩

/-- What a round is to do. -/
def GoOk (c : Ctx K R B) (M : Nat) (S : K → Prop) (high : Option K) (h : Nat)
    (go : Option K → Node K R B h → Out (Node K R B h × Option K)) : Prop :=
  ∀ lo hi mx (n : Node K R B h), Good c h lo hi [] n → Slots (QS M S) h lo hi n → Range lo hi high mx →
    ∃ n' mx', go mx n = .ok (n', mx') ∧ Good c h lo hi [] n' ∧ Slots (QS M (orIn S high mx')) h lo hi n' ∧ Range lo hi high mx'

theorem down_ok {c : Ctx K R B} {M : Nat} {S : K → Prop} {h : Nat} {lo hi high mx : Option K} {i : Nat}
    {n : Inner K B (Node K R B h)} {ch : Node K R B h} {go : Option K → Node K R B h → Out (Node K R B h × Option K)}
    (hgo : GoOk c M S high h go) (hg : Good c (h + 1) lo hi [] (n : Node K R B (h + 1)))
    (hs : Slots (QS M S) (h + 1) lo hi (n : Node K R B (h + 1))) (hk : n.kids[i]? = some ([], ch))
    (hr : Range (childLo lo n.pivots i) (childHi hi n.pivots n.kids.length i) high mx) :
    ∃ n' mx', down go i mx n = .ok (n', mx') ∧ Good c (h + 1) lo hi [] (n' : Node K R B (h + 1)) ∧
      Slots (QS M (orIn S high mx')) (h + 1) lo hi (n' : Node K R B (h + 1)) ∧ Range lo hi high mx' := by
  obtain ⟨h1, h2, h3⟩ := hg
  have hG := chain_get h3 hk
  have hP := chain_get hs hk
  obtain ⟨c', mx', q1, q2, q3, q4⟩ := hgo _ _ mx ch hG.2 hP.2 hr
  refine ⟨{ n with kids := n.kids.set i ([], c') }, mx', ?_, ⟨h1, h2, ?_⟩, slots_grow hs hk q4 q3, ?_⟩
  · unfold down
    rw [hk]
    simp only [need_some, Out.ok_bind]
    rw [q1]
    rfl
  · exact chain_set h3 (kid_lt hk) ⟨hG.1, q2⟩
  · exact q4.widen (childLo_ge h3 (kid_lt hk)) (childHi_le h3 (kid_lt hk))

/-- After a split of the child it came for, `hot_pick_child_after_split` finds one of the two parts. -/
theorem pick_after_split {ks : List K} {high : Option K} {k : K} {i i2 : Nat} (hi : i ≤ ks.length) (h1 : PickAt ks high i)
    (h2 : PickAt (ks.take i ++ k :: ks.drop i) high i2) : i2 = i ∨ i2 = i + 1 := by
  unfold PickAt at h1 h2
  cases high with
  | none => left; simp only at h1 h2; omega
  | some b =>
    simp only at h1 h2
    have hle : i ≤ i2 := by
      rcases Nat.lt_or_ge i2 i with h | h
      · have hl : i2 < ks.length := by omega
        have e1 : ks[i2]? = some ks[i2] := List.getElem?_eq_getElem hl
        have e2 : (ks.take i ++ k :: ks.drop i)[i2]? = some ks[i2] := by
          rw [List.getElem?_append_left (by rw [List.length_take]; omega), List.getElem?_take_of_lt h, e1]
        have := (h2.2 _ _ e2).2 ((h1.2 _ _ e1).1 h)
        omega
      · exact h
    have hge : i2 ≤ i + 1 := by
      rcases Nat.lt_or_ge (i + 1) i2 with h | h
      · have hl2 := h2.1
        rw [List.length_append, List.length_cons, List.length_take, List.length_drop] at hl2
        have hl : i < ks.length := by omega
        have e1 : ks[i]? = some ks[i] := List.getElem?_eq_getElem hl
        have e2 : (ks.take i ++ k :: ks.drop i)[i + 1]? = some ks[i] := by
          rw [List.getElem?_append_right (by rw [List.length_take]; omega), List.length_take,
            show i + 1 - min i ks.length = 1 by omega, List.getElem?_cons_succ, List.getElem?_drop]
          exact e1
        have := (h1.2 _ _ e1).2 ((h2.2 _ _ e2).1 h)
        omega
      · exact h
    omega

theorem childLo_erase (lo : Option K) (ks : List K) (j : Nat) : childLo lo (ks.eraseIdx j) j = childLo lo ks j := by
  unfold childLo
  split
  · rfl
  · rw [List.getElem?_eraseIdx_of_lt (by omega)]

theorem childHi_erase (hi : Option K) (ks : List K) (len j : Nat) (hj : j + 1 < len) :
    childHi hi (ks.eraseIdx j) (len - 1) j = childHi hi ks len (j + 1) := by
  unfold childHi
  by_cases h : j + 1 + 1 = len
  · rw [if_pos h, if_pos (by omega)]
  · rw [if_neg h, if_neg (by omega), List.getElem?_eraseIdx_of_ge (Nat.le_refl _)]

/-- The child left of a pivot ends before the one right of it does, and begins before. -/
theorem neighbours {α : Type} {P : Option K → Option K → α → Prop} {lo hi : Option K} {ks : List K} {ps : List α}
    (h : Chain P lo hi ks ps) {j : Nat} (hj : j + 1 < ps.length) :
    (∀ b, childHi hi ks ps.length (j + 1) = some b → ∃ m, childHi hi ks ps.length j = some m ∧ m ≤ b) ∧
    (∀ a, childLo lo ks j = some a → ∃ m, childLo lo ks (j + 1) = some m ∧ a ≤ m) := by
  have hl := h.length
  have hk : j < ks.length := by omega
  have e0 : childHi hi ks ps.length j = some ks[j] := by
    unfold childHi
    rw [if_neg (by omega), List.getElem?_eq_getElem hk]
  have e1 : childLo lo ks (j + 1) = some ks[j] := by
    unfold childLo
    rw [if_neg (by omega), Nat.add_sub_cancel, List.getElem?_eq_getElem hk]
  refine ⟨?_, ?_⟩
  · intro b hb
    refine ⟨_, e0, ?_⟩
    unfold childHi at hb
    split at hb
    · exact le_of_lt ((chain_below h _ (List.getElem_mem hk)).1 b hb)
    · obtain ⟨l2, e2⟩ := List.getElem?_eq_some_iff.1 hb
      rw [← e2]
      exact le_of_lt (List.pairwise_iff_getElem.1 (chain_sorted h) _ _ hk l2 (Nat.lt_succ_self _))
  · intro a ha
    refine ⟨_, e1, ?_⟩
    unfold childLo at ha
    split at ha
    · exact le_of_lt ((chain_below h _ (List.getElem_mem hk)).2 a ha)
    · obtain ⟨l2, e2⟩ := List.getElem?_eq_some_iff.1 ha
      rw [← e2]
      exact le_of_lt (List.pairwise_iff_getElem.1 (chain_sorted h) _ _ l2 hk (by omega))

theorem hotGo_succ (sem : Sem K R B) (h : Nat) (cs : List React) (high mx : Option K) (n : Inner K B (Node K R B h)) :
    hotGo sem (h + 1) cs high mx n = (do
    let i ← need (hotPick n high)
    let mx1 ← need (hotKeys n i mx)
    let n1 ← flushChild sem h false i true true n
    let go := hotGo sem h cs.tail high
    match cs.headD .stable with
    | .stable => down go i mx1 n1
    | .split =>
      match splitChild sem h .evenly i true false n1 with
      | .crash => .crash
      | .skip => down go i mx1 n1
      | .ok n2 => do
        let i2 ← need (hotPick n2 high)
        assertC (decide (i2 = i ∨ i2 = i + 1))
        let mx2 ← need (hotKeys n2 i2 mx1)
        down go i2 mx2 n2
    | .merge act =>
      match mergeChildren sem h act (i - 1) true false n1 with
      | .crash => .crash
      | .skip => down go i mx1 n1
      | .ok n2 => if h = 0 then .ok (n2, mx1) else down go (i - 1) mx1 n2) := rfl

theorem flush_done {c : Ctx K R B} {h : Nat} {lo hi : Option K} {n : Inner K B (Node K R B h)} {i : Nat} {r : Bool}
    (hg : Good c (h + 1) lo hi [] (n : Node K R B (h + 1))) (hi' : i < n.kids.length) :
    ∃ n', flushChild c.sem h false i true r n = .ok n' ∧ Good c (h + 1) lo hi [] (n' : Node K R B (h + 1)) := by
  obtain ⟨h1, h2, h3⟩ := hg
  cases hk : n.kids[i]? with
  | none => exact absurd hi' (by simpa using hk)
  | some p =>
    obtain ⟨s, ch⟩ := p
    have hP := chain_get h3 hk
    have hM := prepareChild_ok (pm := n.msn) (cl := false) hP.2 h2 (fun _ => rfl)
    obtain ⟨c', q1, q2⟩ := putAll_ok s hM hP.1.incr hP.1.keys
      (fun x hx => Nat.le_trans (hP.1.le x hx) h1)
      (fun x hx u hu => Nat.lt_of_le_of_lt (hP.1.le x hx) (h2 u hu))
    refine ⟨{ n with kids := n.kids.set i ([], c') }, ?_, h1, h2, chain_set h3 hi' ⟨slot_nil _ _ _, q2.good⟩⟩
    unfold flushChild guardS
    simp only [Bool.or_true, if_true, Out.ok_bind]
    rw [hk]
    simp only
    rw [q1]
    rfl

theorem hotGo_ok {c : Ctx K R B} {M : Nat} {S : K → Prop} {high : Option K} : ∀ (h : Nat) (cs : List React),
    GoOk c M S high h (hotGo c.sem h cs high)
  | 0, cs => fun lo hi mx n hg _ hr => ⟨n, mx, rfl, hg, trivial, hr⟩
  | h + 1, cs => by
    intro lo hi mx n hg hs hr
    obtain ⟨i, mx1, q1, q2, q3, q4, q5⟩ := pick_ok (n := (n : Inner K B (Node K R B h))) hg.2.2 hr
    have hgo : GoOk c M S high h (hotGo c.sem h cs.tail high) := hotGo_ok h cs.tail
    rw [hotGo_succ c.sem h cs high mx n, q1]
    simp only [need_some, Out.ok_bind]
    rw [q3]
    simp only [need_some, Out.ok_bind]
    obtain ⟨n1, w, hg1⟩ := flush_done (r := true) hg q2
    · rw [w]
      simp only [Out.ok_bind]
      have hs1 := flush_slots qs_anti hs w
      obtain ⟨s0, c0, c1, e0, _, rfl⟩ := flush_inv w
      have hk1 : (n.kids.set i (([] : Slot K B), c1))[i]? = some ([], c1) := by
        rw [List.getElem?_set_self q2]
      have hr1 : Range (childLo lo (Inner.pivots n) i)
          (childHi hi (Inner.pivots n) (n.kids.set i (([] : Slot K B), c1)).length i) high mx1 := by
        rw [List.length_set]
        exact q5
      have plain := down_ok hgo hg1 hs1 hk1 hr1
      cases hcs : cs.headD .stable with
      | stable => exact plain
      | split =>
        simp only
        rcases splitChild_ok hg1 .evenly i true false (fun _ => rfl) (fun h => by cases h) with w2 | ⟨n2, w2, hg2⟩
        · rw [w2]; exact plain
        · rw [w2]
          simp only
          have hs2 := split_slots hg1 (fun _ => rfl) (fun h => by cases h) hs1 w2
          obtain ⟨ch, a, b, k, e1, _, rfl⟩ := split_inv w2
          have hr2 : Range lo hi high mx1 := hr1.widen (childLo_ge hg1.2.2 (kid_lt hk1)) (childHi_le hg1.2.2 (kid_lt hk1))
          obtain ⟨i2, mx2, p1, p2, p3, p4, p5⟩ := pick_ok hg2.2.2 hr2
          rw [p1]
          simp only [need_some, Out.ok_bind]
          have hl := hg.2.2.length
          have hii := pick_after_split (by omega) q4 p4
          unfold assertC
          rw [if_pos (decide_eq_true hii)]
          simp only [Out.ok_bind]
          rw [p3]
          simp only [need_some, Out.ok_bind]
          have hk2 : ∃ x, ((n.kids.set i (([] : Slot K B), c1)).take i ++ ([], a) :: ([], b) ::
              (n.kids.set i (([] : Slot K B), c1)).drop (i + 1))[i2]? = some ([], x) := by
            have hlt : ((n.kids.set i (([] : Slot K B), c1)).take i).length = i := by
              rw [List.length_take, List.length_set]; omega
            rcases hii with rfl | rfl
            · refine ⟨a, ?_⟩
              rw [List.getElem?_append_right (by omega), hlt, Nat.sub_self]
              rfl
            · refine ⟨b, ?_⟩
              rw [List.getElem?_append_right (by omega), hlt, show i + 1 - i = 1 by omega]
              rfl
          obtain ⟨x, hk2⟩ := hk2
          exact down_ok hgo hg2 hs2 hk2 p5
      | merge act =>
        simp only
        rcases mergeChildren_ok hg1 act (i - 1) true false (fun _ => rfl) with w2 | ⟨n2, w2, hg2⟩
        · rw [w2]; exact plain
        · rw [w2]
          simp only
          by_cases h0 : h = 0
          · subst h0
            have hs2 := slots_grow hs1 hk1 hr1 (c' := c1) trivial
            rw [List.set_set] at hs2
            exact ⟨n2, mx1, if_pos rfl, hg2, merge_slots qs_anti hg1 (fun _ => rfl) hs2 w2,
              hr1.widen (childLo_ge hg1.2.2 (kid_lt hk1)) (childHi_le hg1.2.2 (kid_lt hk1))⟩
          · have hs2 := merge_slots qs_anti hg1 (fun _ => rfl) hs1 w2
            obtain ⟨sa, ca, sb, cb, a, b, k, m, m1, m2, _, _, _, _, m3, rfl⟩ := merge_inv w2
            cases h with
            | zero => exact absurd rfl h0
            | succ h' =>
              unfold mergeNodes at m3
              cases m3
              have hj := kid_lt m2
              have hnb := neighbours hg1.2.2 hj
              have hlen : (n.kids.set i (([] : Slot K B), c1)).length = n.kids.length := List.length_set
              have hlt : ((n.kids.set i (([] : Slot K B), c1)).take (i - 1)).length = i - 1 := by
                rw [List.length_take, hlen]; omega
              have hj : i - 1 + 1 < (n.kids.set i (([] : Slot K B), c1)).length := hj
              have hr2 : ∀ len, len = n.kids.length - 1 → Range (childLo lo (List.eraseIdx (Inner.pivots n) (i - 1)) (i - 1))
                  (childHi hi (List.eraseIdx (Inner.pivots n) (i - 1)) len (i - 1)) high mx1 := by
                intro len hle
                rw [hle, childLo_erase, childHi_erase _ _ _ _ (by omega)]
                have hnb1 : ∀ b, childHi hi (Inner.pivots n) (n.kids.set i (([] : Slot K B), c1)).length (i - 1 + 1) = some b →
                  ∃ m, childHi hi (Inner.pivots n) (n.kids.set i (([] : Slot K B), c1)).length (i - 1) = some m ∧ m ≤ b := hnb.1
                rw [hlen] at hnb1
                by_cases hz : i = 0
                · subst hz
                  exact q5.widen (fun a h => ⟨a, h, le_refl _⟩) hnb1
                · have hz' : i - 1 + 1 = i := by omega
                  have h2 := hnb.2
                  rw [hz'] at h2 ⊢
                  exact q5.widen h2 (fun a h => ⟨a, h, le_refl _⟩)
              have fin := fun nn pp => down_ok (i := i - 1) (n := ⟨nn, List.eraseIdx (Inner.pivots n) (i - 1),
                (n.kids.set i (([] : Slot K B), c1)).take (i - 1) ++ (([] : Slot K B), pp) ::
                  (n.kids.set i (([] : Slot K B), c1)).drop (i - 1 + 2)⟩) (ch := pp) (mx := mx1) (lo := lo) (hi := hi) hgo
              obtain ⟨n', mx', d1, d2⟩ := fin _ _ hg2 hs2 (by
                simp only
                rw [List.getElem?_append_right (by omega), hlt, Nat.sub_self]
                rfl) (by
                simp only
                refine hr2 _ ?_
                rw [List.length_append, List.length_cons, hlt, List.length_drop, hlen]
                omega)
              exact ⟨n', mx', (if_neg h0).trans d1, d2⟩

/-! ### Rounds -/

/-- The keys seen to so far. -/
def seen (left high : Option K) : K → Prop := fun k => ∃ b, high = some b ∧ InB left (some b) k

structure HotInv (sem : Sem K R B) (hist : List (Kind K × B)) (left right : Option K) (M : Nat) (s : HotSt K R B) : Prop where
  ok : TreeOk sem hist s.tree
  num : M ≤ s.tree.maxMsn
  open_ : s.done = false → (∀ a, left = some a → ∃ b, s.high = some b ∧ a ≤ b) ∧ Slots (QS M (seen left s.high)) s.tree.h none none s.tree.root
  shut : s.done = true → Slots (QS M (InB left right)) s.tree.h none none s.tree.root

theorem slots_of_good {c : Ctx K R B} {Q : Option K → Option K → Msg K B → Prop} (hQ : ∀ lo hi m, Q lo hi m) : ∀ {h : Nat} {lo hi : Option K}
    {W : List (Ent K B)} {n : Node K R B h}, Good c h lo hi W n → Slots Q h lo hi n
  | 0, _, _, _, _, _ => trivial
  | _ + 1, _, _, _, _, hg => chain_mono hg.2.2 fun _ _ _ _ _ hP => ⟨fun _ _ => hQ _ _ _, slots_of_good hQ hP.2⟩

theorem start_inv {sem : Sem K R B} {hist : List (Kind K × B)} {t : Tree K R B} (h : TreeOk sem hist t) (left right : Option K) :
    HotInv sem hist left right t.maxMsn (hotStart left t) := by
  refine ⟨h, Nat.le_refl _, fun _ => ⟨fun a ha => ⟨a, ha, le_refl _⟩, slots_of_good ?_ h⟩, fun h => (by cases h)⟩
  intro lo hi m _ k _ hS
  obtain ⟨b, hb, hk⟩ := hS
  exact absurd (hk.1 b hb) (not_lt.2 (hk.2 b rfl))

theorem op_inv {sem : Sem K R B} {hist : List (Kind K × B)} {left right : Option K} {M : Nat} {s : HotSt K R B} {o : Op K B}
    {t : Tree K R B} (h : HotInv sem hist left right M s) (hst : step sem s.tree o = .ok t)
    (ht : TreeOk sem (hist ++ sentBy o) t) : HotInv sem (hist ++ sentBy o) left right M { s with tree := t } := by
  have hn : ∀ (S : K → Prop) lo hi (m : Msg K B), s.tree.maxMsn < m.msn → QS M S lo hi m := by
    intro S lo hi m hm hM
    have := h.num
    omega
  have hmx : M ≤ t.maxMsn := by
    have : s.tree.maxMsn ≤ t.maxMsn := (step_slots (Q := QS M fun _ => False) qs_anti h.ok (hn _) hst
      (slots_of_good (fun _ _ _ _ _ _ hf => hf.elim) h.ok)).2
    have := h.num
    omega
  exact ⟨ht, hmx, fun hd => ⟨(h.open_ hd).1, (step_slots qs_anti h.ok (hn _) hst (h.open_ hd).2).1⟩,
    fun hd => (step_slots qs_anti h.ok (hn _) hst (h.shut hd)).1⟩

theorem range_top (high : Option K) : Range none none high none :=
  ⟨fun _ h => (by cases h), fun _ _ _ h => (by cases h), fun _ h => (by cases h)⟩

theorem round_ok {sem : Sem K R B} {hist : List (Kind K × B)} {left right : Option K} {M : Nat} {s : HotSt K R B}
    (h : HotInv sem hist left right M s) (cs : List React) :
    ∃ s', hotRound sem right cs s = some s' ∧ HotInv sem hist left right M s' ∧
      (s'.done = true ∨ ∃ m, s'.high = some m ∧ ∀ b, s.high = some b → b < m) := by
  unfold hotRound
  by_cases hd : s.done = true
  · rw [if_pos hd]
    exact ⟨s, rfl, h, Or.inl hd⟩
  · rw [if_neg hd]
    have hd : s.done = false := by simpa using hd
    obtain ⟨h1, h2⟩ := h.open_ hd
    obtain ⟨n', mx', q1, q2, q3, q4⟩ := hotGo_ok s.tree.h cs none none none s.tree.root h.ok h2 (range_top s.high)
    simp only at q1
    rw [q1]
    refine ⟨_, rfl, ⟨q2, h.num, ?_, ?_⟩, ?_⟩
    · intro hnd
      simp only at hnd ⊢
      cases mx' with
      | none => cases hnd
      | some m =>
        refine ⟨?_, Slots.mono q3 ?_⟩
        · intro a ha
          obtain ⟨b, hb, hab⟩ := h1 a ha
          exact ⟨m, rfl, le_trans hab (le_of_lt (q4.lt b m hb rfl))⟩
        · intro lo hi x _ hx hM k hk hS
          refine hx hM k hk ?_
          obtain ⟨b, hb, hkb⟩ := hS
          cases hb
          cases hh : s.high with
          | none => exact Or.inr ⟨fun _ h => (by cases h), hkb.2⟩
          | some b =>
            rcases le_or_gt k b with hle | hlt
            · exact Or.inl ⟨b, rfl, hkb.1, fun _ h => (by cases h; exact hle)⟩
            · exact Or.inr ⟨fun _ h => (by cases h; exact hlt), hkb.2⟩
    · intro hdn
      simp only at hdn ⊢
      refine Slots.mono q3 ?_
      intro lo hi x _ hx hM k hk hS
      refine hx hM k hk ?_
      have hup : ∀ m, mx' = some m → k ≤ m := by
        intro m hm
        subst hm
        unfold hotDone at hdn
        cases right with
        | none => cases hdn
        | some r => exact le_trans (hS.2 r rfl) (le_of_lt (of_decide_eq_true hdn))
      cases hh : s.high with
      | none => exact Or.inr ⟨fun _ h => (by cases h), hup⟩
      | some b =>
        rcases le_or_gt k b with hle | hlt
        · exact Or.inl ⟨b, rfl, hS.1, fun _ h => (by cases h; exact hle)⟩
        · exact Or.inr ⟨fun _ h => (by cases h; exact hlt), hup⟩
    · cases mx' with
      | none => exact Or.inl rfl
      | some m => exact Or.inr ⟨m, rfl, fun b hb => q4.lt b m hb rfl⟩

theorem hotRun_ok {sem : Sem K R B} {left right : Option K} {M : Nat} : ∀ {evs : List (HotEv K B)} {hist : List (Kind K × B)}
    {s : HotSt K R B}, HotInv sem hist left right M s →
    ∃ s', hotRun sem right s evs = some s' ∧ HotInv sem (hist ++ sent (hotSent evs)) left right M s'
  | [], hist, s, h => ⟨s, rfl, by rw [hotSent, sent, List.append_nil]; exact h⟩
  | .op o :: evs, hist, s, h => by
    unfold hotRun hotSent
    rw [sent_cons, ← List.append_assoc]
    rcases step_ok h.ok o with ⟨q1, q2⟩ | ⟨t', q1, q2⟩
    · rw [q1, q2, List.append_nil]
      exact hotRun_ok h
    · rw [q1]
      exact hotRun_ok (op_inv h q1 q2)
  | .round cs :: evs, hist, s, h => by
    unfold hotRun hotSent
    obtain ⟨s', q1, q2, _⟩ := round_ok h cs
    rw [q1]
    exact hotRun_ok q2

/-- What waits for a key is in the buffers. -/
theorem waiting_of_slots {c : Ctx K R B} {M : Nat} {S : K → Prop} {k : K} (hS : S k) : ∀ {h : Nat} {lo hi : Option K} {W : List (Ent K B)}
    {n : Node K R B h}, Good c h lo hi W n → InB lo hi k → Slots (QS M S) h lo hi n → ∀ m ∈ waiting k h n, M < m.msn
  | 0, _, _, _, _, _, _, _, m, hm => absurd hm List.not_mem_nil
  | h + 1, lo, hi, W, n, hg, hk, hs, m, hm => by
    obtain ⟨i, p, w1, w2, w3, w4⟩ := chain_which (ext := []) hg.2.2 hk
    rw [List.append_nil] at w1
    unfold waiting at hm
    rw [w1] at hm
    simp only at hm
    rw [w2] at hm
    obtain ⟨s, ch⟩ := p
    simp only at hm
    have hP := chain_get hs w2
    rcases List.mem_append.1 hm with hm | hm
    · obtain ⟨m1, m2⟩ := List.mem_filter.1 hm
      obtain ⟨e, he, rfl⟩ := List.mem_map.1 m1
      refine Nat.lt_of_not_le fun hle => ?_
      rw [hP.1 e he hle k w4 hS] at m2
      cases m2
    · exact waiting_of_slots hS (chain_get hg.2.2 w2).2 w4 hP.2 m hm

/-! ### The end -/

theorem set_same {α : Type} {l : List α} {i : Nat} {a : α} (h : l[i]? = some a) : l.set i a = l := by
  obtain ⟨h1, h2⟩ := List.getElem?_eq_some_iff.1 h
  rw [← h2]
  exact List.set_getElem_self h1

theorem innerPut_pivots {h : Nat} {n n' : Inner K B (Node K R B h)} {e : Ent K B} (hr : innerPut n e = .ok n') :
    n'.pivots = n.pivots ∧ n'.kids.map (·.2) = n.kids.map (·.2) := by
  unfold innerPut assertC at hr
  split at hr
  case isFalse => cases hr
  simp only [Out.ok_bind] at hr
  split at hr
  · rename_i k _
    cases hw : whichChild n.kids.length n.pivots k with
    | none => rw [hw] at hr; cases hr
    | some i =>
      rw [hw] at hr
      simp only [need_some, Out.ok_bind] at hr
      cases hk : n.kids[i]? with
      | none => rw [hk] at hr; cases hr
      | some p =>
        obtain ⟨s, c⟩ := p
        rw [hk] at hr
        simp only [need_some, Out.ok_bind] at hr
        cases hr
        refine ⟨rfl, ?_⟩
        simp only
        rw [List.map_set]
        apply set_same
        rw [List.getElem?_map, hk]
        rfl
  · cases hr
    refine ⟨rfl, ?_⟩
    simp only [List.map_map]
    rfl
  · cases hr
    exact ⟨rfl, rfl⟩

theorem all_of {h : Nat} {n n' : Inner K B (Node K R B h)} (h1 : n'.pivots = n.pivots) (h2 : n'.kids.map (·.2) = n.kids.map (·.2)) :
    pivotsBelow (h + 1) (n' : Node K R B (h + 1)) = pivotsBelow (h + 1) (n : Node K R B (h + 1)) := by
  show n'.pivots ++ (n'.kids.map fun p => pivotsBelow h p.2).flatten = n.pivots ++ (n.kids.map fun p => pivotsBelow h p.2).flatten
  have : ∀ l : List (Slot K B × Node K R B h), (l.map fun p => pivotsBelow h p.2) = (l.map (·.2)).map (pivotsBelow h) := by
    intro l
    rw [List.map_map]
    rfl
  rw [h1, this, this, h2]

theorem putNode_pivots {sem : Sem K R B} : ∀ {h : Nat} {n n' : Node K R B h} {e : Ent K B}, putNode sem h n e = .ok n' →
    pivotsBelow h n' = pivotsBelow h n
  | 0, _, _, _, _ => rfl
  | _ + 1, _, _, _, hr => all_of (innerPut_pivots hr).1 (innerPut_pivots hr).2

theorem putAll_pivots {sem : Sem K R B} {h : Nat} : ∀ {s : List (Ent K B)} {n n' : Node K R B h}, putAll sem h n s = .ok n' →
    pivotsBelow h n' = pivotsBelow h n
  | [], _, _, hr => by cases hr; rfl
  | e :: s, n, n', hr => by
    unfold putAll at hr
    cases hq : putNode sem h n { e with fr := e.fr.flag } with
    | skip => rw [hq] at hr; cases hr
    | crash => rw [hq] at hr; cases hr
    | ok c =>
      rw [hq] at hr
      simp only [Out.ok_bind] at hr
      rw [putAll_pivots hr, putNode_pivots hq]

theorem prepare_pivots : ∀ {h : Nat} {cl : Bool} {pm : Nat} {c : Node K R B h}, pivotsBelow h (prepareChild h cl pm c) = pivotsBelow h c
  | 0, _, _, _ => rfl
  | _ + 1, _, _, _ => rfl

theorem set_pivots {h : Nat} {n : Inner K B (Node K R B h)} {i : Nat} {s s' : Slot K B} {c c' : Node K R B h}
    (hk : n.kids[i]? = some (s, c)) (hc : pivotsBelow h c' = pivotsBelow h c) :
    pivotsBelow (h + 1) (({ n with kids := n.kids.set i (s', c') } : Inner K B (Node K R B h)) : Node K R B (h + 1)) =
      pivotsBelow (h + 1) (n : Node K R B (h + 1)) := by
  show n.pivots ++ ((n.kids.set i (s', c')).map fun p => pivotsBelow h p.2).flatten = n.pivots ++ (n.kids.map fun p => pivotsBelow h p.2).flatten
  rw [List.map_set]
  congr 2
  apply set_same
  rw [List.getElem?_map, hk]
  simp only [Option.map_some, hc]

theorem hotGo_pivots {sem : Sem K R B} {high : Option K} : ∀ {h : Nat} {mx mx' : Option K} {n n' : Node K R B h},
    hotGo sem h [] high mx n = .ok (n', mx') → pivotsBelow h n' = pivotsBelow h n ∧ (mx' = mx ∨ ∃ p ∈ pivotsBelow h n, mx' = some p)
  | 0, _, _, _, _, hr => by cases hr; exact ⟨rfl, Or.inl rfl⟩
  | h + 1, mx, mx', n, n', hr => by
    rw [hotGo_succ sem h [] high mx n] at hr
    cases hp : hotPick (n : Inner K B (Node K R B h)) high with
    | none => rw [hp] at hr; cases hr
    | some i =>
      rw [hp] at hr
      simp only [need_some, Out.ok_bind] at hr
      cases hq : hotKeys (n : Inner K B (Node K R B h)) i mx with
      | none => rw [hq] at hr; cases hr
      | some mx1 =>
        rw [hq] at hr
        simp only [need_some, Out.ok_bind] at hr
        cases hf : flushChild sem h false i true true n with
        | skip => rw [hf] at hr; cases hr
        | crash => rw [hf] at hr; cases hr
        | ok n1 =>
          rw [hf] at hr
          simp only [Out.ok_bind] at hr
          obtain ⟨s0, c0, c1, e0, e1, rfl⟩ := flush_inv hf
          have hr : down (hotGo sem h [] high) i mx1 { n with kids := n.kids.set i ([], c1) } = .ok (n', mx') := hr
          unfold down at hr
          have hk1 : (n.kids.set i (([] : Slot K B), c1))[i]? = some ([], c1) := by
            rw [List.getElem?_set_self (kid_lt e0)]
          simp only at hr
          rw [hk1] at hr
          simp only [need_some, Out.ok_bind] at hr
          cases hg : hotGo sem h [] high mx1 c1 with
          | skip => rw [hg] at hr; cases hr
          | crash => rw [hg] at hr; cases hr
          | ok x =>
            obtain ⟨c2, mx2⟩ := x
            rw [hg] at hr
            cases hr
            obtain ⟨i1, i2⟩ := hotGo_pivots hg
            have hc1 : pivotsBelow h c1 = pivotsBelow h c0 := by rw [putAll_pivots e1, prepare_pivots]
            refine ⟨?_, ?_⟩
            · rw [List.set_set]
              exact set_pivots e0 (i1.trans hc1)
            · have hsub : ∀ p ∈ pivotsBelow h c0, p ∈ pivotsBelow (h + 1) n := by
                intro p hp
                refine List.mem_append.2 (Or.inr (List.mem_flatten.2 ⟨_, List.mem_map.2 ⟨(s0, c0), List.mem_of_getElem? e0, rfl⟩, hp⟩))
              rcases i2 with rfl | ⟨p, hp, rfl⟩
              · unfold hotKeys at hq
                split at hq
                · cases hpv : n.pivots[i]? with
                  | none => rw [hpv] at hq; cases hq
                  | some p =>
                    rw [hpv] at hq
                    cases hq
                    exact Or.inr ⟨p, List.mem_append.2 (Or.inl (List.mem_of_getElem? hpv)), rfl⟩
                · cases hq
                  exact Or.inl rfl
              · rw [hc1] at hp
                exact Or.inr ⟨p, hsub p hp, rfl⟩

theorem countP_lt {α : Type} {p q : α → Bool} (h : ∀ x, q x = true → p x = true) : ∀ {l : List α} {x : α}, x ∈ l → p x = true →
    q x = false → l.countP q < l.countP p
  | [], x, hx, _, _ => absurd hx List.not_mem_nil
  | y :: l, x, hx, hp, hq => by
    have hle := List.countP_mono_left (l := l) (fun x _ => h x)
    rcases List.mem_cons.1 hx with rfl | hx
    · rw [List.countP_cons_of_pos hp, List.countP_cons_of_neg (by rw [hq]; exact Bool.false_ne_true)]
      omega
    · have := countP_lt h hx hp hq
      rw [List.countP_cons, List.countP_cons]
      by_cases hy : q y = true
      · rw [if_pos hy, if_pos (h y hy)]
        omega
      · rw [if_neg hy]
        omega

/-- Pivots still ahead. -/
def hotAhead (high : Option K) (p : K) : Bool := match high with
  | none => true
  | some b => decide (b < p)

theorem quiet_ends {sem : Sem K R B} {hist : List (Kind K × B)} {left right : Option K} {M : Nat} : ∀ (fuel : Nat) {s : HotSt K R B},
    HotInv sem hist left right M s → (pivotsBelow s.tree.h s.tree.root).countP (hotAhead s.high) < fuel →
    ∃ s', hotRun sem right s (List.replicate fuel (.round [])) = some s' ∧ s'.done = true
  | 0, s, _, hf => absurd hf (by omega)
  | fuel + 1, s, h, hf => by
    obtain ⟨s', q1, q2, q3⟩ := round_ok h []
    have e : hotRun sem right s (List.replicate (fuel + 1) (.round [])) = hotRun sem right s' (List.replicate fuel (.round [])) := by
      rw [List.replicate_succ, hotRun, q1]
      rfl
    rw [e]
    have stay : ∀ n (u : HotSt K R B), u.done = true → hotRun sem right u (List.replicate n (.round [])) = some u := by
      intro n
      induction n with
      | zero => intro u _; rfl
      | succ n ih =>
        intro u hu
        rw [List.replicate_succ, hotRun, hotRound, if_pos hu]
        exact ih u hu
    by_cases hd : s'.done = true
    · exact ⟨s', stay _ _ hd, hd⟩
    · refine quiet_ends fuel q2 ?_
      rcases q3 with q3 | ⟨m, q3, q4⟩
      · exact absurd q3 hd
      · have hsd : s.done = false := by
          cases hs : s.done with
          | false => rfl
          | true =>
            exfalso
            unfold hotRound at q1
            rw [if_pos hs] at q1
            cases q1
            exact hd hs
        unfold hotRound at q1
        rw [if_neg (by rw [hsd]; exact Bool.false_ne_true)] at q1
        cases hg : hotGo sem s.tree.h [] s.high none s.tree.root with
        | skip => rw [hg] at q1; cases q1
        | crash => rw [hg] at q1; cases q1
        | ok x =>
          obtain ⟨n, mx⟩ := x
          rw [hg] at q1
          cases q1
          simp only at q3 ⊢
          subst q3
          obtain ⟨p1, p2⟩ := hotGo_pivots hg
          rw [p1]
          rcases p2 with p2 | ⟨p, p2, p3⟩
          · cases p2
          · cases p3
            have hmono : ∀ x, hotAhead (some m) x = true → hotAhead s.high x = true := by
              intro x hx
              unfold hotAhead at hx ⊢
              cases hh : s.high with
              | none => rfl
              | some b => exact decide_eq_true (lt_trans (q4 b hh) (of_decide_eq_true hx))
            have h1 : hotAhead s.high m = true := by
              unfold hotAhead
              cases hh : s.high with
              | none => rfl
              | some b => exact decide_eq_true (q4 b hh)
            have h2 : hotAhead (some m) m = false := decide_eq_false (lt_irrefl m)
            have := countP_lt hmono p2 h1 h2
            omega

end Verif.Tree
