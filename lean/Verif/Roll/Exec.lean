import Verif.Roll.Inv
/-!
Going through entries and chains.
-/
set_option linter.unusedVariables false
namespace Verif.Roll
open Spec

variable {α : Type}

/-- The nodes `bs` are removed, and `c` entries counted. -/
def St.after (s : St α) (bs : List Blk) (t : Tid) (c : Nat) : St α :=
  { s with
    nodes := fun x => if x ∈ bs then none else s.nodes x
    txns := fun x => if x = t then (s.txns t).map (fun i => { i with done := i.done + c }) else s.txns x }

theorem after_zero (s : St α) (t : Tid) : s.after [] t 0 = s := by
  unfold St.after
  congr 1
  · funext x
    by_cases h : x = t
    · rw [if_pos h, h]; cases s.txns t <;> rfl
    · rw [if_neg h]

theorem after_after (s : St α) (b1 b2 : List Blk) (t : Tid) (c1 c2 : Nat) : (s.after b1 t c1).after b2 t c2 = s.after (b1 ++ b2) t (c1 + c2) := by
  unfold St.after
  congr 1
  · funext x
    simp only [List.mem_append]
    by_cases h1 : x ∈ b1 <;> by_cases h2 : x ∈ b2 <;> simp [h1, h2]
  · funext x
    by_cases h : x = t
    · subst h; simp only [if_true]; cases s.txns x <;> simp [Nat.add_assoc]
    · simp [h]

theorem after_txn {s : St α} {t : Tid} {i : Info} (h : s.txns t = some i) (bs : List Blk) (c : Nat) : (s.after bs t c).txns t = some { i with done := i.done + c } := by
  simp [St.after, h]

theorem after_other {s : St α} {t u : Tid} (h : u ≠ t) (bs : List Blk) (c : Nat) : (s.after bs t c).txns u = s.txns u := by
  simp [St.after, h]

theorem after_node {s : St α} {t : Tid} {bs : List Blk} {c : Nat} {b : Blk} (h : b ∉ bs) : (s.after bs t c).nodes b = s.nodes b := by
  simp [St.after, h]

theorem count_eq {s : St α} {t : Tid} {i : Info} (h : s.txns t = some i) : s.count t = .ok (s.after [] t 1) := by
  simp only [St.count, St.txn, h, bind, R.bind, pure]
  congr 1
  unfold St.after St.setTxn
  congr 1
  · funext x
    by_cases e : x = t
    · subst e; simp [h]
    · simp [e]

theorem remove_eq (s : St α) (t : Tid) (b : Blk) : s.remove b = s.after [b] t 0 := by
  unfold St.remove St.setNode
  have e := after_zero s t
  unfold St.after at e ⊢
  congr 1
  · funext x; simp
  · have := congrArg St.txns e; exact this.symm

/-- Going through entries, or through a chain. -/
def exec (n : Nat) (s : St α) (t : Tid) : Job α → R (St α × List α)
  | .items l => items n s t l
  | .chain xid num head tail => included n s t xid head tail num false

theorem exec_ok {nodes : Blk → Option (Node α)} {t : Tid} {j : Job α} {as : List α} {bs : List Blk} {c : Nat} (h : Holds nodes j as bs c) :
    ∀ (s : St α) (i : Info), (∀ b ∈ bs, s.nodes b = nodes b) → bs.Nodup → s.txns t = some i → ∃ N, ∀ n, N ≤ n → exec n s t j = .ok (s.after bs t c, as) := by
  induction h with
  | nil =>
    intro s i _ _ _
    refine ⟨1, fun n hn => ?_⟩
    obtain ⟨n, rfl⟩ : ∃ k, n = k + 1 := ⟨n - 1, by omega⟩
    simp only [exec, items, after_zero]
  | @act a m l as bs c _ ih =>
    intro s i hb hnd hi
    obtain ⟨N, hN⟩ := ih (s.after [] t 1) { i with done := i.done + 1 } (fun b h => by rw [after_node (by simp)]; exact hb b h) hnd (after_txn hi _ _)
    refine ⟨N + 1, fun n hn => ?_⟩
    obtain ⟨n, rfl⟩ : ∃ k, n = k + 1 := ⟨n - 1, by omega⟩
    have h1 := hN n (by omega)
    simp only [exec] at h1
    simp only [exec, items, count_eq hi, bind, R.bind, pure, h1, after_after, List.nil_append, Nat.add_comm 1]
  | @incl xid num head tail l as1 as2 bs1 bs2 c1 c2 ht hc hl ih1 ih2 =>
    intro s i hb hnd hi
    obtain ⟨hd1, hd2, hdis⟩ := List.nodup_append.mp hnd
    obtain ⟨N1, hN1⟩ := ih1 s i (fun b h => hb b (List.mem_append_left _ h)) hd1 hi
    have hi1 := after_txn hi bs1 c1
    have hi2 := after_txn hi1 [] 1
    obtain ⟨N2, hN2⟩ := ih2 ((s.after bs1 t c1).after [] t 1) _ (fun b h => by
      rw [after_node (by simp), after_node (fun h' => hdis b h' b h rfl)]; exact hb b (List.mem_append_right _ h)) hd2 hi2
    refine ⟨max N1 N2 + 1, fun n hn => ?_⟩
    obtain ⟨n, rfl⟩ : ∃ k, n = k + 1 := ⟨n - 1, by omega⟩
    have h1 := hN1 n (by omega)
    have h2 := hN2 n (by omega)
    simp only [exec] at h1 h2
    simp only [exec, items, ensure, ht, ne_eq, not_false_eq_true, decide_true, if_true, bind, R.bind, pure, h1, count_eq hi1, h2]
    rw [after_after, after_after, List.nil_append, show c1 + (1 + c2) = c1 + c2 + 1 by omega]
  | empty =>
    intro s i _ _ _
    refine ⟨1, fun n hn => ?_⟩
    obtain ⟨n, rfl⟩ : ∃ k, n = k + 1 := ⟨n - 1, by omega⟩
    simp only [exec, included, after_zero, if_true]
  | @first xid b nd as bs c hn h0 ho hs hp hl ih =>
    intro s i hb hnd hi
    obtain ⟨hbn, hnd'⟩ := List.nodup_cons.mp hnd
    obtain ⟨N, hN⟩ := ih s i (fun b h => hb b (List.mem_cons_of_mem _ h)) hnd' hi
    refine ⟨N + 2, fun n hn' => ?_⟩
    obtain ⟨n, rfl⟩ : ∃ k, n = k + 2 := ⟨n - 2, by omega⟩
    have h1 := hN (n + 1) (by omega)
    simp only [exec] at h1
    have hpin : s.pin b = .ok nd := by simp only [St.pin, (hb b List.mem_cons_self).trans hn]
    have hrest : ∀ s : St α, included (n + 1) s t xid 0 0 0 true = .ok (s, []) := by intro s; simp only [included, if_true]
    rw [exec, included, if_neg h0]
    simp only [hpin, verify, ho, hs, hp, ensure, bind, R.bind, pure, h1, decide_true, Bool.and_self, if_true, Bool.not_true, Bool.not_false, Bool.or_true, Bool.false_or, Bool.true_and, Bool.or_self, Nat.zero_add]
    rw [hrest]
    simp only [List.append_nil, remove_eq _ t, after_after]
    congr 2
    rw [Nat.add_zero]
    unfold St.after; congr 1; funext x; simp [or_comm]
  | @more xid k head b nd as1 as2 bs1 bs2 c1 c2 hn h0 ho hs hl hc ih1 ih2 =>
    intro s i hb hnd hi
    obtain ⟨hbn, hnd'⟩ := List.nodup_cons.mp hnd
    obtain ⟨hd1, hd2, hdis⟩ := List.nodup_append.mp hnd'
    obtain ⟨N1, hN1⟩ := ih1 s i (fun b h => hb b (List.mem_cons_of_mem _ (List.mem_append_left _ h))) hd1 hi
    have hi1 := after_txn hi bs1 c1
    have hi2 := after_txn hi1 [b] 0
    obtain ⟨N2, hN2⟩ := ih2 ((s.after bs1 t c1).after [b] t 0) _ (fun x h => by
      rw [after_node, after_node (fun h' => hdis x h' x h rfl)]
      · exact hb x (List.mem_cons_of_mem _ (List.mem_append_right _ h))
      · intro e; cases List.mem_singleton.mp e; exact hbn (List.mem_append_right _ h)) hd2 hi2
    have hne : b ≠ head := by
      rintro rfl
      exact hbn (List.mem_append_right _ (Holds.head_mem hc rfl))
    refine ⟨max N1 N2 + 1, fun n hn' => ?_⟩
    obtain ⟨n, rfl⟩ : ∃ k, n = k + 1 := ⟨n - 1, by omega⟩
    have h1 := hN1 n (by omega)
    have h2 := hN2 n (by omega)
    simp only [exec] at h1 h2
    have hpin : s.pin b = .ok nd := by simp only [St.pin, (hb b List.mem_cons_self).trans hn]
    rw [exec, included, if_neg h0]
    simp only [hpin, verify, ho, hs, ensure, bind, R.bind, pure, h1, decide_true, Bool.and_self, if_true, hne, decide_false, Bool.not_false, Bool.true_or, Bool.or_self, Bool.false_eq_true, if_false,
      remove_eq _ t, h2]
    rw [after_after, after_after]
    congr 2
    rw [Nat.zero_add]
    unfold St.after; congr 1; funext x; simp [or_left_comm, or_assoc]

/-- The end of going through all nodes `bs` of a transaction: some of them may be in the ring now, the others are gone. -/
structure Fin (s s' : St α) (t : Tid) (i : Info) (bs : List Blk) (c : Nat) : Prop where
  given : ∃ g : List Blk, (∀ b ∈ g, b ∈ bs) ∧ g.Nodup ∧ s'.ring.Ok ∧ s'.ring.list = s.ring.list ++ g ∧ ∀ x, s'.nodes x = if x ∈ g then some .unused else if x ∈ bs then none else s.nodes x
  txns : ∀ u, s'.txns u = if u = t then some { i with done := i.done + c, head := 0, tail := 0, cur := 0 } else s.txns u
  cfg : s'.cfg = s.cfg

theorem giveOrRemove_ok {s : St α} (h : s.ring.Ok) (b : Blk) :
    ∃ g : List Blk, (∀ x ∈ g, x = b) ∧ g.Nodup ∧ (s.giveOrRemove b).ring.Ok ∧ (s.giveOrRemove b).ring.list = s.ring.list ++ g ∧
      (∀ x, (s.giveOrRemove b).nodes x = if x ∈ g then some .unused else if x = b then none else s.nodes x) ∧ (s.giveOrRemove b).txns = s.txns ∧ (s.giveOrRemove b).cfg = s.cfg := by
  unfold St.giveOrRemove
  rcases Ring.give_ok h b with ⟨h1, h2, h3⟩ | ⟨h1, h2⟩
  · refine ⟨[b], by simp, by simp, ?_⟩
    simp only [h1, if_true]
    refine ⟨h2, h3, ?_, rfl, by simp only [St.cfg, St.setNode, Ring.give_max]⟩
    intro x
    simp only [St.setNode, List.mem_singleton]
    by_cases hx : x = b <;> simp [hx]
  · refine ⟨[], by simp, by simp, ?_⟩
    simp only [h1, Bool.false_eq_true, if_false]
    refine ⟨h, by simp [St.remove, St.setNode], ?_, rfl, rfl⟩
    intro x
    simp [St.remove, St.setNode]

theorem after_ring {s : St α} {bs : List Blk} {t : Tid} {c : Nat} : (s.after bs t c).ring = s.ring := rfl

theorem setTxn_self (s : St α) (t : Tid) (i : Option Info) : (s.setTxn t i).txns t = i := by simp [St.setTxn]
theorem setTxn_other (s : St α) {t u : Tid} (h : u ≠ t) (i : Option Info) : (s.setTxn t i).txns u = s.txns u := by simp [St.setTxn, h]

theorem loop_ok {nodes : Blk → Option (Node α)} {t : Tid} {j : Job α} {as : List α} {bs : List Blk} {c : Nat} (h : Holds nodes j as bs c) :
    ∀ {xid num head tail}, j = .chain xid num head tail → ∀ (s : St α) (i : Info), (∀ b ∈ bs, s.nodes b = nodes b) → bs.Nodup → s.ring.Ok → s.txns t = some i →
      i.xid = xid → i.head = head → i.tail = tail → i.cur = 0 →
      ∃ N s', (∀ n, N ≤ n → applyLoop n s t tail num false false = .ok (s', as)) ∧ Fin s s' t i bs c := by
  induction h with
  | nil => intro _ _ _ _ h; cases h
  | act => intro _ _ _ _ h; cases h
  | incl => intro _ _ _ _ h; cases h
  | empty =>
    intro xid num head tail h s i _ _ hr hi hx hh ht hc
    cases h
    refine ⟨1, s, fun n hn => ?_, ⟨⟨[], by simp, by simp, hr, by simp, by simp⟩, ?_, rfl⟩⟩
    · obtain ⟨n, rfl⟩ : ∃ k, n = k + 1 := ⟨n - 1, by omega⟩
      simp only [applyLoop, if_true]
    · intro u
      by_cases hu : u = t
      · rw [if_pos hu, hu, hi]; cases i; simp_all
      · rw [if_neg hu]
  | @first xid b nd as bs c hn h0 ho hs hp hl ih =>
    intro xid' num head tail h s i hb hnd hr hi hx hh ht hc
    cases h
    obtain ⟨hbn, hnd'⟩ := List.nodup_cons.mp hnd
    obtain ⟨N, hN⟩ := exec_ok hl (t := t) s i (fun b h => hb b (List.mem_cons_of_mem _ h)) hnd' hi
    have hi1 := after_txn hi bs c
    have hpin : s.pin b = .ok nd := by simp only [St.pin, (hb b List.mem_cons_self).trans hn]
    obtain ⟨g, g1, g2, g3, g4, g5, g6, g7⟩ := giveOrRemove_ok (s := (s.after bs t c).setTxn t (some { i with done := i.done + c, head := 0, tail := 0 })) hr b
    refine ⟨N + 2, _, fun n hn' => ?_, ⟨⟨g, ?_, g2, g3, g4, ?_⟩, ?_, g7⟩⟩
    · obtain ⟨n, rfl⟩ : ∃ k, n = k + 2 := ⟨n - 2, by omega⟩
      have h1 := hN (n + 1) (by omega)
      simp only [exec] at h1
      have hrest : ∀ s : St α, applyLoop (n + 1) s t 0 0 false true = .ok (s, []) := by intro s; simp only [applyLoop, if_true]
      rw [applyLoop, if_neg h0]
      simp only [St.txn, hi, hpin, verify, ho, hx, hs, hp, ensure, bind, R.bind, pure, h1, hi1, hh, decide_true, Bool.and_self, if_true, Bool.not_true, Bool.not_false, Bool.or_true, Bool.false_or,
        Bool.true_and, Bool.or_self, Nat.zero_add, Bool.false_eq_true, if_false, hrest, List.append_nil]
    · intro x hx'; rw [g1 x hx']; exact List.mem_cons_self
    · intro x
      rw [g5]
      by_cases h1 : x ∈ g
      · rw [if_pos h1, if_pos h1]
      · rw [if_neg h1, if_neg h1]
        simp only [List.mem_cons]
        by_cases h2 : x = b
        · simp [h2]
        · simp [h2, St.after, St.setTxn]
    · intro u
      rw [g6]
      by_cases hu : u = t
      · subst hu; rw [setTxn_self, if_pos rfl]; simp [hc]
      · rw [setTxn_other _ hu, if_neg hu, after_other hu]
  | @more xid k head b nd as1 as2 bs1 bs2 c1 c2 hn h0 ho hs hl hc _ ih2 =>
    intro xid' num head' tail h s i hb hnd hr hi hx hh ht hcur
    cases h
    obtain ⟨hbn, hnd'⟩ := List.nodup_cons.mp hnd
    obtain ⟨hd1, hd2, hdis⟩ := List.nodup_append.mp hnd'
    obtain ⟨N1, hN1⟩ := exec_ok hl (t := t) s i (fun b h => hb b (List.mem_cons_of_mem _ (List.mem_append_left _ h))) hd1 hi
    have hi1 := after_txn hi bs1 c1
    have hne : b ≠ head := by
      rintro rfl
      exact hbn (List.mem_append_right _ (Holds.head_mem hc rfl))
    have hpin : s.pin b = .ok nd := by simp only [St.pin, (hb b List.mem_cons_self).trans hn]
    have hprev : nd.prev ≠ 0 := by
      intro e; rw [e] at hc; obtain ⟨h, -⟩ := Holds.chain_nil hc; omega
    obtain ⟨N2, s', hN2, hfin⟩ := ih2 rfl (((s.after bs1 t c1).setTxn t (some { i with done := i.done + c1, tail := nd.prev })).remove b) { i with done := i.done + c1, tail := nd.prev }
      (fun x h => by
        have hxb : x ≠ b := by rintro rfl; exact hbn (List.mem_append_right _ h)
        have : x ∉ bs1 := fun h' => hdis x h' x h rfl
        simp only [St.remove, St.setNode, St.setTxn, hxb, if_false]
        rw [after_node this]
        exact hb x (List.mem_cons_of_mem _ (List.mem_append_right _ h))) hd2 hr (by simp [St.remove, St.setNode, St.setTxn]) hx hh rfl hcur
    refine ⟨max N1 N2 + 1, s', fun n hn' => ?_, ?_⟩
    · obtain ⟨n, rfl⟩ : ∃ k, n = k + 1 := ⟨n - 1, by omega⟩
      have h1 := hN1 n (by omega)
      have h2 := hN2 n (by omega)
      simp only [exec] at h1
      rw [applyLoop, if_neg h0]
      have hv : verify nd i.xid (k + 2) = .ok () := by simp [verify, ensure, ho, hs, hx]
      subst hh
      simp only [St.txn, hi, hpin, hv, hs, ensure, bind, R.bind, pure, h1, hi1, hne, decide_true, decide_false, Bool.and_self, if_true, Bool.not_true, Bool.not_false, Bool.or_true, Bool.false_or,
        Bool.true_and, Bool.true_or, Bool.or_self, Bool.false_eq_true, if_false, hprev, h2]
    · obtain ⟨⟨g, g1, g2, g3, g4, g5⟩, g6, g7⟩ := hfin
      refine ⟨⟨g, fun x hx => List.mem_cons_of_mem _ (List.mem_append_right _ (g1 x hx)), g2, g3, g4, ?_⟩, ?_, g7⟩
      · intro x
        rw [g5]
        by_cases h1 : x ∈ g
        · rw [if_pos h1, if_pos h1]
        · rw [if_neg h1, if_neg h1]
          simp only [List.mem_cons, List.mem_append]
          by_cases h2 : x = b <;> by_cases h3 : x ∈ bs1 <;> by_cases h4 : x ∈ bs2 <;> simp [h2, h3, h4, St.remove, St.setNode, St.setTxn, St.after]
      · intro u
        rw [g6]
        by_cases hu : u = t
        · rw [if_pos hu, if_pos hu]; simp [Nat.add_assoc]
        · rw [if_neg hu, if_neg hu]; simp [St.remove, St.setNode, St.setTxn, St.after, hu]

/-- Going through all nodes of a transaction. -/
theorem applyTxn_ok {s : St α} {t : Tid} {i : Info} {g : Ghost α} (h : Own s.nodes i g) (hnd : g.blks.Nodup) (hr : s.ring.Ok) (hi : s.txns t = some i) :
    ∃ N s', (∀ n, N ≤ n → applyTxn n s t = .ok (s', g.acts)) ∧ Fin s s' t i g.blks g.cnt := by
  cases h with
  | spilled h0 h =>
    obtain ⟨N, s', hN, hf⟩ := loop_ok h rfl s i (fun _ _ => rfl) hnd hr hi rfl rfl rfl h0
    refine ⟨N, s', fun n hn => ?_, hf⟩
    have := hN n hn
    simp only [applyTxn, St.txn, hi, bind, R.bind, h0, ne_eq, not_true_eq_false, if_false, decide_false]
    exact this
  | @current nd num as1 as2 bs1 bs2 c1 c2 h0 hn ho hs hm hp hl hc =>
    obtain ⟨hbn, hnd'⟩ := List.nodup_cons.mp hnd
    obtain ⟨hd1, hd2, hdis⟩ := List.nodup_append.mp hnd'
    obtain ⟨N1, hN1⟩ := exec_ok hl (t := t) s i (fun _ _ => rfl) hd1 hi
    have hi1 := after_txn hi bs1 c1
    have hpin : s.pin i.cur = .ok nd := by simp only [St.pin, hn]
    by_cases ht : i.tail = 0
    · rw [ht] at hc hp
      obtain ⟨e1, e2, rfl, rfl, rfl⟩ := Holds.chain_nil hc
      obtain ⟨g, g1, g2, g3, g4, g5, g6, g7⟩ := giveOrRemove_ok (s := (s.after bs1 t c1).setTxn t (some { i with done := i.done + c1, cur := 0 })) hr i.cur
      refine ⟨N1 + 2, _, fun n hn' => ?_, ⟨⟨g, ?_, g2, g3, g4, ?_⟩, ?_, g7⟩⟩
      · obtain ⟨n, rfl⟩ : ∃ k, n = k + 2 := ⟨n - 2, by omega⟩
        have h1 := hN1 (n + 1) (by omega)
        simp only [exec] at h1
        have hrest : ∀ (s : St α) (l : Nat), applyLoop (n + 1) s t 0 l false false = .ok (s, []) := by intro s l; simp only [applyLoop, if_true]
        simp only [applyTxn, St.txn, hi, bind, R.bind, h0, ne_eq, not_false_eq_true, if_true, decide_true]
        rw [applyLoop, if_neg h0]
        simp only [St.txn, hi, hpin, verify, ho, hs, hp, hm, ensure, bind, R.bind, pure, h1, hi1, e2, h0, decide_true, decide_false, Bool.and_self, if_true, Bool.not_true, Bool.not_false, Bool.or_true, Bool.false_or,
          Bool.true_and, Bool.true_or, Bool.or_self, Bool.false_eq_true, if_false, hrest, List.append_nil]
      · intro x hx'; rw [g1 x hx']; exact List.mem_cons_self
      · intro x
        rw [g5]
        by_cases h1 : x ∈ g
        · rw [if_pos h1, if_pos h1]
        · rw [if_neg h1, if_neg h1]
          simp only [List.mem_cons, List.append_nil]
          by_cases h2 : x = i.cur
          · simp [h2]
          · simp [h2, St.after, St.setTxn]
      · intro u
        rw [g6]
        by_cases hu : u = t
        · subst hu; rw [setTxn_self, if_pos rfl]; simp [ht, e2]
        · rw [setTxn_other _ hu, if_neg hu, after_other hu]
    · have hne : i.cur ≠ i.head := by
        intro e
        obtain ⟨k, hk⟩ := Holds.chain_pos hc ht
        exact hbn (List.mem_append_right _ (e ▸ Holds.head_mem hc (by rw [hk])))
      obtain ⟨N2, s', hN2, hfin⟩ := loop_ok (t := t) hc rfl (((s.after bs1 t c1).setTxn t (some { i with done := i.done + c1, cur := 0 })).remove i.cur) { i with done := i.done + c1, cur := 0 }
        (fun x h => by
          have hxb : x ≠ i.cur := by rintro rfl; exact hbn (List.mem_append_right _ h)
          have : x ∉ bs1 := fun h' => hdis x h' x h rfl
          simp only [St.remove, St.setNode, St.setTxn, hxb, if_false]
          rw [after_node this]) hd2 hr (by simp [St.remove, St.setNode, St.setTxn]) rfl rfl rfl rfl
      refine ⟨max N1 N2 + 1, s', fun n hn' => ?_, ?_⟩
      · obtain ⟨n, rfl⟩ : ∃ k, n = k + 1 := ⟨n - 1, by omega⟩
        have h1 := hN1 n (by omega)
        have h2 := hN2 n (by omega)
        simp only [exec] at h1
        simp only [applyTxn, St.txn, hi, bind, R.bind, h0, ne_eq, not_false_eq_true, if_true, decide_true]
        rw [applyLoop, if_neg h0]
        have hv : verify nd i.xid i.num = .ok () := by simp [verify, ensure, ho, hs, hm]
        simp only [St.txn, hi, hpin, hv, hs, hp, ensure, bind, R.bind, pure, h1, hi1, hne, decide_true, decide_false, Bool.and_self, if_true, Bool.not_true, Bool.not_false, Bool.or_true, Bool.false_or,
          Bool.true_and, Bool.true_or, Bool.or_self, Bool.false_eq_true, if_false, ht, h2]
      · obtain ⟨⟨g, g1, g2, g3, g4, g5⟩, g6, g7⟩ := hfin
        refine ⟨⟨g, fun x hx => List.mem_cons_of_mem _ (List.mem_append_right _ (g1 x hx)), g2, g3, g4, ?_⟩, ?_, g7⟩
        · intro x
          rw [g5]
          by_cases h1 : x ∈ g
          · rw [if_pos h1, if_pos h1]
          · rw [if_neg h1, if_neg h1]
            simp only [List.mem_cons, List.mem_append]
            by_cases h2 : x = i.cur <;> by_cases h3 : x ∈ bs1 <;> by_cases h4 : x ∈ bs2 <;> simp [h2, h3, h4, St.remove, St.setNode, St.setTxn, St.after]
        · intro u
          rw [g6]
          by_cases hu : u = t
          · rw [if_pos hu, if_pos hu]; simp [Nat.add_assoc]
          · rw [if_neg hu, if_neg hu]; simp [St.remove, St.setNode, St.setTxn, St.after, hu]

end Verif.Roll
