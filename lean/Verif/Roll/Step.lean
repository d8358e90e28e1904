import Verif.Roll.Save
/-!
Each call keeps the invariant of rollback logs and does what the specification says.
-/
set_option linter.unusedVariables false
set_option linter.unusedSimpArgs false
namespace Verif.Roll
open Spec

variable {α : Type}

theorem top_init (limit max : Nat) : Top (St.init limit max : St α) (fun _ => none) (fun _ => ⟨[], [], 0⟩) := by
  refine ⟨⟨?_, ?_, ?_, ?_, ?_, ?_, ?_, ?_, ?_, ?_, ?_, ?_, ?_⟩, ?_, ?_, ?_⟩
  · intro t i hi; cases hi
  · intro t _; rfl
  · intro t; simp
  · intro t u b _ hb; cases hb
  · simp
  · intro t b hb; cases hb
  · exact ⟨Nat.zero_le _, .inr rfl⟩
  · simp [St.init, Ring.list]
  · intro b hb; simp [St.init, Ring.list] at hb
  · intro b hb; simp [St.init, Ring.list] at hb
  · intro t b hb; simp [St.init, Ring.list] at hb
  · intro b hb; simp [St.init] at hb
  · intro b nd hb; simp [St.init] at hb
  · intro t l hl; cases hl
  · intro t _; rfl
  · intro t l p hl; cases hl

theorem begin_top {s : St α} {a : Abs α} {gh : Tid → Ghost α} (h : Top s a gh) {t : Tid} {xid : Xid} {par : Option Tid} (hal : Allowed a (.begin t xid par)) :
    ∃ gh', Top (s.begin t xid par) (next a (.begin t xid par)) gh' := by
  obtain ⟨h1, h2⟩ := hal
  have hd := h.dead t h1
  have hg := h.inv.gone t hd
  refine ⟨upd gh t ⟨[], [], 0⟩, ?_, ?_, ?_, ?_⟩
  · refine h.inv.change t _ _ ?_ (by intro e; cases e) (by simp) (by simp) ?_ (by simp) h.inv.ringOk h.inv.ringNodup h.inv.ringNodes (by simp) (fun _ _ _ _ => rfl) ?_ h.inv.bytes
    · intro i hi; cases hi; exact .spilled rfl .empty
    · rintro b (hb | hb | hb)
      · cases hb
      · cases hb
      · exact .inr (.inr (.inl hb))
    · intro b hb
      rcases h.inv.cover' t b hb with h' | h' | h' | h'
      · exact .inl h'
      · cases h'
      · rw [hg] at h'; cases h'
      · exact .inr (.inr (.inr h'))
  · intro u l hl
    simp only [next, Spec.set] at hl
    by_cases hu : u = t
    · subst hu
      rw [if_pos rfl] at hl
      cases hl
      exact ⟨_, setTxn_self _ _ _, rfl, by rw [upd_self]; rfl, by rw [upd_self], rfl⟩
    · rw [if_neg hu] at hl
      obtain ⟨i, hi⟩ := h.acts u l hl
      refine ⟨i, ?_⟩
      rw [upd_other _ _ hu, St.begin, setTxn_other _ hu]
      exact hi
  · intro u hu
    simp only [next, Spec.set] at hu
    split at hu
    · cases hu
    · rename_i e; rw [St.begin, setTxn_other _ e]; exact h.dead u hu
  · intro u l p hl hp
    simp only [next, Spec.set] at hl ⊢
    by_cases hu : u = t
    · subst hu
      rw [if_pos rfl] at hl
      cases hl
      have hpu : p ≠ u := by
        rintro rfl
        exact h2 p hp h1
      refine ⟨hpu, ?_⟩
      rw [if_neg hpu]
      exact h2 p hp
    · rw [if_neg hu] at hl
      obtain ⟨q1, q2⟩ := h.parents u l p hl hp
      refine ⟨q1, ?_⟩
      split
      · simp
      · exact q2

theorem act_top {s : St α} {a : Abs α} {gh : Tid → Ghost α} (h : Top s a gh) {t : Tid} {x : α} {n : Nat} {f : Blk} (hal : Allowed a (.act t x n f)) (hf : Fresh s (.act t x n f)) :
    ∃ s' gh', (∀ m, run m s (.act t x n f) = .ok (s', [])) ∧ Top s' (next a (.act t x n f)) gh' ∧ s'.cfg = s.cfg := by
  cases hat : a t with
  | none => exact absurd hat hal
  | some l =>
    obtain ⟨i, hi, ip, ia, it, id⟩ := h.acts t l hat
    obtain ⟨s', i', bl, e, ht, hl, hinv, _, _, a1, a2, a3⟩ := save_ok (fl1 := []) (fl2 := []) h.inv (by simp) hi hi (e := .act x n) (Holds.act Holds.nil) hf.1 hf.2
    refine ⟨s', upd gh t ⟨[x] ++ (gh t).acts, bl, 0 + 1 + (gh t).cnt⟩, fun m => by simp only [run, e], ⟨?_, ?_, ?_, ?_⟩, hl⟩
    · rw [ht]; exact hinv
    · intro u l' hl'
      simp only [next, hat, Spec.set] at hl'
      by_cases hu : u = t
      · subst hu
        rw [if_pos rfl] at hl'
        cases hl'
        refine ⟨i', by rw [ht, upd_self], a2.trans ip, ?_, ?_, a3.trans id⟩
        · rw [upd_self]; simp [ia]
        · rw [upd_self, a1, it]; show _ = 0 + 1 + _; omega
      · rw [if_neg hu] at hl'
        rw [ht, upd_other _ _ hu, upd_other _ _ hu]
        exact h.acts u l' hl'
    · intro u hu
      simp only [next, hat, Spec.set] at hu
      split at hu
      · cases hu
      · rename_i e'; rw [ht, upd_other _ _ e']; exact h.dead u hu
    · intro u l' p hl' hp
      simp only [next, hat, Spec.set] at hl' ⊢
      have key : ∃ l0, a u = some l0 ∧ l0.parent = l'.parent := by
        by_cases hu : u = t
        · subst hu
          rw [if_pos rfl] at hl'
          cases hl'
          exact ⟨l, hat, rfl⟩
        · rw [if_neg hu] at hl'; exact ⟨l', hl', rfl⟩
      obtain ⟨l0, k1, k2⟩ := key
      obtain ⟨q1, q2⟩ := h.parents u l0 p k1 (k2.trans hp)
      refine ⟨q1, ?_⟩
      split
      · simp
      · exact q2

/-- The nodes of a transaction that has gone through all of them. -/
theorem Fin.inv {s s' : St α} {gh : Tid → Ghost α} {t : Tid} {i : Info} (h : Inv s.nodes s.ring s.txns gh []) (hi : s.txns t = some i) (hf : Fin s s' t i (gh t).blks (gh t).cnt) :
    Inv s'.nodes s'.ring (upd s.txns t none) (upd gh t ⟨[], [], 0⟩) [] := by
  obtain ⟨⟨g, g1, g2, g3, g4, g5⟩, _, _⟩ := hf
  have hnode : ∀ x, x ∉ (gh t).blks → s'.nodes x = s.nodes x := by
    intro x hx
    rw [g5, if_neg (fun h' => hx (g1 x h')), if_neg hx]
  refine h.change t none ⟨[], [], 0⟩ (by intro i hi; cases hi) (fun _ => rfl) (by simp) (by simp) ?_ (by simp) g3 ?_ ?_ (by simp) ?_ ?_ ?_
  · rintro b (hb | hb | hb)
    · cases hb
    · cases hb
    · rw [g4] at hb
      rcases List.mem_append.mp hb with hb | hb
      · exact .inr (.inr (.inl hb))
      · exact .inl (g1 b hb)
  · rw [g4]
    refine List.nodup_append.mpr ⟨h.ringNodup, g2, ?_⟩
    intro x hx y hy e
    subst e
    exact h.ringDisj t x hx (g1 x hy)
  · intro b hb
    rw [g4] at hb
    rcases List.mem_append.mp hb with hb | hb
    · rw [hnode b (h.ringDisj t b hb)]
      exact h.ringNodes b hb
    · refine ⟨((h.own t i hi).there b (g1 b hb)).1, ?_⟩
      rw [g5, if_pos hb]
  · intro u b hu hb
    exact hnode b (h.disj u t b hu hb)
  · intro b hb
    rw [g5] at hb
    rw [g4]
    by_cases hg : b ∈ g
    · exact .inl (List.mem_append_right _ hg)
    · rw [if_neg hg] at hb
      by_cases hx : b ∈ (gh t).blks
      · rw [if_pos hx] at hb; exact absurd rfl hb
      · rw [if_neg hx] at hb
        rcases h.cover' t b hb with h' | h' | h' | h'
        · exact .inl (List.mem_append_left _ h')
        · cases h'
        · exact absurd h' hx
        · exact .inr (.inr (.inr h'))
  · intro b nd hb
    rw [g5] at hb
    split at hb
    · cases hb; rfl
    · split at hb
      · cases hb
      · exact h.bytes b nd hb

/-- A transaction that has gone through all its nodes can be closed. -/
theorem finish {s s' : St α} {a : Abs α} {gh : Tid → Ghost α} (h : Top s a gh) {t : Tid} {i : Info} (hi : s.txns t = some i) (hch : Childless a t) (hf : Fin s s' t i (gh t).blks (gh t).cnt) :
    ∃ s'' gh', s'.close t = .ok s'' ∧ Top s'' (Spec.set a t none) gh' ∧ s''.cfg = s.cfg := by
  have hinv := hf.inv h.inv hi
  have ht : s'.txns t = some { i with done := i.done + (gh t).cnt, head := 0, tail := 0, cur := 0 } := by rw [hf.txns, if_pos rfl]
  refine ⟨s'.setTxn t none, upd gh t ⟨[], [], 0⟩, ?_, ⟨?_, ?_, ?_, ?_⟩, hf.cfg⟩
  · simp only [St.close, St.txn, ht, bind, R.bind, ensure, decide_true, Bool.and_self, if_true, pure]
  · have : (s'.setTxn t none).txns = upd s.txns t none := by
      funext u
      by_cases hu : u = t
      · subst hu; rw [setTxn_self, upd_self]
      · rw [setTxn_other _ hu, upd_other _ _ hu, hf.txns, if_neg hu]
    rw [this]
    exact hinv
  · intro u l hl
    simp only [Spec.set] at hl
    split at hl
    · cases hl
    · rename_i hu
      rw [setTxn_other _ hu, hf.txns, if_neg hu, upd_other _ _ hu]
      exact h.acts u l hl
  · intro u hu
    simp only [Spec.set] at hu
    split at hu
    · rename_i e; rw [e, setTxn_self]
    · rename_i e; rw [setTxn_other _ e, hf.txns, if_neg e]; exact h.dead u hu
  · intro u l p hl hp
    simp only [Spec.set] at hl ⊢
    split at hl
    · cases hl
    · obtain ⟨q1, q2⟩ := h.parents u l p hl hp
      refine ⟨q1, ?_⟩
      rw [if_neg]
      · exact q2
      · rintro rfl; exact hch u l hl hp

theorem abort_top {s : St α} {a : Abs α} {gh : Tid → Ghost α} (h : Top s a gh) {t : Tid} (hal : Allowed a (.abort t)) :
    ∃ s' gh', Ends s (.abort t) s' (shown a (.abort t)) ∧ Top s' (next a (.abort t)) gh' ∧ s'.cfg = s.cfg := by
  obtain ⟨h1, h2⟩ := hal
  cases hat : a t with
  | none => exact absurd hat h1
  | some l =>
    obtain ⟨i, hi, ip, ia, it, id⟩ := h.acts t l hat
    obtain ⟨N, s1, hN, hf⟩ := applyTxn_ok (h.inv.own t i hi) (h.inv.nodup t) h.inv.ringOk hi
    obtain ⟨s2, gh2, e2, ht2, hcfg⟩ := finish h hi h2 hf
    refine ⟨s2, gh2, ⟨N, fun m hm => ?_⟩, ht2, hcfg⟩
    simp only [run, St.abort, hN m hm, bind, R.bind, e2, pure, shown, hat, ia, List.reverse_reverse]

theorem commit_top {s : St α} {a : Abs α} {gh : Tid → Ghost α} (h : Top s a gh) {t : Tid} {f1 f2 : Blk} (hal : Allowed a (.commit t f1 f2)) (hf : Fresh s (.commit t f1 f2)) :
    ∃ s' gh', Ends s (.commit t f1 f2) s' (shown a (.commit t f1 f2)) ∧ Top s' (next a (.commit t f1 f2)) gh' ∧ s'.cfg = s.cfg := by
  obtain ⟨h1, h2⟩ := hal
  cases hat : a t with
  | none => exact absurd hat h1
  | some l =>
    obtain ⟨par, xs⟩ := l
    obtain ⟨i, hi, ip, ia, it, id⟩ := h.acts t _ hat
    cases par with
    | none =>
      obtain ⟨N, s1, hN, hfi⟩ := applyTxn_ok (h.inv.own t i hi) (h.inv.nodup t) h.inv.ringOk hi
      obtain ⟨s2, gh2, e2, ht2, hcfg⟩ := finish h hi h2 hfi
      refine ⟨s2, gh2, ⟨N, fun m hm => ?_⟩, ?_, hcfg⟩
      · simp only at ip ia
        simp only [run, St.commit, St.txn, hi, ip, hN m hm, bind, R.bind, e2, pure, shown, hat, ia, List.reverse_reverse]
      · simp only [next, hat]; exact ht2
    | some p =>
      obtain ⟨hne, hp⟩ := h.parents t _ p hat rfl
      cases hap : a p with
      | none => exact absurd hap hp
      | some l =>
        obtain ⟨pi, hpi, pp, pa, pt, pd⟩ := h.acts p l hap
        obtain ⟨s1, i1, pi1, bl, e1, ht1, hl1, z1, z2, z3, hinv, b1, b2⟩ := promote_ok hne h.inv hi hpi it pt hf.1 hf.2.1 hf.2.2
        have hs1 : s1.txns t = some i1 := by rw [ht1, upd_self]
        have htx : (s1.setTxn t none).txns = upd (upd s.txns t none) p (some pi1) := by
          funext u
          show (if u = t then none else s1.txns u) = _
          rw [ht1]
          simp only [upd]
          by_cases hu : u = p
          · simp [hu, hne]
          · by_cases hu' : u = t
            · simp [hu', Ne.symm hne]
            · simp [hu, hu']
        simp only at ip ia
        refine ⟨s1.setTxn t none, upd (upd gh t ⟨[], [], 0⟩) p ⟨(gh t).acts ++ (gh p).acts, bl, pi1.total⟩, ⟨0, fun m _ => ?_⟩, ⟨?_, ?_, ?_, ?_⟩, hl1⟩
        · simp only [run, St.commit, St.txn, hi, ip, e1, bind, R.bind, St.close, hs1, ensure, z1, z2, z3, decide_true, Bool.and_self, if_true, pure, shown, hat]
        · rw [htx]; exact hinv
        · intro u l' hl'
          simp only [next, hat, hap, Spec.set] at hl'
          rw [htx]
          by_cases hu : u = t
          · rw [if_pos hu] at hl'; cases hl'
          · rw [if_neg hu] at hl'
            by_cases hu' : u = p
            · subst hu'
              rw [if_pos rfl] at hl'
              cases hl'
              rw [upd_self, upd_self]
              refine ⟨pi1, rfl, b1.trans pp, ?_, rfl, b2.trans pd⟩
              simp [pa, ia]
            · rw [if_neg hu'] at hl'
              rw [upd_other _ _ hu', upd_other _ _ hu, upd_other _ _ hu', upd_other _ _ hu]
              exact h.acts u l' hl'
        · intro u hu
          simp only [next, hat, hap, Spec.set] at hu
          rw [htx]
          by_cases hu1 : u = t
          · rw [hu1, upd_other _ _ (Ne.symm hne), upd_self]
          · rw [if_neg hu1] at hu
            by_cases hu' : u = p
            · rw [if_pos hu'] at hu; cases hu
            · rw [if_neg hu'] at hu
              rw [upd_other _ _ hu', upd_other _ _ hu1]
              exact h.dead u hu
        · intro u l' q hl' hq
          simp only [next, hat, hap, Spec.set] at hl' ⊢
          by_cases hu : u = t
          · rw [if_pos hu] at hl'; cases hl'
          · rw [if_neg hu] at hl'
            have key : ∃ l0, a u = some l0 ∧ l0.parent = l'.parent := by
              by_cases hu' : u = p
              · subst hu'
                rw [if_pos rfl] at hl'
                cases hl'
                exact ⟨l, hap, rfl⟩
              · rw [if_neg hu'] at hl'; exact ⟨l', hl', rfl⟩
            obtain ⟨l0, k1, k2⟩ := key
            obtain ⟨q1, q2⟩ := h.parents u l0 q k1 (k2.trans hq)
            refine ⟨q1, ?_⟩
            have : q ≠ t := by rintro rfl; exact h2 u l0 k1 (k2.trans hq)
            rw [if_neg this]
            split
            · simp
            · exact q2

/-- Every call that is allowed ends, and does what the specification says. -/
theorem step_top {s : St α} {a : Abs α} {gh : Tid → Ghost α} (h : Top s a gh) (op : Op α) (hal : Allowed a op) (hf : Fresh s op) :
    ∃ s' gh', Ends s op s' (shown a op) ∧ Top s' (next a op) gh' ∧ s'.cfg = s.cfg := by
  cases op with
  | begin t xid par =>
    obtain ⟨gh', h'⟩ := begin_top h hal
    exact ⟨_, gh', ⟨0, fun m _ => rfl⟩, h', rfl⟩
  | act t x n f =>
    obtain ⟨s', gh', e, h'⟩ := act_top h hal hf
    exact ⟨s', gh', ⟨0, fun m _ => e m⟩, h'⟩
  | commit t f1 f2 => exact commit_top h hal hf
  | abort t => exact abort_top h hal

theorem Ends.unique {s s1 s2 : St α} {op : Op α} {o1 o2 : List α} (h1 : Ends s op s1 o1) (h2 : Ends s op s2 o2) : s1 = s2 ∧ o1 = o2 := by
  obtain ⟨n1, h1⟩ := h1
  obtain ⟨n2, h2⟩ := h2
  have e1 := h1 (max n1 n2) (by omega)
  have e2 := h2 (max n1 n2) (by omega)
  rw [e1] at e2
  cases e2
  exact ⟨rfl, rfl⟩

theorem reach_top {limit max : Nat} {s : St α} {a : Abs α} (h : Reach limit max s a) : (∃ gh, Top s a gh) ∧ s.cfg = (limit, max) := by
  induction h with
  | init => exact ⟨⟨_, top_init limit max⟩, rfl⟩
  | step _ hal hf he ih =>
    obtain ⟨⟨gh, ht⟩, hc⟩ := ih
    obtain ⟨s', gh', he', ht', hc'⟩ := step_top ht _ hal hf
    obtain ⟨rfl, rfl⟩ := Ends.unique he he'
    exact ⟨⟨gh', ht'⟩, hc'.trans hc⟩

end Verif.Roll
