import Verif.Evict.Lemmas
/-! Every step keeps the invariants. -/
namespace Verif.Evict

/-- Moving the eviction thread alone. -/
theorem Inv.move {s : St} (h : Inv s) (e : Ev) (cur : Int) (rn : Bool) (h1 : handing e = handing s.ev) (h2 : rn = e.inRun) (h3 : s.run = false → e ≠ .waiting false)
    (h4 : e = .done → s.run = false) : Inv { s with current := cur, running := rn, ev := e } := by
  constructor
  · have := h.ev
    simp only [promised] at this ⊢
    omega
  · exact h.sl
  · exact h2
  · exact h3
  · exact h4

theorem decrease_inv {c : Cfg} {s : St} (h : Inv s) {t e : Nat} (ht : s.thr[t]? = some (.job e)) :
    ∃ s1, s.decrease c e = some s1 ∧ Inv (s1.set t .idle) := by
  have hs := sum_set promise s.thr t _ .idle ht
  have hh := sum_set heldN s.thr t _ .idle ht
  have hge := sum_ge promise s.thr t _ ht
  have hev := h.ev
  have hsl := h.sl
  simp only [promise, heldN, promised] at hs hh hge hev
  unfold St.decrease
  split
  · dsimp only
    rw [if_pos (by omega)]
    refine ⟨_, rfl, ?_⟩
    have key : Inv ({ s with evicting := s.evicting - e }.set t .idle) := by
      constructor
      · simp only [promised, St.set]
        omega
      · simp only [St.set]
        omega
      · exact h.rn
      · exact h.st
      · exact h.dn
    split
    · have := key.signal
      have e1 : ({ s with evicting := s.evicting - e }.set t .idle).signal = ({ s with evicting := s.evicting - e } : St).signal.set t .idle := by
        unfold St.signal St.set
        split <;> simp_all
      rw [← e1]
      exact this
    · exact key
  · refine ⟨s, rfl, ?_⟩
    rename_i he
    have : e = 0 := by omega
    subst this
    exact h.set ht rfl rfl

theorem act_inv {c : Cfg} {s : St} (h : Inv s) (a : Act) {r : Option St} (ha : act c s a = some r) : ∃ s', r = some s' ∧ Inv s' := by
  cases a with
  | size d =>
    cases ha
    exact ⟨_, rfl, h.ev, h.sl, h.rn, h.st, h.dn⟩
  | table n =>
    cases ha
    exact ⟨_, rfl, h.ev, h.sl, h.rn, h.st, h.dn⟩
  | timer =>
    unfold act at ha
    dsimp only at ha
    split at ha <;> cases ha
    rename_i b hb
    refine ⟨_, rfl, h.move (.waiting true) s.current s.running ?_ ?_ ?_ ?_⟩
    · rw [hb]
      rfl
    · rw [h.rn, hb]
      rfl
    · intro _ hc
      cases hc
    · intro hc
      cases hc
  | evLock =>
    unfold act at ha
    dsimp only at ha
    split at ha <;> cases ha
    rename_i hb
    refine ⟨_, rfl, h.move .top s.current s.running ?_ ?_ ?_ ?_⟩
    · rw [hb]
      rfl
    · rw [h.rn, hb]
      rfl
    · intro _ hc
      cases hc
    · intro hc
      cases hc
  | evTop =>
    unfold act at ha
    dsimp only at ha
    split at ha
    · rename_i hb
      split at ha <;> cases ha
      · refine ⟨_, rfl, h.move (.test 0) s.current true ?_ rfl ?_ ?_⟩
        · rw [hb]
          rfl
        · intro _ hc
          cases hc
        · intro hc
          cases hc
      · rename_i hr
        refine ⟨_, rfl, h.move .done s.current s.running ?_ ?_ ?_ ?_⟩
        · rw [hb]
          rfl
        · rw [h.rn, hb]
          rfl
        · intro _ hc
          cases hc
        · intro _
          simpa using hr
    · cases ha
  | evTest =>
    unfold act at ha
    dsimp only at ha
    split at ha
    · rename_i k hb
      split at ha <;> cases ha
      · refine ⟨_, rfl, h.move (.wake k) s.current s.running ?_ ?_ ?_ ?_⟩
        · rw [hb]
          rfl
        · rw [h.rn, hb]
          rfl
        · intro _ hc
          cases hc
        · intro hc
          cases hc
      · refine ⟨_, rfl, h.move (.exit false) s.current s.running ?_ ?_ ?_ ?_⟩
        · rw [hb]
          rfl
        · rw [h.rn, hb]
          rfl
        · intro _ hc
          cases hc
        · intro hc
          cases hc
    · cases ha
  | evWake =>
    unfold act at ha
    dsimp only at ha
    split at ha
    · rename_i k hb
      cases ha
      have key : ∀ s1 : St, Inv s1 → s1.ev = .wake k → Inv { s1 with ev := .out k } := by
        intro s1 h1 hb1
        refine h1.move (.out k) s1.current s1.running ?_ ?_ ?_ ?_
        · rw [hb1]
          rfl
        · rw [h1.rn, hb1]
          rfl
        · intro _ hc
          cases hc
        · intro hc
          cases hc
      refine ⟨_, rfl, key _ ?_ ?_⟩
      · split
        · exact h.broadcast
        · exact h
      · split
        · exact hb
        · exact hb
    · cases ha
  | evStale d =>
    unfold act at ha
    dsimp only at ha
    split at ha <;> cases ha
    rename_i k hb
    refine ⟨_, rfl, h.move (.relock k) (s.current + d) s.running ?_ ?_ ?_ ?_⟩
    · rw [hb]
      rfl
    · rw [h.rn, hb]
      rfl
    · intro _ hc
      cases hc
    · intro hc
      cases hc
  | evCheap d =>
    unfold act at ha
    dsimp only at ha
    split at ha
    · rename_i k hb
      split at ha <;> cases ha
      refine ⟨_, rfl, h.move (.relock 0) (s.current + d) s.running ?_ ?_ ?_ ?_⟩
      · rw [hb]
        rfl
      · rw [h.rn, hb]
        rfl
      · intro _ hc
        cases hc
      · intro hc
        cases hc
    · cases ha
  | evBusy =>
    unfold act at ha
    dsimp only at ha
    split at ha
    · rename_i k hb
      split at ha <;> cases ha
      refine ⟨_, rfl, h.move (.relock (k + 1)) s.current s.running ?_ ?_ ?_ ?_⟩
      · rw [hb]
        rfl
      · rw [h.rn, hb]
        rfl
      · intro _ hc
        cases hc
      · intro hc
        cases hc
    · cases ha
  | evEarly =>
    unfold act at ha
    dsimp only at ha
    split at ha
    · rename_i k hb
      split at ha <;> cases ha
      refine ⟨_, rfl, h.move .relockEarly s.current s.running ?_ ?_ ?_ ?_⟩
      · rw [hb]
        rfl
      · rw [h.rn, hb]
        rfl
      · intro _ hc
        cases hc
      · intro hc
        cases hc
    · cases ha
  | evJob e =>
    unfold act at ha
    dsimp only at ha
    split at ha
    · rename_i k hb
      split at ha <;> cases ha
      refine ⟨_, rfl, h.move (.add e) s.current s.running ?_ ?_ ?_ ?_⟩
      · rw [hb]
        rfl
      · rw [h.rn, hb]
        rfl
      · intro _ hc
        cases hc
      · intro hc
        cases hc
    · cases ha
  | evAdd =>
    unfold act at ha
    dsimp only at ha
    split at ha <;> cases ha
    rename_i e hb
    refine ⟨_, rfl, ?_, h.sl, ?_, ?_, ?_⟩
    · have := h.ev
      simp only [promised, hb, handing] at this ⊢
      omega
    · dsimp only
      rw [h.rn, hb]
      rfl
    · intro _ hc
      cases hc
    · intro hc
      cases hc
  | evEnq =>
    unfold act at ha
    dsimp only at ha
    split at ha <;> cases ha
    rename_i e hb
    refine ⟨_, rfl, ?_, h.sl, ?_, ?_, ?_⟩
    · have := h.ev
      simp only [promised, hb, handing, List.sum_append, List.sum_cons, List.sum_nil] at this ⊢
      omega
    · dsimp only
      rw [h.rn, hb]
      rfl
    · intro _ hc
      cases hc
    · intro hc
      cases hc
  | evRelock =>
    unfold act at ha
    dsimp only at ha
    split at ha
    · rename_i k hb
      cases ha
      refine ⟨_, rfl, h.move (.test k) s.current s.running ?_ ?_ ?_ ?_⟩
      · rw [hb]
        rfl
      · rw [h.rn, hb]
        rfl
      · intro _ hc
        cases hc
      · intro hc
        cases hc
    · rename_i hb
      cases ha
      refine ⟨_, rfl, h.move (.exit true) s.current s.running ?_ ?_ ?_ ?_⟩
      · rw [hb]
        rfl
      · rw [h.rn, hb]
        rfl
      · intro _ hc
        cases hc
      · intro hc
        cases hc
    · cases ha
  | evExit =>
    unfold act at ha
    dsimp only at ha
    split at ha
    · rename_i early hb
      cases ha
      have key : ∀ s1 : St, Inv s1 → s1.ev = .exit early → Inv { s1 with running := false, ev := if s1.run then .waiting false else .top } := by
        intro s1 h1 hb1
        refine h1.move _ s1.current false ?_ ?_ ?_ ?_
        · rw [hb1]
          split <;> rfl
        · split <;> rfl
        · intro hr hc
          rw [hr] at hc
          cases hc
        · intro hc
          split at hc <;> cases hc
      refine ⟨_, rfl, key _ ?_ ?_⟩
      · split
        · exact h.broadcast
        · exact h
      · split
        · exact hb
        · exact hb
    · cases ha
  | look t =>
    unfold act at ha
    dsimp only at ha
    split at ha <;> cases ha
    rename_i ht
    refine ⟨_, rfl, ?_⟩
    split
    · exact h.set ht rfl rfl
    · exact h
  | lie t =>
    unfold act at ha
    dsimp only at ha
    split at ha <;> cases ha
    rename_i hf
    obtain ⟨ht, hl⟩ := (free_iff _ _ _).1 hf
    refine ⟨_, rfl, ?_⟩
    have e1 := sum_set promise s.thr t _ .asleep ht
    have e2 := sum_set heldN s.thr t _ .asleep ht
    have key : Inv ({ s with sleepers := s.sleepers + 1 }.set t .asleep) := by
      constructor
      · have := h.ev
        simp only [promised, St.set, promise] at this e1 ⊢
        omega
      · have := h.sl
        simp only [St.set, heldN] at e2 ⊢
        omega
      · exact h.rn
      · exact h.st
      · exact h.dn
    have := key.signal
    have e1 : ({ s with sleepers := s.sleepers + 1 }.set t .asleep).signal = ({ s with sleepers := s.sleepers + 1 } : St).signal.set t .asleep := by
      unfold St.signal St.set
      split <;> simp_all
    rw [← e1]
    exact this
  | stir t =>
    unfold act at ha
    dsimp only at ha
    split at ha <;> cases ha
    rename_i ht
    exact ⟨_, rfl, h.set ht rfl rfl⟩
  | rise t =>
    unfold act at ha
    dsimp only at ha
    split at ha <;> cases ha
    rename_i hf
    obtain ⟨ht, hl⟩ := (free_iff _ _ _).1 hf
    refine ⟨_, rfl, ?_⟩
    have e1 := sum_set promise s.thr t _ .idle ht
    have e2 := sum_set heldN s.thr t _ .idle ht
    have e3 := sum_ge heldN s.thr t _ ht
    constructor
    · have := h.ev
      simp only [promised, St.set, promise] at this e1 ⊢
      omega
    · have := h.sl
      simp only [St.set, heldN] at e2 e3 ⊢
      omega
    · exact h.rn
    · exact h.st
    · exact h.dn
  | ask t =>
    unfold act at ha
    dsimp only at ha
    split at ha <;> cases ha
    rename_i ht
    refine ⟨_, rfl, ?_⟩
    split
    · exact h.set ht rfl rfl
    · exact h
  | poke t =>
    unfold act at ha
    dsimp only at ha
    split at ha <;> cases ha
    rename_i hf
    obtain ⟨ht, hl⟩ := (free_iff _ _ _).1 hf
    refine ⟨_, rfl, ?_⟩
    refine h.signal.set (p := .poke) ?_ rfl rfl
    rw [(signal_rest s).2.2.2.2.2.2.1]
    exact ht
  | force t =>
    unfold act at ha
    dsimp only at ha
    split at ha <;> cases ha
    exact ⟨_, rfl, h.signal⟩
  | take t =>
    unfold act at ha
    dsimp only at ha
    split at ha
    · rename_i e q hq
      split at ha <;> cases ha
      rename_i ht
      refine ⟨_, rfl, ?_⟩
      have e1 := sum_set promise s.thr t _ (.job e) ht
      have e2 := sum_set heldN s.thr t _ (.job e) ht
      constructor
      · have := h.ev
        simp only [promised, St.set, promise, hq, List.sum_cons] at this e1 ⊢
        omega
      · have := h.sl
        simp only [St.set, heldN] at e2 ⊢
        omega
      · exact h.rn
      · exact h.st
      · exact h.dn
    · cases ha
  | finish t =>
    unfold act at ha
    dsimp only at ha
    split at ha
    · rename_i e ht
      split at ha <;> cases ha
      obtain ⟨s1, h1, h2⟩ := decrease_inv (c := c) h ht
      rw [h1]
      exact ⟨_, rfl, h2⟩
    · cases ha
  | reserve t r =>
    unfold act at ha
    dsimp only at ha
    split at ha <;> cases ha
    refine ⟨_, rfl, Inv.signal ?_⟩
    exact ⟨h.ev, h.sl, h.rn, h.st, h.dn⟩
  | give t r =>
    unfold act at ha
    dsimp only at ha
    split at ha <;> cases ha
    rename_i ht
    refine ⟨_, rfl, Inv.set (p := .idle) ?_ ht rfl rfl⟩
    exact ⟨h.ev, h.sl, h.rn, h.st, h.dn⟩
  | gave t =>
    unfold act at ha
    dsimp only at ha
    split at ha <;> cases ha
    rename_i hf
    obtain ⟨ht, hl⟩ := (free_iff _ _ _).1 hf
    refine ⟨_, rfl, ?_⟩
    split
    · refine h.signal.set (p := .gave) ?_ rfl rfl
      rw [(signal_rest s).2.2.2.2.2.2.1]
      exact ht
    · exact h.set ht rfl rfl
  | stop t =>
    unfold act at ha
    dsimp only at ha
    split at ha <;> cases ha
    refine ⟨_, rfl, ?_⟩
    obtain ⟨a1, a2, a3, a4, a5, a6, a7, _⟩ := signal_rest { s with run := false }
    constructor
    · have hh := signal_handing { s with run := false }
      have := h.ev
      simp only [promised] at this ⊢
      rw [a2, a6, a7, hh]
      exact this
    · rw [a3, a7]
      exact h.sl
    · rw [a4, signal_inRun]
      exact h.rn
    · intro _
      exact signal_waits _
    · intro _
      exact a5

end Verif.Evict
