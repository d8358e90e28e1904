import Verif.Evict.Step
/-! What a calm schedule keeps. -/
namespace Verif.Evict

/-- A state in which the eviction thread is neither at its last look nor asleep. -/
theorem Safe.elsewhere {c : Cfg} {s : St} (h1 : s.ev ≠ .exit false) (h2 : s.ev ≠ .waiting false) : Safe c s :=
  ⟨fun h => absurd h h1, fun h => absurd h h2⟩

theorem Safe.congr {c : Cfg} {s s' : St} (h : Safe c s) (h1 : s'.ev = s.ev) (h2 : s'.current ≤ s.current) (h3 : s'.evicting = s.evicting) (h4 : Asleep s' → Asleep s) :
    Safe c s' := by
  constructor
  · intro he
    have := h.ex (h1 ▸ he)
    rw [h3]
    omega
  · intro hw ha
    rw [h3]
    exact h.wt (h1 ▸ hw) (h4 ha)

theorem decrease_safe {c : Cfg} {s s1 : St} (hi : Inv s) (h : Safe c s) {t e : Nat} (hh : ¬ (0 < e ∧ s.ev.holds = true))
    (hd : s.decrease c e = some s1) : Safe c (s1.set t .idle) := by
  unfold St.decrease at hd
  split at hd
  · rename_i he
    dsimp only at hd
    split at hd <;> cases hd
    split
    · refine Safe.set ?_ (by simp)
      refine Safe.elsewhere ?_ (signal_waits _)
      rw [Ne, signal_exit]
      intro hc
      dsimp only at hc
      exact hh ⟨he, by rw [hc]; rfl⟩
    · rename_i hn
      refine Safe.set ?_ (by simp)
      constructor
      · intro hc
        dsimp only at hc
        exact absurd ⟨he, by rw [hc]; rfl⟩ hh
      · intro hw ha
        dsimp only at hw
        have h1 := h.wt hw ha
        have h2 := sleepers_pos hi (s := s) ha
        have h3 := hi.rn
        rw [hw] at h3
        simp only [Ev.inRun] at h3
        dsimp only
        simp only [h3, Bool.not_false, Bool.and_true, Bool.and_eq_true, decide_eq_true_eq, not_and, gt_iff_lt] at hn
        have := hn ⟨h2, h1⟩
        omega
  · cases hd
    exact h.set (by simp)

theorem act_safe {c : Cfg} {s s' : St} (hi : Inv s) (h : Safe c s) (a : Act) (ha : act c s a = some (some s'))
    (hc : s.ev = .exit false → ∀ d, a = .size d → d ≤ 0) : Safe c s' := by
  cases a with
  | size d =>
    cases ha
    constructor
    · intro he
      have := hc he d rfl
      have := h.ex he
      dsimp only
      omega
    · intro hw hs
      exact h.wt hw hs
  | table n =>
    cases ha
    exact h.congr rfl (Int.le_refl _) rfl id
  | timer =>
    unfold act at ha
    dsimp only at ha
    split at ha <;> cases ha
    exact Safe.elsewhere (by simp) (by simp)
  | evLock =>
    unfold act at ha
    dsimp only at ha
    split at ha <;> cases ha
    exact Safe.elsewhere (by simp) (by simp)
  | evTop =>
    unfold act at ha
    dsimp only at ha
    split at ha
    · split at ha <;> cases ha <;> exact Safe.elsewhere (by simp) (by simp)
    · cases ha
  | evTest =>
    unfold act at ha
    dsimp only at ha
    split at ha
    · split at ha <;> cases ha
      · exact Safe.elsewhere (by simp) (by simp)
      · rename_i hn
        refine ⟨fun _ => ?_, fun hw => by cases hw⟩
        simp only [St.needed, decide_eq_true_eq] at hn
        dsimp only
        omega
    · cases ha
  | evWake =>
    unfold act at ha
    dsimp only at ha
    split at ha <;> cases ha
    exact Safe.elsewhere (by simp) (by simp)
  | evStale d =>
    unfold act at ha
    dsimp only at ha
    split at ha <;> cases ha
    exact Safe.elsewhere (by simp) (by simp)
  | evCheap d =>
    unfold act at ha
    dsimp only at ha
    split at ha
    · split at ha <;> cases ha
      exact Safe.elsewhere (by simp) (by simp)
    · cases ha
  | evBusy =>
    unfold act at ha
    dsimp only at ha
    split at ha
    · split at ha <;> cases ha
      exact Safe.elsewhere (by simp) (by simp)
    · cases ha
  | evEarly =>
    unfold act at ha
    dsimp only at ha
    split at ha
    · split at ha <;> cases ha
      exact Safe.elsewhere (by simp) (by simp)
    · cases ha
  | evJob e =>
    unfold act at ha
    dsimp only at ha
    split at ha
    · split at ha <;> cases ha
      exact Safe.elsewhere (by simp) (by simp)
    · cases ha
  | evAdd =>
    unfold act at ha
    dsimp only at ha
    split at ha <;> cases ha
    exact Safe.elsewhere (by simp) (by simp)
  | evEnq =>
    unfold act at ha
    dsimp only at ha
    split at ha <;> cases ha
    exact Safe.elsewhere (by simp) (by simp)
  | evRelock =>
    unfold act at ha
    dsimp only at ha
    split at ha <;> cases ha
    · exact Safe.elsewhere (by simp) (by simp)
    · exact Safe.elsewhere (by simp) (by simp)
  | evExit =>
    unfold act at ha
    dsimp only at ha
    split at ha
    · rename_i early hb
      cases ha
      refine ⟨fun hx => ?_, fun hw hs => ?_⟩
      · have hn : ∀ b : Bool, (if b = true then Ev.waiting false else Ev.top) ≠ .exit false := by
          intro b
          cases b <;> simp
        exact absurd hx (hn _)
      · by_cases hcond : (decide (s.sleepers > 0) && (early || s.shouldWake c)) = true
        · rw [if_pos hcond] at hs
          exact absurd hs (not_asleep_broadcast s)
        · rw [if_neg hcond] at hs ⊢
          have hp := sleepers_pos hi (s := s) hs
          have hp' : decide (s.sleepers > 0) = true := decide_eq_true hp
          rw [hp', Bool.true_and] at hcond
          cases early with
          | true => exact absurd rfl hcond
          | false =>
            have := h.ex hb
            rw [Bool.false_or, St.shouldWake, decide_eq_true_eq] at hcond
            dsimp only
            omega
    · cases ha
  | look t =>
    unfold act at ha
    dsimp only at ha
    split at ha <;> cases ha
    split
    · exact h.set (by simp)
    · exact h
  | lie t =>
    unfold act at ha
    dsimp only at ha
    split at ha <;> cases ha
    rename_i hf
    obtain ⟨ht, hl⟩ := (free_iff _ _ _).1 hf
    refine Safe.elsewhere ?_ (signal_waits _)
    show (St.signal _).ev ≠ _
    rw [Ne, signal_exit]
    intro hx
    dsimp only at hx
    rw [hx] at hl
    cases hl
  | stir t =>
    unfold act at ha
    dsimp only at ha
    split at ha <;> cases ha
    exact h.set (by simp)
  | rise t =>
    unfold act at ha
    dsimp only at ha
    split at ha <;> cases ha
    refine Safe.set ?_ (by simp)
    exact h.congr rfl (Int.le_refl _) rfl id
  | ask t =>
    unfold act at ha
    dsimp only at ha
    split at ha <;> cases ha
    split
    · exact h.set (by simp)
    · exact h
  | poke t =>
    unfold act at ha
    dsimp only at ha
    split at ha <;> cases ha
    exact h.signal.set (by simp)
  | force t =>
    unfold act at ha
    dsimp only at ha
    split at ha <;> cases ha
    exact h.signal
  | take t =>
    unfold act at ha
    dsimp only at ha
    split at ha
    · split at ha <;> cases ha
      refine Safe.set ?_ (by simp)
      exact h.congr rfl (Int.le_refl _) rfl id
    · cases ha
  | finish t =>
    unfold act at ha
    dsimp only at ha
    split at ha
    · rename_i e ht
      split at ha
      · cases ha
      · rename_i hh
        cases hd : s.decrease c e with
        | none => simp [hd] at ha
        | some s1 =>
          simp only [hd, Option.map_some, Option.some.injEq] at ha
          subst ha
          exact decrease_safe hi h hh hd
    · cases ha
  | reserve t r =>
    unfold act at ha
    dsimp only at ha
    split at ha <;> cases ha
    rename_i hf
    obtain ⟨ht, hl⟩ := (free_iff _ _ _).1 hf
    refine Safe.elsewhere ?_ (signal_waits _)
    rw [Ne, signal_exit]
    intro hx
    dsimp only at hx
    rw [hx] at hl
    cases hl
  | give t r =>
    unfold act at ha
    dsimp only at ha
    split at ha <;> cases ha
    refine Safe.set ?_ (by simp)
    refine h.congr rfl ?_ rfl id
    dsimp only
    omega
  | gave t =>
    unfold act at ha
    dsimp only at ha
    split at ha <;> cases ha
    refine Safe.set ?_ (by simp)
    split
    · exact h.signal
    · exact h
  | stop t =>
    unfold act at ha
    dsimp only at ha
    split at ha <;> cases ha
    rename_i hf
    obtain ⟨ht, hl⟩ := (free_iff _ _ _).1 hf
    refine Safe.elsewhere ?_ (signal_waits _)
    rw [Ne, signal_exit]
    intro hx
    dsimp only at hx
    rw [hx] at hl
    cases hl

theorem run_inv {c : Cfg} : ∀ (as : List Act) (s : St), Inv s → run c s as ≠ .crash ∧ ∀ s', run c s as = .ok s' → Inv s'
  | [], s, h => ⟨by simp [run], fun s' h' => by simp only [run, Out.ok.injEq] at h'; exact h' ▸ h⟩
  | a :: as, s, h => by
    unfold run
    split
    · rename_i s1 h1
      obtain ⟨s2, e, hi⟩ := act_inv h a h1
      cases e
      exact run_inv as s1 hi
    · rename_i h1
      obtain ⟨s2, e, hi⟩ := act_inv h a h1
      cases e
    · exact ⟨by simp, fun s' h' => by cases h'⟩

theorem run_safe {c : Cfg} : ∀ (as : List Act) (s s' : St), Inv s → Safe c s → Calm c s as → run c s as = .ok s' → Safe c s'
  | [], s, s', _, h, _, h' => by
    simp only [run, Out.ok.injEq] at h'
    exact h' ▸ h
  | a :: as, s, s', hi, h, hc, h' => by
    unfold run at h'
    split at h'
    · rename_i s1 h1
      obtain ⟨s2, e, hi1⟩ := act_inv hi a h1
      cases e
      have hc2 := hc.2
      rw [h1] at hc2
      exact run_safe as s1 s' hi1 (act_safe hi h a h1 hc.1) hc2 h'
    · cases h'
    · cases h'

theorem init_inv (n : Nat) : Inv (St.init n) := by
  constructor
  · simp [St.init, promised, handing, promise]
  · simp [St.init, heldN]
  · rfl
  · intro h
    cases h
  · intro h
    cases h

theorem init_safe (c : Cfg) (n : Nat) : Safe c (St.init n) := Safe.elsewhere (by simp [St.init]) (by simp [St.init])

end Verif.Evict
