import Verif.Cron.Lemmas
/-! Calls are a period apart, if periods are whole. -/
namespace Verif.Cron

structure Sp (t0 : Nat) (s : St) : Prop where
  wh : Whole s.period
  l0 : t0 * 1000 ≤ s.last.real
  lc : ∀ c ∈ s.calls, Big c = true → c.1 * 1000 ≤ s.last.real
  le : s.last.real = t0 * 1000 ∨ ∃ c ∈ s.calls, Big c = true ∧ s.last.real = c.1 * 1000
  du : s.pc = .due → s.last.real + s.period * 1000000 ≤ s.now * 1000
  pw : (s.calls.filter Big).Pairwise (fun new old => old.1 + new.2 * 1000 ≤ new.1)
  f0 : ∀ c ∈ s.calls, Big c = true → t0 + c.2 * 1000 ≤ c.1

theorem whole_big {p : Nat} (h : Whole p) (hp : 1000 < p) : p % 1000 = 0 := by
  rcases h with h | h
  · omega
  · exact h

theorem passed {s : St} (hl : s.last.nsec < 1000000000) (hp : s.period % 1000 = 0) :
    (s.last.plus s.period).after (clock s.now) = false ↔ s.last.real + s.period * 1000000 ≤ s.now * 1000 := by
  obtain ⟨h1, h2⟩ := plus_whole hl hp
  have h3 := after_iff h1 (clock_valid s.now)
  rw [h2, clock_real] at h3
  constructor
  · intro h
    rw [h] at h3
    have : ¬ (s.now * 1000 < s.last.real + s.period * 1000000) := fun hc => by simpa using h3.2 hc
    omega
  · intro h
    cases hb : (s.last.plus s.period).after (clock s.now) with
    | false => rfl
    | true =>
      have := h3.1 hb
      omega

/-- A step that changes neither the calls nor the time of the last, and does not lead to `due`. -/
theorem Sp.same {t0 : Nat} {s s' : St} (h : Sp t0 s) (h1 : Whole s'.period) (h2 : s'.last = s.last) (h3 : s'.calls = s.calls) (h4 : s'.pc ≠ .due) : Sp t0 s' := by
  refine ⟨h1, ?_, ?_, ?_, fun e => absurd e h4, ?_, ?_⟩
  · rw [h2]; exact h.l0
  · rw [h2, h3]; exact h.lc
  · rw [h2, h3]; exact h.le
  · rw [h3]; exact h.pw
  · rw [h3]; exact h.f0

theorem act_sp {t0 : Nat} {s s' : St} (hi : Inv s) (h : Sp t0 s) (a : Act) (hw : ∀ p, a = .change p → Whole p) (ha : act s a = some (some s')) : Sp t0 s' := by
  cases a with
  | tick d =>
    cases ha
    refine ⟨h.wh, h.l0, h.lc, h.le, fun e => ?_, h.pw, h.f0⟩
    have := h.du e
    exact Nat.le_trans this (Nat.mul_le_mul_right _ (Nat.le_add_right _ _))
  | lock =>
    unfold act at ha
    dsimp only at ha
    split at ha <;> cases ha
    exact h.same h.wh rfl rfl (by simp)
  | top =>
    unfold act at ha
    dsimp only at ha
    split at ha
    · split at ha
      · cases ha
        exact h.same h.wh rfl rfl (by simp)
      · split at ha
        · cases ha
          exact h.same h.wh rfl rfl (by simp)
        · split at ha
          · cases ha
            exact h.same h.wh rfl rfl (by simp)
          · split at ha
            · split at ha <;> cases ha
              exact h.same h.wh rfl rfl (by simp)
            · cases ha
              exact h.same h.wh rfl rfl (by simp)
    · cases ha
  | stir =>
    unfold act at ha
    dsimp only at ha
    split at ha <;> cases ha <;> exact h.same h.wh rfl rfl (by simp)
  | wake =>
    unfold act at ha
    dsimp only at ha
    split at ha <;> cases ha <;> exact h.same h.wh rfl rfl (by simp)
  | timeout =>
    unfold act at ha
    dsimp only at ha
    split at ha
    · split at ha <;> cases ha
      exact h.same h.wh rfl rfl (by simp)
    · cases ha
  | slept =>
    unfold act at ha
    dsimp only at ha
    split at ha
    · split at ha <;> cases ha
      exact h.same h.wh rfl rfl (by simp)
    · cases ha
  | relock =>
    unfold act at ha
    dsimp only at ha
    split at ha <;> cases ha
    exact h.same h.wh rfl rfl (by simp)
  | woke =>
    unfold act at ha
    dsimp only at ha
    split at ha
    · split at ha
      · cases ha
        exact h.same h.wh rfl rfl (by simp)
      · split at ha
        · rename_i hp
          split at ha <;> cases ha
          · exact h.same h.wh rfl rfl (by simp)
          · rename_i hn
            refine ⟨h.wh, h.l0, h.lc, h.le, fun _ => ?_, h.pw, h.f0⟩
            exact (passed hi.lv (whole_big h.wh hp)).1 (by simpa using hn)
        · rename_i hp
          split at ha <;> cases ha
          · have hb : Big (s.now, s.period) = false := by
              simp only [Big, decide_eq_false_iff_not]
              exact hp
            refine ⟨h.wh, h.l0, fun c hc hbig => ?_, ?_, fun e => by (cases e), ?_, fun c hc hbig => ?_⟩
            · rcases List.mem_cons.1 hc with rfl | hc
              · rw [hb] at hbig
                cases hbig
              · exact h.lc c hc hbig
            · rcases h.le with hl | ⟨c, hc, h1, h2⟩
              · exact .inl hl
              · exact .inr ⟨c, List.mem_cons_of_mem _ hc, h1, h2⟩
            · dsimp only
              rw [List.filter_cons, hb]
              exact h.pw
            · rcases List.mem_cons.1 hc with rfl | hc
              · rw [hb] at hbig
                cases hbig
              · exact h.f0 c hc hbig
          · exact h.same h.wh rfl rfl (by simp)
    · cases ha
  | due =>
    unfold act at ha
    dsimp only at ha
    split at ha <;> cases ha
    rename_i hpc
    have hd := h.du hpc
    have hp := (hi.du hpc).2
    have hl := hi.lp
    have hb : Big (s.now, s.period) = true := by
      simp only [Big, decide_eq_true_eq]
      exact hp
    have hcr := clock_real s.now
    refine ⟨h.wh, ?_, fun c hc hbig => ?_, .inr ⟨(s.now, s.period), List.mem_cons_self, hb, hcr⟩, fun e => by (cases e), ?_, fun c hc hbig => ?_⟩
    · have := h.l0
      dsimp only
      omega
    · dsimp only
      rcases List.mem_cons.1 hc with rfl | hc
      · dsimp only
        omega
      · have := h.lc c hc hbig
        omega
    · dsimp only
      rw [List.filter_cons, if_pos hb]
      refine List.pairwise_cons.2 ⟨fun c hc => ?_, h.pw⟩
      have hc' := List.mem_filter.1 hc
      have := h.lc c hc'.1 hc'.2
      dsimp only
      omega
    · rcases List.mem_cons.1 hc with rfl | hc
      · have := h.l0
        dsimp only
        omega
      · exact h.f0 c hc hbig
  | ret =>
    unfold act at ha
    dsimp only at ha
    split at ha <;> cases ha
    exact h.same h.wh rfl rfl (by simp)
  | change p =>
    unfold act at ha
    dsimp only at ha
    split at ha <;> cases ha
    rename_i hh
    obtain ⟨e, f, g, i, j⟩ := signal_rest { s with period := p }
    refine h.same ?_ g j ?_
    · rw [f]
      exact hw p rfl
    · intro hc
      have := (signal_pc { s with period := p }).2.2.1.1 hc
      dsimp only at this
      rw [this] at hh
      exact hh rfl
  | shutdown =>
    unfold act at ha
    dsimp only at ha
    split at ha
    · cases ha
    · rename_i hh
      split at ha <;> cases ha
      obtain ⟨e, f, g, i, j⟩ := signal_rest { s with shut := true }
      refine h.same ?_ g j ?_
      · rw [f]
        exact h.wh
      · intro hc
        have := (signal_pc { s with shut := true }).2.2.1.1 hc
        dsimp only at this
        rw [this] at hh
        exact hh rfl

theorem run_sp {t0 : Nat} : ∀ (as : List Act) (s s' : St), Inv s → Sp t0 s → AllWhole as → run s as = .ok s' → Sp t0 s'
  | [], s, s', _, h, _, hr => by
    simp only [run, Out.ok.injEq] at hr
    exact hr ▸ h
  | a :: as, s, s', hi, h, hw, hr => by
    unfold run at hr
    split at hr
    · rename_i s1 h1
      exact run_sp as s1 s' (act_inv hi a h1) (act_sp hi h a (fun p e => hw p (by simp [e])) h1) (fun p e => hw p (by simp [e])) hr
    · cases hr
    · cases hr

theorem setup_sp (now period : Nat) (h : Whole period) : Sp now (St.setup now period) := by
  refine ⟨h, ?_, ?_, .inl (clock_real now), fun e => by (cases e), ?_, ?_⟩
  · show now * 1000 ≤ (clock now).real
    rw [clock_real]
    exact Nat.le_refl _
  · intro c hc
    cases hc
  · exact List.Pairwise.nil
  · intro c hc
    cases hc

/-- With whole periods only a second `shutdown` fails. -/
theorem act_ok {t0 : Nat} {s : St} (hi : Inv s) (h : Sp t0 s) (a : Act) (hs : a = .shutdown → s.shut = false) : act s a ≠ some none := by
  intro ha
  cases a with
  | top =>
    unfold act at ha
    dsimp only at ha
    split at ha
    · split at ha
      · cases ha
      · split at ha
        · cases ha
        · split at ha
          · cases ha
          · rename_i hp
            split at ha
            · split at ha
              · cases ha
              · rename_i hv
                have := (plus_whole hi.lv (whole_big h.wh (by omega))).1
                simp only [Time.valid, decide_eq_true_eq] at hv
                exact hv this
            · cases ha
    · cases ha
  | shutdown =>
    unfold act at ha
    dsimp only at ha
    rw [hs rfl] at ha
    split at ha <;> cases ha
  | tick d => cases ha
  | change p =>
    unfold act at ha
    dsimp only at ha
    split at ha <;> cases ha
  | woke =>
    unfold act at ha
    dsimp only at ha
    split at ha
    · split at ha
      · cases ha
      · split at ha
        · split at ha <;> cases ha
        · split at ha <;> cases ha
    · cases ha
  | timeout =>
    unfold act at ha
    dsimp only at ha
    split at ha
    · split at ha <;> cases ha
    · cases ha
  | slept =>
    unfold act at ha
    dsimp only at ha
    split at ha
    · split at ha <;> cases ha
    · cases ha
  | lock =>
    unfold act at ha
    dsimp only at ha
    split at ha <;> cases ha
  | stir =>
    unfold act at ha
    dsimp only at ha
    split at ha <;> cases ha
  | wake =>
    unfold act at ha
    dsimp only at ha
    split at ha <;> cases ha
  | relock =>
    unfold act at ha
    dsimp only at ha
    split at ha <;> cases ha
  | due =>
    unfold act at ha
    dsimp only at ha
    split at ha <;> cases ha
  | ret =>
    unfold act at ha
    dsimp only at ha
    split at ha <;> cases ha

end Verif.Cron
