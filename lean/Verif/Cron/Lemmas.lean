import Verif.Cron.Spec
/-! Invariants of periodic work. -/
namespace Verif.Cron

theorem clock_real (now : Nat) : (clock now).real = now * 1000 := by
  simp only [clock, Time.real]
  omega

theorem clock_valid (now : Nat) : (clock now).nsec < 1000000000 := by
  simp only [clock]
  omega

theorem after_iff {a b : Time} (ha : a.nsec < 1000000000) (hb : b.nsec < 1000000000) : a.after b = true ↔ b.real < a.real := by
  simp only [Time.after, Time.real]
  split
  · simp; omega
  · split
    · simp; omega
    · simp; omega

theorem plus_whole {t : Time} {p : Nat} (ht : t.nsec < 1000000000) (hp : p % 1000 = 0) :
    (t.plus p).nsec < 1000000000 ∧ (t.plus p).real = t.real + p * 1000000 := by
  simp only [Time.plus, Time.real]
  constructor
  · omega
  · omega

structure Inv (s : St) : Prop where
  lv : s.last.nsec < 1000000000
  lp : s.last.real ≤ s.now * 1000
  wu : s.pc = .waitU false → s.shut = false ∧ s.period = 0
  wt : ∀ u, s.pc = .waitT u false → s.shut = false ∧ 1000 < s.period ∧ u = s.last.plus s.period
  du : s.pc = .due → s.shut = false ∧ 1000 < s.period
  dn : s.pc = .done → s.shut = true
  sl : ∀ u, s.pc = .sleeping u → u ≤ s.now + 1000000

theorem signal_pc (s : St) : s.signal.pc ≠ .waitU false ∧ (∀ u, s.signal.pc ≠ .waitT u false) ∧ (s.signal.pc = .due ↔ s.pc = .due) ∧ (s.signal.pc = .done ↔ s.pc = .done)
    ∧ ∀ u, s.signal.pc = .sleeping u ↔ s.pc = .sleeping u := by
  unfold St.signal
  split <;> simp_all

theorem signal_rest (s : St) : s.signal.now = s.now ∧ s.signal.period = s.period ∧ s.signal.last = s.last ∧ s.signal.shut = s.shut ∧ s.signal.calls = s.calls := by
  unfold St.signal
  split <;> simp

theorem signal_inv {s : St} (h1 : s.last.nsec < 1000000000) (h2 : s.last.real ≤ s.now * 1000) (h3 : s.pc ≠ .due) (h4 : s.pc = .done → s.shut = true)
    (h5 : ∀ u, s.pc = .sleeping u → u ≤ s.now + 1000000) : Inv s.signal := by
  obtain ⟨a, b, c, d, w⟩ := signal_pc s
  obtain ⟨e, f, g, i, _⟩ := signal_rest s
  refine ⟨?_, ?_, fun h => absurd h a, fun u h => absurd h (b u), fun h => absurd (c.1 h) h3, fun h => ?_, fun u h => ?_⟩
  · rw [g]; exact h1
  · rw [g, e]; exact h2
  · rw [i]; exact h4 (d.1 h)
  · rw [e]; exact h5 u ((w u).1 h)

/-- A move of the thread to a place of which nothing is asked. -/
theorem Inv.to {s : St} (h : Inv s) (p : Pc) (cs : List (Nat × Nat)) (h1 : p ≠ .waitU false) (h2 : ∀ u, p ≠ .waitT u false) (h3 : p ≠ .due) (h4 : p = .done → s.shut = true)
    (h5 : ∀ u, p ≠ .sleeping u) : Inv { s with pc := p, calls := cs } :=
  ⟨h.lv, h.lp, fun e => absurd e h1, fun u e => absurd e (h2 u), fun e => absurd e h3, h4, fun u e => absurd e (h5 u)⟩

theorem act_inv {s s' : St} (h : Inv s) (a : Act) (ha : act s a = some (some s')) : Inv s' := by
  cases a with
  | tick d =>
    cases ha
    exact ⟨h.lv, Nat.le_trans h.lp (Nat.mul_le_mul_right _ (Nat.le_add_right _ _)), h.wu, h.wt, h.du, h.dn,
      fun u e => Nat.le_trans (h.sl u e) (Nat.add_le_add_right (Nat.le_add_right _ _) _)⟩
  | lock =>
    unfold act at ha
    dsimp only at ha
    split at ha <;> cases ha
    exact h.to .top s.calls (by simp) (by simp) (by simp) (by simp) (by simp)
  | top =>
    unfold act at ha
    dsimp only at ha
    split at ha
    · split at ha
      · rename_i hs
        cases ha
        exact h.to .done s.calls (by simp) (by simp) (by simp) (fun _ => hs) (by simp)
      · rename_i hs
        split at ha
        · rename_i hp
          cases ha
          exact ⟨h.lv, h.lp, fun _ => ⟨by simpa using hs, hp⟩, fun u e => by (cases e), fun e => by (cases e), fun e => by (cases e), fun u e => by (cases e)⟩
        · split at ha
          · cases ha
            rename_i hp1
            refine ⟨h.lv, h.lp, fun e => by (cases e), fun u e => by (cases e), fun e => by (cases e), fun e => by (cases e), fun u e => ?_⟩
            cases e
            dsimp only
            omega
          · rename_i hp
            split at ha
            · split at ha
              · cases ha
                refine ⟨h.lv, h.lp, fun e => by (cases e), fun u e => ?_, fun e => by (cases e), fun e => by (cases e), fun u e => by (cases e)⟩
                injection e with e1 e2
                exact ⟨by simpa using hs, by dsimp only; omega, e1.symm⟩
              · cases ha
            · cases ha
              exact h.to .woke s.calls (by simp) (by simp) (by simp) (by simp) (by simp)
    · cases ha
  | stir =>
    unfold act at ha
    dsimp only at ha
    split at ha <;> cases ha
    · exact h.to (.waitU true) s.calls (by simp) (by simp) (by simp) (by simp) (by simp)
    · exact h.to (.waitT _ true) s.calls (by simp) (by simp) (by simp) (by simp) (by simp)
  | wake =>
    unfold act at ha
    dsimp only at ha
    split at ha <;> cases ha
    · exact h.to .woke s.calls (by simp) (by simp) (by simp) (by simp) (by simp)
    · exact h.to .woke s.calls (by simp) (by simp) (by simp) (by simp) (by simp)
  | timeout =>
    unfold act at ha
    dsimp only at ha
    split at ha
    · split at ha <;> cases ha
      exact h.to .woke s.calls (by simp) (by simp) (by simp) (by simp) (by simp)
    · cases ha
  | slept =>
    unfold act at ha
    dsimp only at ha
    split at ha
    · split at ha <;> cases ha
      exact h.to .slept s.calls (by simp) (by simp) (by simp) (by simp) (by simp)
    · cases ha
  | relock =>
    unfold act at ha
    dsimp only at ha
    split at ha <;> cases ha
    exact h.to .woke s.calls (by simp) (by simp) (by simp) (by simp) (by simp)
  | woke =>
    unfold act at ha
    dsimp only at ha
    split at ha
    · split at ha
      · rename_i hs
        cases ha
        exact h.to .done s.calls (by simp) (by simp) (by simp) (fun _ => hs) (by simp)
      · rename_i hs
        split at ha
        · rename_i hp
          split at ha <;> cases ha
          · exact h.to .top s.calls (by simp) (by simp) (by simp) (by simp) (by simp)
          · exact ⟨h.lv, h.lp, fun e => by (cases e), fun u e => by (cases e), fun _ => ⟨by simpa using hs, hp⟩, fun e => by (cases e), fun u e => by (cases e)⟩
        · split at ha <;> cases ha
          · exact h.to .calling _ (by simp) (by simp) (by simp) (by simp) (by simp)
          · exact h.to .top s.calls (by simp) (by simp) (by simp) (by simp) (by simp)
    · cases ha
  | due =>
    unfold act at ha
    dsimp only at ha
    split at ha <;> cases ha
    refine ⟨clock_valid _, ?_, fun e => by (cases e), fun u e => by (cases e), fun e => by (cases e), fun e => by (cases e), fun u e => by (cases e)⟩
    dsimp only
    rw [clock_real]
    exact Nat.le_refl _
  | ret =>
    unfold act at ha
    dsimp only at ha
    split at ha <;> cases ha
    exact h.to .lock s.calls (by simp) (by simp) (by simp) (by simp) (by simp)
  | change p =>
    unfold act at ha
    dsimp only at ha
    split at ha <;> cases ha
    rename_i hh
    refine signal_inv h.lv h.lp ?_ h.dn h.sl
    intro e
    dsimp only at e
    rw [e] at hh
    exact hh rfl
  | shutdown =>
    unfold act at ha
    dsimp only at ha
    split at ha
    · cases ha
    · rename_i hh
      split at ha <;> cases ha
      refine signal_inv h.lv h.lp ?_ (fun _ => rfl) h.sl
      intro e
      dsimp only at e
      rw [e] at hh
      exact hh rfl

theorem setup_inv (now period : Nat) : Inv (St.setup now period) := by
  refine ⟨clock_valid _, ?_, fun e => by (cases e), fun u e => by (cases e), fun e => by (cases e), fun e => by (cases e), fun u e => by (cases e)⟩
  show (clock now).real ≤ now * 1000
  rw [clock_real]
  exact Nat.le_refl _

theorem run_inv : ∀ (as : List Act) (s s' : St), Inv s → run s as = .ok s' → Inv s'
  | [], s, s', h, hr => by
    simp only [run, Out.ok.injEq] at hr
    exact hr ▸ h
  | a :: as, s, s', h, hr => by
    unfold run at hr
    split at hr
    · rename_i s1 h1
      exact run_inv as s1 s' (act_inv h a h1) hr
    · cases hr
    · cases hr

theorem reached_inv {s : St} (h : Reached s) : Inv s := by
  obtain ⟨now, period, as, h⟩ := h
  exact run_inv as _ s (setup_inv now period) h

end Verif.Cron
