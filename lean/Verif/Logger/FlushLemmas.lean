import Verif.Logger.PropLemmas
/-!
What `log_flush` achieves if no thread is writing the log when it looks at the buffer, and progress.
-/
set_option linter.unusedVariables false
set_option linter.unusedSimpArgs false
namespace Verif.Logger
open Verif.Log Verif.Log.Spec Verif.Ser Verif.Logger.Spec

variable {lsn0 : Nat} {cfg : Cfg} {old : List File}

/-- A flush that will bring the log on disk up to `N`. -/
def FlushAt (N : Nat) (inMax : Nat) : Pc → Prop
  | .flushRead => N ≤ inMax
  | .flushUnlock l => N ≤ l
  | .wait .flush l => N ≤ l
  | .fsLock .flush l _ => N ≤ l
  | .fsSwap .flush l _ => N ≤ l
  | .fsUnlock .flush l _ => N ≤ l
  | .fsWrite .flush l _ => N ≤ l
  | .fsRoll .flush l _ => N ≤ l
  | .fsOpen .flush l _ => N ≤ l
  | .fsSync .flush l _ => N ≤ l
  | .fsNote .flush l _ => N ≤ l
  | .fsRelease .flush l _ => N ≤ l
  | _ => False

theorem FlushAt.other {N m m' : Nat} {p : Pc} (h : FlushAt N m p) (hr : p ≠ .flushRead) : FlushAt N m' p := by
  cases p with
  | flushRead => exact absurd rfl hr
  | flushUnlock l => exact h
  | wait c l => cases c <;> exact h
  | fsLock c l fs => cases c <;> exact h
  | fsSwap c l fs => cases c <;> exact h
  | fsUnlock c l fs => cases c <;> exact h
  | fsWrite c l fs => cases c <;> exact h
  | fsRoll c l fs => cases c <;> exact h
  | fsOpen c l fs => cases c <;> exact h
  | fsSync c l fs => cases c <;> exact h
  | fsNote c l fs => cases c <;> exact h
  | fsRelease c l fs => cases c <;> exact h
  | _ => exact h.elim

/-- A step changes the place of its own thread only. -/
theorem step_pc {s s' : St} {t u : Tid} {ev : Option Event} (hs : step cfg s t = .ok s' ev) (hu : u ≠ t) : s'.pc u = s.pc u := by
  have hsw : ∀ {a b : St}, a.swap = some b → b.pc = a.pc := by
    intro a b h; simp only [St.swap] at h; split at h <;> cases h; rfl
  have hwo : ∀ {a b : St}, a.writeOut = some b → b.pc = a.pc := by
    intro a b h
    simp only [St.writeOut] at h
    split at h
    · split at h
      · cases h; rfl
      · cases h
    · cases h; rfl
  have hno : ∀ {a b : St}, a.note = some b → b.pc = a.pc := by
    intro a b h; simp only [St.note] at h; split at h <;> cases h; rfl
  unfold step at hs
  split at hs
  all_goals
    first
    | (cases hs; done)
    | (cases hs; exact goto_ne _ _ hu)
    | (split at hs <;> first
        | (cases hs; done)
        | (cases hs; exact goto_ne _ _ hu)
        | (rename_i hx; cases hs; first | (rw [goto_ne _ _ hu, hsw hx]; done) | (rw [goto_ne _ _ hu, hwo hx]; done) | (rw [goto_ne _ _ hu, hno hx]; done))
        | (split at hs <;> first
          | (cases hs; done)
          | (cases hs; exact goto_ne _ _ hu)
          | (rename_i hx; cases hs; rw [goto_ne _ _ hu, hno hx]; rfl)
          | (split at hs <;> first
            | (cases hs; done)
            | (cases hs; exact goto_ne _ _ hu)
            | (split at hs <;> first
              | (cases hs; done)
              | (rename_i hx; cases hs; rw [goto_ne _ _ hu, hsw hx]; done)))))

/-- Only a thread with the input lock changes the input buffer. -/
theorem step_inbuf {s s' : St} {t : Tid} {ev : Option Event} (hs : step cfg s t = .ok s' ev) (hi : holdsIn (s.pc t) = false) : s'.inbuf = s.inbuf := by
  have hwo : ∀ {a b : St}, a.writeOut = some b → b.inbuf = a.inbuf := by
    intro a b h
    simp only [St.writeOut] at h
    split at h
    · split at h
      · cases h; rfl
      · cases h
    · cases h; rfl
  have hno : ∀ {a b : St}, a.note = some b → b.inbuf = a.inbuf := by
    intro a b h; simp only [St.note] at h; split at h <;> cases h; rfl
  unfold step at hs
  split at hs <;> rename_i e <;> rw [e] at hi <;> first | (cases hi; done) | skip
  all_goals
    first
    | (cases hs; done)
    | (cases hs; rfl)
    | (split at hs <;> first
        | (cases hs; done)
        | (cases hs; rfl)
        | (rename_i hx; cases hs; first | (have := hwo hx; exact this) | (have := hno hx; exact this))
        | (split at hs <;> first
          | (cases hs; done)
          | (cases hs; rfl)
          | (rename_i hx; cases hs; have := hno hx; exact this)
          | (split at hs <;> first
            | (cases hs; done)
            | (cases hs; rfl))))

theorem flush_own {N : Nat} {s s' : St} {t : Tid} {ev : Option Event} (h : FlushAt N s.inbuf.maxLsn (s.pc t)) (hs : step cfg s t = .ok s' ev) :
    (FlushAt N s'.inbuf.maxLsn (s'.pc t) ∧ ev = none) ∨ ∃ l, ev = some (.ret t .flush l) ∧ N ≤ l := by
  unfold step at hs
  split at hs <;> rename_i e <;> rw [e] at h <;> try (exact h.elim)
  case h_14 c l =>
    cases c <;> first | exact h.elim | skip
    split at hs
    · cases hs; exact .inr ⟨l, rfl, h⟩
    · split at hs
      · cases hs; exact .inl ⟨by rw [goto_self]; exact h, rfl⟩
      · cases hs
  case h_15 c l fs =>
    cases c <;> first | exact h.elim | skip
    split at hs
    · cases hs; exact .inl ⟨by rw [goto_self]; exact h, rfl⟩
    · cases hs
  case h_16 c l fs =>
    cases c <;> first | exact h.elim | skip
    split at hs
    · cases hs; exact .inl ⟨by rw [goto_self]; exact h, rfl⟩
    · cases hs
  case h_17 c l fs =>
    cases c <;> first | exact h.elim | skip
    cases hs; exact .inl ⟨by rw [goto_self]; exact h, rfl⟩
  case h_18 c l fs =>
    cases c <;> first | exact h.elim | skip
    split at hs
    · cases hs; exact .inl ⟨by rw [goto_self]; exact h, rfl⟩
    · cases hs
  case h_19 c l fs =>
    cases c <;> first | exact h.elim | skip
    split at hs
    · split at hs
      · cases hs; exact .inl ⟨by rw [goto_self]; exact h, rfl⟩
      · cases hs
    · cases hs; exact .inl ⟨by rw [goto_self]; exact h, rfl⟩
  case h_20 c l fs =>
    cases c <;> first | exact h.elim | skip
    cases hs; exact .inl ⟨by rw [goto_self]; exact h, rfl⟩
  case h_21 c l fs =>
    cases c <;> first | exact h.elim | skip
    split at hs
    · split at hs
      · cases hs; exact .inl ⟨by rw [goto_self]; exact h, rfl⟩
      · cases hs
    · cases hs; exact .inl ⟨by rw [goto_self]; exact h, rfl⟩
  case h_22 c l fs =>
    cases c <;> first | exact h.elim | skip
    split at hs
    · cases hs; exact .inl ⟨by rw [goto_self]; exact h, rfl⟩
    · cases hs
  case h_23 c l fs =>
    cases c <;> first | exact h.elim | skip
    cases hs; exact .inr ⟨l, rfl, h⟩
  case h_25 =>
    cases hs; exact .inl ⟨by rw [goto_self]; exact h, rfl⟩
  case h_26 l =>
    cases hs; exact .inl ⟨by rw [goto_self]; exact h, rfl⟩

theorem flush_keeps {N : Nat} {s s' : St} {t u : Tid} {a : Act} {ev : Option Event} (hl : Locks s) (h : FlushAt N s.inbuf.maxLsn (s.pc t)) (hs : act cfg s u a = .ok s' ev) :
    (FlushAt N s'.inbuf.maxLsn (s'.pc t) ∧ ∀ l, ev ≠ some (.ret t .flush l)) ∨ ∃ l, ev = some (.ret t .flush l) ∧ N ≤ l := by
  have hni : s.pc t ≠ .idle := by intro hi; rw [hi] at h; exact h
  cases a with
  | call c =>
    simp only [act, St.call] at hs
    split at hs
    · rename_i hidle
      have hut : t ≠ u := by intro e; rw [← e] at hidle; exact hni hidle
      left
      have : s'.pc t = s.pc t ∧ s'.inbuf = s.inbuf ∧ ∀ l, ev ≠ some (.ret t .flush l) := by
        split at hs
        · cases hs; exact ⟨goto_ne _ _ hut, rfl, by simp⟩
        · cases hs; exact ⟨goto_ne _ _ hut, rfl, by simp⟩
        · split at hs
          · cases hs; exact ⟨goto_ne _ _ hut, rfl, by simp⟩
          · cases hs
        · cases hs; exact ⟨goto_ne _ _ hut, rfl, by simp⟩
      rw [this.1, this.2.1]; exact ⟨h, this.2.2⟩
    · cases hs
  | go =>
    by_cases hut : t = u
    · subst hut
      rcases flush_own h hs with ⟨h1, h2⟩ | h1
      · exact .inl ⟨h1, by rw [h2]; simp⟩
      · exact .inr h1
    · left
      rw [step_pc hs hut]
      refine ⟨?_, ?_⟩
      · by_cases hr : s.pc t = .flushRead
        · have hin : s.inLock = some t := (hl.inl t).mp (by rw [hr]; rfl)
          have hnu : holdsIn (s.pc u) = false := by
            cases hb : holdsIn (s.pc u)
            · rfl
            · have := (hl.inl u).mp hb
              rw [hin] at this
              exact absurd (Option.some.inj this) hut
          rw [step_inbuf hs hnu]; exact h
        · exact FlushAt.other h hr
      · intro l hev
        rw [hev] at hs
        have : ∀ (x : Tid), step cfg s u = .ok s' (some (.ret x .flush l)) → x = u := by
          intro x hx
          unfold step at hx
          split at hx
          all_goals
            first
            | (cases hx; done)
            | (cases hx; rfl)
            | (split at hx <;> first | (cases hx; done) | (cases hx; rfl) | (split at hx <;> first | (cases hx; done) | (split at hx <;> first | (cases hx; done) | (split at hx <;> cases hx))))
        exact hut (this t hs)

end Verif.Logger
