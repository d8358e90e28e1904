import Verif.Ckpt.Safe
/-! A checkpoint comes to its end if callers let it. -/
set_option linter.unusedVariables false
set_option linter.unusedSimpArgs false
namespace Verif.Ckpt
variable {V : Type} {cl : Nat → Bool} {s s' : St V} {sp sp' : Spec.S V} {es : List (Ev V)}

theorem Goes.trans {a b c : St V} (h1 : Goes cl a b) (h2 : Goes cl b c) : Goes cl a c := by
  induction h1 with
  | refl => exact h2
  | step ha hs _ ih => exact .step ha hs (ih h2)

theorem legal_own {a : Act V} (ha : Own.step a) : Spec.Legal s sp a := by cases a <;> simp_all [Own.step, Spec.Legal]

theorem goes_inv (h : Goes cl s s') (hi : Inv s sp) : Inv s' sp := by
  induction h with
  | refl => exact hi
  | step ha hs _ ih => exact ih (inv_step hi (legal_own ha) hs)

theorem quiet_set (q : Quiet s) {n : Nat} {p p' : Pair V} (hp : s.pair n = some p) (hl : ∀ t, p'.lock ≠ some (.thr t)) (hr : p'.readers = p.readers) (hpc : s'.pc = s.pc)
    (hpair : s'.pair = (s.setPair n (some p')).pair) : Quiet s' := by
  refine ⟨fun t => by rw [hpc]; exact q.pc t, fun m r hm => ?_⟩
  rw [hpair] at hm
  simp only [St.setPair] at hm
  split at hm
  · cases hm; exact ⟨hl, hr ▸ (q.lock n p hp).2⟩
  · exact q.lock m r hm

/-- Background writes end. -/
theorem jobs_end (k : Nat) : ∀ {s : St V}, s.jobs.length ≤ k → Inv s sp → Quiet s → ∃ s', Goes cl s s' ∧ Quiet s' ∧ s'.jobs = [] ∧ s'.cp = s.cp ∧ s'.plist = s.plist := by
  induction k with
  | zero => intro s hk hi q; exact ⟨s, .refl, q, List.eq_nil_of_length_eq_zero (by omega), rfl, rfl⟩
  | succ k ih =>
    intro s hk hi q
    cases hj : s.jobs with
    | nil => exact ⟨s, .refl, q, hj, rfl, rfl⟩
    | cons n l =>
      cases hp : s.pair n with
      | none => have := (hi.none hp).job; simp [view, hj] at this
      | some p =>
        have g := hi.some hp
        have hd : p.disk = some .job := g.job.2.mpr (by simp [view, hj])
        have key : ∀ {s : St V} {p : Pair V}, s.jobs = n :: l → Inv s sp → Quiet s → s.pair n = some p → p.disk = some .job → p.clone = none → s.jobs.length ≤ k + 1 →
            ∃ s', Goes cl s s' ∧ Quiet s' ∧ s'.jobs = [] ∧ s'.cp = s.cp ∧ s'.plist = s.plist := by
          intro s p hj hi q hp hd hc hk
          have hs : step cl s (.job n) = .ok { s.setPair n (some { p with disk := none }) with jobs := s.jobs.filter (· ≠ n) } [] := by simp only [step, hp, hd, hc, if_true]
          obtain ⟨s', h1, h2, h3, h4, h5⟩ := ih (s := { s.setPair n (some { p with disk := none }) with jobs := s.jobs.filter (· ≠ n) })
            (by
              have h6 := List.length_filter_le (fun x => decide (x ≠ n)) l
              have : (s.jobs.filter (fun x => decide (x ≠ n))).length ≤ l.length := by rw [hj]; simpa using h6
              rw [hj] at hk; simp only [List.length_cons] at hk
              show (s.jobs.filter (fun x => decide (x ≠ n))).length ≤ k
              omega)
            (inv_step hi (a := .job n) trivial hs) (quiet_set q hp (p' := { p with disk := none }) (q.lock n p hp).1 rfl rfl rfl)
          exact ⟨s', .step (a := .job n) trivial hs h1, h2, h3, h4, h5⟩
        cases hc : p.clone with
        | none => exact key hj hi q hp hd hc hk
        | some x =>
          have hs : step cl s (.job n) = .ok ((s.write n (some x) true).setPair n (some { p with clone := none })) [] := by simp only [step, hp, hd, hc, if_true]
          obtain ⟨s', h1, h2⟩ := key (s := (s.write n (some x) true).setPair n (some { p with clone := none })) (p := { p with clone := none }) hj (inv_step hi (a := .job n) trivial hs)
            (quiet_set q hp (p' := { p with clone := none }) (q.lock n p hp).1 rfl rfl rfl) (by simp [St.setPair]) hd rfl hk
          exact ⟨s', .step (a := .job n) trivial hs h1, h2⟩

theorem cp_lock {n : Nat} {p : Pair V} (hi : Inv s sp) (hp : s.pair n = some p) (hc : cpAt s.cp n ≠ .no) : p.lock = some .cp := by
  cases Classical.em (p.lock = some .cp) with
  | inl h => exact h
  | inr h => exact absurd ((hi.some hp).atc.mpr h) hc

theorem cp_pair {n : Nat} (hi : Inv s sp) (hc : cpAt s.cp n ≠ .no) : ∃ p, s.pair n = some p := by
  cases hp : s.pair n with
  | none => exact absurd (hi.none hp).at_ hc
  | some p => exact ⟨p, rfl⟩

/-- The checkpoint thread gets done with a node. -/
theorem wrote_end {n : Nat} (hi : Inv s sp) (q : Quiet s) (hc : s.cp = .wrote n) : ∃ s', Goes cl s s' ∧ Quiet s' ∧ s'.cp = .run ∧ s'.plist = s.plist := by
  obtain ⟨p, hp⟩ := cp_pair (n := n) hi (by rw [hc]; simp [cpAt])
  have hs : step cl s .cpStep = .ok { s.setPair n (some { p.written with pending := false, lock := none }) with cp := .run } [] := by simp only [step, St.cpStep, hc, hp]
  exact ⟨_, .step (a := .cpStep) trivial hs .refl, quiet_set q hp (p' := { p.written with pending := false, lock := none }) (by simp) rfl rfl rfl, rfl, rfl⟩

theorem hold_end {n : Nat} (hi : Inv s sp) (q : Quiet s) (hc : s.cp = .hold n) : ∃ s', Goes cl s s' ∧ Quiet s' ∧ s'.cp = .run ∧ s'.plist = s.plist := by
  obtain ⟨p, hp⟩ := cp_pair (n := n) hi (by rw [hc]; simp [cpAt])
  have hnc := no_crash (cl := cl) hi (a := .cpStep) trivial
  have hl := cp_lock hi hp (by rw [hc]; simp [cpAt])
  simp only [step, St.cpStep, hc, hp] at hnc
  by_cases hx : (p.clone.isSome || p.val.isNone) = true
  · rw [if_pos hx] at hnc; exact absurd rfl hnc
  · by_cases hcl : cl n = true
    · have hs : step cl s .cpStep = .ok { s.setPair n (some { p.makeClone with pending := false, lock := none }) with cp := .run, jobs := n :: s.jobs } [] := by
        simp only [step, St.cpStep, hc, hp, if_neg hx, if_pos hcl]
      exact ⟨_, .step (a := .cpStep) trivial hs .refl, quiet_set q hp (p' := { p.makeClone with pending := false, lock := none }) (by simp) rfl rfl rfl, rfl, rfl⟩
    · have hs : step cl s .cpStep = .ok { (s.write n p.val true).setPair n (some { p with chg := false }) with cp := .wrote n } [] := by
        simp only [step, St.cpStep, hc, hp, if_neg hx, if_neg hcl]
      obtain ⟨s', h1, h2⟩ := wrote_end (cl := cl) (inv_step hi (a := .cpStep) trivial hs) (quiet_set q hp (p' := { p with chg := false }) (q.lock n p hp).1 rfl rfl rfl) (n := n) rfl
      exact ⟨s', .step (a := .cpStep) trivial hs h1, h2⟩

theorem look_end {n : Nat} (hi : Inv s sp) (q : Quiet s) (hj : s.jobs = []) (hc : s.cp = .look n) : ∃ s', Goes cl s s' ∧ Quiet s' ∧ s'.cp = .run ∧ s'.plist = s.plist := by
  obtain ⟨p, hp⟩ := cp_pair (n := n) hi (by rw [hc]; simp [cpAt])
  have hl := cp_lock hi hp (by rw [hc]; simp [cpAt])
  have g := hi.some hp
  have hd : p.disk = none := by
    cases e : p.disk with
    | none => rfl
    | some o =>
      cases o with
      | thr t => have := (g.disk2 t e).2; rw [hl] at this; cases this
      | cp => have := g.disk3.mp e; simp [view, hc, cpAt] at this
      | job => have := g.job.2.mp e; simp [view, hj] at this
  by_cases hy : (p.dirty && p.pending) = true
  · have hs : step cl s .cpStep = .ok { s.setPair n (some { p with disk := some .cp }) with cp := .hold n } [] := by
      simp only [step, St.cpStep, hc, hp, if_pos hy, if_pos hd]
    obtain ⟨s', h1, h2⟩ := hold_end (cl := cl) (inv_step hi (a := .cpStep) trivial hs) (quiet_set q hp (p' := { p with disk := some .cp }) (q.lock n p hp).1 rfl rfl rfl) (n := n) rfl
    exact ⟨s', .step (a := .cpStep) trivial hs h1, h2⟩
  · have hs : step cl s .cpStep = .ok { s.setPair n (some { p with pending := false, lock := none }) with cp := .run } [] := by
      simp only [step, St.cpStep, hc, hp, if_neg hy]
    exact ⟨_, .step (a := .cpStep) trivial hs .refl, quiet_set q hp (p' := { p with pending := false, lock := none }) (by simp) rfl rfl rfl, rfl, rfl⟩

theorem list_end (k : Nat) : ∀ {s : St V}, s.plist.length ≤ k → Inv s sp → Quiet s → s.cp = .run → ∃ s', Goes cl s s' ∧ s'.cp = .idle := by
  induction k with
  | zero =>
    intro s hk hi q hc
    obtain ⟨s1, h1, h2, h3, h4, h5⟩ := jobs_end (cl := cl) _ (Nat.le_refl _) hi q
    have hpl : s1.plist = [] := by rw [h5]; exact List.eq_nil_of_length_eq_zero (by omega)
    have hs : step cl s1 .finish = .ok { s1 with cp := .header } [] := by simp [step, h3, hpl, h4, hc]
    have hs2 : step cl { s1 with cp := .header } .endCp = .ok { s1 with cp := .idle } [] := by simp [step]
    exact ⟨_, h1.trans (.step (a := .finish) trivial hs (.step (a := .endCp) trivial hs2 .refl)), rfl⟩
  | succ k ih =>
    intro s hk hi q hc
    obtain ⟨s1, h1, h2, h3, h4, h5⟩ := jobs_end (cl := cl) _ (Nat.le_refl _) hi q
    have hi1 := goes_inv h1 hi
    cases hpl : s.plist with
    | nil => 
      obtain ⟨s', h6, h7⟩ := ih (s := s) (by rw [hpl]; simp) hi q hc
      exact ⟨s', h6, h7⟩
    | cons n l =>
      rw [hpl] at h5
      cases hp : s1.pair n with
      | none => have := (hi1.none hp).pl; simp [view, h5] at this
      | some p =>
        have g := hi1.some hp
        have hl : p.lock = none := by
          cases e : p.lock with
          | none => rfl
          | some o =>
            cases o with
            | thr t => exact absurd e ((h2.lock n p hp).1 t)
            | cp => exact absurd e (g.atc.mp (by simp [view, h4, hc, cpAt]))
            | job => exact absurd e g.bad
        have hs : step cl s1 .take = .ok { s1.setPair n (some { p with lock := some .cp }) with cp := .look n, plist := l } [] := by
          simp only [step, h4, hc, h5, hp, hl, (h2.lock n p hp).2, and_self, if_true]
        have hi2 := inv_step hi1 (a := .take) trivial hs
        obtain ⟨s3, h6, h7, h8, h9⟩ := look_end (cl := cl) hi2 (quiet_set h2 hp (p' := { p with lock := some .cp }) (by simp) rfl rfl rfl) h3 (n := n) rfl
        obtain ⟨s', h10, h11⟩ := ih (s := s3) (by rw [h9]; rw [hpl] at hk; simpa using hk) (goes_inv h6 hi2) h7 h8
        exact ⟨s', h1.trans (.step (a := .take) trivial hs (h6.trans h10)), h11⟩

theorem cp_ends (hi : Inv s sp) (q : Quiet s) : ∃ s', Goes cl s s' ∧ s'.cp = .idle := by
  cases hc : s.cp with
  | idle => exact ⟨s, .refl, hc⟩
  | run => exact list_end _ (Nat.le_refl _) hi q hc
  | look n =>
    obtain ⟨s1, h1, h2, h3, h4, h5⟩ := jobs_end (cl := cl) _ (Nat.le_refl _) hi q
    obtain ⟨s2, g1, g2, g3, g4⟩ := look_end (cl := cl) (goes_inv h1 hi) h2 h3 (h4.trans hc)
    obtain ⟨s3, k1, k2⟩ := list_end (cl := cl) _ (Nat.le_refl _) (goes_inv (h1.trans g1) hi) g2 g3
    exact ⟨s3, (h1.trans g1).trans k1, k2⟩
  | hold n =>
    obtain ⟨s2, g1, g2, g3, g4⟩ := hold_end (cl := cl) hi q hc
    obtain ⟨s3, k1, k2⟩ := list_end (cl := cl) _ (Nat.le_refl _) (goes_inv g1 hi) g2 g3
    exact ⟨s3, g1.trans k1, k2⟩
  | wrote n =>
    obtain ⟨s2, g1, g2, g3, g4⟩ := wrote_end (cl := cl) hi q hc
    obtain ⟨s3, k1, k2⟩ := list_end (cl := cl) _ (Nat.le_refl _) (goes_inv g1 hi) g2 g3
    exact ⟨s3, g1.trans k1, k2⟩
  | header =>
    have hs2 : step cl s .endCp = .ok { s with cp := .idle } [] := by simp [step, hc]
    exact ⟨_, .step (a := .endCp) trivial hs2 .refl, rfl⟩

end Verif.Ckpt
