import Verif.Ydb.FlagLemmas

set_option linter.unusedSectionVars false

namespace Verif.Ydb

open Spec

/-- What a child needs to know of its parent. -/
def view (parent : Option Txn) : Option (Iso × Bool) := parent.map (fun p => (p.iso, p.ro))

theorem ro_bit (w : Word) : (w &&& DB_TXN_READ_ONLY != 0#32) = has w bReadOnly := by
  have : DB_TXN_READ_ONLY = 1#32 <<< 2 := by decide
  rw [this, and_shift w 2 (by omega)]; rfl

theorem nosync_bit (w : Word) : (w &&& DB_TXN_NOSYNC != 0#32) = has w bNoSync := by
  have : DB_TXN_NOSYNC = 1#32 <<< 9 := by decide
  rw [this, and_shift w 9 (by omega)]; rfl

theorem sync_bit (w : Word) : (w &&& DB_TXN_SYNC != 0#32) = has w bSync := by
  have : DB_TXN_SYNC = 1#32 <<< 14 := by decide
  rw [this, and_shift w 14 (by omega)]; rfl

theorem clear_iso (w : Word) : w &&& ~~~(w &&& DB_ISOLATION_FLAGS) = w &&& ~~~DB_ISOLATION_FLAGS := by
  apply BitVec.eq_of_getLsbD_eq
  intro i hi
  simp only [BitVec.getLsbD_and, BitVec.getLsbD_not, hi]
  cases w.getLsbD i <;> simp

theorem iso_after_ro (w : Word) :
    w &&& ~~~DB_TXN_READ_ONLY &&& DB_ISOLATION_FLAGS = w &&& DB_ISOLATION_FLAGS := by
  apply BitVec.eq_of_getLsbD_eq
  intro i hi
  obtain ⟨-, -, -, -, -, -, -, hI, -, -, -, hR⟩ := one_bits i hi
  simp only [BitVec.getLsbD_and, BitVec.getLsbD_not, hi, hI, hR]
  cases w.getLsbD i <;> simp
  omega

theorem has_and (a b : Word) (i : Nat) : has (a &&& b) i = (has a i && has b i) := by
  simp [has, BitVec.getLsbD_and]
theorem has_or (a b : Word) (i : Nat) : has (a ||| b) i = (has a i || has b i) := by
  simp [has, BitVec.getLsbD_or]
theorem has_not (a : Word) (i : Nat) (h : i < 32) : has (~~~a) i = !has a i := by
  simp [has, h]
theorem has_ite (c : Bool) (a b : Word) (i : Nat) :
    has (if c = true then a else b) i = if c = true then has a i else has b i := by
  cases c <;> rfl

theorem checkFlags_ok (w : Word) (parent : Option Txn)
    (hp : ∀ p, parent = some p → (p.flags &&& DB_TXN_READ_ONLY != 0#32) = p.ro) :
    (∃ tf iso ro, checkFlags w parent = some (some (tf, iso, ro)) ∧
      BeginOK w (view parent) iso ro ∧ has tf bReadOnly = ro ∧ has tf bNoSync = has w bNoSync) ∨
    (checkFlags w parent = some none ∧ ∀ iso ro, ¬ BeginOK w (view parent) iso ro) := by
  have hpro : ∃ pro : Bool, parent.any (fun p => has p.flags bReadOnly) = pro ∧
      (∀ p, parent = some p → p.ro = pro) ∧ (parent = none → pro = false) := by
    cases parent with
    | none => exact ⟨false, rfl, by simp, by simp⟩
    | some p =>
      refine ⟨p.ro, ?_, by simp, by simp⟩
      have := hp p rfl
      rw [ro_bit] at this
      exact this
  obtain ⟨pro, hpro, hpr, hpn⟩ := hpro
  unfold checkFlags
  simp only [ro_bit, cond_clear, hpro]
  have hcl : (if has w bReadOnly = true then w &&& ~~~DB_TXN_READ_ONLY else w) =
      w &&& ~~~DB_TXN_READ_ONLY := by rw [← ro_bit]; exact cond_clear w _
  simp only [hcl]
  -- the read-only check
  by_cases h1 : (has w bReadOnly && parent.isSome && !pro) = true
  · right
    simp only [h1, if_true, true_and]
    intro iso ro hb
    cases parent with
    | none => simp at h1
    | some p =>
      have := hb.inside (p.iso, p.ro) rfl
      have hq := hpr p rfl
      simp at h1
      rw [h1.2] at hq
      simp only [hq] at this
      exact absurd (this h1.1) (by simp)
  simp only [h1, Bool.false_eq_true, if_false, iso_after_ro]
  have hcn : ∀ v : Word, (if has v bNoSync = true then v &&& ~~~DB_TXN_NOSYNC else v) =
      v &&& ~~~DB_TXN_NOSYNC := by intro v; rw [← nosync_bit]; exact cond_clear v _
  have hiso := iso_choice w parent
  have hal : (!(w &&& DB_ISOLATION_FLAGS == 0#32 || w &&& DB_ISOLATION_FLAGS == DB_TXN_SNAPSHOT ||
      w &&& DB_ISOLATION_FLAGS == DB_READ_COMMITTED ||
      w &&& DB_ISOLATION_FLAGS == DB_READ_COMMITTED_ALWAYS ||
      w &&& DB_ISOLATION_FLAGS == DB_READ_UNCOMMITTED ||
      w &&& DB_ISOLATION_FLAGS == DB_SERIALIZABLE ||
      w &&& DB_ISOLATION_FLAGS == DB_INHERIT_ISOLATION)) = !isoAllowed (w &&& DB_ISOLATION_FLAGS) := rfl
  rw [hal]
  have hview : (view parent).map (·.1) = parent.map (·.iso) := by cases parent <;> rfl
  rcases hiso with ⟨ha, hn⟩ | ⟨ha, hn⟩
  · right
    simp only [ha, Bool.not_false, if_true, true_and]
    intro iso ro hb
    have := hb.asked
    rw [hview, hn] at this
    cases this
  simp only [ha, Bool.not_true, Bool.false_eq_true, if_false, hn]
  cases hask : askedLevel w (parent.map (·.iso)) with
  | none =>
    right
    refine ⟨rfl, ?_⟩
    intro iso ro hb
    have := hb.asked
    rw [hview, hask] at this
    cases this
  | some iso =>
    simp only []
    by_cases h2 : parent.any (fun p => decide (iso ≠ p.iso)) = true
    · right
      simp only [h2, if_true, true_and]
      intro iso' ro hb
      cases parent with
      | none => simp at h2
      | some p =>
        simp only [Option.any_some, decide_eq_true_eq] at h2
        have hs := hb.same (p.iso, p.ro) rfl
        have := hb.asked
        rw [hview, hask] at this
        simp only [Option.some.injEq] at this
        rw [this] at h2
        exact h2 hs
    simp only [h2, Bool.false_eq_true, if_false, nosync_bit, hcn]
    have hx : w &&& ~~~DB_TXN_READ_ONLY &&& ~~~(w &&& DB_ISOLATION_FLAGS) &&& ~~~DB_TXN_NOWAIT &&&
        ~~~DB_TXN_NOSYNC = extra w := by
      apply BitVec.eq_of_getLsbD_eq
      intro i hi
      simp only [extra, BitVec.getLsbD_and, BitVec.getLsbD_not, hi]
      cases w.getLsbD i <;> simp
    rw [hx]
    by_cases h3 : extra w = 0#32
    · left
      simp only [h3, ne_eq, not_true_eq_false, if_false]
      refine ⟨_, _, _, rfl, ?_, ?_, ?_⟩
      · refine ⟨(extra_zero w).1 h3, by rw [hview]; exact hask, ?_, ?_, ?_, ?_⟩
        · intro p hpv
          cases parent with
          | none => cases hpv
          | some q =>
            simp only [view, Option.map_some, Option.some.injEq] at hpv
            subst hpv
            simpa using h2
        · intro p hpv
          cases parent with
          | none => cases hpv
          | some q =>
            simp only [view, Option.map_some, Option.some.injEq] at hpv
            subst hpv
            have hq := hpr q rfl
            simp only [Option.isSome_some, Bool.and_true] at h1
            simp only [hq]
            cases pro <;> simp at h1 ⊢
            exact h1
        · intro p hpv hw
          cases parent with
          | none => cases hpv
          | some q =>
            simp only [view, Option.map_some, Option.some.injEq] at hpv
            subst hpv
            have hq := hpr q rfl
            simp only [hq]
            cases pro <;> simp [hw] at h1 ⊢
        · intro hpv
          cases parent with
          | none => rw [hpn rfl]; simp
          | some q => cases hpv
      · have e1 : has DB_TXN_NOWAIT bReadOnly = false := by decide
        have e2 : has DB_TXN_READ_ONLY bReadOnly = true := by decide
        have e3 : has DB_TXN_NOSYNC bReadOnly = false := by decide
        have e4 : has 0#32 bReadOnly = false := by decide
        simp only [has_ite, has_or, e1, e2, e3, e4]
        cases pro <;> cases has w bReadOnly <;> simp
      · have e1 : has DB_TXN_NOWAIT bNoSync = false := by decide
        have e2 : has DB_TXN_READ_ONLY bNoSync = false := by decide
        have e3 : has DB_TXN_NOSYNC bNoSync = true := by decide
        have e4 : has 0#32 bNoSync = false := by decide
        have e5 : has DB_ISOLATION_FLAGS bNoSync = false := by decide
        have lt : bNoSync < 32 := by decide
        simp only [has_ite, has_or, has_and, has_not _ _ lt, e1, e2, e3, e4, e5]
        cases pro <;> cases has w bReadOnly <;> cases has w bNoSync <;> simp
    · right
      simp only [h3, ne_eq, not_false_eq_true, if_true, true_and]
      intro iso' ro hb
      exact h3 ((extra_zero w).2 hb.known)

end Verif.Ydb
