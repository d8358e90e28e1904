import Verif.Ydb.Spec

set_option linter.unusedSectionVars false

namespace Verif.Ydb

open Spec

theorem c_inherit : DB_INHERIT_ISOLATION = 1#32 := by decide
theorem c_serial : DB_SERIALIZABLE = 2#32 := by decide
theorem c_ro : DB_TXN_READ_ONLY = 4#32 := by decide
theorem c_rca : DB_READ_COMMITTED_ALWAYS = 8#32 := by decide

theorem and_shift (w : Word) (i : Nat) (h : i < 32) :
    (w &&& (1#32 <<< i) != 0#32) = w.getLsbD i := by
  cases hb : w.getLsbD i
  · have : w &&& (1#32 <<< i) = 0#32 := by
      apply BitVec.eq_of_getLsbD_eq
      intro j hj
      by_cases hji : j = i
      · subst hji; simp [hb]
      · simp
        intro _ h2
        have : j - i ≠ 0 ∨ j < i := by omega
        rcases this with h3 | h3
        · intro h4; omega
        · omega
    simp [this]
  · have : w &&& (1#32 <<< i) ≠ 0#32 := by
      intro h0
      have := congrArg (fun v : Word => v.getLsbD i) h0
      rw [BitVec.getLsbD_eq_getElem h] at hb
      simp [h] at this
      rw [this] at hb; cases hb
    simpa using this

theorem cond_clear (w c : Word) : (if w &&& c != 0#32 then w &&& ~~~c else w) = w &&& ~~~c := by
  by_cases h : w &&& c = 0#32
  · simp only [h, bne_self_eq_false]
    apply BitVec.eq_of_getLsbD_eq
    intro j hj
    have := congrArg (fun v : Word => v.getLsbD j) h
    simp at this ⊢
    intro hw
    simp [hw] at this
    exact ⟨hj, this⟩
  · simp [h]

/-- The word with the given isolation bits. -/
def isoWord (b0 b1 b3 b26 b27 b28 : Bool) : Word :=
  (if b0 then 1#32 else 0#32) ||| (if b1 then 2#32 else 0#32) ||| (if b3 then 8#32 else 0#32) |||
  (if b26 then 0x04000000#32 else 0#32) ||| (if b27 then 0x08000000#32 else 0#32) |||
  (if b28 then 0x10000000#32 else 0#32)

theorem getLsbD_ite (b : Bool) (c : Word) (i : Nat) :
    (if b then c else 0#32).getLsbD i = (b && c.getLsbD i) := by
  cases b <;> simp

theorem getLsbD_isoWord (b0 b1 b3 b26 b27 b28 : Bool) (i : Nat) :
    (isoWord b0 b1 b3 b26 b27 b28).getLsbD i =
      (b0 && (1#32).getLsbD i || b1 && (2#32).getLsbD i || b3 && (8#32).getLsbD i ||
       b26 && (0x04000000#32).getLsbD i || b27 && (0x08000000#32).getLsbD i ||
       b28 && (0x10000000#32).getLsbD i) := by
  simp only [isoWord, BitVec.getLsbD_or, getLsbD_ite]

theorem one_bits : ∀ i < 32, (1#32).getLsbD i = decide (i = 0) ∧ (2#32).getLsbD i = decide (i = 1) ∧
    (4#32).getLsbD i = decide (i = 2) ∧
    (8#32).getLsbD i = decide (i = 3) ∧ (0x04000000#32).getLsbD i = decide (i = 26) ∧
    (0x08000000#32).getLsbD i = decide (i = 27) ∧ (0x10000000#32).getLsbD i = decide (i = 28) ∧
    DB_ISOLATION_FLAGS.getLsbD i =
      decide (i = 0 ∨ i = 1 ∨ i = 3 ∨ i = 26 ∨ i = 27 ∨ i = 28) ∧
    DB_TXN_NOSYNC.getLsbD i = decide (i = 9) ∧ DB_TXN_NOWAIT.getLsbD i = decide (i = 10) ∧
    DB_TXN_SYNC.getLsbD i = decide (i = 14) ∧ DB_TXN_READ_ONLY.getLsbD i = decide (i = 2) := by
  decide

theorem iso_and (w : Word) : w &&& DB_ISOLATION_FLAGS =
    isoWord (has w 0) (has w 1) (has w 3) (has w 26) (has w 27) (has w 28) := by
  apply BitVec.eq_of_getLsbD_eq
  intro i hi
  obtain ⟨h0, h1, h2, h3, h26, h27, h28, hI, _⟩ := one_bits i hi
  rw [BitVec.getLsbD_and, getLsbD_isoWord, h0, h1, h3, h26, h27, h28, hI]
  simp only [has]
  by_cases e0 : i = 0
  · subst e0; simp
  by_cases e1 : i = 1
  · subst e1; simp
  by_cases e3 : i = 3
  · subst e3; simp
  by_cases e26 : i = 26
  · subst e26; simp
  by_cases e27 : i = 27
  · subst e27; simp
  by_cases e28 : i = 28
  · subst e28; simp
  simp [e0, e1, e3, e26, e27, e28]

/-- The flags nobody knows. -/
def extra (w : Word) : Word :=
  w &&& ~~~DB_TXN_READ_ONLY &&& ~~~DB_ISOLATION_FLAGS &&& ~~~DB_TXN_NOWAIT &&& ~~~DB_TXN_NOSYNC

theorem has_lt {w : Word} {b : Nat} (h : has w b = true) : b < 32 := by
  rcases Nat.lt_or_ge b 32 with h1 | h1
  · exact h1
  · simp [has, BitVec.getLsbD_of_ge w b h1] at h

theorem extra_zero (w : Word) : extra w = 0#32 ↔ Only w beginBits := by
  constructor
  · intro h b hb
    have hlt := has_lt hb
    obtain ⟨-, -, -, -, -, -, -, hI, hN, hW, -, hR⟩ := one_bits b hlt
    have := congrArg (fun v : Word => v.getLsbD b) h
    simp only [extra, BitVec.getLsbD_and, BitVec.getLsbD_not, hlt, hI, hN, hW, hR, has] at this hb
    rw [hb] at this
    simp [beginBits, isoBits, bInherit, bSerializable, bReadCommittedAlways, bReadCommitted,
      bReadUncommitted, bSnapshot, bReadOnly, bNoSync, bNoWait] at this ⊢
    omega
  · intro h
    apply BitVec.eq_of_getLsbD_eq
    intro i hi
    obtain ⟨-, -, -, -, -, -, -, hI, hN, hW, -, hR⟩ := one_bits i hi
    simp only [extra, BitVec.getLsbD_and, BitVec.getLsbD_not, hi, hI, hN, hW, hR]
    cases hw : w.getLsbD i
    · simp
    · have := h i hw
      simp [beginBits, isoBits, bInherit, bSerializable, bReadCommittedAlways, bReadCommitted,
        bReadUncommitted, bSnapshot, bReadOnly, bNoSync, bNoWait] at this
      simp
      omega

/-- The allowed values of the isolation bits. -/
def isoAllowed (f : Word) : Bool :=
  f == 0#32 || f == DB_TXN_SNAPSHOT || f == DB_READ_COMMITTED ||
      f == DB_READ_COMMITTED_ALWAYS || f == DB_READ_UNCOMMITTED ||
      f == DB_SERIALIZABLE || f == DB_INHERIT_ISOLATION

theorem iso_choice (w : Word) (parent : Option Txn) :
    (isoAllowed (w &&& DB_ISOLATION_FLAGS) = false ∧
      askedLevel w (parent.map (·.iso)) = none) ∨
    (isoAllowed (w &&& DB_ISOLATION_FLAGS) = true ∧
      chooseIso (w &&& DB_ISOLATION_FLAGS) parent = some (askedLevel w (parent.map (·.iso)))) := by
  rw [iso_and]
  simp only [askedLevel, isoBits, bInherit, bSerializable, bReadCommittedAlways, bReadCommitted,
      bReadUncommitted, bSnapshot, List.filter]
  generalize has w 0 = b0
  generalize has w 1 = b1
  generalize has w 3 = b3
  generalize has w 26 = b26
  generalize has w 27 = b27
  generalize has w 28 = b28
  have hc : isoAllowed (isoWord b0 b1 b3 b26 b27 b28) =
      decide ((if b0 then 1 else 0) + (if b1 then 1 else 0) + (if b3 then 1 else 0) +
        (if b26 then 1 else 0) + (if b27 then 1 else 0) + (if b28 then 1 else 0) ≤ 1) := by
    revert b0 b1 b3 b26 b27 b28; decide
  rw [hc]
  have hz : ∀ b0 b1 b3 b26 b27 b28, isoWord b0 b1 b3 b26 b27 b28 = DB_INHERIT_ISOLATION ↔
      b0 = true ∧ b1 = false ∧ b3 = false ∧ b26 = false ∧ b27 = false ∧ b28 = false := by decide
  have hrc : ∀ b0 b1 b3 b26 b27 b28, isoWord b0 b1 b3 b26 b27 b28 = DB_READ_COMMITTED ↔
      b0 = false ∧ b1 = false ∧ b3 = false ∧ b26 = true ∧ b27 = false ∧ b28 = false := by decide
  have hra : ∀ b0 b1 b3 b26 b27 b28, isoWord b0 b1 b3 b26 b27 b28 = DB_READ_COMMITTED_ALWAYS ↔
      b0 = false ∧ b1 = false ∧ b3 = true ∧ b26 = false ∧ b27 = false ∧ b28 = false := by decide
  have hru : ∀ b0 b1 b3 b26 b27 b28, isoWord b0 b1 b3 b26 b27 b28 = DB_READ_UNCOMMITTED ↔
      b0 = false ∧ b1 = false ∧ b3 = false ∧ b26 = false ∧ b27 = true ∧ b28 = false := by decide
  have hsn : ∀ b0 b1 b3 b26 b27 b28, isoWord b0 b1 b3 b26 b27 b28 = DB_TXN_SNAPSHOT ↔
      b0 = false ∧ b1 = false ∧ b3 = false ∧ b26 = false ∧ b27 = false ∧ b28 = true := by decide
  have hse : ∀ b0 b1 b3 b26 b27 b28, isoWord b0 b1 b3 b26 b27 b28 = DB_SERIALIZABLE ↔
      b0 = false ∧ b1 = true ∧ b3 = false ∧ b26 = false ∧ b27 = false ∧ b28 = false := by decide
  have h00 : ∀ b0 b1 b3 b26 b27 b28, isoWord b0 b1 b3 b26 b27 b28 = 0#32 ↔
      b0 = false ∧ b1 = false ∧ b3 = false ∧ b26 = false ∧ b27 = false ∧ b28 = false := by decide
  simp only [chooseIso, hz, hrc, hra, hru, hsn, hse, h00]
  cases b0 <;> cases b1 <;> cases b3 <;> cases b26 <;> cases b27 <;> cases b28 <;>
    simp [level, bInherit, bSerializable, bReadCommittedAlways, bReadCommitted,
      bReadUncommitted, bSnapshot] <;>
    cases parent <;> simp

end Verif.Ydb
