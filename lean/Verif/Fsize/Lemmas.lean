import Verif.Fsize.Spec

/-!
# The invariant of a file's size
-/

namespace Verif.Fsize

theorem alignUp_ge {a b : Nat} (hb : 0 < b) : a ≤ alignUp a b := by
  unfold alignUp
  have h := Nat.div_add_mod (a + b - 1) b
  have h2 := Nat.mod_lt (a + b - 1) hb
  have h3 : b * ((a + b - 1) / b) = (a + b - 1) / b * b := Nat.mul_comm _ _
  omega

theorem alignUp_lt {a b : Nat} (hb : 0 < b) : alignUp a b < a + b := by
  unfold alignUp
  have h := Nat.div_mul_le_self (a + b - 1) b
  omega

theorem alignUp_dvd {a b : Nat} : b ∣ alignUp a b := Nat.dvd_mul_left _ _

theorem growLoop_ge : ∀ k cur size, cur ≤ growLoop k cur size
  | 0, _, _ => Nat.le_refl _
  | k + 1, cur, size => by
    unfold growLoop
    split
    · exact Nat.le_trans (Nat.le_add_right _ _) (growLoop_ge k _ size)
    · exact Nat.le_refl _

theorem growLoop_enough : ∀ k cur size, 0 < cur → size ≤ cur + k → size ≤ growLoop k cur size
  | 0, _, _, _, h => h
  | k + 1, cur, size, hc, h => by
    unfold growLoop
    split
    · have h1 : 1 ≤ alignUp (min cur incr) stripe := by
        have := alignUp_ge (a := min cur incr) (b := stripe) (by decide)
        have h2 : 1 ≤ min cur incr := by
          rw [Nat.le_min]; exact ⟨hc, by decide⟩
        omega
      exact growLoop_enough k _ size (by omega) (by omega)
    · omega

theorem alignUp_min (c : Nat) : alignUp (min c incr) stripe ≤ incr := by
  have hle : min c incr ≤ incr := Nat.min_le_right _ _
  unfold alignUp
  have : (min c incr + stripe - 1) / stripe ≤ 4096 := by
    have hi : incr = 16777216 := rfl
    have hs : stripe = 4096 := rfl
    rw [hs]
    rw [hi] at hle
    omega
  have h2 := Nat.mul_le_mul_right stripe this
  exact h2

theorem growLoop_bound : ∀ k cur size, growLoop k cur size < max cur (size + incr) + 1
  | 0, _, _ => by unfold growLoop; omega
  | k + 1, cur, size => by
    unfold growLoop
    split
    · have := growLoop_bound k (cur + alignUp (min cur incr) stripe) size
      have h2 := alignUp_min cur
      omega
    · omega

theorem newSize_ge (f size : Nat) : size ≤ newSize f size ∧ f ≤ newSize f size := by
  have h1 : size ≤ growLoop size (if f = 0 then stripe else f) size :=
    growLoop_enough _ _ _ (by split <;> first | decide | omega) (by omega)
  have h2 := growLoop_ge size (if f = 0 then stripe else f) size
  have h3 := alignUp_ge (a := f) (b := stripe) (by decide)
  have h4 : f ≤ if f = 0 then stripe else f := by split <;> omega
  unfold newSize toWrite
  generalize growLoop size (if f = 0 then stripe else f) size = g at *
  generalize (if f = 0 then stripe else f) = c at *
  by_cases h : g - f > 0
  · rw [if_pos h]; omega
  · rw [if_neg h]; omega

theorem le_limit {bs : List B} {b : B} (h : b ∈ bs) : b.off + b.size ≤ limit bs := by
  induction bs with
  | nil => cases h
  | cons c bs ih =>
    unfold limit
    simp only [List.foldr_cons]
    rcases List.mem_cons.mp h with e | h
    · rw [e]; exact Nat.le_max_left _ _
    · exact Nat.le_trans (ih h) (Nat.le_max_right _ _)

/-- What the lock says. -/
def LockInv (s : S) : Prop :=
  match s.lock with
  | .free => s.safe = s.fsize
  | .grow off need before => before = s.safe ∧ s.safe = s.fsize ∧ s.safe < need ∧
      ∃ b ∈ s.blocks, b.off = off ∧ off + b.size = need ∧ b.phase = .growing
  | .grown off after => after = s.fsize ∧ ∃ b ∈ s.blocks, b.off = off ∧ off + b.size ≤ after ∧ s.safe < off + b.size ∧
      b.phase = .growing
  | .cut l before => l = s.safe ∧ before = s.fsize
  | .wasCut after => after = s.fsize

structure Inv (s : S) (a : A) : Prop where
  inside : ∀ b ∈ s.blocks, b.phase = .ok → b.off + b.size ≤ s.safe
  safe : s.safe ≤ s.fsize
  apart : ∀ b ∈ s.blocks, ∀ c ∈ s.blocks, b.off < c.off + c.size → c.off < b.off + b.size → b = c
  sized : ∀ b ∈ s.blocks, 0 < b.size
  lock : LockInv s
  same : ∀ o n w, (o, n, w) ∈ a → ∃ b ∈ s.blocks, b.off = o ∧ b.size = n ∧ (w ≠ .none → b.phase = .ok)
  holds : Holds s a

theorem inv_start {s a} (h : Start s a) : Inv s a where
  inside := fun b hb _ => by rw [h.safe]; exact (h.inside b hb).2
  safe := Nat.le_of_eq h.safe
  apart := h.apart
  sized := h.sized
  lock := by unfold LockInv; rw [h.lock]; exact h.safe
  same := fun o n w hm => ⟨_, h.same o n w hm, rfl, rfl, fun _ => rfl⟩
  holds := h.holds

theorem find_mem {s : S} {off b} (h : find s off = some b) : b ∈ s.blocks ∧ b.off = off := by
  unfold find at h
  have h1 := List.mem_of_find?_eq_some h
  have h2 := List.find?_some h
  simp only [beq_iff_eq] at h2
  exact ⟨h1, h2⟩

theorem unique {s : S} {a} (I : Inv s a) {b c : B} (hb : b ∈ s.blocks) (hc : c ∈ s.blocks) (h : b.off = c.off) : b = c := by
  have h1 := I.sized b hb
  have h2 := I.sized c hc
  exact I.apart b hb c hc (by omega) (by omega)

theorem mem_setPhase {s : S} {off p} {b : B} :
    b ∈ (setPhase s off p).blocks ↔ ∃ c ∈ s.blocks, b = if c.off = off then { c with phase := p } else c := by
  unfold setPhase
  simp only [List.mem_map, eq_comm]

/-- Changing how far a thread has got leaves all else. -/
theorem inv_phase {s : S} {a off p} (I : Inv s a) (hn : ∀ b ∈ s.blocks, b.off = off → b.phase ≠ .ok)
    (hi : p = .ok → ∀ b ∈ s.blocks, b.off = off → b.off + b.size ≤ s.safe) :
    (∀ b ∈ (setPhase s off p).blocks, b.phase = .ok → b.off + b.size ≤ s.safe) ∧
    (∀ b ∈ (setPhase s off p).blocks, ∀ c ∈ (setPhase s off p).blocks, b.off < c.off + c.size → c.off < b.off + b.size →
      b = c) ∧ (∀ b ∈ (setPhase s off p).blocks, 0 < b.size) ∧
    (∀ o n w, (o, n, w) ∈ a → ∃ b ∈ (setPhase s off p).blocks, b.off = o ∧ b.size = n ∧ (w ≠ .none → b.phase = .ok)) := by
  refine ⟨?_, ?_, ?_, ?_⟩
  · intro b hb
    obtain ⟨c, hc, e⟩ := mem_setPhase.mp hb
    split at e
    · next ho => subst e; intro hp; exact hi hp c hc ho
    · subst e; exact I.inside b hc
  · intro b hb c hc h1 h2
    obtain ⟨b', hb', e1⟩ := mem_setPhase.mp hb
    obtain ⟨c', hc', e2⟩ := mem_setPhase.mp hc
    have : b' = c' := by
      apply I.apart b' hb' c' hc'
      · split at e1 <;> split at e2 <;> subst e1 e2 <;> exact h1
      · split at e1 <;> split at e2 <;> subst e1 e2 <;> exact h2
    rw [e1, e2, this]
  · intro b hb
    obtain ⟨c, hc, e⟩ := mem_setPhase.mp hb
    split at e
    · subst e; exact I.sized c hc
    · subst e; exact I.sized b hc
  · intro o n w hm
    obtain ⟨b, hb, h1, h2, h3⟩ := I.same o n w hm
    by_cases ho : b.off = off
    · refine ⟨{ b with phase := p }, mem_setPhase.mpr ⟨b, hb, by rw [if_pos ho]⟩, h1, h2, fun hw => ?_⟩
      exact absurd (h3 hw) (hn b hb ho)
    · exact ⟨b, mem_setPhase.mpr ⟨b, hb, by rw [if_neg ho]⟩, h1, h2, h3⟩

end Verif.Fsize
