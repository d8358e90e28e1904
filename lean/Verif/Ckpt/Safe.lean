import Verif.Ckpt.Calls
/-! No assertion fails, and what follows from the invariant. -/
set_option linter.unusedVariables false
set_option linter.unusedSimpArgs false
namespace Verif.Ckpt
variable {V : Type} {cl : Nat → Bool} {s s' : St V} {sp sp' : Spec.S V} {es : List (Ev V)}

theorem reached_inv {disk : Nat → Option V} (h : Reached cl disk s sp) : Inv s sp := by
  induction h with
  | init => exact inv_init disk
  | step _ hl hs ih => exact inv_step ih hl hs

theorem held_role (h : Inv s sp) {t n : Nat} (hm : n ∈ nodesOf (s.pc t)) : ∃ p, s.pair n = some p ∧ GoodP (view s sp n) p ∧ (view s sp n).role = roleOf (s.pc t) n ∧ p.lock = some (.thr t) := by
  obtain ⟨p, hp, hl⟩ := h.held t n hm
  exact ⟨p, hp, h.some hp, role_thr hp hl, hl⟩

theorem no_clone {v : NV V} {p : Pair V} (g : GoodP v p) {t : Nat} (hd : v.role.disk = true) (hl : p.lock = some (.thr t)) : p.clone.isSome = false := by
  cases e : p.clone with
  | none => rfl
  | some x =>
    have h1 := g.clone (by rw [e]; simp)
    rw [g.disk1 hd, hl] at h1; cases h1

theorem has_val {v : NV V} {p : Pair V} (g : GoodP v p) (hf : v.role.fetching = false) : p.val.isNone = false := by
  cases e : p.val with
  | some x => rfl
  | none => rw [g.val.mp e] at hf; cases hf

theorem no_crash (h : Inv s sp) {a : Act V} (hlg : Spec.Legal s sp a) : step cl s a ≠ .crash := by
  intro hs
  cases a with
  | work t =>
    simp only [step] at hs
    split at hs
    · next w k hc =>
      cases w with
      | nil => cases k <;> cases hs
      | cons i w =>
        obtain ⟨p, hp, _⟩ := h.held t i.node (by rw [hc]; simp [nodesOf])
        simp only [St.workStep, hp] at hs
        split at hs
        · split at hs <;> cases hs
        · cases hs
    · next n w k hc =>
      obtain ⟨p, hp, g, hr, hl⟩ := held_role h (t := t) (n := n) (by rw [hc]; simp [nodesOf])
      rw [hc, roleOf, if_pos rfl] at hr
      simp only [St.holdStep, hp, no_clone g (by rw [hr]; rfl) hl, has_val g (by rw [hr]; rfl)] at hs
      split at hs
      · contradiction
      · split at hs <;> cases hs
    · next n w k hc =>
      obtain ⟨p, hp, _⟩ := h.held t n (by rw [hc]; simp [nodesOf])
      simp only [hp] at hs; cases hs
    · cases hs
  | fetch t d =>
    simp only [step, St.fetchStep] at hs
    split at hs
    · next n k hc =>
      obtain ⟨p, hp, _⟩ := h.held t n (by rw [hc]; simp [nodesOf])
      simp only [hp] at hs
      split at hs <;> cases hs
    · next n k hc =>
      obtain ⟨p, hp, g, hr, hl⟩ := held_role h (t := t) (n := n) (by rw [hc]; simp [nodesOf])
      rw [hc, roleOf, if_pos rfl] at hr
      have h1 := (g.fetch (by rw [hr]; rfl)).2.2.1
      cases hx : s.cur n with
      | none => exact g.exist (by rw [← h1]; exact hx)
      | some x => simp only [hp, hx] at hs; cases hs
    · cases hs
  | removeStep t =>
    simp only [step, St.removeStep] at hs
    split at hs
    · next n hc =>
      obtain ⟨p, hp, _⟩ := h.held t n (by rw [hc]; simp [nodesOf])
      simp only [hp] at hs
      split at hs <;> cases hs
    · next n hc =>
      obtain ⟨p, hp, g, hr, hl⟩ := held_role h (t := t) (n := n) (by rw [hc]; simp [nodesOf])
      rw [hc, roleOf, if_pos rfl] at hr
      simp only [hp, no_clone g (by rw [hr]; rfl) hl] at hs
      split at hs
      · contradiction
      · cases hs
    · cases hs
  | evictStep t keep =>
    simp only [step, St.evictStep] at hs
    split at hs
    · cases hs
    · next n f hc =>
      obtain ⟨p, hp, _⟩ := h.held t n (by rw [hc]; simp [nodesOf])
      simp only [hp] at hs
      split at hs
      · split at hs <;> cases hs
      · cases hs
    · next n f hc =>
      obtain ⟨p, hp, g, hr, hl⟩ := held_role h (t := t) (n := n) (by rw [hc]; simp [nodesOf])
      rw [hc, roleOf, if_pos rfl] at hr
      simp only [hp, no_clone g (by rw [hr]; rfl) hl, has_val g (by rw [hr]; rfl)] at hs
      split at hs
      · contradiction
      · cases hs
    · next n f hc =>
      obtain ⟨p, hp, _⟩ := h.held t n (by rw [hc]; simp [nodesOf])
      simp only [hp] at hs; cases hs
    · next n e hc =>
      obtain ⟨p, hp, _⟩ := h.held t n (by rw [hc]; simp [nodesOf])
      simp only [hp] at hs
      split at hs <;> cases hs
    · next n e hc =>
      obtain ⟨p, hp, g, hr, hl⟩ := held_role h (t := t) (n := n) (by rw [hc]; simp [nodesOf])
      rw [hc, roleOf, if_pos rfl] at hr
      simp only [hp, no_clone g (by rw [hr]; rfl) hl] at hs
      split at hs
      · cases hs
      · split at hs
        · contradiction
        · cases hs
    · cases hs
  | begin incl =>
    simp only [step, St.begin] at hs
    split at hs
    · next hg =>
      simp only [Bool.and_eq_true, decide_eq_true_eq] at hg
      split at hs
      · next ha =>
        rw [List.any_eq_true] at ha
        obtain ⟨n, _, hn⟩ := ha
        unfold St.pending at hn
        split at hn
        · next p hp =>
          have := ((h.some hp).pend hn).1
          simp [view, hg.1.1, Cp.running] at this
        · cases hn
      · cases hs
    · cases hs
  | take =>
    simp only [step] at hs
    split at hs
    · next n l hc hpl =>
      split at hs
      · split at hs <;> cases hs
      · next hp =>
        have := (h.none hp).pl
        simp [view, hpl] at this
    · cases hs
  | cpStep =>
    simp only [step, St.cpStep] at hs
    split at hs
    · next n hc =>
      split at hs
      · next hp => have := (h.none hp).at_; simp [view, hc, cpAt] at this
      · split at hs
        · split at hs <;> cases hs
        · cases hs
    · next n hc =>
      split at hs
      · next hp => have := (h.none hp).at_; simp [view, hc, cpAt] at this
      · next p hp =>
        have g := h.some hp
        have ha : (view s sp n).at_ = .hold := by simp [view, hc, cpAt]
        have h1 : p.clone.isSome = false := by
          cases e : p.clone with
          | none => rfl
          | some x =>
            have h1 := g.clone (by rw [e]; simp)
            rw [g.disk3.mpr (.inl ha)] at h1; cases h1
        have h2 : (view s sp n).role = .cpu := by
          apply g.cpu.mpr
          cases Classical.em (p.lock = some .cp) with
          | inl h => exact h
          | inr h => rw [g.atc.mpr h] at ha; cases ha
        simp only [h1, has_val g (by rw [h2]; rfl)] at hs
        split at hs
        · contradiction
        · split at hs <;> cases hs
    · next n hc =>
      split at hs
      · next hp => have := (h.none hp).at_; simp [view, hc, cpAt] at this
      · cases hs
    · cases hs
  | lock t n deps => simp only [step] at hs; split at hs <;> (try split at hs) <;> cases hs
  | miss t n deps => simp only [step] at hs; split at hs <;> cases hs
  | bits t => simp only [step] at hs; split at hs <;> cases hs
  | tryDirty t n => simp only [step] at hs; split at hs <;> (try split at hs) <;> cases hs
  | put t n v deps => simp only [step] at hs; split at hs <;> cases hs
  | modify t n v => simp only [step] at hs; split at hs <;> (try split at hs) <;> cases hs
  | unpin t n d => simp only [step] at hs; split at hs <;> (try split at hs) <;> cases hs
  | remove t n => simp only [step] at hs; split at hs <;> (try split at hs) <;> cases hs
  | rlock n => simp only [step] at hs; split at hs <;> (try split at hs) <;> cases hs
  | runlock n => simp only [step] at hs; split at hs <;> (try split at hs) <;> cases hs
  | prefetch t n => simp only [step] at hs; split at hs <;> cases hs
  | evict t n => simp only [step] at hs; split at hs <;> (try split at hs) <;> cases hs
  | job n => simp only [step] at hs; split at hs <;> (try split at hs) <;> (try split at hs) <;> cases hs
  | moLock t => cases hs
  | moUnlock t => cases hs
  | finish => simp only [step] at hs; split at hs <;> cases hs
  | endCp => simp only [step] at hs; split at hs <;> cases hs

end Verif.Ckpt
