import Verif.Rec.Recover
/-! What holds in every reachable state of the running system, so that recovery succeeds from any crash. -/
namespace Verif.Rec
open Verif.Rec.Spec
open Verif.Ule (emptyUle)
set_option linter.unusedVariables false
set_option linter.unusedSimpArgs false

variable {α : Type}

/-! ### The two places of a header -/

/-- The place of the header with this count. -/
def Obj.at (o : Obj α) (n : Nat) : Option (Slot α) := if n % 2 = 1 then o.slot0 else o.slot1

theorem Obj.at_put (o : Obj α) (n m : Nat) (x : Option (Slot α)) : (o.put n x).at m = if n % 2 = m % 2 then x else o.at m := by
  unfold Obj.put Obj.at
  by_cases h1 : n % 2 = 1 <;> by_cases h2 : m % 2 = 1 <;> simp [h1, h2]
  · omega
  · intro h; omega

theorem Obj.put_rest (o : Obj α) (n : Nat) (x : Option (Slot α)) : (o.put n x).cnt = o.cnt ∧ (o.put n x).dirty = o.dirty ∧ (o.put n x).stage = o.stage := by
  unfold Obj.put; split <;> exact ⟨rfl, rfl, rfl⟩

/-- `pick`, in terms of the places. -/
theorem pick_at (limit : Option Nat) (o : Obj α) (n : Nat) : pick limit o =
    match (o.at n).filter (Slot.ok limit), (o.at (n + 1)).filter (Slot.ok limit) with
    | some a, some b => if a.cnt > b.cnt then (if a.cnt = b.cnt + 1 then some a else none) else
        (if b.cnt = a.cnt + 1 then some b else none)
    | some a, none => some a
    | none, some b => some b
    | none, none => none := by
  unfold pick Obj.at
  by_cases h : n % 2 = 1
  · have h2 : ¬ (n + 1) % 2 = 1 := by omega
    simp only [h, h2, if_true, if_false]
    rfl
  · have h2 : (n + 1) % 2 = 1 := by omega
    simp only [h, h2, if_true, if_false]
    cases o.slot0.filter (Slot.ok limit) <;> cases o.slot1.filter (Slot.ok limit) <;> simp only
    rename_i a b
    rcases Nat.lt_trichotomy a.cnt b.cnt with h1 | h1 | h1
    · rw [if_neg (by omega), if_pos h1]
    · rw [if_neg (by omega), if_neg (by omega), if_neg (by omega), if_neg (by omega)]
    · rw [if_pos h1, if_neg (show ¬ b.cnt > a.cnt by omega)]

theorem Obj.at_two (o : Obj α) (n : Nat) : o.at (n + 2) = o.at n := by
  unfold Obj.at; rw [show (n + 2) % 2 = n % 2 by omega]

/-! ### A dictionary -/

variable (C : Nat → α) (len synced last b : Nat)

/-- A dictionary: `C i` are its contents once the log has `i` records. -/
structure FInv (o : Obj α) : Prop where
  cur : ∃ h img, o.at o.cnt = some ⟨o.cnt, h, img⟩ ∧ h ≤ synced ∧ img = C (max h last) ∧
    (match o.stage with
    | .idle => o.dirty = false → img = C len
    | .begun d im => h ≤ b ∧ im = C b ∧ (d = false → img = C b) ∧ (o.dirty = false → im = C len)
    | .writing im => im = C b ∧ (o.dirty = false → im = C len)
    | .done => img = C (max h b) ∧ (o.dirty = false → img = C len))
  other : ∀ x, o.at (o.cnt + 1) = some x → x.cnt + 1 = o.cnt
  writing : ∀ im, o.stage = .writing im → o.at (o.cnt + 1) = none

theorem FInv.ext {o : Obj α} {C' : Nat → α} {len' synced' : Nat} {d : Bool} (h : FInv C len synced last b o) (hs : synced ≤ len) (hl : last ≤ len) (hb : b ≤ len)
    (hC : ∀ i, i ≤ len → C' i = C i) (hsy : synced ≤ synced') (hd : d = false → o.dirty = false ∧ C' len' = C len) :
    FInv C' len' synced' last b { o with dirty := d } := by
  obtain ⟨⟨hh, img, h1, h2, h3, h4⟩, h5, h6⟩ := h
  refine ⟨⟨hh, img, h1, by omega, by rw [hC _ (by omega)]; exact h3, ?_⟩, h5, h6⟩
  simp only
  cases hst : o.stage with
  | idle =>
    rw [hst] at h4; simp only at h4 ⊢
    intro hd0; obtain ⟨a, c⟩ := hd hd0
    rw [c]; exact h4 a
  | begun d im =>
    rw [hst] at h4; simp only at h4 ⊢
    obtain ⟨a1, a2, a3, a4⟩ := h4
    rw [hC b hb]
    exact ⟨a1, a2, a3, fun hd0 => by obtain ⟨a, c⟩ := hd hd0; rw [c]; exact a4 a⟩
  | writing im =>
    rw [hst] at h4; simp only at h4 ⊢
    rw [hC b hb]
    exact ⟨h4.1, fun hd0 => by obtain ⟨a, c⟩ := hd hd0; rw [c]; exact h4.2 a⟩
  | done =>
    rw [hst] at h4; simp only at h4 ⊢
    rw [hC _ (by omega)]
    exact ⟨h4.1, fun hd0 => by obtain ⟨a, c⟩ := hd hd0; rw [c]; exact h4.2 a⟩

theorem FInv.begin {o : Obj α} {b' : Nat} (h : FInv C len synced last b o) (hst : o.stage = .idle) (hs : synced ≤ b') (hb : C b' = C len) :
    FInv C len synced last b' (o.begin (C len)) := by
  obtain ⟨⟨hh, img, h1, h2, h3, h4⟩, h5, h6⟩ := h
  rw [hst] at h4
  refine ⟨⟨hh, img, h1, h2, h3, ?_⟩, h5, by simp [Obj.begin]⟩
  simp only [Obj.begin]
  exact ⟨by omega, hb.symm, fun hd => by rw [hb]; exact h4 hd, fun _ => trivial⟩

theorem FInv.skip {o o' : Obj α} (h : FInv C len synced last b o) (he : o.skip = some o') : FInv C len synced last b o' ∧ o'.stage = .done := by
  obtain ⟨⟨hh, img, h1, h2, h3, h4⟩, h5, h6⟩ := h
  unfold Obj.skip at he
  split at he
  · rename_i im hst
    injection he with he; subst he
    rw [hst] at h4; simp only at h4
    obtain ⟨a1, a2, a3, a4⟩ := h4
    have a3 := a3 trivial
    refine ⟨⟨⟨hh, img, h1, h2, h3, ?_⟩, h5, by simp⟩, rfl⟩
    simp only
    exact ⟨by rw [Nat.max_eq_right a1]; exact a3, fun hd => by rw [← a4 hd, a3, a2]⟩
  · simp at he

theorem FInv.start {o o' : Obj α} (h : FInv C len synced last b o) (he : o.start = some o') : FInv C len synced last b o' ∧ ∃ im, o'.stage = .writing im := by
  obtain ⟨⟨hh, img, h1, h2, h3, h4⟩, h5, h6⟩ := h
  unfold Obj.start at he
  split at he
  · rename_i im hst
    injection he with he; subst he
    rw [hst] at h4; simp only at h4
    obtain ⟨p1, p2, p3⟩ := Obj.put_rest o (o.cnt + 1) none
    have e1 := Obj.at_put o (o.cnt + 1) o.cnt none
    rw [if_neg (by omega)] at e1
    have e2 := Obj.at_put o (o.cnt + 1) (o.cnt + 1) none
    rw [if_pos rfl] at e2
    refine ⟨⟨⟨hh, img, ?_, h2, h3, ?_⟩, ?_, ?_⟩, im, rfl⟩
    · simp only [p1]; exact e1.trans h1
    · simp only [p2]; exact ⟨h4.2.1, h4.2.2.2⟩
    · intro x hx; simp only [p1] at hx ⊢; have := e2.symm.trans hx; simp at this
    · intro _ _; simp only [p1]; exact e2
  · simp at he

theorem FInv.finish {o o' : Obj α} (h : FInv C len synced last b o) (hbs : b ≤ synced) (hlb : last ≤ b) (he : o.finish b = some o') : FInv C len synced last b o' ∧ o'.stage = .done := by
  obtain ⟨⟨hh, img, h1, h2, h3, h4⟩, h5, h6⟩ := h
  unfold Obj.finish at he
  split at he
  · rename_i im hst
    injection he with he; subst he
    rw [hst] at h4; simp only at h4
    obtain ⟨p1, p2, p3⟩ := Obj.put_rest o (o.cnt + 1) (some ⟨o.cnt + 1, b, im⟩)
    have e1 := Obj.at_put o (o.cnt + 1) o.cnt (some ⟨o.cnt + 1, b, im⟩)
    rw [if_neg (by omega)] at e1
    have e2 := Obj.at_put o (o.cnt + 1) (o.cnt + 1) (some ⟨o.cnt + 1, b, im⟩)
    rw [if_pos rfl] at e2
    refine ⟨⟨⟨b, im, ?_, hbs, ?_, ?_⟩, ?_, by simp⟩, rfl⟩
    · exact e2
    · rw [Nat.max_eq_left hlb]; exact h4.1
    · simp only [p2, Nat.max_self]; exact h4
    · intro x hx
      have e3 : (o.put (o.cnt + 1) (some ⟨o.cnt + 1, b, im⟩)).at (o.cnt + 1 + 1) = some x := hx
      rw [Obj.at_two, e1, h1] at e3
      injection e3 with e3; subst e3; rfl
  · simp at he

theorem FInv.idle {o : Obj α} (h : FInv C len synced last b o) (hst : o.stage = .done) (b' : Nat) : FInv C len synced b b' { o with stage := .idle } := by
  obtain ⟨⟨hh, img, h1, h2, h3, h4⟩, h5, h6⟩ := h
  rw [hst] at h4
  exact ⟨⟨hh, img, h1, h2, h4.1, h4.2⟩, h5, by simp⟩

/-- What recovery finds. -/
theorem FInv.pick {o : Obj α} (h : FInv C len synced last b o) {last' : Nat} (hl : last' = last ∨ last' = b ∧ o.stage = .done) :
    ∃ x, pick none o = some x ∧ x.lsn ≤ synced ∧ x.img = C (max x.lsn last') ∧
      ∀ (C' : Nat → α) (n b' : Nat) (d : Bool), synced ≤ n → C' (max x.lsn last') = C (max x.lsn last') → (d = false → x.img = C' n) →
        FInv C' n n last' b' { o with cnt := x.cnt, dirty := d, stage := .idle } := by
  obtain ⟨⟨hh, img, h1, h2, h3, h4⟩, h5, h6⟩ := h
  have him : img = C (max hh last') := by
    rcases hl with rfl | ⟨rfl, hst⟩
    · exact h3
    · rw [hst] at h4; exact h4.1
  refine ⟨⟨o.cnt, hh, img⟩, ?_, h2, him, ?_⟩
  · rw [pick_at none o o.cnt, h1]
    cases ho : o.at (o.cnt + 1) with
    | none => simp [Option.filter, Slot.ok]
    | some x =>
      have := h5 x ho
      simp only [Option.filter, Slot.ok, if_true]
      rw [if_pos (by omega), if_pos (by omega)]
  · intro C' n b' d hn hC hd
    refine ⟨⟨hh, img, h1, by omega, by rw [hC]; exact him, hd⟩, h5, by simp⟩

/-! ### The rollback file -/

/-- The header that is not the current one: an older one, or a newer one, which a recovery has not accepted. -/
def ROther (o : Obj α) : Prop := ∀ x, o.at (o.cnt + 1) = some x → x.cnt + 1 = o.cnt ∨
  (x.cnt = o.cnt + 1 ∧ x.lsn ≤ synced ∧ (x.lsn ≤ last → x.img = C last) ∧ (last < x.lsn → x.img = C x.lsn))

/-- The newer one has these contents. -/
def Stale (o : Obj α) (v : α) : Prop := ∀ x, o.at (o.cnt + 1) = some x → x.cnt = o.cnt + 1 → x.img = v

/-- The newer one is no newer than this. -/
def StaleLe (o : Obj α) (n : Nat) : Prop := ∀ x, o.at (o.cnt + 1) = some x → x.cnt = o.cnt + 1 → x.lsn ≤ n

/-- The rollback file. -/
def RInv (o : Obj α) : Prop :=
  ∃ h img, o.at o.cnt = some ⟨o.cnt, h, img⟩ ∧
    match o.stage with
    | .idle => h ≤ last ∧ img = C last ∧ ROther C synced last o ∧ (o.dirty = false → img = C len ∧ Stale o (C len))
    | .begun d im => h ≤ last ∧ img = C last ∧ ROther C synced last o ∧ im = C b ∧ StaleLe o b ∧ (d = false → img = C b ∧ Stale o (C b)) ∧ (o.dirty = false → im = C len)
    | .writing im => h ≤ last ∧ img = C last ∧ o.at (o.cnt + 1) = none ∧ im = C b ∧ (o.dirty = false → im = C len)
    | .done => (h ≤ last ∧ img = C last ∧ ROther C synced last o ∧ StaleLe o b ∧ img = C b ∧ Stale o (C b) ∧ (o.dirty = false → img = C len)) ∨
        (h = b ∧ b ≤ synced ∧ img = C b ∧ (∃ x, o.at (o.cnt + 1) = some x ∧ x.cnt + 1 = o.cnt ∧ x.lsn ≤ last ∧ x.img = C last) ∧ (o.dirty = false → img = C len))

theorem RInv.ext {o : Obj α} {C' : Nat → α} {len' synced' : Nat} {d : Bool} (h : RInv C len synced last b o) (hs : synced ≤ len) (hl : last ≤ len) (hb : b ≤ len)
    (hC : ∀ i, i ≤ len → C' i = C i) (hsy : synced ≤ synced') (hd : d = false → o.dirty = false ∧ C' len' = C len) :
    RInv C' len' synced' last b { o with dirty := d } := by
  obtain ⟨hh, img, h1, h4⟩ := h
  have hro : ROther C synced last o → ROther C' synced' last { o with dirty := d } := by
    intro h x hx
    rcases h x hx with h | ⟨a1, a2, a3, a4⟩
    · exact .inl h
    · exact .inr ⟨a1, by omega, fun h => by rw [hC _ hl]; exact a3 h, fun h => by rw [hC _ (by omega)]; exact a4 h⟩
  refine ⟨hh, img, h1, ?_⟩
  simp only
  cases hst : o.stage with
  | idle =>
    rw [hst] at h4; simp only at h4 ⊢
    obtain ⟨a1, a2, a3, a4⟩ := h4
    rw [hC last hl]
    exact ⟨a1, a2, hro a3, fun hd0 => by obtain ⟨a, c⟩ := hd hd0; rw [c]; exact a4 a⟩
  | begun d im =>
    rw [hst] at h4; simp only at h4 ⊢
    obtain ⟨a1, a2, a3, a4, a5, a6, a7⟩ := h4
    rw [hC last hl, hC b hb]
    exact ⟨a1, a2, hro a3, a4, a5, a6, fun hd0 => by obtain ⟨a, c⟩ := hd hd0; rw [c]; exact a7 a⟩
  | writing im =>
    rw [hst] at h4; simp only at h4 ⊢
    obtain ⟨a1, a2, a3, a4, a5⟩ := h4
    rw [hC last hl, hC b hb]
    exact ⟨a1, a2, a3, a4, fun hd0 => by obtain ⟨a, c⟩ := hd hd0; rw [c]; exact a5 a⟩
  | done =>
    rw [hst] at h4; simp only at h4 ⊢
    rw [hC last hl, hC b hb]
    rcases h4 with ⟨a1, a2, a3, a4, a5, a6, a7⟩ | ⟨a1, a2, a3, a4, a5⟩
    · exact .inl ⟨a1, a2, hro a3, a4, a5, a6, fun hd0 => by obtain ⟨a, c⟩ := hd hd0; rw [c]; exact a7 a⟩
    · exact .inr ⟨a1, by omega, a3, a4, fun hd0 => by obtain ⟨a, c⟩ := hd hd0; rw [c]; exact a5 a⟩

theorem RInv.begin {o : Obj α} {b' : Nat} (h : RInv C len synced last b o) (hst : o.stage = .idle) (hs : synced ≤ b') (hb : C b' = C len) :
    RInv C len synced last b' (o.begin (C len)) := by
  obtain ⟨hh, img, h1, h4⟩ := h
  rw [hst] at h4; simp only at h4
  obtain ⟨a1, a2, a3, a4⟩ := h4
  refine ⟨hh, img, h1, ?_⟩
  simp only [Obj.begin]
  refine ⟨a1, a2, a3, hb.symm, ?_, fun hd => by rw [hb]; exact a4 hd, fun _ => trivial⟩
  intro x hx hc
  rcases a3 x hx with h | ⟨-, h, -⟩
  · simp only at hc; omega
  · omega

theorem RInv.skip {o o' : Obj α} (h : RInv C len synced last b o) (he : o.skip = some o') : RInv C len synced last b o' ∧ o'.stage = .done := by
  obtain ⟨hh, img, h1, h4⟩ := h
  unfold Obj.skip at he
  split at he
  · rename_i im hst
    injection he with he; subst he
    rw [hst] at h4; simp only at h4
    obtain ⟨a1, a2, a3, a4, a5, a6, a7⟩ := h4
    have a6 := a6 trivial
    exact ⟨⟨hh, img, h1, .inl ⟨a1, a2, a3, a5, a6.1, a6.2, fun hd => by rw [← a7 hd, a6.1, a4]⟩⟩, rfl⟩
  · simp at he

theorem RInv.start {o o' : Obj α} (h : RInv C len synced last b o) (he : o.start = some o') : RInv C len synced last b o' ∧ ∃ im, o'.stage = .writing im := by
  obtain ⟨hh, img, h1, h4⟩ := h
  unfold Obj.start at he
  split at he
  · rename_i im hst
    injection he with he; subst he
    rw [hst] at h4; simp only at h4
    obtain ⟨a1, a2, a3, a4, a5, a6, a7⟩ := h4
    obtain ⟨p1, p2, p3⟩ := Obj.put_rest o (o.cnt + 1) none
    have e1 := Obj.at_put o (o.cnt + 1) o.cnt none
    rw [if_neg (by omega)] at e1
    have e2 := Obj.at_put o (o.cnt + 1) (o.cnt + 1) none
    rw [if_pos rfl] at e2
    refine ⟨⟨hh, img, ?_, ?_⟩, im, rfl⟩
    · simp only [p1]; exact e1.trans h1
    · simp only [p1, p2]
      exact ⟨a1, a2, e2, a4, a7⟩
  · simp at he

theorem RInv.finish {o o' : Obj α} (h : RInv C len synced last b o) (hbs : b ≤ synced) (he : o.finish b = some o') : RInv C len synced last b o' ∧ o'.stage = .done := by
  obtain ⟨hh, img, h1, h4⟩ := h
  unfold Obj.finish at he
  split at he
  · rename_i im hst
    injection he with he; subst he
    rw [hst] at h4; simp only at h4
    obtain ⟨a1, a2, a3, a4, a5⟩ := h4
    obtain ⟨p1, p2, p3⟩ := Obj.put_rest o (o.cnt + 1) (some ⟨o.cnt + 1, b, im⟩)
    have e1 := Obj.at_put o (o.cnt + 1) o.cnt (some ⟨o.cnt + 1, b, im⟩)
    rw [if_neg (by omega)] at e1
    have e2 := Obj.at_put o (o.cnt + 1) (o.cnt + 1) (some ⟨o.cnt + 1, b, im⟩)
    rw [if_pos rfl] at e2
    refine ⟨⟨b, im, e2, .inr ⟨rfl, hbs, a4, ⟨⟨o.cnt, hh, img⟩, ?_, rfl, a1, a2⟩, ?_⟩⟩, rfl⟩
    · have : (o.put (o.cnt + 1) (some ⟨o.cnt + 1, b, im⟩)).at (o.cnt + 1 + 1) = some ⟨o.cnt, hh, img⟩ := by
        rw [Obj.at_two, e1, h1]
      exact this
    · simp only [p2]; exact a5
  · simp at he

theorem RInv.idle {o : Obj α} (h : RInv C len synced last b o) (hlb : last ≤ b) (hst : o.stage = .done) (b' : Nat) : RInv C len synced b b' { o with stage := .idle } := by
  obtain ⟨hh, img, h1, h4⟩ := h
  rw [hst] at h4; simp only at h4
  refine ⟨hh, img, h1, ?_⟩
  simp only
  rcases h4 with ⟨a1, a2, a3, a4, a5, a6, a7⟩ | ⟨a1, a2, a3, ⟨x, x1, x2, x3, x4⟩, a5⟩
  · refine ⟨by omega, a5, ?_, fun hd => ⟨a7 hd, ?_⟩⟩
    · intro x hx
      rcases a3 x hx with h | ⟨h, h', -, -⟩
      · exact .inl h
      · exact .inr ⟨h, h', fun _ => a6 x hx h, fun hlt => absurd (a4 x hx h) (by omega)⟩
    · intro x hx hc
      rw [a6 x hx hc, ← a5, a7 hd]
  · refine ⟨by omega, a3, ?_, fun hd => ⟨a5 hd, ?_⟩⟩
    · intro y hy
      have hy : o.at (o.cnt + 1) = some y := hy
      rw [x1] at hy; injection hy with hy; subst hy; exact .inl x2
    · intro y hy hc
      have hy : o.at (o.cnt + 1) = some y := hy
      rw [x1] at hy; injection hy with hy; subst hy; simp only at hc; omega

/-- What recovery finds: `last'` is where it starts. -/
theorem RInv.pick {o : Obj α} (h : RInv C len synced last b o) (hlb : o.stage ≠ .idle → last < b) {last' : Nat} (hl : last' = last ∨ last' = b ∧ o.stage = .done) :
    ∃ x, pick (some last') o = some x ∧ x.img = C last' ∧
      ∀ (C' : Nat → α) (n b' : Nat) (d : Bool), synced ≤ n → last' ≤ n → (∀ i, i ≤ n → C' i = C i) → (d = false → ∀ i, last' ≤ i → i ≤ n → C' i = C' last') →
        RInv C' n n last' b' { o with cnt := x.cnt, dirty := d, stage := .idle } := by
  obtain ⟨hh, img, h1, h4⟩ := h
  -- the current header is taken, the other is older or not accepted
  have keep : hh ≤ last' → img = C last' → ROther C synced last' o → (∀ x, o.at (o.cnt + 1) = some x → x.cnt = o.cnt + 1 → last' < x.lsn) →
      ∃ x, Verif.Rec.pick (some last') o = some x ∧ x.img = C last' ∧
      ∀ (C' : Nat → α) (n b' : Nat) (d : Bool), synced ≤ n → last' ≤ n → (∀ i, i ≤ n → C' i = C i) → (d = false → ∀ i, last' ≤ i → i ≤ n → C' i = C' last') →
        RInv C' n n last' b' { o with cnt := x.cnt, dirty := d, stage := .idle } := by
    intro k1 k2 k3 k4
    refine ⟨⟨o.cnt, hh, img⟩, ?_, k2, ?_⟩
    · rw [pick_at _ o o.cnt, h1]
      cases ho : o.at (o.cnt + 1) with
      | none => simp [Option.filter, Slot.ok, k1]
      | some x =>
        rcases k3 x ho with h | ⟨h, -⟩
        · by_cases hx : x.lsn ≤ last'
          · simp only [Option.filter, Slot.ok, decide_eq_true k1, decide_eq_true hx, if_true]
            rw [if_pos (by omega), if_pos (by omega)]
          · simp [Option.filter, Slot.ok, k1, hx]
        · have := k4 x ho h
          have hx : ¬ x.lsn ≤ last' := by omega
          simp [Option.filter, Slot.ok, k1, hx]
    · intro C' n b' d hn hln hC hd
      refine ⟨hh, img, h1, k1, by rw [hC _ hln]; exact k2, ?_, fun hd0 => ⟨?_, ?_⟩⟩
      · intro x hx
        rcases k3 x hx with h | ⟨a1, a2, a3, a4⟩
        · exact .inl h
        · exact .inr ⟨a1, by omega, fun h => by rw [hC _ hln]; exact a3 h, fun h => by rw [hC _ (by omega)]; exact a4 h⟩
      · rw [hd hd0 n hln (Nat.le_refl _), hC _ hln]; exact k2
      · intro x hx hc
        have hx : o.at (o.cnt + 1) = some x := hx
        simp only at hc
        rcases k3 x hx with h | ⟨a1, a2, a3, a4⟩
        · omega
        · have hlt := k4 x hx hc
          rw [hd hd0 n hln (Nat.le_refl _), ← hd hd0 x.lsn (by omega) (by omega), hC _ (by omega)]
          exact a4 hlt
  -- the other one is taken
  have swap : ∀ y, o.at (o.cnt + 1) = some y → y.lsn ≤ last' → y.img = C last' →
      (hh ≤ last' ∧ y.cnt = o.cnt + 1) ∨ (last' < hh ∧ hh ≤ synced ∧ y.cnt + 1 = o.cnt ∧ img = C hh) →
      ∃ x, Verif.Rec.pick (some last') o = some x ∧ x.img = C last' ∧
      ∀ (C' : Nat → α) (n b' : Nat) (d : Bool), synced ≤ n → last' ≤ n → (∀ i, i ≤ n → C' i = C i) → (d = false → ∀ i, last' ≤ i → i ≤ n → C' i = C' last') →
        RInv C' n n last' b' { o with cnt := x.cnt, dirty := d, stage := .idle } := by
    intro y ho k1 k2 k3
    refine ⟨y, ?_, k2, ?_⟩
    · rw [pick_at _ o o.cnt, h1, ho]
      rcases k3 with ⟨h, h'⟩ | ⟨h, h', h''⟩
      · simp only [Option.filter, Slot.ok, decide_eq_true h, decide_eq_true k1, if_true]
        rw [if_neg (by omega), if_pos (by omega)]
      · have : ¬ hh ≤ last' := by omega
        simp [Option.filter, Slot.ok, this, k1]
    · intro C' n b' d hn hln hC hd
      have hcur : o.at y.cnt = some y := by
        rcases k3 with ⟨h, h'⟩ | ⟨h, h', h'', -⟩
        · rw [h']; exact ho
        · rw [← Obj.at_two, show y.cnt + 2 = o.cnt + 1 by omega]; exact ho
      have hoth : o.at (y.cnt + 1) = some ⟨o.cnt, hh, img⟩ := by
        rcases k3 with ⟨h, h'⟩ | ⟨h, h', h'', -⟩
        · rw [h', Obj.at_two]; exact h1
        · rw [h'']; exact h1
      refine ⟨y.lsn, y.img, hcur, k1, by rw [hC _ hln]; exact k2, ?_, fun hd0 => ⟨?_, ?_⟩⟩
      · intro x hx
        have hx : o.at (y.cnt + 1) = some x := hx
        rw [hoth] at hx; injection hx with hx; subst hx
        rcases k3 with ⟨h, h'⟩ | ⟨h, h', h'', h3⟩
        · exact .inl h'.symm
        · exact .inr ⟨h''.symm, by simp only; omega, fun h => by simp only at h; omega, fun _ => by rw [hC _ (by simp only; omega)]; exact h3⟩
      · rw [hd hd0 n hln (Nat.le_refl _), hC _ hln]; exact k2
      · intro x hx hc
        have hx : o.at (y.cnt + 1) = some x := hx
        rw [hoth] at hx; injection hx with hx; subst hx
        simp only at hc
        rcases k3 with ⟨h, h'⟩ | ⟨h, h', h'', h3⟩
        · omega
        · simp only
          rw [hd hd0 n hln (Nat.le_refl _), ← hd hd0 hh (by omega) (by omega), hC _ (by omega)]
          exact h3
  -- a current header that is as old as the checkpoint
  have norm : hh ≤ last → img = C last → ROther C synced last o → last' = last →
      ∃ x, Verif.Rec.pick (some last') o = some x ∧ x.img = C last' ∧
      ∀ (C' : Nat → α) (n b' : Nat) (d : Bool), synced ≤ n → last' ≤ n → (∀ i, i ≤ n → C' i = C i) → (d = false → ∀ i, last' ≤ i → i ≤ n → C' i = C' last') →
        RInv C' n n last' b' { o with cnt := x.cnt, dirty := d, stage := .idle } := by
    intro k1 k2 k3 k4
    subst k4
    by_cases hx : ∃ x, o.at (o.cnt + 1) = some x ∧ x.cnt = o.cnt + 1 ∧ x.lsn ≤ last'
    · obtain ⟨x, x1, x2, x3⟩ := hx
      refine swap x x1 x3 ?_ (.inl ⟨k1, x2⟩)
      rcases k3 x x1 with h | ⟨-, -, h, -⟩
      · omega
      · exact h x3
    · refine keep k1 k2 k3 fun x x1 x2 => ?_
      rcases Nat.lt_or_ge last' x.lsn with h | h
      · exact h
      · exact absurd ⟨x, x1, x2, h⟩ hx
  cases hst : o.stage with
  | idle =>
    rw [hst] at h4; simp only at h4
    refine norm h4.1 h4.2.1 h4.2.2.1 ?_
    rcases hl with h | ⟨-, h⟩
    · exact h
    · rw [hst] at h; cases h
  | begun d im =>
    rw [hst] at h4; simp only at h4
    refine norm h4.1 h4.2.1 h4.2.2.1 ?_
    rcases hl with h | ⟨-, h⟩
    · exact h
    · rw [hst] at h; cases h
  | writing im =>
    rw [hst] at h4; simp only at h4
    refine norm h4.1 h4.2.1 (fun x hx => by rw [h4.2.2.1] at hx; cases hx) ?_
    rcases hl with h | ⟨-, h⟩
    · exact h
    · rw [hst] at h; cases h
  | done =>
    have hlt := hlb (by rw [hst]; simp)
    rw [hst] at h4; simp only at h4
    rcases h4 with ⟨a1, a2, a3, a4, a5, a6, a7⟩ | ⟨a1, a2, a3, ⟨x, x1, x2, x3, x4⟩, a5⟩
    · rcases hl with h | ⟨h, -⟩
      · exact norm a1 a2 a3 h
      · subst h
        by_cases hx : ∃ x, o.at (o.cnt + 1) = some x ∧ x.cnt = o.cnt + 1
        · obtain ⟨x, x1, x2⟩ := hx
          exact swap x x1 (a4 x x1 x2) (a6 x x1 x2) (.inl ⟨by omega, x2⟩)
        · refine keep (by omega) a5 ?_ fun x x1 x2 => absurd ⟨x, x1, x2⟩ hx
          intro x x1
          rcases a3 x x1 with h | ⟨h, -⟩
          · exact .inl h
          · exact absurd ⟨x, x1, h⟩ hx
    · rcases hl with h | ⟨h, -⟩
      · subst h
        exact swap x x1 x3 x4 (.inr ⟨by omega, by omega, x2, by rw [a1]; exact a3⟩)
      · subst h
        refine keep (by omega) a3 ?_ ?_
        · intro y hy; rw [x1] at hy; injection hy with hy; subst hy; exact .inl x2
        · intro y hy hc; rw [x1] at hy; injection hy with hy; subst hy; omega

end Verif.Rec
