import Verif.Fsize.Lemmas

/-!
# Every step keeps the invariant
-/

namespace Verif.Fsize

theorem growLoop_mod : ∀ k cur size, growLoop k cur size % stripe = cur % stripe
  | 0, _, _ => rfl
  | k + 1, cur, size => by
    unfold growLoop
    split
    · rw [growLoop_mod k]
      unfold alignUp
      exact Nat.add_mul_mod_self_right _ _ _
    · rfl

theorem toWrite_mod (f size : Nat) : toWrite f size % 512 = 0 := by
  have h := growLoop_mod size (if f = 0 then stripe else f) size
  have h2 := growLoop_ge size (if f = 0 then stripe else f) size
  unfold toWrite
  generalize growLoop size (if f = 0 then stripe else f) size = g at *
  have hs : stripe = 4096 := rfl
  by_cases hf : f = 0
  · rw [if_pos hf] at h h2
    rw [hs] at h h2
    omega
  · rw [if_neg hf] at h h2
    rw [hs] at h
    omega

theorem cutSize_some (f l : Nat) : ∃ n, cutSize f l = some n ∧ n ≤ f ∧ (l ≤ f → l ≤ n) := by
  unfold cutSize
  have h1 := alignUp_ge (a := l) (b := 2 * incr) (by decide)
  have h2 := alignUp_lt (a := l) (b := 2 * incr) (by decide)
  split
  · rw [if_pos (by omega)]
    exact ⟨_, rfl, by omega, fun _ => h1⟩
  · exact ⟨_, rfl, Nat.le_refl _, id⟩

/-- A new block. -/
theorem alloc_parts {s : S} {a off size} (I : Inv s a) (ph : Phase) (hsz : size ≠ 0)
    (hno : ¬ (s.blocks.any fun b => decide (b.off < off + size) && decide (off < b.off + b.size)) = true)
    (hok : ph = .ok → off + size ≤ s.safe) :
    let bs := (⟨off, size, ph⟩ : B) :: s.blocks
    (∀ b ∈ bs, b.phase = .ok → b.off + b.size ≤ s.safe) ∧
    (∀ b ∈ bs, ∀ c ∈ bs, b.off < c.off + c.size → c.off < b.off + b.size → b = c) ∧ (∀ b ∈ bs, 0 < b.size) ∧
    (∀ o n w, (o, n, w) ∈ A.step a (.alloc off size) → ∃ b ∈ bs, b.off = o ∧ b.size = n ∧ (w ≠ .none → b.phase = .ok)) ∧
    Holds s (A.step a (.alloc off size)) := by
  have hap : ∀ b ∈ s.blocks, ¬ (b.off < off + size ∧ off < b.off + b.size) := by
    intro b hb h
    exact hno (List.any_eq_true.mpr ⟨b, hb, by simp only [h.1, h.2, decide_true, Bool.and_self]⟩)
  refine ⟨?_, ?_, ?_, ?_, ?_⟩
  · intro b hb
    rcases List.mem_cons.mp hb with e | hb
    · subst e; exact hok
    · exact I.inside b hb
  · intro b hb c hc h1 h2
    rcases List.mem_cons.mp hb with e | hb <;> rcases List.mem_cons.mp hc with e' | hc
    · rw [e, e']
    · subst e; exact absurd ⟨h2, h1⟩ (hap c hc)
    · subst e'; exact absurd ⟨h1, h2⟩ (hap b hb)
    · exact I.apart b hb c hc h1 h2
  · intro b hb
    rcases List.mem_cons.mp hb with e | hb
    · subst e; exact Nat.pos_of_ne_zero hsz
    · exact I.sized b hb
  · intro o n w hm
    rcases List.mem_cons.mp hm with e | hm
    · cases e; exact ⟨_, List.mem_cons_self, rfl, rfl, fun h => absurd rfl h⟩
    · obtain ⟨b, hb, h⟩ := I.same o n w hm
      exact ⟨b, List.mem_cons_of_mem _ hb, h⟩
  · intro o n v hm
    rcases List.mem_cons.mp hm with e | hm
    · cases e
    · exact I.holds o n v hm

theorem lockInv_cons {s : S} (b : B) (h : LockInv s) : LockInv { s with blocks := b :: s.blocks } := by
  unfold LockInv at *
  cases hl : s.lock <;> rw [hl] at h <;> simp only [] at h ⊢
  · exact h
  · obtain ⟨h1, h2, h3, c, hc, h4⟩ := h
    exact ⟨h1, h2, h3, c, List.mem_cons_of_mem _ hc, h4⟩
  · obtain ⟨h1, c, hc, h4⟩ := h
    exact ⟨h1, c, List.mem_cons_of_mem _ hc, h4⟩
  · exact h
  · exact h

theorem inv_alloc {s : S} {a off size r} (I : Inv s a) (h : step s (.alloc off size) = some r) :
    ∃ s', r = some s' ∧ Inv s' (A.step a (.alloc off size)) := by
  unfold step at h
  simp only [] at h
  split at h
  · cases h
  next hg =>
  obtain ⟨hsz, hno⟩ : size ≠ 0 ∧ ¬ _ = true := ⟨fun e => hg (.inl e), fun e => hg (.inr e)⟩
  split at h
  · next hle =>
    cases h
    obtain ⟨p1, p2, p3, p4, p5⟩ := alloc_parts I .ok hsz hno (fun _ => hle)
    exact ⟨_, rfl, ⟨p1, I.safe, p2, p3, lockInv_cons _ I.lock, p4, p5⟩⟩
  next hle =>
  split at h
  · next hl =>
    cases h
    obtain ⟨p1, p2, p3, p4, p5⟩ := alloc_parts I .growing hsz hno (fun e => by cases e)
    refine ⟨_, rfl, ⟨p1, I.safe, p2, p3, ?_, p4, p5⟩⟩
    have hL := I.lock
    unfold LockInv at hL ⊢
    rw [hl] at hL
    exact ⟨rfl, hL, by simp only []; omega, _, List.mem_cons_self, rfl, rfl, rfl⟩
  · cases h
    obtain ⟨p1, p2, p3, p4, p5⟩ := alloc_parts I .waiting hsz hno (fun e => by cases e)
    exact ⟨_, rfl, ⟨p1, I.safe, p2, p3, lockInv_cons _ I.lock, p4, p5⟩⟩

theorem inv_grab {s : S} {a off r} (I : Inv s a) (h : step s (.grab off) = some r) :
    ∃ s', r = some s' ∧ Inv s' a := by
  unfold step at h
  simp only [] at h
  split at h
  · next b hl hf =>
    obtain ⟨hb, ho⟩ := find_mem hf
    have hL := I.lock
    unfold LockInv at hL
    rw [hl] at hL
    split at h
    · next hp =>
      have hn : ∀ c ∈ s.blocks, c.off = off → c.phase ≠ .ok := by
        intro c hc hco
        rw [unique I hc hb (by rw [hco, ho]), hp]
        intro e; cases e
      split at h
      · next hgt =>
        cases h
        obtain ⟨p1, p2, p3, p4⟩ := inv_phase (p := .growing) I hn (fun e => by cases e)
        refine ⟨_, rfl, ⟨p1, I.safe, p2, p3, ?_, p4, I.holds⟩⟩
        unfold LockInv
        exact ⟨rfl, hL, hgt, { b with phase := .growing }, mem_setPhase.mpr ⟨b, hb, by rw [if_pos ho]⟩, ho, rfl, rfl⟩
      · next hgt =>
        cases h
        obtain ⟨p1, p2, p3, p4⟩ := inv_phase (p := .ok) I hn
          (fun _ c hc hco => by rw [unique I hc hb (by rw [hco, ho]), ho]; omega)
        refine ⟨_, rfl, ⟨p1, I.safe, p2, p3, ?_, p4, I.holds⟩⟩
        unfold LockInv setPhase
        simp only [hl]
        exact hL
    · cases h
  · cases h

theorem inv_growIO {s : S} {a r} (I : Inv s a) (h : step s .growIO = some r) :
    ∃ s', r = some s' ∧ Inv s' a := by
  unfold step at h
  simp only [] at h
  split at h
  · next off need before hl =>
    have hL := I.lock
    unfold LockInv at hL
    rw [hl] at hL
    obtain ⟨h1, h2, h3, b, hb, h4, h5, h6⟩ := hL
    rw [if_pos ⟨by rw [h1, h2], toWrite_mod _ _⟩] at h
    cases h
    have hn := newSize_ge s.fsize need
    refine ⟨_, rfl, ⟨I.inside, by simp only []; have := I.safe; omega, I.apart, I.sized, ?_, I.same, ?_⟩⟩
    · unfold LockInv
      exact ⟨rfl, b, hb, h4, by rw [h5]; exact hn.1, by rw [h5]; exact h3, h6⟩
    · intro o n v hm p hp1 hp2
      obtain ⟨c, hc, e1, e2, e3⟩ := I.same o n _ hm
      have := I.inside c hc (e3 (by intro e; cases e))
      have h7 := I.safe
      simp only []
      rw [if_neg (by omega)]
      exact I.holds o n v hm p hp1 hp2
  · cases h

theorem inv_growEnd {s : S} {a r} (I : Inv s a) (h : step s .growEnd = some r) :
    ∃ s', r = some s' ∧ Inv s' a := by
  unfold step at h
  simp only [] at h
  split at h
  · next off after hl =>
    have hL := I.lock
    unfold LockInv at hL
    rw [hl] at hL
    obtain ⟨h1, b, hb, h2, h3, h4, h5⟩ := hL
    cases h
    have I' : Inv { s with safe := after, lock := .free } a :=
      ⟨fun c hc hp => Nat.le_trans (I.inside c hc hp) (by simp only []; omega), Nat.le_of_eq h1, I.apart, I.sized, h1,
        I.same, I.holds⟩
    obtain ⟨p1, p2, p3, p4⟩ := inv_phase (p := .ok) (off := off) I'
      (fun c hc hco => by rw [unique I hc hb (by rw [hco, h2]), h5]; intro e; cases e)
      (fun _ c hc hco => by rw [unique I hc hb (by rw [hco, h2]), h2]; exact h3)
    exact ⟨_, rfl, ⟨p1, Nat.le_of_eq h1, p2, p3, h1, p4, I.holds⟩⟩
  · cases h

theorem inv_write {s : S} {a off v r} (I : Inv s a) (h : step s (.write off v) = some r) :
    ∃ s', r = some s' ∧ Inv s' (A.step a (.write off v)) := by
  unfold step at h
  simp only [] at h
  split at h
  · next b hf =>
    obtain ⟨hb, ho⟩ := find_mem hf
    split at h
    · next hp =>
      cases h
      have hin := I.inside b hb hp
      have hsf := I.safe
      have hmax : max s.fsize (off + b.size) = s.fsize := Nat.max_eq_left (by omega)
      have hmem : ∀ o n w, (o, n, w) ∈ A.step a (.write off v) →
          ∃ w', (o, n, w') ∈ a ∧ ((o = off ∧ w = some v) ∨ (o ≠ off ∧ w = w')) := by
        intro o n w hm
        obtain ⟨⟨o', n', w'⟩, hm', e⟩ := List.mem_map.mp hm
        simp only [] at e
        split at e
        · next ho' => cases e; exact ⟨w', hm', .inl ⟨ho', rfl⟩⟩
        · next ho' => cases e; exact ⟨w, hm', .inr ⟨ho', rfl⟩⟩
      refine ⟨_, rfl, ⟨I.inside, by simp only []; omega, I.apart, I.sized, ?_, ?_, ?_⟩⟩
      · have hL := I.lock
        unfold LockInv at hL ⊢
        simp only [hmax]
        exact hL
      · intro o n w hm
        obtain ⟨w', hm', hc⟩ := hmem o n w hm
        obtain ⟨c, hc', e1, e2, e3⟩ := I.same o n w' hm'
        refine ⟨c, hc', e1, e2, fun hw => ?_⟩
        rcases hc with ⟨e, _⟩ | ⟨_, e⟩
        · rw [unique I hc' hb (by rw [e1, ho, e])]; exact hp
        · exact e3 (by rw [← e]; exact hw)
      · intro o n v' hm p hp1 hp2
        obtain ⟨w', hm', hc⟩ := hmem o n _ hm
        obtain ⟨c, hc', e1, e2, e3⟩ := I.same o n w' hm'
        simp only []
        rcases hc with ⟨e, ew⟩ | ⟨e, ew⟩
        · have := unique I hc' hb (by rw [e1, ho, e])
          subst this
          rw [if_pos ⟨by omega, by omega⟩, ew]
        · subst ew
          rw [if_neg]
          · exact I.holds o n v' hm' p hp1 hp2
          · intro hx
            have := I.apart c hc' b hb (by omega) (by omega)
            subst this
            exact e (by rw [← e1, ho])
    · cases h
  · cases h

theorem inv_release {s : S} {a off r} (I : Inv s a) (h : step s (.release off) = some r) :
    ∃ s', r = some s' ∧ Inv s' (A.step a (.release off)) := by
  unfold step at h
  simp only [] at h
  split at h
  · next b hf =>
    obtain ⟨hb, ho⟩ := find_mem hf
    split at h
    · next hp =>
      cases h
      have hsub : ∀ c, c ∈ s.blocks.filter (·.off != off) → c ∈ s.blocks := fun c hc => (List.mem_filter.mp hc).1
      have hkeep : ∀ c ∈ s.blocks, c.phase = .growing → c ∈ s.blocks.filter (·.off != off) := by
        intro c hc hg
        refine List.mem_filter.mpr ⟨hc, ?_⟩
        simp only [bne_iff_ne, ne_eq]
        intro e
        rw [unique I hc hb (by rw [e, ho]), hp] at hg
        cases hg
      refine ⟨_, rfl, ⟨fun c hc => I.inside c (hsub c hc), I.safe, fun c hc d hd => I.apart c (hsub c hc) d (hsub d hd),
        fun c hc => I.sized c (hsub c hc), ?_, ?_, ?_⟩⟩
      · have hL := I.lock
        unfold LockInv at hL ⊢
        cases hl : s.lock <;> rw [hl] at hL <;> simp only [] at hL ⊢
        · exact hL
        · obtain ⟨h1, h2, h3, c, hc, h4, h5, h6⟩ := hL
          exact ⟨h1, h2, h3, c, hkeep c hc h6, h4, h5, h6⟩
        · obtain ⟨h1, c, hc, h4, h5, h6, h7⟩ := hL
          exact ⟨h1, c, hkeep c hc h7, h4, h5, h6, h7⟩
        · exact hL
        · exact hL
      · intro o n w hm
        obtain ⟨hm', hne⟩ := List.mem_filter.mp hm
        obtain ⟨c, hc, e1, e2, e3⟩ := I.same o n w hm'
        refine ⟨c, List.mem_filter.mpr ⟨hc, ?_⟩, e1, e2, e3⟩
        rw [e1]; exact hne
      · exact fun o n v hm => I.holds o n v (List.mem_filter.mp hm).1
    · cases h
  · cases h

theorem inv_shrink {s : S} {a bf r} (I : Inv s a)
    (h : step s (.shrink bf) = some r) : ∃ s', r = some s' ∧ Inv s' a := by
  unfold step at h
  simp only [] at h
  split at h
  · next hlt =>
    have hL := I.lock
    split at h
    · next hl =>
      unfold LockInv at hL
      cases h
      rw [hl] at hL
      refine ⟨_, rfl, ⟨fun b hb _ => le_limit hb, ?_, I.apart, I.sized, ?_, I.same, I.holds⟩⟩
      · simp only []; have := I.safe; omega
      · unfold LockInv
        exact ⟨rfl, hL⟩
    · cases h
      exact ⟨_, rfl, ⟨I.inside, I.safe, I.apart, I.sized, I.lock, I.same, I.holds⟩⟩
  · cases h
    exact ⟨_, rfl, I⟩

theorem inv_shrinkGrab {s : S} {a l r} (I : Inv s a) (hl : limit s.blocks ≤ l)
    (h : step s (.shrinkGrab l) = some r) : ∃ s', r = some s' ∧ Inv s' a := by
  unfold step at h
  simp only [] at h
  split at h
  · next hg =>
    have hL := I.lock
    unfold LockInv at hL
    rw [hg.1] at hL
    simp only [] at hL
    split at h
    · next hlt =>
      cases h
      refine ⟨_, rfl, ⟨fun b hb _ => Nat.le_trans (le_limit hb) hl, ?_, I.apart, I.sized, ?_, I.same, I.holds⟩⟩
      · simp only []; have := I.safe; omega
      · unfold LockInv
        exact ⟨rfl, hL⟩
    · cases h
      exact ⟨_, rfl, ⟨I.inside, I.safe, I.apart, I.sized, I.lock, I.same, I.holds⟩⟩
  · cases h

theorem inv_cutIO {s : S} {a r} (I : Inv s a) (h : step s .cutIO = some r) : ∃ s', r = some s' ∧ Inv s' a := by
  unfold step at h
  simp only [] at h
  split at h
  · next l before hl =>
    have hL := I.lock
    unfold LockInv at hL
    rw [hl] at hL
    rw [if_pos hL.2] at h
    obtain ⟨n, hn, hle, hge⟩ := cutSize_some s.fsize l
    rw [hn] at h
    cases h
    have hsn : s.safe ≤ n := by
      have := hge (by rw [hL.1]; exact I.safe)
      rw [hL.1] at this
      exact this
    refine ⟨_, rfl, ⟨I.inside, hsn, I.apart, I.sized, rfl, I.same, ?_⟩⟩
    intro o k v hm p hp1 hp2
    obtain ⟨c, hc, e1, e2, e3⟩ := I.same o k _ hm
    have := I.inside c hc (e3 (by intro e; cases e))
    simp only []
    rw [if_pos (by omega)]
    exact I.holds o k v hm p hp1 hp2
  · cases h

theorem inv_cutEnd {s : S} {a r} (I : Inv s a) (h : step s .cutEnd = some r) : ∃ s', r = some s' ∧ Inv s' a := by
  unfold step at h
  simp only [] at h
  split at h
  · next after hl =>
    have hL := I.lock
    unfold LockInv at hL
    rw [hl] at hL
    cases h
    exact ⟨_, rfl, ⟨fun b hb hp => Nat.le_trans (I.inside b hb hp) (by rw [hL]; exact I.safe), Nat.le_of_eq hL, I.apart, I.sized,
      hL, I.same, I.holds⟩⟩
  · cases h

theorem inv_step {s : S} {a e r} (I : Inv s a) (hf : ∀ l, e = .shrinkGrab l → limit s.blocks ≤ l)
    (h : step s e = some r) : ∃ s', r = some s' ∧ Inv s' (A.step a e) := by
  cases e with
  | alloc o n => exact inv_alloc I h
  | grab o => exact inv_grab I h
  | growIO => exact inv_growIO I h
  | growEnd => exact inv_growEnd I h
  | write o v => exact inv_write I h
  | release o => exact inv_release I h
  | shrink b => exact inv_shrink I h
  | shrinkGrab l => exact inv_shrinkGrab I (hf l rfl) h
  | cutIO => exact inv_cutIO I h
  | cutEnd => exact inv_cutEnd I h

theorem grab_mem {s : S} {l r} (h : step s (.shrinkGrab l) = some r) : l ∈ s.shrinkers := by
  unfold step at h
  simp only [] at h
  split at h
  · next hg => exact hg.2
  · cases h

theorem inv_run {es} : ∀ {s : S} {a r}, Inv s a → Fresh s es → run s es = some r →
    ∃ s', r = some s' ∧ Inv s' (es.foldl A.step a) := by
  induction es with
  | nil => intro s a r I _ h; cases h; exact ⟨_, rfl, I⟩
  | cons e es ih =>
    intro s a r I ho h
    obtain ⟨h1, h2⟩ := ho
    unfold run at h
    cases hs : step s e with
    | none => rw [hs] at h; cases h
    | some x =>
      obtain ⟨s', e', I'⟩ := inv_step I (fun l he => h1 l he (grab_mem (he ▸ hs))) hs
      subst e'
      rw [hs] at h h2
      exact ih I' h2 h

/-- Nobody waits to make the file shorter if one at a time asks for it: who makes it longer has the last block. -/
theorem step_none {s s' : S} {a e} (I : Inv s a) (hn : s.shrinkers = [])
    (hc : ∀ b, e = .shrink b → (∀ l c, s.lock ≠ .cut l c) ∧ ∀ n, s.lock ≠ .wasCut n)
    (h : step s e = some (some s')) : s'.shrinkers = [] := by
  cases e with
  | shrink bf =>
    obtain ⟨hc, hw⟩ := hc bf rfl
    unfold step at h
    simp only [] at h
    split at h
    · next hlt =>
      have hL := I.lock
      unfold LockInv at hL
      split at h
      · cases h; exact hn
      · next hnf =>
        exfalso
        cases hl : s.lock with
        | free => exact hnf hl
        | grow o nd be =>
          rw [hl] at hL
          obtain ⟨h1, h2, h3, b, hb, h4, h5, h6⟩ := hL
          have := le_limit hb
          omega
        | grown o af =>
          rw [hl] at hL
          obtain ⟨h1, b, hb, h2, h3, h4, h5⟩ := hL
          have := le_limit hb
          omega
        | cut l b => exact hc l b hl
        | wasCut n => exact hw n hl
    · cases h; exact hn
  | shrinkGrab l =>
    unfold step at h
    rw [hn] at h
    simp only [List.not_mem_nil, and_false, if_false] at h
    cases h
  | alloc o n =>
    unfold step at h
    simp only [] at h
    repeat' split at h
    all_goals first | (cases h; exact hn) | cases h
  | grab o =>
    unfold step at h
    simp only [] at h
    repeat' split at h
    all_goals first | (cases h; exact hn) | cases h
  | growIO =>
    unfold step at h
    simp only [] at h
    repeat' split at h
    all_goals first | (cases h; exact hn) | cases h
  | growEnd =>
    unfold step at h
    simp only [] at h
    repeat' split at h
    all_goals first | (cases h; exact hn) | cases h
  | write o v =>
    unfold step at h
    simp only [] at h
    repeat' split at h
    all_goals first | (cases h; exact hn) | cases h
  | release o =>
    unfold step at h
    simp only [] at h
    repeat' split at h
    all_goals first | (cases h; exact hn) | cases h
  | cutIO =>
    unfold step at h
    simp only [] at h
    repeat' split at h
    all_goals first | (cases h; exact hn) | cases h
  | cutEnd =>
    unfold step at h
    simp only [] at h
    repeat' split at h
    all_goals first | (cases h; exact hn) | cases h

theorem fresh_of_one {es} : ∀ {s : S} {a}, Inv s a → s.shrinkers = [] → OneShrink s es → Fresh s es := by
  induction es with
  | nil => intros; trivial
  | cons e es ih =>
    intro s a I hn ho
    obtain ⟨h1, h2⟩ := ho
    cases hs : step s e with
    | none =>
      refine ⟨?_, by rw [hs]; trivial⟩
      intro l he hg
      subst he
      rw [hn] at hg
      cases hg
    | some x =>
      have hnot : ∀ l, e = .shrinkGrab l → False := by
        intro l he
        subst he
        unfold step at hs
        rw [hn] at hs
        simp only [List.not_mem_nil, and_false, if_false] at hs
        cases hs
      obtain ⟨s', e', I'⟩ := inv_step I (fun l he => (hnot l he).elim) hs
      subst e'
      rw [hs] at h2
      refine ⟨fun l he => (hnot l he).elim, ?_⟩
      rw [hs]
      exact ih I' (step_none I hn h1 hs) h2

end Verif.Fsize
