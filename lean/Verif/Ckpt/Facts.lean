import Verif.Ckpt.Finish
/-! Facts about what a checkpoint is to hold. -/
set_option linter.unusedVariables false
set_option linter.unusedSimpArgs false
namespace Verif.Ckpt
variable {V : Type} {cl : Nat → Bool} {s s' : St V} {sp sp' : Spec.S V} {es : List (Ev V)}

theorem evs_append (sp : Spec.S V) (a b : List (Ev V)) : Spec.evs sp (a ++ b) = Spec.evs (Spec.evs sp a) b := by simp [Spec.evs]

theorem path_reached {disk : Nat → Option V} {as : List (Act V)} (h : Reached cl disk s sp) (p : Path cl s sp as es s') : Reached cl disk s' (Spec.evs sp es) := by
  induction p with
  | nil => exact h
  | cons hl hs _ ih => rw [evs_append]; exact ih (.step h hl hs)

theorem header_image (h : Inv s sp) (hc : s.cp = .header) {n : Nat} (hi : s.incl n = true) : s.inp n = sp.image n := by
  have hh : (view s sp n).hdr = true := by simp [view, hc]
  cases hp : s.pair n with
  | none => exact (h.none hp).inp (.inr hh) hi
  | some p =>
    have g := h.some hp
    have hr := (g.hdrpl hh).2.2
    have h1 : p.pending = false := by
      cases e : p.pending with
      | false => rfl
      | true => rw [(g.pend e).1] at hr; cases hr
    have h2 : (view s sp n).role.flagged = false := by
      cases e : (view s sp n).role.flagged with
      | false => rfl
      | true => rw [(g.flag e).1] at hr; cases hr
    have h3 : p.clone = none := by
      cases e : p.clone with
      | none => rfl
      | some x => rw [g.job.1 (g.clone (by rw [e]; simp))] at hr; cases hr
    have := g.done (.inr hh) hi h1 h2
    rwa [if_pos h3] at this

theorem old_stays {n : Nat} : ∀ {es : List (Ev V)} {sp : Spec.S V}, sp.old n = false → NoStart n es → (∀ e ∈ es, e ≠ .begin) → (Spec.evs sp es).old n = false ∧ (Spec.evs sp es).image n = sp.image n := by
  intro es
  induction es with
  | nil => intro sp h _ _; exact ⟨h, rfl⟩
  | cons e es ih =>
    intro sp h hn hb
    have hn' : NoStart n es := fun ns hm => hn ns (List.mem_cons_of_mem _ hm)
    have hb' : ∀ e ∈ es, e ≠ .begin := fun x hm => hb x (List.mem_cons_of_mem _ hm)
    show (Spec.evs (Spec.ev sp e) es).old n = false ∧ (Spec.evs (Spec.ev sp e) es).image n = sp.image n
    cases e with
    | start ns =>
      have hnn : n ∉ ns := hn ns List.mem_cons_self
      obtain ⟨h1, h2⟩ := ih (sp := Spec.ev sp (.start ns)) (by simp [Spec.ev, hnn, h]) hn' hb'
      exact ⟨h1, h2⟩
    | write m v =>
      obtain ⟨h1, h2⟩ := ih (sp := Spec.ev sp (.write m v)) h hn' hb'
      refine ⟨h1, h2.trans ?_⟩
      simp only [Spec.ev]
      rw [if_neg]; rintro ⟨rfl, h3⟩; rw [h] at h3; cases h3
    | begin => exact absurd rfl (hb _ List.mem_cons_self)

theorem old_latest {n : Nat} : ∀ {es : List (Ev V)} {sp : Spec.S V}, sp.old n = true → sp.image n = sp.latest n → NoStart n es → (Spec.evs sp es).old n = true ∧ (Spec.evs sp es).image n = (Spec.evs sp es).latest n := by
  intro es
  induction es with
  | nil => intro sp h h2 _; exact ⟨h, h2⟩
  | cons e es ih =>
    intro sp h h2 hn
    have hn' : NoStart n es := fun ns hm => hn ns (List.mem_cons_of_mem _ hm)
    show (Spec.evs (Spec.ev sp e) es).old n = true ∧ (Spec.evs (Spec.ev sp e) es).image n = (Spec.evs (Spec.ev sp e) es).latest n
    cases e with
    | start ns =>
      have hnn : n ∉ ns := hn ns List.mem_cons_self
      exact ih (sp := Spec.ev sp (.start ns)) (by simp [Spec.ev, hnn, h]) h2 hn'
    | write m v =>
      refine ih (sp := Spec.ev sp (.write m v)) h ?_ hn'
      simp only [Spec.ev]
      by_cases hm : n = m
      · subst hm; simp [h]
      · simp [hm, h2]
    | begin => exact ih (sp := Spec.ev sp .begin) rfl rfl hn'

theorem begin_latest {n : Nat} : ∀ {es : List (Ev V)} {sp : Spec.S V}, Ev.begin ∈ es → NoStart n es → (Spec.evs sp es).image n = (Spec.evs sp es).latest n := by
  intro es
  induction es with
  | nil => intro sp h; cases h
  | cons e es ih =>
    intro sp h hn
    have hn' : NoStart n es := fun ns hm => hn ns (List.mem_cons_of_mem _ hm)
    show (Spec.evs (Spec.ev sp e) es).image n = (Spec.evs (Spec.ev sp e) es).latest n
    cases e with
    | begin => exact (old_latest (sp := Spec.ev sp .begin) rfl rfl hn').2
    | start ns => exact ih (by simpa using h) hn'
    | write m v => exact ih (by simpa using h) hn'

theorem image_stays_new {n : Nat} : ∀ {es : List (Ev V)} {sp : Spec.S V}, sp.old n = false → (∀ e ∈ es, e ≠ .begin) → (Spec.evs sp es).image n = sp.image n := by
  intro es
  induction es with
  | nil => intro sp h _; rfl
  | cons e es ih =>
    intro sp h hb
    have hb' : ∀ e ∈ es, e ≠ .begin := fun x hm => hb x (List.mem_cons_of_mem _ hm)
    show (Spec.evs (Spec.ev sp e) es).image n = sp.image n
    cases e with
    | start ns => exact ih (sp := Spec.ev sp (.start ns)) (by simp [Spec.ev, h]) hb'
    | write m v =>
      refine (ih (sp := Spec.ev sp (.write m v)) h hb').trans ?_
      simp only [Spec.ev]
      rw [if_neg]; rintro ⟨rfl, h3⟩; rw [h] at h3; cases h3
    | begin => exact absurd rfl (hb _ List.mem_cons_self)

theorem image_stays {n : Nat} : ∀ {es : List (Ev V)} {sp : Spec.S V}, StartsFirst n es → (∀ e ∈ es, e ≠ .begin) → (Spec.evs sp es).image n = sp.image n := by
  intro es
  induction es with
  | nil => intro sp h _; rfl
  | cons e es ih =>
    intro sp h hb
    have hb' : ∀ e ∈ es, e ≠ .begin := fun x hm => hb x (List.mem_cons_of_mem _ hm)
    show (Spec.evs (Spec.ev sp e) es).image n = sp.image n
    cases e with
    | start ns =>
      rcases h with h | h
      · exact image_stays_new (sp := Spec.ev sp (.start ns)) (by simp [Spec.ev, h]) hb'
      · exact ih (sp := Spec.ev sp (.start ns)) h hb'
    | write m v =>
      refine (ih (sp := Spec.ev sp (.write m v)) h.2 hb').trans ?_
      simp only [Spec.ev]
      rw [if_neg]; rintro ⟨rfl, _⟩; exact h.1 rfl
    | begin => exact absurd rfl (hb _ List.mem_cons_self)

/-- The multi-operation lock is held by a thread until it lets go, and only `begin` gives the event. -/
theorem mo_step {a : Act V} {t : Nat} (ht : t ∈ s.mo) (ha : a ≠ .moUnlock t) (hs : step cl s a = .ok s' es) : t ∈ s'.mo ∧ ∀ e ∈ es, e ≠ .begin := by
  cases a with
  | moUnlock u =>
    obtain ⟨rfl, rfl⟩ := R.ok_inj hs
    refine ⟨?_, by simp⟩
    have : u ≠ t := fun e => ha (by rw [e])
    exact (List.mem_erase_of_ne (Ne.symm this)).mpr ht
  | moLock u => obtain ⟨rfl, rfl⟩ := R.ok_inj hs; exact ⟨List.mem_cons_of_mem _ ht, by simp⟩
  | begin incl =>
    simp only [step, St.begin] at hs
    split at hs
    · next hg =>
      simp only [Bool.and_eq_true, List.isEmpty_iff] at hg
      rw [hg.2] at ht; cases ht
    · cases hs
  | work t =>
    simp only [step] at hs
    split at hs
    · next w k _ =>
      cases w with
      | nil => cases k <;> (obtain ⟨rfl, rfl⟩ := R.ok_inj hs; exact ⟨ht, by simp⟩)
      | cons i w =>
        simp only [St.workStep] at hs
        split at hs
        · cases hs
        · split at hs
          · split at hs
            · obtain ⟨rfl, rfl⟩ := R.ok_inj hs; exact ⟨ht, by simp⟩
            · cases hs
          · obtain ⟨rfl, rfl⟩ := R.ok_inj hs; exact ⟨ht, by simp⟩
    · simp only [St.holdStep] at hs
      split at hs
      · cases hs
      · split at hs
        · cases hs
        · split at hs <;> (obtain ⟨rfl, rfl⟩ := R.ok_inj hs; exact ⟨ht, by simp⟩)
    · split at hs
      · cases hs
      · obtain ⟨rfl, rfl⟩ := R.ok_inj hs; exact ⟨ht, by simp⟩
    · cases hs
  | _ =>
    simp only [step, St.fetchStep, St.removeStep, St.evictStep, St.cpStep] at hs
    repeat' (first | (cases hs; done) | (obtain ⟨rfl, rfl⟩ := R.ok_inj hs; exact ⟨ht, by simp⟩) | split at hs)

instance (s : St V) (t : Nat) (deps : List (Nat × Bool)) : Decidable (Spec.Deps s t deps) :=
  have : ∀ d : Nat × Bool, Decidable (∃ p, s.pair d.1 = some p ∧ p.lock = some (.thr t) ∧ (p.chg = true → d.2 = true)) := fun d =>
    match h : s.pair d.1 with
    | none => isFalse (by rintro ⟨p, hp, _⟩; cases hp)
    | some p => if h2 : p.lock = some (.thr t) ∧ (p.chg = true → d.2 = true) then isTrue ⟨p, rfl, h2⟩ else isFalse (by rintro ⟨q, hq, h3⟩; cases hq; exact h2 h3)
  inferInstanceAs (Decidable (_ ∧ _))

instance (s : St V) (sp : Spec.S V) (a : Act V) : Decidable (Spec.Legal s sp a) :=
  match a with
  | .lock t _ deps => inferInstanceAs (Decidable (Spec.Deps s t deps))
  | .miss t n deps => inferInstanceAs (Decidable (Spec.Deps s t deps ∧ sp.latest n ≠ none))
  | .prefetch _ n => inferInstanceAs (Decidable (sp.latest n ≠ none))
  | .put t n _ deps => inferInstanceAs (Decidable (Spec.Deps s t deps ∧ sp.latest n = none))
  | .unpin _ n d =>
    match h : s.pair n with
    | none => isTrue (by intro p hp; rw [h] at hp; cases hp)
    | some p => if h2 : p.chg = true → d = true then isTrue (by intro q hq; rw [h] at hq; cases hq; exact h2) else isFalse (fun hh => h2 (hh p h))
  | .bits _ | .tryDirty .. | .work _ | .fetch .. | .modify .. | .remove .. | .removeStep _ | .rlock _ | .runlock _ | .evict .. | .evictStep .. | .job _ | .moLock _ | .moUnlock _
  | .begin _ | .take | .cpStep | .finish | .endCp => isTrue trivial

/-- Running a list of steps. -/
def play (cl : Nat → Bool) : List (Act V) → St V → Spec.S V → Option (St V × Spec.S V)
  | [], s, sp => some (s, sp)
  | a :: as, s, sp =>
    if Spec.Legal s sp a then
      match step cl s a with
      | .ok s' es => play cl as s' (Spec.evs sp es)
      | _ => none
    else none

theorem play_reached {disk : Nat → Option V} {as : List (Act V)} : ∀ {s : St V} {sp : Spec.S V}, Reached cl disk s sp → play cl as s sp = some (s', sp') → Reached cl disk s' sp' := by
  induction as with
  | nil => intro s sp h hp; cases hp; exact h
  | cons a as ih =>
    intro s sp h hp
    simp only [play] at hp
    split at hp
    · next hl =>
      split at hp
      · next hs => exact ih (.step h hl hs) hp
      · cases hp
    · cases hp

/-- Running a list of steps, with what callers do in them. -/
def trace (cl : Nat → Bool) : List (Act V) → St V → Spec.S V → Option (St V × List (Ev V))
  | [], s, sp => some (s, [])
  | a :: as, s, sp =>
    if Spec.Legal s sp a then
      match step cl s a with
      | .ok s' es =>
        match trace cl as s' (Spec.evs sp es) with
        | some (s'', fs) => some (s'', es ++ fs)
        | none => none
      | _ => none
    else none

theorem trace_path {as : List (Act V)} : ∀ {s : St V} {sp : Spec.S V} {es : List (Ev V)}, trace cl as s sp = some (s', es) → Path cl s sp as es s' := by
  induction as with
  | nil => intro s sp es hp; cases hp; exact .nil
  | cons a as ih =>
    intro s sp es hp
    simp only [trace] at hp
    split at hp
    · next hl =>
      split at hp
      · next hs =>
        split at hp
        · next ht => cases hp; exact .cons hl hs (ih ht)
        · cases hp
      · cases hp
    · cases hp

end Verif.Ckpt
