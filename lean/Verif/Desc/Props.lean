import Verif.Desc.Cmp

/-!
# Changing the descriptor of a dictionary: all or nothing

Statements are in terms of `Spec.lean`.  `w.log` lists the operations done so far, in order, less
those a crash took away; `ops` leaves out the opening and closing of the file.
-/

namespace Verif.Desc

variable {D : Type}

/-! ## While nothing crashes -/

/-- There is only one thing for the dictionary to show. -/
theorem C71_shows_one {good : D → Prop} {d0 : D} {w : World D} (h : Reach true good d0 w) {d d' : D}
    (h1 : (Spec.run d0 (ops w.log)).Shows d) (h2 : (Spec.run d0 (ops w.log)).Shows d') :
    d = d' :=
  ((shows_iff (reach_inv h).1.leg d).1 h1).trans ((shows_iff (reach_inv h).1.leg d').1 h2).symm

/-- Never do two transactions both have a replacement pending. -/
theorem C71_one_at_a_time {good : D → Prop} {d0 : D} {w : World D} (h : Reach true good d0 w)
    {r r' : Nat} {d d' : D} (h1 : (Spec.run d0 (ops w.log)).cur r = some d)
    (h2 : (Spec.run d0 (ops w.log)).cur r' = some d') : r = r' := by
  obtain ⟨r0, a⟩ := agrees (reach_inv h).1.leg
  have key : ∀ {i : Nat} {x : D}, (Spec.run d0 (ops w.log)).cur i = some x → i = r0 := by
    intro i x hx
    by_cases hi : i = r0
    · exact hi
    · unfold Spec.cur at hx
      rw [a.triv i hi, replicate_findSome] at hx; cases hx
  exact (key h1).trans (key h2).symm

/-- In normal use an open dictionary shows the pending replacement if there is one, else the
committed descriptor. -/
theorem C71_descriptor_shown {good : D → Prop} {d0 : D} {w : World D} (h : Reach true good d0 w)
    (hm : w.mode = .up) {f : Ft D} (hf : w.ft = some f) :
    (Spec.run d0 (ops w.log)).Shows f.desc := by
  obtain ⟨i, m⟩ := reach_inv h
  unfold ModeInv at m
  simp only [hm] at m
  have hv := m.val
  rw [hf] at hv
  exact (shows_iff i.leg _).2 hv

/-- And so does a closed one, when it is opened. -/
theorem C71_descriptor_found {good : D → Prop} {d0 : D} {w : World D} (h : Reach true good d0 w)
    (hm : w.mode = .up) (hf : w.ft = none) :
    (Spec.run d0 (ops w.log)).Shows (openFt w.hdr).desc := by
  obtain ⟨i, m⟩ := reach_inv h
  unfold ModeInv at m
  simp only [hm] at m
  have hv := m.val
  rw [hf] at hv
  exact (shows_iff i.leg _).2 hv

/-! ## Crashes -/

/-- What happens from a crash until the end of the recovery that succeeds; there may be more
crashes in between. -/
inductive Recovering (good : D → Prop) (a : World D) : World D → Prop where
  | here : Recovering good a a
  | more {b c : World D} : Recovering good a b → b.mode ≠ .up → Step true good b c →
      Recovering good a c

theorem Recovering.reach {good : D → Prop} {d0 : D} {a b : World D} (h : Recovering good a b)
    (ha : Reach true good d0 a) : Reach true good d0 b := by
  induction h with
  | here => exact ha
  | more _ _ h3 ih => exact Reach.step ih h3

theorem recovering_step {good : D → Prop} {d0 : D} {a b : World D} (st : Step true good a b)
    (ha : a.mode ≠ .up) (i : Inv d0 a) (m : ModeInv d0 a) :
    Same (Spec.run d0 (ops a.log)) (Spec.run d0 (ops b.log)) ∧
      (b.mode = .up → ∀ r, b.tx.undo r ≠ [] → b.tx.prep r = true) := by
  have hno : ∀ {p : Prop}, a.mode = .up → p := fun h => absurd h ha
  cases st with
  | begin r hm hp => exact hno hm
  | change r f new c hm hf hl hu hp ho hg => exact hno hm
  | prepare r l hm hu => exact hno hm
  | commit r hm hu => exact hno hm
  | abort r hm hu =>
    rcases hm with hm | ⟨hm, hp⟩
    · exact hno hm
    · unfold ModeInv at m
      simp only [hm] at m
      obtain ⟨r0, ag⟩ := agrees i.leg
      refine ⟨?_, fun h => ?_⟩
      · show Same _ (Spec.run d0 (ops (a.log ++ [Rec.abort r])))
        rw [ops_snoc]
        exact Same.abort _ (by rw [ag.prep, ← m.mem.tx]; exact hp)
      · have h : a.mode = .up := h
        exact hno h
  | fopen hm hf => exact hno hm
  | fclose f hm hf hc hk => exact hno hm
  | ckBegin hm hc => exact hno hm
  | ckWrite c d hm hc hd => exact hno hm
  | ckEnd c hm hc hd => exact hno hm
  | sync hm => exact ⟨Same.refl _, fun h => hno h⟩
  | crash n hn hl =>
    have ht : TailInv d0 a := by
      unfold ModeInv at m
      cases hmode : a.mode with
      | up => exact absurd hmode ha
      | down => simp only [hmode] at m; exact m.1
      | aborting => simp only [hmode] at m; exact m.tail
      | closed => simp only [hmode] at m; exact m.tail
    exact ⟨(ht.tail n hn).symm, fun h => (by cases h)⟩
  | partly k hm => exact ⟨Same.refl _, fun h => hno h⟩
  | replayed hm => exact ⟨Same.refl _, fun h => (by cases h)⟩
  | recClose hm hu hc => exact ⟨Same.refl _, fun h => (by cases h)⟩
  | recKeep hm hu hc => exact ⟨Same.refl _, fun h => (by cases h)⟩
  | recWrite f hm hf => exact ⟨Same.refl _, fun h => hno h⟩
  | recDone hm hd =>
    unfold ModeInv at m
    simp only [hm] at m
    refine ⟨?_, fun _ => m.live⟩
    show Same _ (Spec.run d0 (ops (a.log ++ [Rec.settled a.ft.isSome])))
    rw [ops_snoc]; exact Same.refl _

theorem recovering_all {good : D → Prop} {d0 : D} {a b : World D} (h : Recovering good a b)
    (ha : Reach true good d0 a) (hd : a.mode = .down) :
    Same (Spec.run d0 (ops a.log)) (Spec.run d0 (ops b.log)) ∧
      (b.mode = .up → ∀ r, b.tx.undo r ≠ [] → b.tx.prep r = true) := by
  induction h with
  | here => exact ⟨Same.refl _, fun h => (by rw [hd] at h; cases h)⟩
  | @more b c h1 h2 h3 ih =>
    obtain ⟨i, m⟩ := reach_inv (h1.reach ha)
    have := recovering_step h3 h2 i m
    exact ⟨ih.1.trans this.1, this.2⟩

/-- A crash at any moment, leaving any part `n` of the log that includes what was synced, and any
number of further crashes during recovery: once a recovery ends, the dictionary shows the
replacement of a prepared transaction if there was one, else the descriptor that was committed.
Nothing else is left of any transaction, and the prepared ones are as they were. -/
theorem C71_crash_keeps_committed_and_prepared {good : D → Prop} {d0 : D} {w c w' : World D}
    (h : Reach true good d0 w) (n : Nat) (hc : Step true good w c) (hlog : c.log = w.log.take n)
    (hdown : c.mode = .down) (hr : Recovering good c w') (hup : w'.mode = .up) :
    (Spec.run d0 (ops (w.log.take n))).Survives (showing w'.ft w'.hdr) ∧
      (Spec.run d0 (ops w'.log)).base = (Spec.run d0 (ops (w.log.take n))).base ∧
      (∀ r, (Spec.run d0 (ops w'.log)).prep r = (Spec.run d0 (ops (w.log.take n))).prep r) ∧
      ∀ r, (Spec.run d0 (ops w'.log)).pend r =
        if (Spec.run d0 (ops (w.log.take n))).prep r
        then (Spec.run d0 (ops (w.log.take n))).pend r else [] := by
  have hcr : Reach true good d0 c := Reach.step h hc
  obtain ⟨hs, hl⟩ := recovering_all hr hcr hdown
  rw [hlog] at hs
  obtain ⟨i, m⟩ := reach_inv (hr.reach hcr)
  unfold ModeInv at m
  simp only [hup] at m
  have hlive := hl hup
  rw [m.mem.tx] at hlive
  refine ⟨hs.symm.survives ((survives_iff i.leg hlive _).2 m.val), hs.base,
    fun r => congrFun hs.prep r, fun r => ?_⟩
  split
  · rename_i hp; exact hs.pend r hp
  · rename_i hp
    obtain ⟨r0, a⟩ := agrees i.leg
    have hu : (hist d0 w'.log).tx.undo r = [] := by
      cases hu : (hist d0 w'.log).tx.undo r with
      | nil => rfl
      | cons x xs =>
        have h1 := hlive r (by rw [hu]; simp)
        rw [← a.prep, hs.prep] at h1
        exact absurd h1 hp
    by_cases hr0 : r = r0
    · subst hr0
      have h1 := a.lv
      rw [hu] at h1
      cases h2 : (Spec.run d0 (ops w'.log)).pend r with
      | nil => rfl
      | cons x xs => rw [h2] at h1; cases h1
    · rw [a.triv r hr0, hu]; rfl

/-! ## What comparisons use

Comparisons use a copy of the descriptor that is made when the file is opened, and again by a
change with the flag `DB_UPDATE_CMP_DESCRIPTOR`. -/

/-- The full statement would be that keys are always compared by the descriptor the dictionary
shows.  What holds: whatever `g` the comparison function takes from a descriptor, if no change
alters it, then comparisons never see it altered, in any run, with or without the flag, across
aborts and crashes.  Missing: changes that do alter it; see `C71_compared_by_an_aborted_change`. -/
theorem C71_comparisons_unchanged_partial {α : Type} (g : D → α) {strict : Bool} {d0 : D} {w : World D}
    (h : Reach strict (fun d => g d = g d0) d0 w) {f : Ft D} (hf : w.ft = some f) :
    g f.cmp = g d0 ∧ g f.desc = g d0 :=
  let a := (all_reach (G := fun d => g d = g d0) rfl h).ft f hf
  ⟨a.2, a.1⟩

/-! ## Concrete runs -/

/-- A step whose result is left to be computed. -/
abbrev any : Nat → Prop := fun _ => True

/-- The file is opened; transaction 1 changes the descriptor from 0 to 5 and commits; transaction 2
changes it to 7 in a child, which commits. -/
theorem run1 : ∃ w : World Nat, Reach true any 0 w ∧ w.mode = .up ∧ w.synced = 4 ∧
    w.last = ⟨0, Tx.none, false⟩ ∧ w.hdr = 0 ∧
    w.ft = some ⟨7, 0, true⟩ ∧
    w.log = [.fopen, .begin 1, .change 1 0 5 false, .commit 1, .begin 2, .begin 2,
      .change 2 5 7 false, .commit 2] :=
  ⟨_, .step (.step (.step (.step (.step (.step (.step (.step (.step .init
      (.fopen _ rfl rfl))
      (.begin _ 1 rfl rfl))
      (.change _ 1 ⟨0, 0, false⟩ 5 false rfl rfl (Or.inl rfl) (by decide) rfl
        (fun _ _ => rfl) trivial))
      (.commit _ 1 rfl (by decide)))
      (.sync _ (by decide)))
      (.begin _ 2 rfl rfl))
      (.begin _ 2 rfl rfl))
      (.change _ 2 ⟨5, 0, true⟩ 7 false rfl rfl (Or.inl rfl) (by decide) rfl
        (fun _ i => by show (if i = 1 then false else false) = false; split <;> rfl) trivial))
      (.commit _ 2 rfl (by decide)),
    rfl, rfl, rfl, rfl, rfl, rfl⟩

/-- `C71_descriptor_shown` speaks of it: 7 is pending at the outer level of transaction 2. -/
example : (Spec.run 0 (ops (D := Nat) [.fopen, .begin 1, .change 1 0 5 false, .commit 1, .begin 2,
    .begin 2, .change 2 5 7 false, .commit 2])).Shows 7 :=
  Or.inl ⟨2, rfl⟩

example : ∃ (w : World Nat) (f : Ft Nat), Reach true any 0 w ∧ w.mode = .up ∧ w.ft = some f ∧
    (Spec.run 0 (ops w.log)).Shows f.desc := by
  obtain ⟨w, h, hm, _, _, _, hf, _⟩ := run1
  exact ⟨w, _, h, hm, hf, C71_descriptor_shown h hm hf⟩

theorem crash_of {w : World Nat} (_ : Reach true any 0 w) (n : Nat) (h1 : w.synced ≤ n)
    (h2 : n ≤ w.log.length) : Step true any w { w with
        ft := none, tx := Tx.none, log := w.log.take n, synced := n, lock := none,
        old := fun _ => false, ck := none, mode := .down } := .crash w n h1 h2

theorem here_of {w c : World Nat} (_ : Step true any w c) : Recovering any c c := .here

/-- After the run a crash, which leaves the whole log; recovery replays it, aborts transaction 2,
and the dictionary has descriptor 5. -/
theorem run2 : ∃ w c w' : World Nat, Reach true any 0 w ∧ Step true any w c ∧
    c.log = w.log.take 8 ∧ c.mode = .down ∧ Recovering any c w' ∧ w'.mode = .up ∧
    w'.ft = none ∧ w'.hdr = 5 := by
  obtain ⟨w, h, hm, hs, hla, hh, hf, hl⟩ := run1
  obtain ⟨ft, hdr, tx, log, synced, lock, old, ck, last, mode⟩ := w
  simp only at hm hs hla hh hf hl
  subst hm hs hla hh hf hl
  have c := crash_of h 8 (Nat.le_of_ble_eq_true rfl) (Nat.le_of_ble_eq_true rfl)
  have s1 := (here_of c).more (fun h => by cases h) (.replayed _ rfl)
  have s2 := s1.more (fun h => by cases h) (.abort _ 2 (Or.inr ⟨rfl, rfl⟩) (fun h => by cases h))
  have s3 := s2.more (fun h => by cases h) (.recClose _ rfl
          (by
            intro r hr
            exfalso
            apply hr
            by_cases h2 : r = 2
            · subst h2; rfl
            by_cases h1 : r = 1
            · subst h1; rfl
            simp [replay, replay1, World.start, Tx.begin, Tx.save, Tx.commit, Tx.abort, Tx.none,
              put, h1, h2, openFt])
          (by
            intro r l hl
            exfalso
            by_cases h2 : r = 2
            · subst h2; cases hl
            by_cases h1 : r = 1
            · subst h1; cases hl
            simp [replay, replay1, World.start, Tx.begin, Tx.save, Tx.commit, Tx.abort, Tx.none,
              put, h1, h2, openFt] at hl))
  have s4 := s3.more (fun h => by cases h) (.recDone _ rfl (fun f hf => by cases hf))
  exact ⟨_, _, _, h, c, rfl, rfl, s4, rfl, rfl, rfl⟩

/-- So the theorem about crashes speaks of it: of the log it left, 5 is the descriptor that has to
survive. -/
example : (Spec.run 0 (ops (D := Nat) [.fopen, .begin 1, .change 1 0 5 false, .commit 1, .begin 2,
    .begin 2, .change 2 5 7 false, .commit 2])).Survives 5 := by
  refine Or.inr ⟨fun r hr => ?_, rfl⟩
  have hr : (if r = 1 then false else false) = true := hr
  split at hr <;> cases hr

example : ∃ w c w' : World Nat, Reach true any 0 w ∧ Step true any w c ∧ Recovering any c w' ∧
    (Spec.run 0 (ops (w.log.take 8))).Survives (showing w'.ft w'.hdr) := by
  obtain ⟨w, c, w', h, hc, hl, hd, hr, hu, _, _⟩ := run2
  exact ⟨w, c, w', h, hc, hr, (C71_crash_keeps_committed_and_prepared h 8 hc hl hd hr hu).1⟩

/-- Transaction 1 changes the descriptor from 0 to 1, with the flag, and aborts: the dictionary
shows 0 again, but keys are compared by 1, until the dictionary is closed and opened again; from
then on they are compared by 0. -/
theorem C71_compared_by_an_aborted_change :
    ∃ w w' : World Nat, Reach true any 0 w ∧ Reach true any 0 w' ∧
      ops w.log = [.begin 1, .change 1 1, .abort 1] ∧ w.ft = some ⟨0, 1, true⟩ ∧
      (Spec.run 0 (ops w.log)).Shows 0 ∧
      w'.log = w.log ++ [.fclose, .fopen] ∧ w'.ft = some ⟨0, 0, false⟩ := by
  have h := Reach.step (.step (.step (.step (.init (strict := true) (good := any) (d0 := 0))
      (.fopen _ rfl rfl))
      (.begin _ 1 rfl rfl))
      (.change _ 1 ⟨0, 0, false⟩ 1 true rfl rfl (Or.inl rfl) (by decide) rfl
        (fun _ _ => rfl) trivial))
      (.abort _ 1 (Or.inl rfl) (by decide))
  have h' := h.step (.fclose _ ⟨0, 1, true⟩ rfl rfl (by
    intro r l hl
    have hl : l ∈ put (put (put _ 1 _) 1 _) 1 [] r := hl
    by_cases h1 : r = 1
    · subst h1; cases hl
    · rw [put_other _ _ h1, put_other _ _ h1, put_other _ _ h1] at hl; cases hl)
    (fun c hc => by cases hc))
  have h'' := h'.step (.fopen _ rfl rfl)
  refine ⟨_, _, h, h'', rfl, rfl, Or.inr ⟨fun r => ?_, rfl⟩, rfl, rfl⟩
  show ((put (put (put (fun _ => []) 1 _) 1 _) 1 []) r).findSome? id = none
  by_cases h1 : r = 1
  · subst h1; rfl
  · rw [put_other _ _ h1, put_other _ _ h1, put_other _ _ h1]; rfl

/-- A run that breaks the rule about prepared transactions found by recovery.  Transaction 1
changes the descriptor from 0 to 1 and is prepared; a crash; before it is resolved, transaction 2
changes the descriptor from 1 to 2 and commits: nothing stops it, for the recovered transaction
holds no lock.  Then transaction 1 is aborted: the committed change is gone. -/
theorem C71_prepared_abort_undoes_a_later_commit :
    ∃ w : World Nat, Reach false any 0 w ∧
      ops w.log = [.begin 1, .change 1 1, .prepare 1, .begin 2, .change 2 2, .commit 2, .abort 1] ∧
      w.ft = some ⟨0, 0, true⟩ ∧ (Spec.run 0 (ops w.log)).base = 2 ∧
      ¬ (Spec.run 0 (ops w.log)).Shows 0 := by
  have h1 := Reach.step (.step (.step (.step (.step (.init (strict := false) (good := any) (d0 := 0))
      (.fopen _ rfl rfl))
      (.begin _ 1 rfl rfl))
      (.change _ 1 ⟨0, 0, false⟩ 1 false rfl rfl (Or.inl rfl) (by decide) rfl
        (fun h => by cases h) trivial))
      (.prepare _ 1 [0] rfl rfl))
      (.sync _ (by decide))
  have h2 := h1.step (.crash _ 4 (Nat.le_of_ble_eq_true rfl) (Nat.le_of_ble_eq_true rfl))
  have h3 := h2.step (.replayed _ rfl)
  have h4 := h3.step (.recKeep _ rfl
    (by
      intro r hr
      by_cases h1 : r = 1
      · subst h1; rfl
      · exfalso
        apply hr
        simp [replay, replay1, World.start, World.init, Tx.begin, Tx.save, Tx.prepare, Tx.none,
              put, h1, openFt])
    (fun hc => by
      have := hc 1 [0] (by decide)
      cases this))
  have h5 := h4.step (.recWrite _ ⟨1, 0, true⟩ rfl rfl)
  have h6 := h5.step (.recDone _ rfl (fun f hf => by injection hf with hf; subst hf; rfl))
  have h7 := Reach.step (.step (.step (.step h6
      (.begin _ 2 rfl rfl))
      (.change _ 2 ⟨1, 0, false⟩ 2 false rfl rfl (Or.inl rfl) (by decide) rfl
        (fun h => by cases h) trivial))
      (.commit _ 2 rfl (by decide)))
      (.abort _ 1 (Or.inl rfl) (by decide))
  refine ⟨_, h7, rfl, rfl, rfl, ?_⟩
  rintro (⟨r, hr⟩ | ⟨_, hr⟩)
  · by_cases h1 : r = 1
    · subst h1; cases hr
    by_cases h2 : r = 2
    · subst h2; cases hr
    · have hr : ((Spec.run 0 [.begin 1, .change 1 1, .prepare 1, .begin 2, .change 2 2, .commit 2,
          .abort 1] : Spec Nat).pend r).findSome? id = some 0 := hr
      have hp : (Spec.run 0 [.begin 1, .change 1 1, .prepare 1, .begin 2, .change 2 2, .commit 2,
          .abort 1] : Spec Nat).pend r = [] := by
        simp [Spec.run, Spec.step, Spec.init, put, h1, h2]
      rw [hp] at hr; cases hr
  · cases hr

end Verif.Desc
