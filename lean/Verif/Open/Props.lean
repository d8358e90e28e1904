import Verif.Open.Lemmas

/-!
# C90: opening an environment
-/

namespace Verif.Open

theorem rotate_fine {d} (h : Fine d) : Fine (rotate d) := h.append.mark

theorem rotate_rb {d} : (rotate d).rollback = d.rollback := rfl

theorem repeat_complete {d n} (h : Complete d) : Complete (Nat.repeat rotate n d) := by
  induction n with
  | zero => exact h
  | succ n ih => exact (rotate_fine ih.fine).complete ih.rollback

theorem current_complete : Complete ⟨[⟨29, some .other⟩], true, some 29, true⟩ :=
  ⟨⟨29, rfl, by decide, by decide⟩, rfl, rfl, (by
    intro f hf
    rcases List.mem_cons.mp hf with e | e
    · rw [e]; exact ⟨by decide, by decide⟩
    · cases e), ⟨_, List.mem_cons_self, by intro h; cases h⟩⟩

/-- Every history of a complete environment leaves it complete, if no crash falls between the deletion of the old rollback file
and the creation of the new one. -/
theorem C90_history {d0 d} (h0 : Complete d0) (h : History d0 d) : Complete d := by
  induction h with
  | start => exact h0
  | next _ hl hr ih =>
    cases hl with
    | crashed recover hm => exact ((open_fine ih).1 _ hm).complete hr
    | used recover n ho e =>
      rw [e, (open_fine ih).2.2 ho]
      exact repeat_complete current_complete
    | closed recover n ho e =>
      rw [e, (open_fine ih).2.2 ho]
      have := repeat_complete (n := n) current_complete
      exact this.fine.mark.complete this.rollback

/-- Partial: see `C90_lost_rollback_refuted` for the crashes left out of `History`.  After every history of openings, uses, clean
shutdowns and crashes at any point, an environment whose log is of version 25 or later opens (with DB_RECOVER), and is then of
the current version with all its files. -/
theorem C90_open_partial {d0 d} (h0 : Complete d0) (h : History d0 d) :
    (openEnv true d).1 = .ok ∧ Current ((openEnv true d).2.getLastD d) := by
  obtain ⟨_, h2, h3⟩ := open_fine (recover := true) (C90_history h0 h)
  rcases h2 with h2 | ⟨h2, _⟩
  · exact ⟨h2, h3 h2⟩
  · cases h2

/-- Without DB_RECOVER an environment that was shut down cleanly opens; otherwise the opening succeeds or returns DB_RUNRECOVERY
and changes nothing. -/
theorem C90_no_recover {d0 d} (h0 : Complete d0) (h : History d0 d) :
    (lastRec d.logs = some .shutdown → (openEnv false d).1 = .ok) ∧
    ((openEnv false d).1 = .ok ∨ openEnv false d = (.err .runRecovery, [])) := by
  have hc := C90_history h0 h
  refine ⟨fun hl => ?_, (open_fine hc).2.1.imp id (·.2)⟩
  rcases (open_fine (recover := false) hc).2.1 with e | ⟨_, e⟩
  · exact e
  · obtain ⟨up, hu, _⟩ := decide_fine hc.fine
    cases up with
    | false =>
      have eo : openEnv false d = restOfOpen false false d := by
        unfold openEnv
        rw [hu]
        simp only [Bool.false_eq_true, if_false, Bool.not_false, List.getLastD_nil, validate_fine hc.fine (fun _ => hc.rollback), List.nil_append]
      rw [eo]
      exact rest_clean hc.fine hl
    | true =>
      obtain ⟨u1, u2⟩ := upgrade_fine hc.fine hc.rollback
      have hf := fin_fine hc.fine u1
      have hval : validate (fin d (upgradeSteps d)) false = .ok false := validate_fine hf (fun e => by cases e)
      unfold openEnv
      rw [hu]
      simp only [if_true, steps_lastD, Bool.not_true, hval]
      exact rest_clean hf (by rw [u2]; rfl)

/-- An environment of any supported older version that was shut down cleanly is upgraded: it opens, and is then of the current
version with all its files. -/
theorem C90_upgrade {d v recover} (hv : maxVer d.logs = v) (h1 : 13 ≤ v) (h2 : v < 29)
    (hc : ∃ f, d.logs.getLast? = some f ∧ f.last = some (if v ≤ 19 then .shutdown19 else .shutdown))
    (he : ∃ w, d.env = some w ∧ 13 ≤ w ∧ w ≤ 29) (hf : d.fileops = true) :
    (openEnv recover d).1 = .ok ∧ Current ((openEnv recover d).2.getLastD d) := by
  obtain ⟨f, hl, hc⟩ := hc
  have hne : d.logs.isEmpty = false := by
    cases hd : d.logs with
    | nil => rw [hd] at hl; cases hl
    | cons a l => rfl
  have hclean : cleanOld d.logs v = true := by
    unfold cleanOld
    rw [hl]
    simp only [hc]
    by_cases hh : v ≤ 19
    · rw [if_pos hh, if_pos hh]; rfl
    · rw [if_neg hh, if_neg hh]; rfl
  have hu : decideUpgrade d = .ok true := by
    unfold decideUpgrade cur oldest
    simp only [hne, Bool.false_eq_true, if_false, hv, hclean, if_true]
    rw [if_neg (by omega), if_neg (by omega), if_neg (by omega)]
  have hfin : fin d (upgradeSteps d) = { d with logs := [⟨29, some .shutdown⟩], rollback := false } := by
    have c := (ckpt_spec (d := appendLog d) (n := d.logs.length + 1) (fs := d.logs) (g := ⟨29, none⟩) rfl rfl).2
    have es : upgradeSteps d = (appendLog :: ckpt (d.logs.length + 1)) ++ [mark .shutdown, unlinkRollback] := rfl
    have e0 : fin d (appendLog :: ckpt (d.logs.length + 1)) = { d with logs := [⟨29, some .other⟩] } := c
    rw [es, fin_append, e0]; rfl
  have hfine : Fine (fin d (upgradeSteps d)) := by
    rw [hfin]
    refine ⟨he, hf, ?_, ⟨_, List.mem_cons_self, by intro h; cases h⟩, .inr ?_⟩
    · intro f hf
      rcases List.mem_cons.mp hf with e | e
      · rw [e]; exact ⟨by decide, by decide⟩
      · cases e
    · intro f hf
      rcases List.mem_cons.mp hf with e | e
      · rw [e]
      · cases e
  have ok := rest_clean (recover := recover) (up := true) hfine (by rw [hfin]; rfl)
  have tl := (open_rest (recover := recover) (up := true) hfine (fun e => by cases e)).2.2 ok
  have hval : validate (fin d (upgradeSteps d)) false = .ok false := validate_fine hfine (fun e => by cases e)
  have eo : openEnv recover d = (.ok, steps d (upgradeSteps d) ++ (restOfOpen recover true (fin d (upgradeSteps d))).2) := by
    unfold openEnv
    rw [hu]
    simp only [if_true, steps_lastD, Bool.not_true, hval, ok]
  rw [eo]
  refine ⟨rfl, ?_⟩
  show Current ((steps d (upgradeSteps d) ++ _).getLastD d)
  rw [getLastD_append, steps_lastD]
  exact tl

/-- Environments that cannot be opened are refused with the right error and left as they are: made by a newer version; older than
supported; of a version before 25 and not shut down cleanly. -/
theorem C90_refused {d recover} (hne : d.logs ≠ []) :
    (29 < maxVer d.logs → openEnv recover d = (.err .tooNew, [])) ∧
    (maxVer d.logs < 13 → openEnv recover d = (.err .tooOld, [])) ∧
    (13 ≤ maxVer d.logs → maxVer d.logs < 25 →
      (∀ f, d.logs.getLast? = some f → f.last ≠ some (if maxVer d.logs ≤ 19 then .shutdown19 else .shutdown)) →
      openEnv recover d = (.err .upgradeFailure, [])) := by
  have hl : d.logs.isEmpty = false := by
    cases hd : d.logs with
    | nil => exact absurd hd hne
    | cons a l => rfl
  have key : ∀ e, decideUpgrade d = .error e → openEnv recover d = (.err e, []) := by
    intro e he; unfold openEnv; rw [he]
  refine ⟨fun h => key _ ?_, fun h => key _ ?_, fun h1 h2 h3 => key _ ?_⟩
  · unfold decideUpgrade cur
    simp only [hl, Bool.false_eq_true, if_false]
    rw [if_pos h]
  · unfold decideUpgrade cur oldest
    simp only [hl, Bool.false_eq_true, if_false]
    rw [if_neg (by omega), if_pos h]
  · have hc : cleanOld d.logs (maxVer d.logs) = false := by
      unfold cleanOld
      cases hg : d.logs.getLast? with
      | none => rfl
      | some f =>
        have := h3 f hg
        simp only []
        by_cases hh : maxVer d.logs ≤ 19
        · rw [if_pos hh] at this ⊢
          exact beq_eq_false_iff_ne.mpr this
        · rw [if_neg hh] at this ⊢
          exact beq_eq_false_iff_ne.mpr this
    unfold decideUpgrade cur oldest
    simp only [hl, Bool.false_eq_true, if_false, hc]
    rw [if_neg (by omega), if_neg (by omega), if_neg (by omega), if_neg (by omega)]

/-- A new environment. -/
theorem C90_new {recover} : (openEnv recover ⟨[], false, none, false⟩).1 = .ok ∧
    Current ((openEnv recover ⟨[], false, none, false⟩).2.getLastD ⟨[], false, none, false⟩) := by
  cases recover <;> exact ⟨by decide +kernel, by unfold Current; decide +kernel⟩

/-- With a log of the current version, an environment with some of its files missing gives ENOENT and is left as it is; nothing is
made in place of what is missing. -/
theorem C90_incomplete {d recover} (hv : d.logs = [] ∨ maxVer d.logs = 29)
    (hm : ¬ (d.env ≠ none ∧ d.rollback = true ∧ d.fileops = true ∧ d.logs ≠ []))
    (hs : ¬ (d.env = none ∧ d.rollback = false ∧ d.fileops = false ∧ d.logs = [])) :
    openEnv recover d = (.err .noent, []) := by
  have hu : decideUpgrade d = .ok false := by
    unfold decideUpgrade cur oldest
    rcases hv with hv | hv
    · rw [hv]; rfl
    · simp only [hv]
      by_cases he : d.logs.isEmpty = true
      · rw [if_pos he]
      · rw [if_neg he]; rfl
  have hval : validate d true = .error .noent := by
    obtain ⟨logs, rb, env, fo⟩ := d
    unfold validate
    cases logs <;> cases rb <;> cases env <;> cases fo <;>
      first
        | rfl
        | exact absurd ⟨rfl, rfl, rfl, rfl⟩ hs
        | exact absurd ⟨(by intro h; cases h), rfl, rfl, (by intro h; cases h)⟩ hm
  unfold openEnv
  rw [hu]
  simp only [Bool.false_eq_true, if_false, Bool.not_false, List.getLastD_nil, hval]

/-- A cleanly shut down environment of version 28. -/
def v28 : Disk := ⟨[⟨28, some .other⟩, ⟨28, some .shutdown⟩], true, some 28, true⟩

/-- A crash during an upgrade, after the old rollback file was deleted and before the new one was made, leaves an environment that
can never be opened again: the log is already of the current version, so the next opening expects the rollback file. -/
theorem C90_lost_rollback_refuted : Complete v28 ∧ lastRec v28.logs = some .shutdown ∧
    ∃ d, Life v28 d ∧ (∀ recover, openEnv recover d = (.err .noent, [])) := by
  refine ⟨⟨⟨28, rfl, by decide, by decide⟩, rfl, rfl, by decide, _, List.mem_cons_self, by decide⟩, rfl,
    ⟨[⟨29, some .shutdown⟩], false, some 28, true⟩, .crashed true (by decide +kernel), ?_⟩
  intro recover
  cases recover <;> decide +kernel

/-- A crash at any point of the first opening but its end leaves a directory that can never be opened as an environment again. -/
theorem C90_new_refuted : ∀ d ∈ (openEnv true ⟨[], false, none, false⟩).2.dropLast, ∀ recover,
    openEnv recover d = (.err .noent, []) := by
  intro d hd recover
  have e : (openEnv true ⟨[], false, none, false⟩).2.dropLast =
      [⟨[⟨29, none⟩], false, none, false⟩, ⟨[⟨29, none⟩], true, none, false⟩, ⟨[⟨29, none⟩], true, some 29, false⟩] := by decide +kernel
  rw [e] at hd
  rcases List.mem_cons.mp hd with rfl | hd
  · cases recover <;> decide +kernel
  · rcases List.mem_cons.mp hd with rfl | hd
    · cases recover <;> decide +kernel
    · rcases List.mem_cons.mp hd with rfl | hd
      · cases recover <;> decide +kernel
      · cases hd

/-- An upgrade goes through eleven states; a crash in the third is recovered. -/
example : (openEnv true v28).1 = .ok ∧ (openEnv true v28).2.length = 11 ∧
    (openEnv true v28).2[2]? = some ⟨[⟨28, some .shutdown⟩, ⟨29, some .other⟩], true, some 28, true⟩ ∧
    (openEnv true ⟨[⟨28, some .shutdown⟩, ⟨29, some .other⟩], true, some 28, true⟩).1 = .ok ∧
    (openEnv false ⟨[⟨28, some .shutdown⟩, ⟨29, some .other⟩], true, some 28, true⟩).1 = .err .runRecovery := by decide +kernel

/-- Versions 13 and 22, shut down cleanly; version 22 after a crash. -/
example : (openEnv false ⟨[⟨13, some .shutdown19⟩], true, some 13, true⟩).1 = .ok ∧
    (openEnv false ⟨[⟨22, some .shutdown⟩], true, some 22, true⟩).1 = .ok ∧
    openEnv true ⟨[⟨22, some .other⟩], true, some 22, true⟩ = (.err .upgradeFailure, []) := by decide +kernel

end Verif.Open
