import Verif.Open.Spec

/-!
# The states of an opening
-/

namespace Verif.Open

/-- The state after some steps. -/
def fin (d : Disk) (fs : List (Disk → Disk)) : Disk := fs.foldl (fun d f => f d) d

theorem steps_last : ∀ {fs : List (Disk → Disk)} {d e}, fs ≠ [] → (steps d fs).getLastD e = fin d fs
  | [f], _, _, _ => rfl
  | f :: g :: fs, d, e, _ => by
    show (steps (f d) (g :: fs)).getLastD (f d) = _
    exact steps_last (by intro h; cases h)

theorem steps_lastD {fs : List (Disk → Disk)} {d} : (steps d fs).getLastD d = fin d fs := by
  cases fs with
  | nil => rfl
  | cons f fs => exact steps_last (by intro h; cases h)

theorem steps_append {ys : List (Disk → Disk)} : ∀ {xs d}, steps d (xs ++ ys) = steps d xs ++ steps (fin d xs) ys
  | [], _ => rfl
  | x :: xs, d => by
    show x d :: steps (x d) (xs ++ ys) = _
    rw [steps_append]; rfl

theorem fin_append {xs ys : List (Disk → Disk)} {d} : fin d (xs ++ ys) = fin (fin d xs) ys := List.foldl_append

theorem markLast_append {e g} : ∀ {fs : List LogFile}, markLast e (fs ++ [g]) = fs ++ [{ g with last := some e }]
  | [] => rfl
  | f :: fs => by
    have := markLast_append (e := e) (g := g) (fs := fs)
    cases fs with
    | nil => rfl
    | cons h hs => show f :: markLast e (h :: hs ++ [g]) = _; rw [this]; rfl

theorem drops {d : Disk} {g} : ∀ {fs : List LogFile},
    (∀ d' ∈ steps { d with logs := fs ++ [g] } (List.replicate fs.length dropOldest), ∃ fs', (∀ f ∈ fs', f ∈ fs) ∧
      d' = { d with logs := fs' ++ [g] }) ∧
    fin { d with logs := fs ++ [g] } (List.replicate fs.length dropOldest) = { d with logs := [g] }
  | [] => ⟨fun _ h => (by cases h), rfl⟩
  | f :: fs => by
    obtain ⟨h1, h2⟩ := drops (d := d) (g := g) (fs := fs)
    have e : dropOldest { d with logs := f :: fs ++ [g] } = { d with logs := fs ++ [g] } := rfl
    rw [List.length_cons, List.replicate_succ]
    refine ⟨fun d' hd => ?_, ?_⟩
    · rcases List.mem_cons.mp hd with hd | hd
      · rw [e] at hd
        exact ⟨fs, fun x hx => List.mem_cons_of_mem _ hx, hd⟩
      · rw [e] at hd
        obtain ⟨fs', q1, q2⟩ := h1 d' hd
        exact ⟨fs', fun x hx => List.mem_cons_of_mem _ (q1 x hx), q2⟩
    · show fin (dropOldest _) _ = _
      rw [e]; exact h2

theorem ckpt_spec {d : Disk} {g fs n} (hl : d.logs = fs ++ [g]) (hn : n = fs.length + 1) :
    (∀ d' ∈ steps d (ckpt n), ∃ fs', (∀ f ∈ fs', f ∈ fs) ∧ d' = { d with logs := fs' ++ [⟨g.ver, some .other⟩] }) ∧
    fin d (ckpt n) = { d with logs := [⟨g.ver, some .other⟩] } := by
  have e : mark .other d = { d with logs := fs ++ [⟨g.ver, some .other⟩] } := by
    unfold mark; rw [hl, markLast_append]
  unfold ckpt
  subst hn
  rw [Nat.add_sub_cancel]
  obtain ⟨h1, h2⟩ := drops (d := d) (g := ⟨g.ver, some .other⟩) (fs := fs)
  refine ⟨fun d' hd => ?_, ?_⟩
  · rcases List.mem_cons.mp hd with hd | hd
    · rw [e] at hd; exact ⟨fs, fun x hx => hx, hd⟩
    · rw [e] at hd; exact h1 d' hd
  · show fin (mark .other d) _ = _
    rw [e]; exact h2

/-- A state of an environment that is not new: complete, but for the rollback file when only files of this version are left. -/
structure Fine (d : Disk) : Prop where
  env : ∃ v, d.env = some v ∧ 13 ≤ v ∧ v ≤ 29
  fileops : d.fileops = true
  vers : ∀ f ∈ d.logs, 25 ≤ f.ver ∧ f.ver ≤ 29
  used : ∃ f ∈ d.logs, f.last ≠ none
  rb : d.rollback = true ∨ ∀ f ∈ d.logs, f.ver = 29

theorem Complete.fine {d} (h : Complete d) : Fine d := ⟨h.env, h.fileops, h.vers, h.used, .inl h.rollback⟩

theorem Fine.complete {d} (h : Fine d) (hr : d.rollback = true) : Complete d := ⟨h.env, h.fileops, hr, h.vers, h.used⟩

theorem Fine.append {d} (h : Fine d) : Fine (appendLog d) := by
  refine ⟨h.env, h.fileops, ?_, ?_, h.rb.imp id ?_⟩
  · intro f hf
    rcases List.mem_append.mp hf with hf | hf
    · exact h.vers f hf
    · rcases List.mem_cons.mp hf with e | e
      · rw [e]; exact ⟨by decide, by decide⟩
      · cases e
  · obtain ⟨f, hf, hl⟩ := h.used
    exact ⟨f, List.mem_append_left _ hf, hl⟩
  · intro hv f hf
    rcases List.mem_append.mp hf with hf | hf
    · exact hv f hf
    · rcases List.mem_cons.mp hf with e | e
      · rw [e]; rfl
      · cases e

/-- States with the logs replaced. -/
theorem Fine.withLogs {d} (h : Fine d) {logs : List LogFile} (hv : ∀ f ∈ logs, 25 ≤ f.ver ∧ f.ver ≤ 29)
    (hu : ∃ f ∈ logs, f.last ≠ none) (hr : d.rollback = true ∨ ∀ f ∈ logs, f.ver = 29) : Fine { d with logs := logs } :=
  ⟨h.env, h.fileops, hv, hu, hr⟩

theorem last_split : ∀ {l : List LogFile}, l ≠ [] → ∃ fs g, l = fs ++ [g]
  | [a], _ => ⟨[], a, rfl⟩
  | a :: b :: l, _ => by
    obtain ⟨fs, g, e⟩ := last_split (l := b :: l) (by intro h; cases h)
    exact ⟨a :: fs, g, by rw [e]; rfl⟩

theorem Fine.mark {d e} (h : Fine d) : Fine (mark e d) := by
  obtain ⟨f0, hf0, _⟩ := h.used
  obtain ⟨fs, g, hl⟩ := last_split (l := d.logs) (by intro e; rw [e] at hf0; cases hf0)
  have he : Verif.Open.mark e d = { d with logs := fs ++ [⟨g.ver, some e⟩] } := by
    unfold Verif.Open.mark; rw [hl, markLast_append]
  have hg : g ∈ d.logs := by rw [hl]; exact List.mem_append_right _ List.mem_cons_self
  have hfs : ∀ f ∈ fs, f ∈ d.logs := fun f hf => by rw [hl]; exact List.mem_append_left _ hf
  rw [he]
  refine h.withLogs ?_ ⟨⟨g.ver, some e⟩, List.mem_append_right _ List.mem_cons_self, by intro h; cases h⟩ (h.rb.imp id ?_)
  · intro f hf
    rcases List.mem_append.mp hf with hf | hf
    · exact h.vers f (hfs f hf)
    · rcases List.mem_cons.mp hf with e | e
      · rw [e]; exact h.vers g hg
      · cases e
  · intro hv f hf
    rcases List.mem_append.mp hf with hf | hf
    · exact hv f (hfs f hf)
    · rcases List.mem_cons.mp hf with e | e
      · rw [e]; exact hv g hg
      · cases e

theorem Fine.setEnv {d} (h : Fine d) : Fine (setEnv d) :=
  ⟨⟨29, rfl, by decide, by decide⟩, h.fileops, h.vers, h.used, h.rb⟩

theorem Fine.mkRollback {d} (h : Fine d) : Fine (mkRollback d) := ⟨h.env, h.fileops, h.vers, h.used, .inl rfl⟩

/-- The states of a checkpoint, the last file of which is the current one. -/
theorem Fine.ckpt {d fs g n} (h : Fine d) (hl : d.logs = fs ++ [g]) (hn : n = fs.length + 1) :
    ∀ d' ∈ steps d (ckpt n), Fine d' := by
  intro d' hd
  obtain ⟨fs', h1, rfl⟩ := (ckpt_spec hl hn).1 d' hd
  have hg : g ∈ d.logs := by rw [hl]; exact List.mem_append_right _ List.mem_cons_self
  have hfs : ∀ f ∈ fs', f ∈ d.logs := fun f hf => by rw [hl]; exact List.mem_append_left _ (h1 f hf)
  refine h.withLogs ?_ ⟨⟨g.ver, some .other⟩, List.mem_append_right _ List.mem_cons_self, by intro h; cases h⟩ (h.rb.imp id ?_)
  · intro f hf
    rcases List.mem_append.mp hf with hf | hf
    · exact h.vers f (hfs f hf)
    · rcases List.mem_cons.mp hf with e | e
      · rw [e]; exact h.vers g hg
      · cases e
  · intro hv f hf
    rcases List.mem_append.mp hf with hf | hf
    · exact hv f (hfs f hf)
    · rcases List.mem_cons.mp hf with e | e
      · rw [e]; exact hv g hg
      · cases e

theorem maxVer_ge : ∀ {l : List LogFile} {f}, f ∈ l → f.ver ≤ maxVer l
  | g :: l, f, h => by
    unfold maxVer
    rcases List.mem_cons.mp h with e | h
    · rw [e]; exact Nat.le_max_left _ _
    · exact Nat.le_trans (maxVer_ge h) (Nat.le_max_right _ _)

theorem maxVer_le {n} : ∀ {l : List LogFile}, (∀ f ∈ l, f.ver ≤ n) → maxVer l ≤ n
  | [], _ => Nat.zero_le _
  | g :: l, h => by
    unfold maxVer
    exact Nat.max_le.mpr ⟨h g List.mem_cons_self, maxVer_le (fun f hf => h f (List.mem_cons_of_mem _ hf))⟩

theorem lastRec_some : ∀ {l : List LogFile}, (∃ f ∈ l, f.last ≠ none) → ∃ e, lastRec l = some e
  | [], ⟨_, h, _⟩ => by cases h
  | g :: l, ⟨f, hf, hl⟩ => by
    unfold lastRec
    cases h : lastRec l with
    | some e => exact ⟨e, rfl⟩
    | none =>
      rcases List.mem_cons.mp hf with e | hf
      · subst e
        cases hg : f.last with
        | none => exact absurd hg hl
        | some e => exact ⟨e, rfl⟩
      · obtain ⟨e, he⟩ := lastRec_some ⟨f, hf, hl⟩
        rw [h] at he; cases he

theorem validate_fine {d b} (h : Fine d) (hr : b = true → d.rollback = true) : validate d b = .ok false := by
  obtain ⟨v, hv, _⟩ := h.env
  obtain ⟨f, hf, _⟩ := h.used
  have hl : d.logs.isEmpty = false := by
    cases hd : d.logs with
    | nil => rw [hd] at hf; cases hf
    | cons a l => rfl
  unfold validate
  rw [hv, h.fileops, hl]
  cases b with
  | false => rfl
  | true => rw [hr rfl]; rfl

theorem envOk_fine {d} (h : Fine d) : envOk d = true := by
  obtain ⟨v, hv, h1, h2⟩ := h.env
  unfold envOk
  rw [hv]
  exact Bool.and_eq_true_iff.mpr ⟨decide_eq_true h1, decide_eq_true h2⟩

theorem decide_fine {d} (h : Fine d) : ∃ up, decideUpgrade d = .ok up ∧ (up = true → ∃ f ∈ d.logs, f.ver ≠ 29) := by
  obtain ⟨f, hf, _⟩ := h.used
  have h1 : 25 ≤ maxVer d.logs := Nat.le_trans (h.vers f hf).1 (maxVer_ge hf)
  have h2 : maxVer d.logs ≤ 29 := maxVer_le (fun f hf => (h.vers f hf).2)
  have hl : d.logs.isEmpty = false := by
    cases hd : d.logs with
    | nil => rw [hd] at hf; cases hf
    | cons a l => rfl
  unfold decideUpgrade cur oldest
  simp only [hl, Bool.false_eq_true, if_false]
  rw [if_neg (by omega), if_neg (by omega)]
  by_cases hm : maxVer d.logs = 29
  · rw [if_pos hm]; exact ⟨false, rfl, fun e => (by cases e)⟩
  · rw [if_neg hm]
    by_cases hc : cleanOld d.logs (maxVer d.logs) = true
    · rw [if_pos hc]
      refine ⟨true, rfl, fun _ => ⟨f, hf, fun e => ?_⟩⟩
      have := maxVer_ge hf
      omega
    · rw [if_neg hc, if_pos h1]; exact ⟨false, rfl, fun e => (by cases e)⟩

/-- The end of the opening: all states are fine, the last is current. -/
theorem finish_fine {d up fs g} (h : Fine d) (hl : d.logs = fs ++ [g]) (hg : g.ver = 29) (hr : up = false → d.rollback = true) :
    (∀ d' ∈ steps d (finishSteps up d), Fine d') ∧ fin d (finishSteps up d) = ⟨[⟨29, some .other⟩], true, some 29, true⟩ := by
  have hn : d.logs.length = fs.length + 1 := by rw [hl, List.length_append]; rfl
  cases up with
  | false =>
    have c := ckpt_spec (d := setEnv d) (fs := fs) (g := g) hl hn
    have cf := Fine.ckpt (d := setEnv d) h.setEnv hl hn
    refine ⟨fun d' hd => ?_, ?_⟩
    · rcases List.mem_cons.mp hd with hd | hd
      · rw [hd]; exact h.setEnv
      · exact cf d' hd
    · show fin (setEnv d) (ckpt d.logs.length) = _
      rw [c.2, hg]
      show (⟨_, d.rollback, some 29, d.fileops⟩ : Disk) = _
      rw [hr rfl, h.fileops]
  | true =>
    have c := ckpt_spec (d := setEnv (mkRollback d)) (fs := fs) (g := g) hl hn
    have cf := Fine.ckpt (d := setEnv (mkRollback d)) h.mkRollback.setEnv hl hn
    refine ⟨fun d' hd => ?_, ?_⟩
    · rcases List.mem_cons.mp hd with hd | hd
      · rw [hd]; exact h.mkRollback
      · rcases List.mem_cons.mp hd with hd | hd
        · rw [hd]; exact h.mkRollback.setEnv
        · exact cf d' hd
    · show fin (setEnv (mkRollback d)) (ckpt d.logs.length) = _
      rw [c.2, hg]
      show (⟨_, true, some 29, d.fileops⟩ : Disk) = _
      rw [h.fileops]

/-- What recovery does to an environment that is fine: its steps are fine; if it went well, a file of this version is the last. -/
theorem recovery_fine {recover d} (h : Fine d) :
    (∀ d' ∈ steps d (recovery recover d).2, Fine d') ∧
    ((recovery recover d).1 = .ok ∨ (recover = false ∧ (recovery recover d) = (.err .runRecovery, []))) ∧
    (recover = true → (recovery recover d).1 = .ok) ∧
    ((recovery recover d).1 = .ok → (fin d (recovery recover d).2).rollback = d.rollback ∧
      ∃ fs g, (fin d (recovery recover d).2).logs = fs ++ [g] ∧ g.ver = 29) := by
  obtain ⟨e, he⟩ := lastRec_some h.used
  have app : ∀ d' ∈ steps d [appendLog], Fine d' := by
    intro d' hd
    rcases List.mem_cons.mp hd with hd | hd
    · rw [hd]; exact h.append
    · cases hd
  have fa : (fin d [appendLog]).rollback = d.rollback ∧ ∃ fs g, (fin d [appendLog]).logs = fs ++ [g] ∧ g.ver = 29 :=
    ⟨rfl, d.logs, ⟨29, none⟩, rfl, rfl⟩
  have hall : (d.logs.all fun f => decide (25 ≤ f.ver)) = true :=
    List.all_eq_true.mpr (fun f hf => decide_eq_true (h.vers f hf).1)
  have other : ∀ d' ∈ steps d (appendLog :: ckpt (d.logs.length + 1)), Fine d' := by
    intro d' hd
    rcases List.mem_cons.mp hd with hd | hd
    · rw [hd]; exact h.append
    · exact h.append.ckpt (fs := d.logs) (g := ⟨29, none⟩) rfl rfl d' hd
  have fo : fin d (appendLog :: ckpt (d.logs.length + 1)) = { d with logs := [⟨29, some .other⟩] } :=
    (ckpt_spec (d := appendLog d) (fs := d.logs) (g := ⟨29, none⟩) rfl rfl).2
  have both : ∀ e', e' ≠ .shutdown → lastRec d.logs = some e' → recovery recover d =
      if recover = false then (.err .runRecovery, []) else (.ok, appendLog :: ckpt (d.logs.length + 1)) := by
    intro e' hne h'
    unfold recovery
    rw [h']
    cases e' with
    | shutdown => exact absurd rfl hne
    | shutdown19 => simp only [hall, if_true]
    | other => simp only [hall, if_true]
  by_cases hs : e = .shutdown
  · have hr : recovery recover d = (.ok, [appendLog]) := by unfold recovery; rw [he, hs]
    rw [hr]
    exact ⟨app, .inl rfl, fun _ => rfl, fun _ => fa⟩
  · rw [both e hs he]
    cases recover with
    | false =>
      refine ⟨fun d' hd => (by cases hd), .inr ⟨rfl, rfl⟩, fun e => (by cases e), fun e => (by cases e)⟩
    | true =>
      refine ⟨other, .inl rfl, fun _ => rfl, fun _ => ?_⟩
      show (fin d (appendLog :: ckpt (d.logs.length + 1))).rollback = _ ∧ _
      simp only [Bool.true_eq_false, if_false]
      rw [fo]
      exact ⟨rfl, [], ⟨29, some .other⟩, rfl, rfl⟩

/-- The states of an upgrade. -/
theorem upgrade_fine {d} (h : Fine d) (hr : d.rollback = true) :
    (∀ d' ∈ steps d (upgradeSteps d), Fine d') ∧
    fin d (upgradeSteps d) = { d with logs := [⟨29, some .shutdown⟩], rollback := false } := by
  have c := ckpt_spec (d := appendLog d) (n := d.logs.length + 1) (fs := d.logs) (g := ⟨29, none⟩) rfl rfl
  have cf := h.append.ckpt (n := d.logs.length + 1) (fs := d.logs) (g := ⟨29, none⟩) rfl rfl
  have e0 : fin d (appendLog :: ckpt (d.logs.length + 1)) = { d with logs := [⟨29, some .other⟩] } := c.2
  have f0 : Fine { d with logs := [⟨29, some .other⟩] } := h.withLogs
    (fun f hf => by
      rcases List.mem_cons.mp hf with e | e
      · rw [e]; exact ⟨by decide, by decide⟩
      · cases e) ⟨_, List.mem_cons_self, by intro h; cases h⟩ (.inl hr)
  have f1 : Fine { d with logs := [⟨29, some .shutdown⟩] } := f0.mark (e := .shutdown)
  have f2 : Fine { d with logs := [⟨29, some .shutdown⟩], rollback := false } := ⟨h.env, h.fileops, f1.vers, f1.used, .inr (fun f hf => by
      rcases List.mem_cons.mp hf with e | e
      · rw [e]
      · cases e)⟩
  have es : upgradeSteps d = (appendLog :: ckpt (d.logs.length + 1)) ++ [mark .shutdown, unlinkRollback] := rfl
  rw [es, steps_append, fin_append, e0]
  refine ⟨fun d' hd => ?_, rfl⟩
  rcases List.mem_append.mp hd with hd | hd
  · rcases List.mem_cons.mp hd with hd | hd
    · rw [hd]; exact h.append
    · exact cf d' hd
  · rcases List.mem_cons.mp hd with hd | hd
    · rw [hd]; exact f1
    · rcases List.mem_cons.mp hd with hd | hd
      · rw [hd]; exact f2
      · cases hd

theorem fin_fine {d fs} (h : Fine d) (hs : ∀ d' ∈ steps d fs, Fine d') : Fine (fin d fs) := by
  cases fs with
  | nil => exact h
  | cons f fs =>
    rw [← steps_last (e := d) (by intro h; cases h)]
    apply hs
    rw [List.getLastD_eq_getLast?]
    cases hl : (steps d (f :: fs)).getLast? with
    | none => rw [List.getLast?_eq_none_iff] at hl; cases hl
    | some x => exact List.mem_of_getLast? hl

theorem getLastD_append {α} {a b : List α} {x : α} : (a ++ b).getLastD x = b.getLastD (a.getLastD x) := by
  simp only [List.getLastD_eq_getLast?, List.getLast?_append]
  cases b.getLast? <;> simp

/-- The part of the opening after validation, for an environment that is fine. -/
theorem open_rest {recover up d} (h : Fine d) (hr : up = false → d.rollback = true) :
    (∀ d' ∈ (restOfOpen recover up d).2, Fine d') ∧
    ((restOfOpen recover up d).1 = .ok ∨ recover = false ∧ restOfOpen recover up d = (.err .runRecovery, [])) ∧
    ((restOfOpen recover up d).1 = .ok → (restOfOpen recover up d).2.getLastD d = ⟨[⟨29, some .other⟩], true, some 29, true⟩) := by
  obtain ⟨h1, h2, _, h4⟩ := recovery_fine (recover := recover) h
  unfold restOfOpen
  simp only [steps_lastD]
  rcases h2 with h2 | ⟨hf, h2⟩
  · have hd2 : Fine (fin d (recovery recover d).2) := fin_fine h h1
    obtain ⟨h5, fs, g, h6, h7⟩ := h4 h2
    have hfin := finish_fine (up := up) hd2 h6 h7 (fun hu => by rw [h5]; exact hr hu)
    rw [if_neg (fun hn => hn h2), if_neg (by rw [envOk_fine hd2]; intro h; cases h)]
    refine ⟨fun d' hd => ?_, .inl rfl, fun _ => ?_⟩
    · rcases List.mem_append.mp hd with hd | hd
      · exact h1 d' hd
      · exact hfin.1 d' hd
    · show (steps d _ ++ steps _ _).getLastD d = _
      rw [getLastD_append, steps_lastD, steps_lastD]
      exact hfin.2
  · rw [h2]
    rw [if_pos (by intro h; cases h)]
    exact ⟨fun d' hd => (by cases hd), .inr ⟨hf, rfl⟩, fun e => (by cases e)⟩

theorem rest_clean {recover up d} (h : Fine d) (hc : lastRec d.logs = some .shutdown) : (restOfOpen recover up d).1 = .ok := by
  have hr : recovery recover d = (.ok, [appendLog]) := by unfold recovery; rw [hc]
  unfold restOfOpen
  simp only [steps_lastD, hr]
  rw [if_neg (fun hn => hn rfl), if_neg]
  show envOk (appendLog d) ≠ false
  rw [envOk_fine h.append]; intro h; cases h

/-- Opening a complete environment. -/
theorem open_fine {recover d} (h : Complete d) :
    (∀ d' ∈ (openEnv recover d).2, Fine d') ∧
    ((openEnv recover d).1 = .ok ∨ recover = false ∧ openEnv recover d = (.err .runRecovery, [])) ∧
    ((openEnv recover d).1 = .ok → (openEnv recover d).2.getLastD d = ⟨[⟨29, some .other⟩], true, some 29, true⟩) := by
  obtain ⟨up, hu, _⟩ := decide_fine h.fine
  cases up with
  | false =>
    have tl := open_rest (recover := recover) (up := false) h.fine (fun _ => h.rollback)
    have eo : openEnv recover d = restOfOpen recover false d := by
      unfold openEnv
      rw [hu]
      simp only [Bool.false_eq_true, if_false, Bool.not_false, List.getLastD_nil, validate_fine h.fine (fun _ => h.rollback), List.nil_append]
    rw [eo]
    exact tl
  | true =>
    obtain ⟨u1, u2⟩ := upgrade_fine h.fine h.rollback
    have hf := fin_fine h.fine u1
    have hval : validate (fin d (upgradeSteps d)) false = .ok false := validate_fine hf (fun e => by cases e)
    have hc : lastRec (fin d (upgradeSteps d)).logs = some .shutdown := by rw [u2]; rfl
    have tl := open_rest (recover := recover) (up := true) hf (fun e => by cases e)
    have ok := rest_clean (recover := recover) (up := true) hf hc
    have eo : openEnv recover d = (.ok, steps d (upgradeSteps d) ++ (restOfOpen recover true (fin d (upgradeSteps d))).2) := by
      unfold openEnv
      rw [hu]
      simp only [if_true, steps_lastD, Bool.not_true, hval, ok]
    rw [eo]
    refine ⟨fun d' hd => ?_, .inl rfl, fun _ => ?_⟩
    · rcases List.mem_append.mp hd with hd | hd
      · exact u1 d' hd
      · exact tl.1 d' hd
    · show (steps d (upgradeSteps d) ++ _).getLastD d = _
      rw [getLastD_append, steps_lastD]
      exact tl.2.2 ok

end Verif.Open
