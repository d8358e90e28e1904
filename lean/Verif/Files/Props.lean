import Verif.Files.Recover

/-! C68: creating, renaming and removing dictionaries is all or nothing, also across a crash. -/
namespace Verif.Files

/-- Without renamed files (`dir_per_db` off): after a crash at any time, with any of the log that had not been written out
lost, recovery succeeds.  Every dictionary the committed transactions left in the directory has its file, with the rows that
were put into it, each once; no two have the same file; and every file that is not in the directory is gone. -/
theorem C68_directory_after_crash_partial {w : World} (h : Reach false w) {n : Nat} (h1 : w.synced ≤ n)
    (h2 : n ≤ w.log.length) :
    ∃ fs, recover w.disk.fs (w.log.take n) w.ck = some fs ∧
      (∀ d f, directory (w.log.take n) d = some f → fs f = some (rowsOf (w.log.take n) f)) ∧
      (∀ d d' f, directory (w.log.take n) d = some f → directory (w.log.take n) d' = some f → d = d') ∧
      ∀ f, Created (w.log.take n) f → (∀ d, directory (w.log.take n) d ≠ some f) → fs f = none := by
  have hi := WInv.reach h
  have hP := hi.good.take n
  obtain ⟨fs, h3, h4, h5⟩ := recover_spec hi h1 h2
  refine ⟨fs, h3, fun d f hd => h4 f ((directory_iff hP f).mp ⟨d, hd⟩), ?_, ?_⟩
  · have hF := hP.facts
    exact hF.dir.dirC _ ⟨fun u hu => by simp [isCom, hu], fun u hu => by simp [isCom]; exact fun hc => hF.once u hc hu⟩
  · intro f hc hn
    refine h5 f hc fun ha => ?_
    obtain ⟨d, hd⟩ := (directory_iff hP f).mpr ha
    exact hn d hd

/-- What had been written out of the log is in what recovery finds: a transaction whose end is there keeps its end. -/
theorem C68_ended_stays {w : World} {dpd} (_h : Reach dpd w) {n : Nat} (h1 : w.synced ≤ n) (t : Tx)
    (ht : Rec.commit t ∈ w.log.take w.synced) : isCom (w.log.take n) t = true := by
  simp only [isCom, decide_eq_true_eq]
  exact (List.take_prefix_take_left h1).subset ht

/-- Without renamed files, while running: what a transaction sees in the directory has its file on disk; it can commit and
abort. -/
theorem C68_running_partial {w : World} (h : Reach false w) {t : Tx} (ht : Live w.log t) :
    (∀ d f, view w.log t d = some f → w.disk.fs f ≠ none) ∧ (∃ k, commitAll t w.log w.disk = some k) ∧
      ∃ k, abortAll t w.log w.disk = some k := by
  have hi := WInv.reach h
  have hF := hi.good.facts
  refine ⟨fun d f hv hn => ?_, ?_, ?_⟩
  · obtain ⟨hc, hd⟩ := hF.seen ht hv
    rcases hi.gone f hc hn with h' | ⟨t', d', h1, h2⟩
    · exact hd (Or.inl h')
    · exact hd (Or.inr ⟨t', d', List.mem_of_mem_take h1, List.mem_of_mem_take h2⟩)
  · obtain ⟨k, hk, _⟩ := commitAll_spec t w.log w.disk hi.good.apart (by
      intro f o hf ho
      obtain ⟨d, hd⟩ := isRem_iff.mp hf
      have := hF.remFresh ht hd
      rw [← (hi.opn f o ho).2.2.1] at this; simpa using this)
    exact ⟨k, hk⟩
  · obtain ⟨k, hk, _⟩ := abortAll_spec t w.log w.disk hi.good.apart hi.good.noFren (by
      intro f o hf ho
      obtain ⟨d, hd⟩ := isCre_iff.mp hf
      have := hF.creFresh ht hd
      rw [← (hi.opn f o ho).2.2.1] at this; simpa using this)
    exact ⟨k, hk⟩

/-! Runs -/

/-- Who has touched or put, to be compared. -/
def byWhom (d : Name) : Rec → Option Tx
  | .create u e _ => if e = d then some u else none
  | .remove u e _ => if e = d then some u else none
  | .rename u e e' _ => if e = d ∨ e' = d then some u else none
  | .frename u e e' _ _ _ => if e = d ∨ e' = d then some u else none
  | _ => none

def lockOk (L : List Rec) (t : Tx) (d : Name) : Bool :=
  L.all fun r => match byWhom d r with
    | none => true
    | some u => u = t || !decide (Live L u)

theorem lockFree_of {L t d} (h : lockOk L t d = true) : LockFree L t d := by
  intro u hu hl r hr
  have := List.all_eq_true.mp h r hr
  rcases htr : touches u d r with _ | _
  · rfl
  · have hb : byWhom d r = some u := by
      cases r <;> simp [touches] at htr <;> simp [byWhom, htr]
    simp [hb, hu, hl] at this

def putOk (L : List Rec) (t : Tx) (f : File) : Bool :=
  L.all fun r => match r with
    | .put u g _ => g ≠ f || u = t || !decide (Live L u)
    | _ => true

theorem tableFree_of {L t f} (h : putOk L t f = true) : TableFree L t f := by
  intro u v hr hl
  have := List.all_eq_true.mp h _ hr
  simpa [hl] using this

def heldOk (L : List Rec) (f : File) : Bool :=
  L.all fun r => match r with
    | .create u _ g => g ≠ f || !decide (Live L u)
    | .remove u _ g => g ≠ f || !decide (Live L u)
    | .frename u _ _ g _ _ => g ≠ f || !decide (Live L u)
    | .put u g _ => g ≠ f || !decide (Live L u)
    | _ => true

theorem notHeld_of {L f} (h : heldOk L f = true) : ¬ Held L f := by
  rintro ⟨t, hl, r, hr, hh⟩
  have := List.all_eq_true.mp h _ hr
  cases r <;> simp [holds] at hh <;> obtain ⟨rfl, rfl⟩ := hh <;> simp [hl] at this

def newOk (L : List Rec) (f : File) : Bool :=
  L.all fun r => match r with
    | .create _ _ g => g ≠ f
    | _ => true

theorem notCreated_of {L f} (h : newOk L f = true) : ¬ Created L f := by
  rintro ⟨t, d, hr⟩
  have := List.all_eq_true.mp h _ hr
  simp at this

/-- A dictionary, created, with a row, committed, written out. -/
theorem run1 (b : Bool) : ∃ w, Reach b w ∧ w.log = [.begin 1, .create 1 0 0, .put 1 0 7, .commit 1, .fclose 0 0] ∧
    w.synced = 5 ∧ w.ck = 0 ∧ w.pin = none ∧
    w.disk = ⟨upd (upd (fun _ => none) 0 (some ⟨0, [], 0⟩)) 0 (some ⟨0, [(1, 7)], 5⟩), upd (upd (fun _ => none) 0 (some ⟨0, 0, false, false⟩)) 0 none⟩ := by
  have r0 := Reach.start (dpd := b)
  have r1 := Reach.step _ _ r0 (Step.begin _ 1 (by decide))
  have r2 := Reach.step _ _ r1 (Step.create _ 1 0 0 (by decide) (lockFree_of (by decide)) (by decide) (notCreated_of (by decide))
    rfl rfl)
  have r3 := Reach.step _ _ r2 (Step.put _ 1 0 0 ⟨0, 0, false, false⟩ 7 (by decide) (lockFree_of (by decide)) rfl (by decide))
  have r4 := Reach.step _ _ r3 (Step.commit _ 1 _ (by decide) rfl)
  have r5 := Reach.step _ _ r4 (Step.fclose _ 0 ⟨0, 0, false, false⟩ rfl (notHeld_of (by decide)) (by intro p l h; cases h) rfl)
  exact ⟨_, r5, rfl, rfl, rfl, rfl, rfl⟩

/-- The hypotheses are met: one dictionary committed and written out; a transaction still open has created a second, put a row
into it, removed the first and renamed the second; the crash loses the last of these. -/
example : ∃ w : World, Reach false w ∧ w.synced = 9 ∧ w.log.length = 11 ∧
    directory (w.log.take 10) 0 = some 0 ∧ rowsOf (w.log.take 10) 0 = [(1, 7)] ∧ Created (w.log.take 10) 1 ∧
    (∀ d, d < 4 → directory (w.log.take 10) d ≠ some 1) ∧ Live w.log 2 ∧ view w.log 2 3 = some 1 := by
  obtain ⟨⟨L, s, c, k, p⟩, r5, h1, h2, h3, h4, h5⟩ := run1 false
  dsimp only at h1 h2 h3 h4 h5; subst h1; subst h2; subst h3; subst h4; subst h5
  have r6 := Reach.step _ _ r5 (Step.begin _ 2 (by decide))
  have r7 := Reach.step _ _ r6 (Step.create _ 2 1 1 (by decide) (lockFree_of (by decide)) (by decide) (notCreated_of (by decide))
    rfl rfl)
  have r8 := Reach.step _ _ r7 (Step.fopen _ 2 0 0 ⟨0, [(1, 7)], 5⟩ (by decide) (lockFree_of (by decide)) (by decide) rfl rfl)
  have r9 := Reach.step _ _ r8 (Step.put _ 2 1 1 ⟨1, 1, false, false⟩ 8 (by decide) (lockFree_of (by decide)) rfl (by decide))
  have r10 := Reach.step _ _ r9 (Step.sync _ 9 (by decide) (by decide))
  have r11 := Reach.step _ _ r10 (Step.remove _ 2 0 0 ⟨0, 0, false, false⟩ (by decide) (lockFree_of (by decide)) rfl (by decide)
    (tableFree_of (by decide)))
  exact ⟨_, Reach.step _ _ r11 (Step.rename _ 2 1 3 1 ⟨1, 1, false, false⟩ rfl (by decide) (lockFree_of (by decide))
    (lockFree_of (by decide)) rfl (by decide) (by decide) (tableFree_of (by decide))), rfl, rfl, rfl, rfl, ⟨2, 1, by decide⟩,
    by decide, by decide, by decide⟩

/-- A rename with `dir_per_db` renames the file before the log says so: after a crash the dictionary is there by name, and has
no file. -/
theorem C68_rename_ahead_of_log : ∃ w : World, Reach true w ∧ ∃ fs,
    recover w.disk.fs (w.log.take w.synced) w.ck = some fs ∧ w.ck ≠ 0 ∧
    directory (w.log.take w.synced) 0 = some 0 ∧ rowsOf (w.log.take w.synced) 0 = [(1, 7)] ∧ fs 0 = none := by
  obtain ⟨⟨L, s, c, k, p⟩, r5, h1, h2, h3, h4, h5⟩ := run1 true
  dsimp only at h1 h2 h3 h4 h5; subst h1; subst h2; subst h3; subst h4; subst h5
  have r6 := Reach.step _ _ r5 (Step.ckBegin _ [] rfl (by
    intro f i u; simp [upd]; intro x hx; exact absurd hx x) (by simp))
  have r7 := Reach.step _ _ r6 (Step.ckEnd _ 5 rfl)
  have r8 := Reach.step _ _ r7 (Step.begin _ 2 (by decide))
  have r9 := Reach.step _ _ r8 (Step.frename _ 2 0 1 0 0 9 rfl (by decide) (lockFree_of (by decide)) (lockFree_of (by decide))
    (by decide) (by decide) (tableFree_of (by decide)) ⟨_, rfl, rfl⟩ rfl (notCreated_of (by decide)))
  exact ⟨_, r9, _, rfl, by decide, rfl, rfl, rfl⟩

/-- A row put into a dictionary that the same transaction then renames, committed and in the log: recovery looks for the file
by its old name, and the row is lost. -/
theorem C68_renamed_row_lost : ∃ w : World, Reach true w ∧ w.synced = w.log.length ∧ ∃ fs,
    recover w.disk.fs w.log w.ck = some fs ∧ isCom w.log 2 = true ∧
    directory w.log 1 = some 9 ∧ rowsOf w.log 0 = [(1, 7), (2, 8)] ∧ fs 9 = some [(1, 7)] := by
  obtain ⟨⟨L, s, c, k, p⟩, r5, h1, h2, h3, h4, h5⟩ := run1 true
  dsimp only at h1 h2 h3 h4 h5; subst h1; subst h2; subst h3; subst h4; subst h5
  have r6 := Reach.step _ _ r5 (Step.ckBegin _ [] rfl (by
    intro f i u; simp [upd]; intro x hx; exact absurd hx x) (by simp))
  have r7 := Reach.step _ _ r6 (Step.ckEnd _ 5 rfl)
  have r8 := Reach.step _ _ r7 (Step.begin _ 2 (by decide))
  have r9 := Reach.step _ _ r8 (Step.fopen _ 2 0 0 ⟨0, [(1, 7)], 5⟩ (by decide) (lockFree_of (by decide)) (by decide) rfl rfl)
  have r10 := Reach.step _ _ r9 (Step.put _ 2 0 0 ⟨0, 0, false, false⟩ 8 (by decide) (lockFree_of (by decide)) rfl (by decide))
  have r11 := Reach.step _ _ r10 (Step.frename _ 2 0 1 0 0 9 rfl (by decide) (lockFree_of (by decide)) (lockFree_of (by decide))
    (by decide) (by decide) (tableFree_of (by decide)) ⟨_, rfl, rfl⟩ rfl (notCreated_of (by decide)))
  have r12 := Reach.step _ _ r11 (Step.commit _ 2 _ (by decide) rfl)
  have r13 := Reach.step _ _ r12 (Step.sync _ 11 (by decide) (by decide))
  exact ⟨_, r13, rfl, _, rfl, by decide, rfl, rfl, rfl⟩

/-- A dictionary with a checkpoint after it, a row of another transaction in it, and a rename that fails for that. -/
theorem run2 : ∃ w, Reach true w ∧ w.log = [.begin 1, .create 1 0 0, .commit 1, .assoc [(0, 0, false)], .begin 3, .put 3 0 5,
      .begin 2, .frename 2 0 1 0 0 9, .abort 2] ∧
    w.synced = 4 ∧ w.ck = 3 ∧ w.pin = none ∧ w.disk.fs = upd (upd (fun _ => none) 0 (some ⟨0, [], 0⟩)) 0 (some ⟨0, [], 3⟩) ∧
    w.disk.opn = upd (upd (fun _ => none) 0 (some ⟨0, 0, false, false⟩)) 0 (some ⟨0, 0, false, true⟩) := by
  have r0 := Reach.start (dpd := true)
  have r1 := Reach.step _ _ r0 (Step.begin _ 1 (by decide))
  have r2 := Reach.step _ _ r1 (Step.create _ 1 0 0 (by decide) (lockFree_of (by decide)) (by decide) (notCreated_of (by decide))
    rfl rfl)
  have r4 := Reach.step _ _ r2 (Step.commit _ 1 _ (by decide) rfl)
  have r5 := Reach.step _ _ r4 (Step.sync _ 3 (by decide) (by decide))
  have r6 := Reach.step _ _ r5 (Step.ckBegin _ [(0, 0, false)] rfl (by
    intro f i u
    simp only [List.mem_singleton, Prod.mk.injEq]
    constructor
    · rintro ⟨rfl, rfl, rfl⟩; exact ⟨_, rfl, rfl, rfl⟩
    · rintro ⟨o, ho, h1, h2⟩
      simp only [upd, World.start] at ho
      by_cases hf : f = 0
      · rw [if_pos hf] at ho; injection ho with ho; subst ho; exact ⟨hf, h1.symm, h2.symm⟩
      · rw [if_neg hf] at ho; cases ho) (by decide))
  have r7 := Reach.step _ _ r6 (Step.ckFile _ 3 [0] 0 ⟨0, 0, false, false⟩ rfl (by decide) rfl (by decide))
  have r8 := Reach.step _ _ r7 (Step.ckEnd _ 3 rfl)
  have r9 := Reach.step _ _ r8 (Step.begin _ 3 (by decide))
  have r10 := Reach.step _ _ r9 (Step.put _ 3 0 0 ⟨0, 0, false, false⟩ 5 (by decide) (lockFree_of (by decide)) rfl (by decide))
  have r11 := Reach.step _ _ r10 (Step.frenameFails _ 2 0 1 0 ⟨0, 0, false, false⟩ 0 9 rfl (by decide) (lockFree_of (by decide))
    (lockFree_of (by decide)) (by decide) (by decide)
    (fun h => absurd (h 3 5 (by decide) (by decide)) (by decide)) rfl rfl (by decide) rfl (notCreated_of (by decide)))
  exact ⟨_, r11, rfl, rfl, rfl, rfl, rfl, rfl⟩

/-- A rename that fails leaves the new name in recovery's list of files: with a checkpoint begun after it, recovery stops at a
failed assertion. -/
theorem C68_failed_rename_stops_recovery : ∃ w : World, Reach true w ∧ w.synced = w.log.length ∧
    recover w.disk.fs w.log w.ck = none := by
  obtain ⟨⟨L, s, c, ⟨fs, opn⟩, p⟩, r1, h1, h2, h3, h4, h5, h6⟩ := run2
  dsimp only at h1 h2 h3 h4 h5 h6; subst h1; subst h2; subst h3; subst h4; subst h5; subst h6
  have r2 := Reach.step _ _ r1 (Step.ckBegin _ [(0, 0, false)] rfl (by
    intro f i u
    simp only [List.mem_singleton, Prod.mk.injEq]
    constructor
    · rintro ⟨rfl, rfl, rfl⟩; exact ⟨_, rfl, rfl, rfl⟩
    · rintro ⟨o, ho, h1, h2⟩
      simp only [upd] at ho
      by_cases hf : f = 0
      · rw [if_pos hf] at ho; injection ho with ho; subst ho; exact ⟨hf, h1.symm, h2.symm⟩
      · rw [if_neg hf, if_neg hf] at ho; cases ho) (by decide))
  have r3 := Reach.step _ _ r2 (Step.sync _ 10 (by decide) (by decide))
  exact ⟨_, r3, rfl, rfl⟩

/-- A rename that fails keeps the file's close out of the log, and the file is written with log position 0: after a crash what
is already in it is done again. -/
theorem C68_failed_rename_row_twice : ∃ w : World, Reach true w ∧ w.synced = w.log.length ∧ ∃ fs,
    recover w.disk.fs w.log w.ck = some fs ∧ directory w.log 0 = some 0 ∧
    rowsOf w.log 0 = [(3, 5)] ∧ isCom w.log 3 = true ∧ fs 0 = some [(3, 5), (3, 5)] := by
  obtain ⟨⟨L, s, c, ⟨fs, opn⟩, p⟩, r1, h1, h2, h3, h4, h5, h6⟩ := run2
  dsimp only at h1 h2 h3 h4 h5 h6; subst h1; subst h2; subst h3; subst h4; subst h5; subst h6
  have r2 := Reach.step _ _ r1 (Step.commit _ 3 _ (by decide) rfl)
  have r3 := Reach.step _ _ r2 (Step.sync _ 10 (by decide) (by decide))
  have r4 := Reach.step _ _ r3 (Step.fcloseSkip _ 0 ⟨0, 0, false, true⟩ rfl (notHeld_of (by decide)) (by intro p l h; cases h) rfl)
  exact ⟨_, r4, rfl, _, rfl, rfl, rfl, by decide, rfl⟩

end Verif.Files
