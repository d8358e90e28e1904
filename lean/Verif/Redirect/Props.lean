import Verif.Redirect.Run

/-!
# C85: bulk loads and the files of a dictionary
-/

namespace Verif.Redirect

/-- A run used below: two handles, a load that fails, a load that is undone, a load that is kept while a checkpoint is
under way, then rows put by a later transaction. -/
def sample : List Ev :=
  [.openH 1, .openH 2, .begin, .put 1 3, .abort, .begin, .loadBegin 1, .openH 5, .loadEnd 1 [4, 5], .put 2 6, .openH 3,
   .abort, .begin, .loadBegin 2, .loadFail 2 none, .loadBegin 1, .pin, .loadEnd 1 [7, 8], .closeH 3, .commit, .begin,
   .put 2 9, .commit]

theorem sample_one : OneLoader init sample := by
  simp only [sample]
  repeat (first | exact trivial | (refine ⟨by decide +kernel, ?_⟩))

example : ((run init sample).map fun r => r.map fun s => (read s 1, read s 2, s.dir, (List.range 7).filter fun f =>
    (s.disk f).isSome)) = some (some (some [9, 7, 8], some [9, 7, 8], 4, [0, 3, 4])) := by
  decide +kernel

/-- The files that were pinned in `sample` go when the checkpoint is over; a loader is refused then, as there are rows. -/
example : ((run init (sample ++ [.unpin, .begin])).bind fun r => r.bind fun s => (step s (.loadBegin 1)).bind fun q =>
    q.map fun q => (q.2, s.dir, s.pinned, (List.range 7).filter fun f => (s.disk f).isSome)) =
      some (.notEmpty, 4, [], [4]) ∧ (A.init.run (sample ++ [.unpin, .begin])).left = false := by
  decide +kernel

/-- With one loader at a time, every open handle reads the contents the user expects: all handles see a bulk load at
once, and all see the old contents again when its transaction is undone. -/
theorem C85_contents_partial {es s h} (ho : OneLoader init es) (hr : run init es = some (some s))
    (hh : fileOf s h ≠ none) : read s h = some (A.init.run es).cont := by
  obtain ⟨s', cur, e, I⟩ := run_inv es inv_init ho hr
  cases e
  unfold read
  cases hf : fileOf s h with
  | none => exact absurd hf hh
  | some f =>
    rw [(file_cur I hf).1]
    exact I.disk

/-- With one loader at a time no assertion fails: not when a load is finished or given up, and not when it is made final or
undone. -/
theorem C85_asserts {es} (ho : OneLoader init es) : run init es ≠ some none := by
  intro h
  obtain ⟨s', cur, e, _⟩ := run_inv es inv_init ho h
  cases e

/-- A handle can be opened unless a loader is open or the handle is open already, and then it reads the same as the
others. -/
theorem C85_open {es s h} (ho : OneLoader init es) (hr : run init es = some (some s)) (hh : fileOf s h = none)
    (hp : s.pending = []) :
    ∃ s', step s (.openH h) = some (some (s', .ok)) ∧ read s' h = some (A.init.run es).cont ∧
      ∀ k, k ≠ h → read s' k = read s k := by
  obtain ⟨s', cur, e, I⟩ := run_inv es inv_init ho hr
  cases e
  have hdir : s.dir = cur := by
    cases ht : s.txn with
    | none => exact (I.idle ht).2.1
    | some t =>
      obtain ⟨sc, sl, _, TI⟩ := I.live t ht
      rcases TI.pend with e | ⟨_, _, e, _⟩
      · exact e.2
      · rw [hp] at e; cases e
  have hany : s.handles.any (·.1 == h) = false := by
    unfold fileOf at hh
    simp only [Option.map_eq_none_iff, List.find?_eq_none] at hh
    rw [List.any_eq_false]
    exact hh
  refine ⟨{ s with handles := (h, s.dir) :: s.handles }, ?_, ?_, ?_⟩
  · simp only [step, hany, hdir, I.disk]
    rfl
  · simp only [read, fileOf, List.find?_cons, beq_self_eq_true, Option.map_some, Option.bind_some, hdir]
    exact I.disk
  · intro k hk
    have : (h == k) = false := by simpa using fun e => hk e.symm
    simp only [read, fileOf, List.find?_cons, this]

/-- A loader is refused exactly if the dictionary is not empty; and refusing changes nothing. -/
theorem C85_refused {es s h s' x} (ho : OneLoader init es) (hr : run init es = some (some s))
    (hs : step s (.loadBegin h) = some (some (s', x))) :
    (x = .notEmpty ↔ (A.init.run es).cont ≠ []) ∧ (x = .notEmpty → s' = s) := by
  obtain ⟨_, cur, e, I⟩ := run_inv es inv_init ho hr
  cases e
  simp only [step] at hs
  split at hs
  · next t f ht hf =>
    rw [(file_cur I hf).1, I.disk] at hs
    split at hs
    · next e =>
      cases hs
      simp only [Option.some.injEq] at e
      exact ⟨⟨fun h => (by cases h), fun h => absurd e h⟩, fun h => (by cases h)⟩
    · next c hc e =>
      cases hs
      refine ⟨⟨fun _ h => ?_, fun _ => rfl⟩, fun _ => rfl⟩
      exact hc (by rw [h] at e; cases e; rfl)
    · next e => cases e
  · cases hs

/-- What a program may do: begin when no transaction is live; put and begin a load through an open handle in a
transaction; finish or give up a load that was begun; end a transaction whose loaders are closed. -/
theorem C85_possible {es s} (ho : OneLoader init es) (hr : run init es = some (some s)) (h r : Nat) :
    ((A.init.run es).saved = none → step s .begin ≠ none) ∧
    ((A.init.run es).saved ≠ none →
      (fileOf s h ≠ none → step s (.put h r) ≠ none ∧ step s (.loadBegin h) ≠ none) ∧
      (s.pending = [] → step s .commit ≠ none ∧ step s .abort ≠ none) ∧
      (∀ n, (h, n) ∈ s.pending → (∀ rows, step s (.loadEnd h rows) ≠ none) ∧
        ∀ part, step s (.loadFail h part) ≠ none)) := by
  obtain ⟨_, cur, e, I⟩ := run_inv es inv_init ho hr
  cases e
  cases ht : s.txn with
  | none =>
    refine ⟨fun _ => ?_, fun hs => absurd (I.idle ht).2.2.1 hs⟩
    simp only [step, ht]
    exact fun h => by cases h
  | some t =>
    obtain ⟨sc, sl, hs, TI⟩ := I.live t ht
    refine ⟨fun h => (by rw [hs] at h; cases h), fun _ => ⟨?_, ?_, ?_⟩⟩
    · intro hf
      cases hf' : fileOf s h with
      | none => exact absurd hf' hf
      | some f =>
        have := (file_cur I hf').1
        subst this
        simp only [step, ht, hf', I.disk]
        refine ⟨fun h => (by cases h), ?_⟩
        split <;> exact fun h => by cases h
    · intro hp
      simp only [step, ht, hp, List.isEmpty_nil, if_true]
      exact ⟨fun h => (by cases h), fun h => (by cases h)⟩
    · intro n hn
      rcases TI.pend with ⟨e, _⟩ | ⟨k, n', e1, e2, e3, _⟩
      · rw [e] at hn; cases hn
      · rw [e1] at hn
        simp only [List.mem_singleton] at hn
        cases hn
        have hany : ∃ p, s.handles.find? (·.1 == h) = some p := by
          rw [← Option.isSome_iff_exists, List.find?_isSome]
          exact ⟨_, e3, beq_self_eq_true _⟩
        obtain ⟨p, hp⟩ := hany
        have hfi : s.pending.find? (·.1 == h) = some (h, n) := by
          rw [e1]; simp
        refine ⟨fun rows => ?_, fun part => ?_⟩ <;>
          simp only [step, ht, fileOf, hp, hfi, Option.map_some] <;> exact fun h => by cases h

/-- No file is left over and none is missing: with no transaction and no checkpoint under way there is exactly one file,
the one the directory names, if no load that failed half-way was kept. -/
theorem C85_files_partial {es s} (ho : OneLoader init es) (hr : run init es = some (some s))
    (ht : (A.init.run es).saved = none) (hp : s.pinned = []) (hl : (A.init.run es).left = false) (f : Nat) :
    s.disk f ≠ none ↔ f = s.dir := by
  obtain ⟨_, cur, e, I⟩ := run_inv es inv_init ho hr
  cases e
  have ht : s.txn = none := by
    cases h : s.txn with
    | none => rfl
    | some t =>
      obtain ⟨sc, sl, hs, _⟩ := I.live t h
      rw [ht] at hs; cases hs
  obtain ⟨_, hd, _, h4⟩ := I.idle ht
  constructor
  · intro hf
    rcases h4 hl f hf with e | e
    · exact e.trans hd.symm
    · exfalso
      apply hf
      apply I.gone f e
      cases hn : needed s f with
      | false => rfl
      | true =>
        rw [needed_iff] at hn
        rcases hn with ⟨k, hn⟩ | hn | hn
        · exact absurd (I.handles _ hn) (I.marked f e).1
        · unfold refsOf at hn; rw [ht] at hn; cases hn
        · rw [hp] at hn; cases hn
  · intro e
    rw [e, hd, I.disk]
    exact fun h => by cases h

theorem commit_pinned {s : S} : ∀ l {s'}, commitLog s l = some s' → s'.pinned = s.pinned
  | [], s', h => by cases h; rfl
  | .load o n :: l, s', h => by
    simp only [commitLog] at h
    cases hc : commitLog s l with
    | none => rw [hc] at h; cases h
    | some s1 =>
      rw [hc] at h
      dsimp only at h
      split at h
      · cases h; exact commit_pinned l (s' := s1) hc
      · cases h
  | .put f r :: l, s', h => commit_pinned l h
  | .redirect a b :: l, s', h => commit_pinned l h

theorem undo_pinned : ∀ l {s s' : S}, undoLog s l = some s' → s'.pinned = s.pinned
  | [], s, s', h => by cases h; rfl
  | .load o n :: l, s, s', h => by
    simp only [undoLog] at h
    split at h
    · split at h
      · cases h
      · exact undo_pinned l (s := mark s n) h
    · exact undo_pinned l (s := setDisk s n none) h
  | .put f r :: l, s, s', h => by
    simp only [undoLog] at h
    split at h
    · split at h
      · next rows _ => exact undo_pinned l (s := setDisk s f (some (rows.erase r))) h
      · cases h
    · cases h
  | .redirect a b :: l, s, s', h => by
    simp only [undoLog] at h
    split at h
    · split at h
      · exact undo_pinned l (s := moveAll s b a) h
      · cases h
    · cases h

theorem redirect_pinned {s s' : S} {t o n} (h : redirect s t o n = some s') : s'.pinned = s.pinned := by
  unfold redirect at h
  split at h
  · cases h
  · dsimp only at h
    split at h
    · cases h; rfl
    · cases h

theorem step_pinned {s s' : S} {e x} (h : step s e = some (some (s', x))) (hu : e ≠ .unpin) (f : Nat)
    (hf : f ∈ s.pinned) : f ∈ s'.pinned := by
  have : s'.pinned = s.pinned → f ∈ s'.pinned := fun e => by rw [e]; exact hf
  cases e with
  | openH k =>
    simp only [step] at h
    split at h
    · cases h
    · split at h <;> (cases h; exact hf)
  | closeH k =>
    simp only [step] at h
    split at h <;> cases h
    exact hf
  | begin =>
    simp only [step] at h
    split at h <;> cases h
    exact hf
  | put k r =>
    simp only [step] at h
    split at h
    · split at h <;> cases h
      exact hf
    · cases h
  | loadBegin k =>
    simp only [step] at h
    split at h
    · split at h <;> cases h <;> exact hf
    · cases h
  | loadEnd k rows =>
    simp only [step] at h
    split at h
    · simp only [Option.some.injEq, Option.map_eq_some_iff] at h
      obtain ⟨s1, h1, e⟩ := h
      cases e
      have := redirect_pinned h1
      rw [this]; exact hf
    · cases h
  | loadFail k part =>
    simp only [step] at h
    split at h
    · simp only [Option.some.injEq, Option.map_eq_some_iff] at h
      obtain ⟨s1, h1, e⟩ := h
      cases e
      have := redirect_pinned h1
      rw [this]; exact hf
    · cases h
  | pin =>
    simp only [step] at h
    split at h
    · next e => rw [List.isEmpty_iff.mp e] at hf; cases hf
    · cases h
  | unpin => exact absurd rfl hu
  | commit =>
    simp only [step] at h
    split at h
    · split at h
      · simp only [Option.some.injEq, Option.map_eq_some_iff] at h
        obtain ⟨s1, h1, e⟩ := h
        cases e
        exact this (commit_pinned _ (s' := s1) h1)
      · cases h
    · cases h
  | abort =>
    simp only [step] at h
    split at h
    · split at h
      · simp only [Option.some.injEq, Option.map_eq_some_iff] at h
        obtain ⟨s1, h1, e⟩ := h
        cases e
        exact this (undo_pinned _ (s' := s1) h1)
      · cases h
    · cases h

theorem run_pinned : ∀ es {s s' : S}, run s es = some (some s') → .unpin ∉ es → ∀ f, f ∈ s.pinned → f ∈ s'.pinned
  | [], s, s', h, _, f, hf => by cases h; exact hf
  | e :: es, s, s', h, hu, f, hf => by
    simp only [run] at h
    cases hs : step s e with
    | none => rw [hs] at h; cases h
    | some q =>
      cases q with
      | none => rw [hs] at h; cases h
      | some q =>
        rw [hs] at h
        exact run_pinned es h (fun h => hu (List.mem_cons_of_mem _ h)) f
          (step_pinned hs (fun e => hu (by rw [e]; exact List.mem_cons_self ..)) f hf)

theorem run_append : ∀ es {s s' : S} {fs}, run s es = some (some s') → run s (es ++ fs) = run s' fs
  | [], s, s', fs, h => by cases h; rfl
  | e :: es, s, s', fs, h => by
    simp only [run, List.cons_append] at h ⊢
    cases hs : step s e with
    | none => rw [hs] at h; cases h
    | some q =>
      cases q with
      | none => rw [hs] at h; cases h
      | some q =>
        rw [hs] at h
        exact run_append es h

/-- A file that was open when a checkpoint began stays on disk until the checkpoint is over, whatever loads are made final
or undone meanwhile. -/
theorem C85_checkpoint {es fs s s' h f} (ho : OneLoader init (es ++ .pin :: fs)) (hr : run init es = some (some s))
    (hf : fileOf s h = some f) (hr' : run init (es ++ .pin :: fs) = some (some s')) (hu : .unpin ∉ fs) :
    s'.disk f ≠ none := by
  obtain ⟨_, cur, e, I⟩ := run_inv _ inv_init ho hr'
  cases e
  rw [run_append es hr] at hr'
  simp only [run] at hr'
  cases hs : step s .pin with
  | none => rw [hs] at hr'; cases hr'
  | some q =>
    cases q with
    | none => rw [hs] at hr'; cases hr'
    | some q =>
      rw [hs] at hr'
      apply I.opened
      rw [needed_iff]
      right; right
      apply run_pinned fs hr' hu
      simp only [step] at hs
      split at hs
      · cases hs
        unfold fileOf at hf
        cases hp : s.handles.find? (·.1 == h) with
        | none => rw [hp] at hf; cases hf
        | some p =>
          rw [hp] at hf
          cases hf
          simp only [opened, List.mem_append, List.mem_map]
          exact Or.inl (Or.inl ⟨p, List.mem_of_find?_eq_some hp, rfl⟩)
      · cases hs

/-- When a checkpoint is over, and no transaction is live, there is exactly one file, whatever the checkpoint had kept. -/
theorem C85_after_checkpoint_partial {es s} (ho : OneLoader init (es ++ [.unpin]))
    (hr : run init (es ++ [.unpin]) = some (some s)) (ht : (A.init.run (es ++ [.unpin])).saved = none)
    (hl : (A.init.run (es ++ [.unpin])).left = false) (f : Nat) : s.disk f ≠ none ↔ f = s.dir := by
  have key : ∀ es {s0 s : S}, run s0 (es ++ [.unpin]) = some (some s) → s.pinned = [] := by
    intro es
    induction es with
    | nil => intro s0 s h; cases h; rfl
    | cons e es ih =>
      intro s0 s h
      simp only [List.cons_append, run] at h
      split at h
      · cases h
      · cases h
      · exact ih h
  exact C85_files_partial ho hr ht (key es hr) hl f

/-- Two loaders on one dictionary in one transaction, closed in the opposite order: a handle that was open and one that
is opened then see different rows, after the commit too; and an abort instead fails an assertion. -/
theorem C85_two_loaders_refuted :
    let es : List Ev := [.openH 1, .openH 2, .begin, .loadBegin 1, .loadBegin 2, .loadEnd 2 [7], .loadEnd 1 [8], .openH 3]
    (∃ s, run init (es ++ [.commit]) = some (some s) ∧ (A.init.run (es ++ [.commit])).cont = [8] ∧ read s 1 = some [8] ∧
      read s 3 = some [7]) ∧ run init (es ++ [.abort]) = some none := by
  have h : ((run init ([.openH 1, .openH 2, .begin, .loadBegin 1, .loadBegin 2, .loadEnd 2 [7], .loadEnd 1 [8], .openH 3] ++
      [.commit])).bind fun r => r.map fun s => (read s 1, read s 3)) = some (some [8], some [7]) := by decide +kernel
  refine ⟨?_, ?_⟩
  · cases hr : run init ([.openH 1, .openH 2, .begin, .loadBegin 1, .loadBegin 2, .loadEnd 2 [7], .loadEnd 1 [8],
      .openH 3] ++ [.commit]) with
    | none => rw [hr] at h; cases h
    | some r =>
      cases r with
      | none => rw [hr] at h; cases h
      | some s =>
        rw [hr] at h
        simp only [Option.bind_some, Option.map_some, Option.some.injEq, Prod.mk.injEq] at h
        exact ⟨s, rfl, rfl, h.1, h.2⟩
  · have : ((run init ([.openH 1, .openH 2, .begin, .loadBegin 1, .loadBegin 2, .loadEnd 2 [7], .loadEnd 1 [8],
        .openH 3] ++ [.abort])).map fun r => r.isNone) = some true := by decide +kernel
    cases hr : run init ([.openH 1, .openH 2, .begin, .loadBegin 1, .loadBegin 2, .loadEnd 2 [7], .loadEnd 1 [8],
      .openH 3] ++ [.abort]) with
    | none => rw [hr] at this; cases this
    | some r =>
      cases r with
      | none => rfl
      | some s => rw [hr] at this; cases this

/-- A load that fails after it had begun to write its file: when its transaction commits, the file stays on disk though
nothing names it. -/
theorem C85_leak_refuted :
    ∃ es s, OneLoader init es ∧ run init es = some (some s) ∧ s.txn = none ∧ s.pinned = [] ∧ s.handles = [] ∧
      ∃ f, f ≠ s.dir ∧ s.disk f ≠ none := by
  have h : ((run init [.openH 1, .begin, .loadBegin 1, .loadFail 1 (some [5]), .commit, .closeH 1]).bind fun r =>
      r.map fun s => (s.txn, s.pinned, s.handles, s.dir, s.disk 1)) = some (none, [], [], 2, some [5]) := by
    rfl
  refine ⟨[.openH 1, .begin, .loadBegin 1, .loadFail 1 (some [5]), .commit, .closeH 1], ?_⟩
  cases hr : run init [.openH 1, .begin, .loadBegin 1, .loadFail 1 (some [5]), .commit, .closeH 1] with
  | none => rw [hr] at h; cases h
  | some r =>
    cases r with
    | none => rw [hr] at h; cases h
    | some s =>
      rw [hr] at h
      simp only [Option.bind_some, Option.map_some, Option.some.injEq, Prod.mk.injEq] at h
      obtain ⟨h1, h2, h3, h4, h5⟩ := h
      refine ⟨s, ?_, rfl, h1, h2, h3, 1, ?_, ?_⟩
      · repeat (first | exact trivial | (refine ⟨by decide +kernel, ?_⟩))
      · rw [h4]; exact fun h => by cases h
      · rw [h5]; exact fun h => by cases h

end Verif.Redirect
