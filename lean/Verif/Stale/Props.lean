import Verif.Stale.Memory

/-! # C83: files closed and opened again -/

namespace Verif.Stale

/-- **C83** Whatever is made, opened, written, read, evicted, marked for deletion, closed and opened again, in any
order: every answer is one the promise allows.  A file opened again holds what was last written to it, a deleted file
is gone, another file made later under the same name or with the same inode is a new one, and two files open at the
same time never have the same number.  Missing: `tidy` (see `C83_reuse_refuted`). -/
theorem C83_files_partial {es : List Ev} {s : S} {as : List Ans} (h : run start es = some (some (s, as)))
    (ht : tidy start es) : ∃ t, Steps T.start es as t := by
  obtain ⟨_, t, hs, _⟩ := run_sim sim_start ht h
  exact ⟨t, hs⟩

/-- Some steps through all of it. -/
def tour : List Ev :=
  [.create 1 10, .open 1 none, .put 0 5 7, .drop 0 5, .put 0 6 8, .close 0, .evBegin 0, .evEnd, .open 1 none, .get 1 5,
   .get 1 6, .mark 1, .close 1, .open 1 none, .create 1 10, .open 1 none, .get 2 5]

/-- The steps are possible, and the answers are the ones expected. -/
def answers (es : List Ev) : Option (List Ans) :=
  match run start es with
  | some (some (_, as)) => some as
  | _ => none

example : answers tour = some [.done, .opened 0 false, .done, .done, .done, .done, .done, .done, .opened 1 false, .val 7,
    .val 8, .done, .done, .noent, .done, .opened 2 false, .val 0] := by decide +kernel

theorem tidy_of {es : List Ev} (h : ∀ n, Ev.rollbackLoad n ∉ es) (s : S) : tidy s es := by
  induction es generalizing s with
  | nil => trivial
  | cons e es ih =>
    refine ⟨fun n i he => absurd (he ▸ List.mem_cons_self) (h n), fun s' _ _ => ih (fun n hm => h n (List.mem_cons_of_mem _ hm)) s'⟩

example : tidy start tour := tidy_of (by simp [tour]) start

/-- **C83** A number is found for every file that is opened, one that is not in use, as long as fewer than
2^32 - 1 files are open. -/
theorem C83_reserve {es : List Ev} {s : S} {as : List Ans} (h : run start es = some (some (s, as)))
    (hl : (s.active.map Cf.num).length + 1 < 4294967296) :
    ∃ num next, s.reserve = some (num, next) ∧ num < 4294967295 ∧ num ∉ s.active.map Cf.num := by
  have hn := run_next (s := start) (by decide) h
  cases hr : s.reserve with
  | none => exact absurd hr (reserve_ok hn hl)
  | some x =>
    obtain ⟨num, next⟩ := x
    obtain ⟨h1, h2⟩ := reserve_sound hr
    have := reserve_lt hn hr
    have h3 : num ≠ 4294967295 := h1
    exact ⟨num, next, rfl, by omega, h2⟩

/-- **C83** What a caller may ask for is never refused: reading, writing, marking and closing an open file, and opening
any file while fewer than 2^32 - 1 are open. -/
theorem C83_goes {es : List Ev} {s : S} {as : List Ans} (h : run start es = some (some (s, as))) (ht : tidy start es) :
    ∃ t, Steps T.start es as t ∧
      (∀ num k v, t.handle num ≠ none → act s (.put num k v) ≠ none ∧ act s (.get num k) ≠ none ∧
        act s (.drop num k) ≠ none ∧ act s (.mark num) ≠ none ∧ act s (.close num) ≠ none) ∧
      ((s.active.map Cf.num).length + 1 < 4294967296 → ∀ n w, act s (.open n w) ≠ none) ∧
      (∀ n, act s (.rollbackLoad n) ≠ none) := by
  obtain ⟨_, t, hs, hsim⟩ := run_sim sim_start ht h
  exact ⟨t, hs, act_goes hsim (run_next (s := start) (by decide) h)⟩

/-- **C83** No assertion of the list of files fails unless the caller asks for what is not allowed. -/
theorem C83_asserts {es : List Ev} {s : S} {as : List Ans} (h : run start es = some (some (s, as))) (ht : tidy start es) :
    ∃ t, Steps T.start es as t ∧ ∀ e, act s e = some none → Asked t e := by
  obtain ⟨_, t, hs, hsim⟩ := run_sim sim_start ht h
  exact ⟨t, hs, fun _ he => act_assert hsim he⟩

example : run start [.create 1 10, .open 1 none, .mark 0, .mark 0] = some none := rfl

/-- **C83** No memory is used after it was given back.  Missing: `quiet` (see `C83_evict_refuted` and
`C83_shutdown_refuted`). -/
theorem C83_memory_partial {es : List Ev} {s : S} {as : List Ans} (h : run start es = some (some (s, as)))
    (hq : quiet false es = true) : Ans.bad ∉ as := (run_mem mem_start hq h).2

example : quiet false (tour ++ [.close 2, .evBegin 0, .evEnd, .shutdown]) = true ∧
    (answers (tour ++ [.close 2, .evBegin 0, .evEnd, .shutdown])).isSome = true := by decide +kernel

theorem step_get {t t' : T} {num k v : Nat} (h : Step t (.get num k) (.val v) t') :
    ∃ m f, t.handle num = some (m, f) ∧ v = t.content f k := by
  generalize ha : Ans.val v = a at h
  cases h with
  | get _ _ m f hh => cases ha; exact ⟨m, f, hh, rfl⟩

theorem no_steps : ¬ ∃ t, Steps T.start
    [.create 1 10, .open 1 none, .put 0 5 7, .close 0, .rollbackLoad 1, .create 2 10, .open 2 none, .get 1 5]
    [.done, .opened 0 false, .done, .done, .done, .done, .opened 1 false, .val 7] t := by
  rintro ⟨t, hs⟩
  cases hs with | cons h1 hs =>
  cases h1
  cases hs with | cons h2 hs =>
  cases h2 with | opens _ f _ _ hf _ _ _ =>
  cases hs with | cons h3 hs =>
  cases h3 with | put _ _ _ m3 f3 g3 =>
  cases hs with | cons h4 hs =>
  cases h4 with | close _ m4 f4 g4 =>
  cases hs with | cons h5 hs =>
  cases h5 with
  | loadOpen num _ _ g5 =>
    have : upd (upd T.start.handle 0 (some (1, f))) 0 none num = some _ := g5
    unfold upd at this
    split at this
    · cases this
    · cases this
  | loadClosed g5 =>
  cases hs with | cons h6 hs =>
  cases h6
  cases hs with | cons h7 hs =>
  cases h7 with | opens _ f7 _ _ hf7 _ _ _ =>
  cases hs with | cons h8 hs =>
  obtain ⟨m, f8, g8, hv⟩ := step_get h8
  simp only [upd, T.start] at hf7 g8 hv
  cases hf7
  simp at g8
  obtain ⟨_, rfl⟩ := g8
  simp at hv

/-- **C83** toku_rollback_load looks for the file among the open ones only.  If it was closed and its pages are still in
memory, the file is unlinked behind the back of the list; a new file that gets the same inode is taken for the old
one, and reads the old one's values. -/
theorem C83_reuse_refuted : ∃ es s as, run start es = some (some (s, as)) ∧ ¬ ∃ t, Steps T.start es as t :=
  ⟨_, _, _, rfl, no_steps⟩

/-- **C83** The evictor takes a page of a closed file out of the table under the list's lock, but releases it after:
the file may be opened again, marked and closed for good in between, and its tree header is given back before the page
is released, which uses it. -/
theorem C83_evict_refuted : ∃ es as s, run start es = some (some (s, as)) ∧ tidy start es ∧ Ans.bad ∈ as ∧
    Ev.shutdown ∉ es :=
  ⟨[.create 1 10, .open 1 none, .put 0 5 7, .put 0 6 8, .close 0, .evBegin 0, .open 1 none, .mark 1, .close 1, .evEnd],
    _, _, rfl, tidy_of (by simp) start, by decide +kernel, by decide +kernel⟩

/-- **C83** Closing the cachetable gives back what is still in memory of closed files before the evictor thread is
ended: an eviction under way uses a tree header given back. -/
theorem C83_shutdown_refuted : ∃ es as s, run start es = some (some (s, as)) ∧ tidy start es ∧ Ans.bad ∈ as ∧
    (∀ n w, (es.drop 3).all (fun e => e != .open n w) = true) :=
  ⟨[.create 1 10, .open 1 none, .put 0 5 7, .put 0 6 8, .close 0, .evBegin 0, .shutdown, .evEnd],
    _, _, rfl, tidy_of (by simp) start, by decide +kernel, fun _ _ => rfl⟩

end Verif.Stale
