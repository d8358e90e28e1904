import Verif.Paths.Model

/-!
# Properties of the names of files (C100)
-/

namespace Verif.Paths

/-- Specification: a name seen from a directory. -/
def join (a b : Path) : Path := if b.head? = some '/' then b else a ++ '/' :: b

/-- Specification: names seen one from the other, from the first on. -/
def joinAll : List Path → Option Path
  | [] => none
  | a :: rest => some (rest.foldl join a)

theorem fullLoop_some (args : List (Option Path)) : ∀ (n : Nat) (nm : Path), nm.length + 1 ≤ n →
    fullLoop n (some nm) args = some ((args.filterMap id).foldl join nm) := by
  induction args with
  | nil => intro n nm _; rfl
  | cons a args ih =>
    intro n nm h
    cases a with
    | none => simpa [fullLoop] using ih n nm h
    | some a =>
      have h1 : snprintf (n + (1 + a.length + 1)) (nm ++ '/' :: a) = nm ++ '/' :: a :=
        List.take_of_length_le (by simp; omega)
      have h2 : snprintf (n + (1 + a.length + 1)) a = a := List.take_of_length_le (by omega)
      have hj : (if !isAbs a then snprintf (n + (1 + a.length + 1)) (nm ++ '/' :: a) else snprintf (n + (1 + a.length + 1)) a) = join nm a := by
        rw [h1, h2]
        unfold join isAbs
        by_cases hx : a.head? = some '/' <;> simp [hx]
      simp only [fullLoop]
      rw [hj, ih _ _ ?_]
      · rfl
      · unfold join
        split
        · omega
        · simp; omega

/-- C100: the name put together is never cut, however long its parts are, and is the one the parts mean: a part that is absolute counts alone, any other
is seen from what is before it; parts not set are left out. -/
theorem C100_name (args : List (Option Path)) : fullName args = joinAll (args.filterMap id) := by
  unfold fullName
  suffices h : ∀ n, fullLoop n none args = joinAll (args.filterMap id) from h 0
  induction args with
  | nil => intro n; rfl
  | cons a args ih =>
    intro n
    cases a with
    | none => simpa [fullLoop] using ih n
    | some a =>
      have h2 : snprintf (n + (1 + a.length + 1)) a = a := List.take_of_length_le (by omega)
      simp only [fullLoop, h2]
      rw [fullLoop_some _ _ _ (by omega)]
      rfl

example : fullName [some "/db".toList, none, some "data".toList, some "a.ft".toList] = some "/db/data/a.ft".toList := by decide

example : fullName [some "/db".toList, some "/d2".toList, some "a.ft".toList] = some "/d2/a.ft".toList := by decide

theorem full2 (a b : Path) : fullName2 a b = join a b := by
  unfold fullName2
  rw [C100_name]
  rfl

theorem full1 (a : Path) : (fullName [some a]).getD [] = a := by
  rw [C100_name]
  rfl

theorem join_assoc (a b c : Path) (hb : b ≠ []) : join a (join b c) = join (join a b) c := by
  unfold join
  by_cases hc : c.head? = some '/'
  · simp [hc]
  · cases b with
    | nil => exact absurd rfl hb
    | cons x b => by_cases hx : x = '/' <;> simp [hc, hx]

/-- C100: the file of a new dictionary is opened in the data directory: that set, seen from the directory of the environment, or that of the environment
if none was set.  Not for a data directory that was set to the empty name. -/
theorem C100_place_partial (e : Env) (base : Path) (hd : e.dataDir ≠ some []) :
    e.openPath (e.iname base) = join (match e.dataDir with | some d => join e.dir d | none => e.dir) base := by
  obtain ⟨dir, d⟩ := e
  cases d with
  | none => simp only [Env.openPath, Env.iname, full1, full2]
  | some d =>
    simp only [Env.openPath, Env.iname, full2]
    exact join_assoc _ _ _ fun h => hd (by rw [h])

example : (⟨"/db".toList, some "data".toList⟩ : Env).openPath ((⟨"/db".toList, some "data".toList⟩ : Env).iname "a.ft".toList) =
    "/db/data/a.ft".toList := by decide

/-- C100: with a data directory set to the empty name the file is made in the root of the file system. -/
theorem C100_place_refuted : (⟨"/db".toList, some []⟩ : Env).openPath ((⟨"/db".toList, some []⟩ : Env).iname "a.ft".toList) = "/a.ft".toList ∧
    (⟨"/db".toList, some []⟩ : Env).realDataDir = "/db/".toList := by decide

/-- C100: with no data directory set, or an absolute one, a rename is made on the file that is opened, and recovery repeats it on the same. -/
theorem C100_same_file_partial (e : Env) (base : Path) (hd : ∀ d, e.dataDir = some d → d.head? = some '/') :
    e.renamePath (e.iname base) = e.openPath (e.iname base) := by
  obtain ⟨dir, d⟩ := e
  cases d with
  | none => rfl
  | some d =>
    have h := hd d rfl
    simp only [Env.renamePath, Env.openPath, Env.iname, Env.realDataDir, full2]
    have : (join d base).head? = some '/' := by
      unfold join
      split
      · assumption
      · cases d with
        | nil => cases h
        | cons x d => simpa using h
    have hj : ∀ a, join a (join d base) = join d base := fun a => by
      show (if _ then _ else _) = _
      rw [if_pos this]
    rw [hj, hj]

example : (⟨"/db".toList, some "/d2".toList⟩ : Env).renamePath ((⟨"/db".toList, some "/d2".toList⟩ : Env).iname "a.ft".toList) =
    "/d2/a.ft".toList := by decide

/-- C100: with any relative data directory a rename is made on another name than the one that is opened: the data directory is in it twice. -/
theorem C100_same_file_refuted (e : Env) (d base : Path) (hd : e.dataDir = some d) (hn : d ≠ []) (hr : d.head? ≠ some '/')
    (hb : base.head? ≠ some '/') :
    e.openPath (e.iname base) = e.dir ++ '/' :: d ++ '/' :: base ∧
      e.renamePath (e.iname base) = e.dir ++ '/' :: d ++ '/' :: d ++ '/' :: base ∧ e.renamePath (e.iname base) ≠ e.openPath (e.iname base) := by
  obtain ⟨dir, d'⟩ := e
  cases hd
  have h1 : join d base = d ++ '/' :: base := by rw [join, if_neg hb]
  have h2 : (d ++ '/' :: base).head? ≠ some '/' := by
    cases d with
    | nil => exact absurd rfl hn
    | cons x d => simpa using hr
  have h3 : ∀ a, join a (d ++ '/' :: base) = a ++ '/' :: (d ++ '/' :: base) := fun a => by rw [join, if_neg h2]
  have h4 : join dir d = dir ++ '/' :: d := by rw [join, if_neg hr]
  simp only [Env.renamePath, Env.openPath, Env.iname, Env.realDataDir, full2, h1, h3, h4]
  refine ⟨by simp, by simp, fun h => ?_⟩
  have := congrArg List.length h
  simp at this
  omega

example : (⟨"/db".toList, some "data".toList⟩ : Env).renamePath ((⟨"/db".toList, some "data".toList⟩ : Env).iname "a.ft".toList) =
    "/db/data/data/a.ft".toList := by decide

/-- C100: with no data directory set, or an absolute one, a dictionary renamed with `dir_per_db` has its rows under the new name, and nothing under the
old one, nor is the old file left; other dictionaries, with files of their own, keep theirs. -/
theorem C100_rename_partial (e : Env) (s : St) (dname newname b0 base : Path) (x : Nat) (hd : ∀ d, e.dataDir = some d → d.head? = some '/')
    (ho : s.names dname = some (e.iname b0)) (hx : contents e s dname = some x) (hn : s.names newname = none) :
    (dbrename e s dname newname base).1 = 0 ∧ contents e (dbrename e s dname newname base).2 newname = some x ∧
      contents e (dbrename e s dname newname base).2 dname = none ∧
      (e.openPath (e.iname b0) ≠ e.openPath (e.iname base) →
        (dbrename e s dname newname base).2.fs (e.openPath (e.iname b0)) = none) ∧
      ∀ d i, d ≠ dname → s.names d = some i → e.openPath i ≠ e.openPath (e.iname b0) → e.openPath i ≠ e.openPath (e.iname base) →
        contents e (dbrename e s dname newname base).2 d = contents e s d := by
  have hne : dname ≠ newname := fun h => by rw [h, hn] at ho; cases ho
  have hx' : s.fs (e.openPath (e.iname b0)) = some x := by simpa [contents, ho] using hx
  simp only [dbrename, ho, hn, renameIname, C100_same_file_partial e _ hd, osRename, hx']
  refine ⟨trivial, ?_, ?_, fun h => by simp [h], fun d i h1 h2 h3 h4 => ?_⟩
  · simp [contents]
  · simp [contents, hne]
  · have h5 : d ≠ newname := fun h => by rw [h, hn] at h2; cases h2
    simp [contents, h1, h2, h3, h4, h5]

/-- An environment with an absolute data directory and one dictionary, `t`. -/
def exS (e : Env) : St := ⟨fun p => if p = e.openPath (e.iname "t_1".toList) then some 7 else none,
  fun d => if d = "t".toList then some (e.iname "t_1".toList) else none⟩

example := C100_rename_partial ⟨"/db".toList, some "/d2".toList⟩ (exS _) "t".toList "u".toList "t_1".toList "u_2".toList 7
  (fun _ h => by cases h; decide) rfl (by decide) (by decide)

/-- C100: with a relative data directory the rename does not find the file, returns 0 all the same, and the dictionary is not to be found under the new
name nor under the old one. -/
theorem C100_rename_refuted :
    let e : Env := ⟨"/db".toList, some "data".toList⟩
    let r := dbrename e (exS e) "t".toList "u".toList "u_2".toList
    contents e (exS e) "t".toList = some 7 ∧ r.1 = 0 ∧ contents e r.2 "u".toList = none ∧ contents e r.2 "t".toList = none := by
  decide

/-- C100: so it is for every relative data directory and every name: a dictionary that is the only one, renamed, is lost although the call returns 0. -/
theorem C100_rename_lost (e : Env) (s : St) (d dname newname b0 base : Path) (hd : e.dataDir = some d) (hn : d ≠ []) (hr : d.head? ≠ some '/')
    (hb0 : b0.head? ≠ some '/') (hb : base.head? ≠ some '/') (hne : b0 ≠ base) (ho : s.names dname = some (e.iname b0))
    (hnew : s.names newname = none) (honly : ∀ p, p ≠ e.openPath (e.iname b0) → s.fs p = none) :
    (dbrename e s dname newname base).1 = 0 ∧ ∀ n, n = dname ∨ n = newname → contents e (dbrename e s dname newname base).2 n = none := by
  obtain ⟨p1, _, p3⟩ := C100_same_file_refuted e d b0 hd hn hr hb0
  obtain ⟨q1, _, _⟩ := C100_same_file_refuted e d base hd hn hr hb
  have h1 : s.fs (e.renamePath (e.iname b0)) = none := honly _ p3
  have h2 : s.fs (e.openPath (e.iname base)) = none := honly _ fun h => by
    rw [p1, q1] at h
    exact hne (by simpa using h.symm)
  have hdn : dname ≠ newname := fun h => by rw [h, hnew] at ho; cases ho
  simp only [dbrename, ho, hnew, renameIname, osRename, h1]
  refine ⟨trivial, fun n hn => ?_⟩
  rcases hn with rfl | rfl
  · simp [contents, hdn]
  · simp [contents, h2]

example := C100_rename_lost ⟨"/db".toList, some "data".toList⟩ (exS _) "data".toList "t".toList "u".toList "t_1".toList "u_2".toList
  rfl (by decide) (by decide) (by decide) (by decide) (by decide) rfl (by decide) (fun _ h => if_neg h)

end Verif.Paths
