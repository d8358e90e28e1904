import Verif.Load.Runs
/-!
# Theorems: the bulk loader (C44)
-/
set_option autoImplicit false

namespace Verif.Load
open Spec

variable {K V : Type}

/-! ## A small loader for the examples -/

/-- Keys are numbers, all sizes 1; a row set holds at most two rows; leaves hold few rows. -/
def demo (gen : Row Nat Nat → Except Int (List (Row Nat Nat))) : Env Nat Nat where
  cmp a b := (a : Int) - b
  klen _ := 1
  vlen _ := 1
  les _ := 300
  klimit := 10
  vlimit := 10
  ebudget := 36
  mbudget _ := 40
  fin := 2
  early := 2
  thr := 3
  gen := gen
  node := 1900

theorem demo_ok (g : Row Nat Nat → Except Int (List (Row Nat Nat))) : EnvOk (demo g) := by
  refine ⟨⟨?_, ?_, ?_⟩, Nat.le_refl 2, Nat.le_refl 2, Nat.le_refl 3⟩
  · intro a; simp [demo]
  · intro a b; simp only [demo]; omega
  · intro a b c; simp only [demo]; omega

/-- Put rows one after the other; `none` if one is refused. -/
def putAll (e : Env K V) : List (Row K V) → Ld K V → Option (Ld K V)
  | [], s => some s
  | r :: l, s => match s.put e r with
    | (s, none) => putAll e l s
    | (_, some _) => none

theorem putAll_reached {e : Env K V} : ∀ (l : List (Row K V)) (s s' : Ld K V) (d : List (Row K V)), Reached e s d [] →
    putAll e l s = some s' → Reached e s' (d ++ l) [] := by
  intro l
  induction l with
  | nil =>
    intro s s' d h hp
    injection hp with hp
    subst hp
    simpa using h
  | cons r l ih =>
    intro s s' d h hp
    simp only [putAll] at hp
    split at hp
    · rename_i s1 h1
      have := ih s1 s' (d ++ [r]) (.put r h h1) hp
      simpa using this
    · cases hp

def one (r : Row Nat Nat) : Except Int (List (Row Nat Nat)) := .ok [r]

/-- Seven rows out of order. -/
def seven : List (Row Nat Nat) := [(5, 50), (1, 10), (7, 70), (3, 30), (2, 20), (6, 60), (4, 40)]

/-! ## What a successful load contains -/

/-- If closing a loader succeeds then every put succeeded, the row generator failed for no row, no key and no value was
too large, and the tree is a search tree whose rows, from left to right, are exactly the rows of the dictionary that
belong to the rows put, in increasing order of key. -/
theorem load_ok {e : Env K V} (he : EnvOk e) {s : Ld K V} {l x : List (Row K V)} (h : Reached e s l x) {t : Tree K V}
    (hc : s.close e = .ok t) :
    x = [] ∧ Fit e l ∧ ∃ h, Search e.cmp h t ∧ Sorted e.cmp (rowsOf h t) ∧ (rowsOf h t).Perm (made e l) := by
  have := close_spec he h
  rw [hc] at this
  exact this

/-- Seven rows, four runs, two passes of merging, a tree of three leaves. -/
example : ∃ s t, Reached (demo one) s seven [] ∧ s.close (demo one) = .ok t ∧
    rowsOf 1 t = [(1, 10), (2, 20), (3, 30), (4, 40), (5, 50), (6, 60), (7, 70)] := by
  refine ⟨_, _, putAll_reached seven Ld.open _ [] .start rfl, rfl, rfl⟩

/-- A successful load finds every row by its key, and nothing else. -/
theorem load_find {e : Env K V} (he : EnvOk e) {s : Ld K V} {l x : List (Row K V)} (h : Reached e s l x) {t : Tree K V}
    (hc : s.close e = .ok t) :
    ∃ h, ∀ k, (∀ r ∈ made e l, e.cmp r.1 k = 0 → find e.cmp k h t = some r) ∧
      ((∀ r ∈ made e l, e.cmp r.1 k ≠ 0) → find e.cmp k h t = none) := by
  obtain ⟨_, _, n, h1, h2, h3⟩ := load_ok he h hc
  refine ⟨n, fun k => ⟨?_, ?_⟩⟩
  · intro r hr hk
    rw [find_spec he.order k h1]
    have hmem := h3.mem_iff.2 hr
    cases hf : (rowsOf n t).find? (fun r => decide (e.cmp r.1 k = 0)) with
    | none =>
      have := List.find?_eq_none.1 hf r hmem
      simp [hk] at this
    | some r' =>
      have hr' := List.mem_of_find?_eq_some hf
      have hk' : e.cmp r'.1 k = 0 := by simpa using List.find?_some hf
      have heq : e.cmp r.1 r'.1 = 0 := by
        have a1 := he.order.trans r.1 k r'.1 (by omega) (by have := he.order.comm0 hk'; omega)
        have a2 := he.order.trans r'.1 k r.1 (by omega) (by have := he.order.comm0 hk; omega)
        have a3 := he.order.anti r'.1 r.1
        have a4 := he.order.anti r.1 r'.1
        omega
      obtain ⟨i, hi, rfl⟩ := List.getElem_of_mem hmem
      obtain ⟨j, hj, rfl⟩ := List.getElem_of_mem hr'
      rcases Nat.lt_trichotomy i j with hij | hij | hij
      · have := List.pairwise_iff_getElem.1 h2 i j hi hj hij; omega
      · subst hij; rfl
      · have := List.pairwise_iff_getElem.1 h2 j i hj hi hij
        have := he.order.comm0 heq
        omega
  · intro hn
    rw [find_spec he.order k h1, List.find?_eq_none]
    intro r hr
    simpa using hn r (h3.mem_iff.1 hr)

example : ∃ s t, Reached (demo one) s seven [] ∧ s.close (demo one) = .ok t ∧
    find (demo one).cmp 6 1 t = some (6, 60) ∧ find (demo one).cmp 8 1 t = none := by
  refine ⟨_, _, putAll_reached seven Ld.open _ [] .start rfl, rfl, rfl, rfl⟩

/-! ## When a load succeeds -/

/-- Rows with distinct keys, for which the generator does not fail and which aren't too large, are loaded: no error,
no failed assertion, whatever their order, number and sizes, and whenever the extractor thread runs. -/
theorem load_succeeds {e : Env K V} (he : EnvOk e) {s : Ld K V} {l x : List (Row K V)} (h : Reached e s l x)
    (hf : Fit e l) (hd : Distinct e.cmp (made e l)) : ∃ t, s.close e = .ok t := by
  have hs := close_spec he h
  cases hc : s.close e with
  | ok t => exact ⟨t, rfl⟩
  | crash =>
    rw [hc] at hs
    obtain ⟨_, _, _, r, hr⟩ := hs
    exact absurd hd (hr.not_distinct he.order)
  | err c =>
    rw [hc] at hs
    exfalso
    cases c with
    | exist r => exact Spec.Twice.not_distinct he.order hs hd
    | inval =>
      obtain ⟨r, hr, hb⟩ := hs
      have := hf.key r hr
      have := hf.val r hr
      omega
    | gen c =>
      obtain ⟨r, hr, hb⟩ := hs
      obtain ⟨g, hg⟩ := hf.gen r hr
      rw [hb] at hg
      cases hg
    | _ => exact hs.elim

example : Fit (demo one) seven ∧ Distinct (demo one).cmp (made (demo one) seven) := by
  refine ⟨⟨?_, ?_, ?_⟩, ?_⟩
  · intro r _; exact ⟨[r], rfl⟩
  · intro r _; simp [demo]
  · intro r _; simp [demo]
  · show List.Pairwise (fun a b : Nat × Nat => (a.1 : Int) - b.1 ≠ 0) [(5, 50), (1, 10), (7, 70), (3, 30), (2, 20), (6, 60), (4, 40)]
    decide

/-- No put is refused as long as the rows put are in order; and the rounds of the extractor thread never fail an
assertion. -/
theorem load_accepts {e : Env K V} (he : EnvOk e) {s : Ld K V} {l x : List (Row K V)} (h : Reached e s l x)
    (hf : Fit e l) (hd : Distinct e.cmp (made e l)) : x = [] ∧ (∀ r, (s.put e r).2 = none) ∧ ∃ s', s.extract e = some s' := by
  obtain ⟨t, ht⟩ := load_succeeds he h hf hd
  have hx := (load_ok he h ht).1
  have hi := reached_inv he h
  refine ⟨hx, ?_, ?_⟩
  · intro r
    cases hn : s.err with
    | none => simp only [Ld.put, hn]; split <;> rfl
    | some c =>
      exfalso
      have hs := hi.bad c hn
      cases c with
      | exist r => exact Spec.Twice.not_distinct he.order hs hd
      | inval =>
        obtain ⟨r, hr, hb⟩ := hs
        have := hf.key r hr
        have := hf.val r hr
        omega
      | gen c =>
        obtain ⟨r, hr, hb⟩ := hs
        obtain ⟨g, hg⟩ := hf.gen r hr
        rw [hb] at hg
        cases hg
      | _ => exact hs.elim
  · obtain ⟨s', h1, _⟩ := ld_extract he hi
    exact ⟨s', h1⟩

/-- A row whose put failed makes closing fail: no row is dropped silently. -/
theorem load_refused {e : Env K V} (he : EnvOk e) {s : Ld K V} {l x : List (Row K V)} (h : Reached e s l x) (hx : x ≠ []) :
    ∀ t, s.close e ≠ .ok t := by
  intro t ht
  exact hx (load_ok he h ht).1

/-- A generator that fails for the row with key 2. -/
def picky (r : Row Nat Nat) : Except Int (List (Row Nat Nat)) := if r.1 = 2 then .error 7 else .ok [r]

/-- Three rows of one row set; the generator fails for the second; a fourth row is refused. -/
example : ∃ s, Reached (demo picky) s [(1, 10), (2, 20), (4, 40)] [(3, 30)] ∧ s.close (demo picky) = .err (.gen 7) := by
  have h1 : ∃ s, putAll (demo picky) [(1, 10), (2, 20), (4, 40)] Ld.open = some s ∧
      ∃ s1, s.extract (demo picky) = some s1 ∧ s1.put (demo picky) (3, 30) = (s1, some .inval) ∧ s1.close (demo picky) = .err (.gen 7) :=
    ⟨_, rfl, _, rfl, rfl, rfl⟩
  obtain ⟨s, h1, s1, h2, h3, h4⟩ := h1
  exact ⟨s1, .refused (3, 30) .inval (.extract (putAll_reached _ Ld.open s [] .start h1) h2) h3, h4⟩

/-! ## Errors -/

/-- An error of closing has its cause in the rows put: a row reported as a duplicate occurs with another of equal
key, a code of the generator was returned by it, EINVAL means that a key or value is too large. -/
theorem load_error {e : Env K V} (he : EnvOk e) {s : Ld K V} {l x : List (Row K V)} (h : Reached e s l x) {c : Err K V}
    (hc : s.close e = .err c) : Cause e l c := by
  have := close_spec he h
  rw [hc] at this
  exact this

example : ∃ s, Reached (demo one) s [(1, 10), (2, 20), (3, 30), (2, 21)] [] ∧ s.close (demo one) = .err (.exist (2, 21)) := by
  refine ⟨_, putAll_reached _ Ld.open _ [] .start rfl, rfl⟩

/-- Rows with equal keys are never loaded. -/
theorem load_duplicate {e : Env K V} (he : EnvOk e) {s : Ld K V} {l x : List (Row K V)} (h : Reached e s l x)
    (hd : ¬ Distinct e.cmp (made e l)) : ∀ t, s.close e ≠ .ok t := by
  intro t ht
  obtain ⟨_, _, n, h1, h2, h3⟩ := load_ok he h ht
  exact hd (h2.distinct.perm he.order h3)

/-- The process is aborted by a failed assertion only if two rows have equal keys and there are at least three runs.
Missing for the full property: see `duplicate_aborts`. -/
theorem load_no_abort_partial {e : Env K V} (he : EnvOk e) {s : Ld K V} {l x : List (Row K V)} (h : Reached e s l x)
    (hc : s.close e = .crash) :
    (∃ r, Twice e.cmp r (made e l)) ∧ ∃ s', s.finishExtractor e = some s' ∧ 3 ≤ s'.ext.fs.files.length := by
  have := close_spec he h
  rw [hc] at this
  obtain ⟨s', h1, h2, h3⟩ := this
  exact ⟨h3, s', h1, h2⟩

/-- With at most two runs (so for every load that fits into two row sets), equal keys are reported as DB_KEYEXIST with
a row that does occur twice. -/
theorem load_duplicate_reported_partial {e : Env K V} (he : EnvOk e) {s s' : Ld K V} {l x : List (Row K V)} (h : Reached e s l x)
    (hf : Fit e l) (hd : ¬ Distinct e.cmp (made e l)) (hs : s.finishExtractor e = some s') (h2 : s'.ext.fs.files.length ≤ 2) :
    ∃ r, s.close e = .err (.exist r) ∧ Twice e.cmp r (made e l) := by
  have hsp := close_spec he h
  cases hc : s.close e with
  | ok t => exact absurd hc (load_duplicate he h hd t)
  | crash =>
    rw [hc] at hsp
    obtain ⟨s2, h3, h4, _⟩ := hsp
    rw [hs] at h3
    injection h3 with h3
    subst h3
    omega
  | err c =>
    rw [hc] at hsp
    cases c with
    | exist r => exact ⟨r, rfl, hsp⟩
    | inval =>
      exfalso
      obtain ⟨r, hr, hb⟩ := hsp
      have := hf.key r hr
      have := hf.val r hr
      omega
    | gen c =>
      exfalso
      obtain ⟨r, hr, hb⟩ := hsp
      obtain ⟨g, hg⟩ := hf.gen r hr
      rw [hb] at hg
      cases hg
    | _ => exact hsp.elim

/-- A loader with runs of one row, and three files merged at once. -/
def single : Env Nat Nat := { demo one with ebudget := 18, fin := 3, early := 3 }

theorem single_ok : EnvOk single := ⟨(demo_ok one).order, by decide, by decide, by decide⟩

/-- Not true in general: three runs with the keys 2, 2 and 1 abort the process (`invariant(0)`, loader.cc 1837), instead of
the error DB_KEYEXIST. -/
theorem duplicate_aborts : ∃ s, Reached single s [(2, 20), (2, 21), (1, 10)] [] ∧ s.close single = .crash := by
  refine ⟨_, putAll_reached _ Ld.open _ [] .start rfl, rfl⟩

/-! ## The parts -/

/-- Sorting a row set: the same rows in increasing order of key; or an error, with a row that occurs twice. -/
theorem sort_ok {e : Env K V} (he : EnvOk e) (l : List (Row K V)) :
    (∃ d, sortRows e l = .ok d ∧ Sorted e.cmp d ∧ d.Perm l) ∨ ∃ r, sortRows e l = .err (.exist r) ∧ Twice e.cmp r l := by
  have := sortRows_good he l
  cases hr : sortRows e l with
  | ok d => rw [hr] at this; exact .inl ⟨d, rfl, this⟩
  | crash => rw [hr] at this; exact this.elim
  | err c =>
    rw [hr] at this
    cases c with
    | exist r => exact .inr ⟨r, rfl, this⟩
    | _ => exact this.elim

/-- So distinct keys are always sorted, and equal keys always reported. -/
theorem sort_iff {e : Env K V} (he : EnvOk e) (l : List (Row K V)) : (∃ d, sortRows e l = .ok d) ↔ Distinct e.cmp l := by
  constructor
  · intro ⟨d, hd⟩
    rcases sort_ok he l with ⟨d', h1, h2, h3⟩ | ⟨r, h1, _⟩
    · exact h2.distinct.perm he.order h3
    · rw [hd] at h1; cases h1
  · intro hd
    rcases sort_ok he l with ⟨d', h1, h2, h3⟩ | ⟨r, h1, h2⟩
    · exact ⟨d', h1⟩
    · exact absurd hd (h2.not_distinct he.order)

example : sortRows (demo one) seven = .ok [(1, 10), (2, 20), (3, 30), (4, 40), (5, 50), (6, 60), (7, 70)] := by decide +kernel
example : sortRows (demo one) [(5, 50), (1, 10), (5, 51)] = .err (.exist (5, 50)) := by decide +kernel

/-- Merging sorted runs, in as many passes as it takes: the rows of all the runs, in order. -/
theorem merge_ok {e : Env K V} (he : EnvOk e) (fs : List (List (Row K V))) (hs : ∀ f ∈ fs, Sorted e.cmp f)
    (hd : Distinct e.cmp fs.flatten) :
    ∃ q, mergeFiles e fs = .ok q ∧ Sorted e.cmp q.flatten ∧ q.flatten.Perm fs.flatten := by
  have := mergeFiles_spec he fs hs
  cases hr : mergeFiles e fs with
  | ok q => rw [hr] at this; exact ⟨q, rfl, this⟩
  | crash =>
    rw [hr] at this
    obtain ⟨_, r, h2⟩ := this
    exact absurd hd (h2.not_distinct he.order)
  | err c =>
    rw [hr] at this
    cases c with
    | exist r => exact absurd hd (Spec.Twice.not_distinct he.order this)
    | _ => exact this.elim

/-- Five runs, three passes. -/
example : mergeFiles (demo one) [[(5, 0)], [(1, 0), (9, 0)], [(2, 0)], [(3, 0), (4, 0)], [(0, 0), (7, 0)]] =
    .ok [[(0, 0), (1, 0), (2, 0)], [(3, 0), (4, 0), (5, 0)], [(7, 0), (9, 0)]] := by decide +kernel

/-- Writing the tree: for sorted rows whose sizes were added up correctly, a search tree with these rows. -/
theorem tree_ok {e : Env K V} (he : EnvOk e) (q : List (List (Row K V))) (hs : Sorted e.cmp q.flatten) :
    ∃ t h, writeTree e (q.flatten.map e.les).sum q = .ok t ∧ Search e.cmp h t ∧ rowsOf h t = q.flatten :=
  writeTree_spec he.order _ q hs rfl

example : ∃ t, writeTree (demo one) 2100 [[(1, 10), (2, 20), (3, 30)], [(4, 40), (5, 50), (6, 60), (7, 70)]] = .ok t ∧
    rowsOf 1 t = [(1, 10), (2, 20), (3, 30), (4, 40), (5, 50), (6, 60), (7, 70)] := ⟨_, rfl, rfl⟩

end Verif.Load
