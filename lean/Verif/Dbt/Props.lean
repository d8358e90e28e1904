import Verif.Dbt.Inv

/-!
# C88: values handed to the caller
-/

namespace Verif.Dbt

/-- **C88 (partial).**  For every sequence of values put into any DBTs, of all kinds of memory: no memory outside a buffer is
written, and every DBT shows its last value (those with flags 0 until the next such call), as long as memory can be had and
values are shorter than a gigabyte (rows are limited to less).  What is missing: `C88_no_memory_refuted`. -/
theorem C88_values_partial {s : S} {fl u es} (h : Start s fl u) (hes : ∀ e ∈ es, e.2.2 = true ∧ e.2.1.length < 2 ^ 30) :
    ∃ s', run s es = some s' ∧ ∀ i v, A.run fl u (fun _ => none) es i = some v → Shows s' i v := by
  obtain ⟨s', e, I⟩ := inv_run (inv_start h) hes
  exact ⟨s', e, I.shows⟩

/-- **C88, results.**  The call returns 0, or says that the caller's buffer is too small when it is; then the DBT has the size
needed, and no memory was written. -/
theorem C88_result {s s' : S} {fl u es i v} (h : Start s fl u) (hes : ∀ e ∈ es, e.2.2 = true ∧ e.2.1.length < 2 ^ 30)
    (hr : run s es = some s') (hv : v.length < 2 ^ 30) :
    (¬ (fl i = .usermem ∧ u i < v.length) → ∃ s'', dbtSet s' i v true = some (s'', 0) ∧ Shows s'' i v) ∧
    (fl i = .usermem ∧ u i < v.length →
      ∃ s'', dbtSet s' i v true = some (s'', BUFFER_SMALL) ∧ (s''.slots i).size = v.length ∧ s''.heap = s'.heap) := by
  obtain ⟨s1, e, I⟩ := inv_run (inv_start h) hes
  rw [e] at hr
  cases hr
  refine ⟨?_, ?_⟩
  · intro hn
    obtain ⟨s2, r, e2, I2, hc⟩ := inv_step (i := i) I hv
    rcases hc with rfl | ⟨h1, h2, _⟩
    · refine ⟨s2, e2, I2.shows i v ?_⟩
      unfold A.step
      rw [if_pos rfl, if_neg hn]
    · exact absurd ⟨h1, h2⟩ hn
  · rintro ⟨h1, h2⟩
    have hf := I.flag i
    rw [h1] at hf
    have hl := I.ulen i h1
    refine ⟨setSlot s' i { s'.slots i with size := v.length }, ?_, by rw [slot_self], rfl⟩
    unfold dbtSet
    simp only [hf]
    rw [if_pos (by omega)]

/-- **C88, fresh memory.**  With DB_DBT_MALLOC the value is in memory that was not in use, and no memory in use changes: values
the caller got before stay. -/
theorem C88_malloc {s s' : S} {fl u es i v} (h : Start s fl u) (hes : ∀ e ∈ es, e.2.2 = true ∧ e.2.1.length < 2 ^ 30)
    (hr : run s es = some s') (hv : v.length < 2 ^ 30) (hf : fl i = .malloc) :
    ∃ s'' p, dbtSet s' i v true = some (s'', 0) ∧ (s''.slots i).data = some p ∧ s'.heap p = none ∧
      ∀ q b, s'.heap q = some b → s''.heap q = some b := by
  obtain ⟨s1, e, I⟩ := inv_run (inv_start h) hes
  rw [e] at hr
  cases hr
  have hfl := I.flag i
  rw [hf] at hfl
  obtain ⟨s2, e2, _, _, hk, hp⟩ := inv_realloc (d := { s'.slots i with data := none, ulen := 0, flag := .malloc }) I
    (by rw [hf]; intro x; cases x) (by rw [hf]; intro x; cases x) hv (by rw [hf]) (.inr ⟨rfl, rfl⟩)
  refine ⟨s2, s'.next, ?_, hp rfl, I.fresh _ (Nat.le_refl _), ?_⟩
  · unfold dbtSet
    simp only [hfl]
    exact e2
  · intro q b hq
    rw [hk q (fun x => by cases x)]
    · exact hq
    · apply Nat.lt_of_not_le
      intro hle
      rw [I.fresh q hle] at hq
      cases hq

/-- **C88, memory.**  With DB_DBT_REALLOC the buffer is at most four times as long as the value, or 16 bytes; buffers of others
are untouched. -/
theorem C88_realloc {s s' : S} {fl u es i v} (h : Start s fl u) (hes : ∀ e ∈ es, e.2.2 = true ∧ e.2.1.length < 2 ^ 30)
    (hr : run s es = some s') (hv : v.length < 2 ^ 30) (hf : fl i = .realloc) :
    ∃ s'', dbtSet s' i v true = some (s'', 0) ∧ ((s''.slots i).ulen ≤ 16 ∨ (s''.slots i).ulen ≤ 4 * v.length) ∧
      ∀ q b, s'.heap q = some b → (s'.slots i).data ≠ some q → s''.heap q = some b := by
  obtain ⟨s1, e, I⟩ := inv_run (inv_start h) hes
  rw [e] at hr
  cases hr
  have hfl := I.flag i
  rw [hf] at hfl
  obtain ⟨s2, e2, _, hm, hk, _⟩ := inv_realloc (d := s'.slots i) I
    (by rw [hf]; intro x; cases x) (by rw [hf]; intro x; cases x) hv (by rw [hf, hfl]) (.inl ⟨rfl, rfl⟩)
  refine ⟨s2, ?_, hm, ?_⟩
  · unfold dbtSet
    simp only [hfl]
    exact e2
  · intro q b hq hne
    rw [hk q hne]
    · exact hq
    · apply Nat.lt_of_not_le
      intro hle
      rw [I.fresh q hle] at hq
      cases hq

/-- **C88, no memory.**  When memory cannot be had the call returns ENOMEM if it needs some, and no buffer changes. -/
theorem C88_no_memory {s s' : S} {i v r} (h : dbtSet s i v false = some (s', r)) (hr : r = ENOMEM) : s'.heap = s.heap := by
  subst hr
  unfold dbtSet at h
  simp only [] at h
  have aux : ∀ {x : Option S} {f : S → S} {s' : S}, x.map (fun s => (f s, 0)) ≠ some (s', ENOMEM) := by
    intro x f s' e
    cases x with
    | none => cases e
    | some x => cases e
  split at h
  · split at h
    · cases h
    · exact absurd h aux
  · unfold setRealloc at h
    split at h
    · exact absurd h aux
    · cases h; rfl
  · unfold setRealloc at h
    split at h
    · exact absurd h aux
    · cases h; rfl
  · split at h
    · exact absurd h aux
    · cases h; rfl

/-! ## Cases -/

/-- DBT 0 has 4 bytes of the caller's memory, 1 and 2 have none (MALLOC, REALLOC), 3 and 4 have flags 0. -/
def exFl : Nat → Flag
  | 0 => .usermem
  | 1 => .malloc
  | 2 => .realloc
  | _ => .static

def exS : S :=
  ⟨fun p => if p = 0 then some ⟨4, []⟩ else none, 1,
    fun i => ⟨exFl i, if i = 0 then some 0 else none, 0, if i = 0 then 4 else 0⟩, none, 0⟩

theorem exStart : Start exS exFl (fun i => if i = 0 then 4 else 0) where
  flag := fun _ => rfl
  ulen := fun _ => rfl
  buf := by
    intro i p _ h
    simp only [exS] at h ⊢
    by_cases e : i = 0
    · rw [if_pos e] at h
      cases h
      exact ⟨by decide, ⟨4, []⟩, by rw [if_pos rfl], by rw [if_pos e]⟩
    · rw [if_neg e] at h; cases h
  empty := by
    intro i _ h
    simp only [exS] at h ⊢
    by_cases e : i = 0
    · rw [if_pos e] at h; cases h
    · rw [if_neg e]
  own := by
    intro i j p _ _ hij h1 h2
    simp only [exS] at h1 h2
    by_cases e : i = 0
    · by_cases e2 : j = 0
      · exact hij (by rw [e, e2])
      · rw [if_neg e2] at h2; cases h2
    · rw [if_neg e] at h1; cases h1
  sdata := rfl
  slen := rfl
  fresh := by
    intro p h
    simp only [exS] at h ⊢
    rw [if_neg (by omega)]

def exEs : List (Nat × List Nat × Bool) :=
  [(0, [1, 2, 3], true), (1, [4, 5], true), (1, [6], true), (2, [7, 8, 9], true), (2, List.replicate 40 1, true), (2, [3], true),
    (3, [1, 1], true), (4, [2, 2, 2], true), (0, [1, 2, 3, 4, 5], true), (0, [9, 9, 9, 9], true)]

example : ∀ e ∈ exEs, e.2.2 = true ∧ e.2.1.length < 2 ^ 30 := by decide +kernel

example : (List.range 5).map (A.run exFl (fun i => if i = 0 then 4 else 0) (fun _ => none) exEs) =
    [some [9, 9, 9, 9], some [6], some [3], none, some [2, 2, 2]] := by decide +kernel

example : (run exS exEs).map (fun s => [(s.slots 0).ulen, (s.slots 1).ulen, (s.slots 2).ulen, s.slen]) =
    some [4, 2, 16, 4] := by decide +kernel

/-- **C88 refuted.**  The new length is noted before realloc is tried and stays when it fails (util/dbt.cc:220-221, 240-241): the next
value that fits this length is copied past the end of the old buffer; with the cursor's buffer likewise. -/
theorem C88_no_memory_refuted :
    ∃ (s : S) (fl : Nat → Flag) (u : Nat → Nat), Start s fl u ∧
      run s [(2, [1, 2], true), (2, List.replicate 100 1, false)] ≠ none ∧
      run s [(2, [1, 2], true), (2, List.replicate 100 1, false), (2, List.replicate 50 1, true)] = none ∧
      run s [(3, [1, 2], true), (3, List.replicate 100 1, false)] ≠ none ∧
      run s [(3, [1, 2], true), (3, List.replicate 100 1, false), (3, List.replicate 50 1, true)] = none := by
  refine ⟨exS, exFl, _, exStart, ?_, rfl, ?_, rfl⟩
  · intro h
    have : (run exS [(2, [1, 2], true), (2, List.replicate 100 1, false)]).isSome = true := by decide +kernel
    rw [h] at this
    cases this
  · intro h
    have : (run exS [(3, [1, 2], true), (3, List.replicate 100 1, false)]).isSome = true := by decide +kernel
    rw [h] at this
    cases this

end Verif.Dbt
