import Verif.Tree.Skip
import Verif.Tree.RangeMain
import Verif.Tree.SearchLemmas

/-! What a walk over rows ends with. -/
namespace Verif.Tree
set_option linter.unusedSectionVars false
variable {K R B : Type} [LinearOrder K]

/-- Not before the start. -/
def past (start : Option K) (k : K) : Bool :=
  match start with
  | none => true
  | some a => decide (a ≤ k)

def Reach.bytes : Reach K → Nat
  | .found _ s => s
  | .beyond s => s

theorem walkRows_cons (size : K → R → Nat) (skip : Nat) (k : K) (r : R) (rest : Rows K R) (s : Nat) :
    walkRows size skip ((k, r) :: rest) s = if skip < s + size k r then .found k s else walkRows size skip rest (s + size k r) := rfl

theorem walkRows_append (size : K → R → Nat) (skip : Nat) (b : Rows K R) : ∀ (a : Rows K R) (s : Nat),
    walkRows size skip (a ++ b) s = match walkRows size skip a s with
      | .found e s' => .found e s'
      | .beyond s' => walkRows size skip b s'
  | [], s => rfl
  | (k, r) :: a, s => by
    rw [List.cons_append, walkRows_cons, walkRows_cons size skip k r a s]
    by_cases h : skip < s + size k r
    · rw [if_pos h, if_pos h]
    · rw [if_neg h, if_neg h]
      exact walkRows_append size skip b a _

theorem drop_findIdx {rows : Rows K R} (hs : Sorted rows) (k : K) :
    rows.drop (rows.findIdx fun r => decide (k ≤ r.1)) = rows.filter fun r => decide (k ≤ r.1) := by
  induction rows with
  | nil => rfl
  | cons r rows ih =>
    obtain ⟨h1, h2⟩ := sorted_cons.1 hs
    rw [List.findIdx_cons, List.filter_cons]
    by_cases h : k ≤ r.1
    · have : rows.filter (fun r => decide (k ≤ r.1)) = rows := by
        rw [List.filter_eq_self]
        intro x hx
        simpa using le_trans h (le_of_lt (h1 x hx))
      simp [h, this]
    · simp [h, ih h2]

theorem walkBasement_eq {rows : Rows K R} (hs : Sorted rows) (size : K → R → Nat) (skip : Nat) (start : Option K) (s : Nat) :
    walkBasement size skip start rows s = walkRows size skip (rows.filter fun r => past start r.1) s := by
  unfold walkBasement
  cases start with
  | none =>
    have : rows.filter (fun r => past none r.1) = rows := by rw [List.filter_eq_self]; intro _ _; rfl
    rw [this]
    rfl
  | some k =>
    show walkRows size skip (rows.drop (rows.findIdx fun r => decide (k ≤ r.1))) s = _
    rw [drop_findIdx hs]
    rfl

/-- What is known of the end of a walk over a part of the dictionary with the given bounds, from `start` on, with `s` bytes skipped
before: `mem` says that all of it is in memory, `fine` that none of it is guessed at, `rows` is what is in memory. -/
structure Answer (size : K → R → Nat) (skip : Nat) (start lo hi : Option K) (mem fine : Prop) (rows : Rows K R) (s : Nat)
    (r : Reach K) : Prop where
  within : ∀ e s', r = .found e s' → InB lo hi e
  after : ∀ e s', r = .found e s' → past start e = true
  row : mem → ∀ e s', r = .found e s' → ∃ x, (e, x) ∈ rows ∧ skip < s' + size e x
  limit : mem → s ≤ skip → r.bytes ≤ skip
  first : mem → ∀ e s', r = .found e s' → start = some e → s' = s
  exact : mem → fine → r = walkRows size skip (rows.filter fun r => past start r.1) s

theorem walkRows_ok (size : K → R → Nat) (skip : Nat) : ∀ (rows : Rows K R) (s : Nat), Sorted rows →
    (∀ e s', walkRows size skip rows s = .found e s' → ∃ x, (e, x) ∈ rows ∧ skip < s' + size e x) ∧
    (s ≤ skip → (walkRows size skip rows s).bytes ≤ skip) ∧
    (∀ e s', walkRows size skip rows s = .found e s' → (∀ x ∈ rows, e ≤ x.1) → s' = s)
  | [], s, _ => ⟨fun _ _ h => (by cases h), fun h => h, fun _ _ h => (by cases h)⟩
  | (k, r) :: rows, s, hs => by
    obtain ⟨h1, h2⟩ := sorted_cons.1 hs
    unfold walkRows
    by_cases h : skip < s + size k r
    · rw [if_pos h]
      refine ⟨?_, fun h => h, ?_⟩
      · intro e s' he
        cases he
        exact ⟨r, List.mem_cons_self, h⟩
      · intro e s' he _
        cases he
        rfl
    · rw [if_neg h]
      obtain ⟨i1, i2, i3⟩ := walkRows_ok size skip rows (s + size k r) h2
      refine ⟨?_, fun _ => i2 (by omega), ?_⟩
      · intro e s' he
        obtain ⟨x, x1, x2⟩ := i1 e s' he
        exact ⟨x, List.mem_cons_of_mem _ x1, x2⟩
      · intro e s' he hx
        obtain ⟨x, x1, x2⟩ := i1 e s' he
        have a1 := h1 _ x1
        have a2 := hx _ List.mem_cons_self
        exact absurd a1 (not_lt.2 a2)

theorem basement_answer {rows : Rows K R} (hs : Sorted rows) {lo hi : Option K} (hw : RowsIn lo hi rows) (size : K → R → Nat)
    (skip : Nat) (start : Option K) (s : Nat) (fine : Prop) :
    Answer size skip start lo hi True fine rows s (walkBasement size skip start rows s) := by
  rw [walkBasement_eq hs]
  have hs' : Sorted (rows.filter fun r => past start r.1) := List.Pairwise.filter _ hs
  obtain ⟨i1, i2, i3⟩ := walkRows_ok size skip _ s hs'
  have mem : ∀ e s', walkRows size skip (rows.filter fun r => past start r.1) s = .found e s' →
      ∃ x, (e, x) ∈ rows ∧ past start e = true ∧ skip < s' + size e x := by
    intro e s' h
    obtain ⟨x, x1, x2⟩ := i1 e s' h
    obtain ⟨y1, y2⟩ := List.mem_filter.1 x1
    exact ⟨x, y1, y2, x2⟩
  refine ⟨?_, ?_, ?_, fun _ => i2, ?_, fun _ _ => rfl⟩
  · intro e s' h
    obtain ⟨x, x1, _⟩ := mem e s' h
    exact hw _ x1
  · intro e s' h
    obtain ⟨x, _, x1, _⟩ := mem e s' h
    exact x1
  · intro _ e s' h
    obtain ⟨x, x1, _, x2⟩ := mem e s' h
    exact ⟨x, x1, x2⟩
  · intro _ e s' h he
    refine i3 e s' h ?_
    intro x hx
    have := (List.mem_filter.1 hx).2
    rw [he] at this
    simpa [past] using this

/-- The next part, after one that was not far enough. -/
theorem Answer.andThen {size : K → R → Nat} {skip : Nat} {start lo hi : Option K} {k : K} {m1 m2 f1 f2 : Prop} {rows1 rows2 : Rows K R}
    {s s1 : Nat} {r : Reach K} (h1 : Answer size skip start lo (some k) m1 f1 rows1 s (.beyond s1))
    (h2 : Answer size skip none (some k) hi m2 f2 rows2 s1 r) (hlo : Above lo k) (hp : past start k = true)
    (hw : m2 → RowsIn (some k) hi rows2) :
    Answer size skip start lo hi (m1 ∧ m2) (f1 ∧ f2) (rows1 ++ rows2) s r := by
  have gt : ∀ x, InB (some k) hi x → past start x = true := by
    intro x hx
    cases start with
    | none => rfl
    | some a => exact decide_eq_true (le_trans (by simpa [past] using hp) (le_of_lt (hx.1 k rfl)))
  refine ⟨?_, ?_, ?_, ?_, ?_, ?_⟩
  · intro e s' he
    have := h2.within e s' he
    exact ⟨fun a ha => lt_trans (hlo a ha) (this.1 k rfl), this.2⟩
  · intro e s' he
    exact gt e (h2.within e s' he)
  · intro hm e s' he
    obtain ⟨x, x1, x2⟩ := h2.row hm.2 e s' he
    exact ⟨x, List.mem_append_right _ x1, x2⟩
  · intro hm hs
    exact h2.limit hm.2 (h1.limit hm.1 hs)
  · intro hm e s' he hst
    have := (h2.within e s' he).1 k rfl
    rw [hst] at hp
    exact absurd this (not_lt.2 (by simpa [past] using hp))
  · intro hm hf
    have e1 := h1.exact hm.1 hf.1
    have e2 := h2.exact hm.2 hf.2
    rw [List.filter_append, walkRows_append, ← e1]
    have : rows2.filter (fun r => past start r.1) = rows2.filter fun r => past none r.1 := by
      refine List.filter_congr ?_
      intro x hx
      rw [gt x.1 (hw hm.2 x hx)]
      rfl
    rw [this]
    exact e2

/-- An end found is the end. -/
theorem Answer.stop {size : K → R → Nat} {skip : Nat} {start lo hi : Option K} {k : K} {m1 m2 f1 f2 : Prop} {rows1 rows2 : Rows K R}
    {s s1 : Nat} {e : K} (h1 : Answer size skip start lo (some k) m1 f1 rows1 s (.found e s1)) (hhi : Below hi k) :
    Answer size skip start lo hi (m1 ∧ m2) (f1 ∧ f2) (rows1 ++ rows2) s (.found e s1) := by
  refine ⟨?_, h1.after, ?_, fun hm => h1.limit hm.1, fun hm => h1.first hm.1, ?_⟩
  · intro e' s' he
    have := h1.within e' s' he
    exact ⟨this.1, fun b hb => le_trans (this.2 k rfl) (le_of_lt (hhi b hb))⟩
  · intro hm e' s' he
    obtain ⟨x, x1, x2⟩ := h1.row hm.1 e' s' he
    exact ⟨x, List.mem_append_left _ x1, x2⟩
  · intro hm hf
    rw [List.filter_append, walkRows_append, ← h1.exact hm.1 hf.1]

theorem Answer.weaken {size : K → R → Nat} {skip : Nat} {start lo hi : Option K} {m m' f f' : Prop} {rows : Rows K R} {s : Nat} {r : Reach K}
    (h : Answer size skip start lo hi m f rows s r) (hm : m' → m) (hf : m' → f' → f) : Answer size skip start lo hi m' f' rows s r :=
  ⟨h.within, h.after, fun a => h.row (hm a), fun a => h.limit (hm a), fun a => h.first (hm a), fun a b => h.exact (hm a) (hf a b)⟩

end Verif.Tree
