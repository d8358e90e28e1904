import Verif.Load.Sort
/-! Lemmas: the priority queue. -/
set_option autoImplicit false
set_option linter.unusedVariables false
set_option linter.unusedSimpArgs false

namespace Verif.Load
open Spec

variable {K V : Type} {cmp : K → K → Int}

/-- The element at `i` (counted from 1) is `x`. -/
def At (d : List (Node K V)) (i : Nat) (x : Node K V) : Prop := 1 ≤ i ∧ d[i - 1]? = some x

/-- Strictly smaller key. -/
def Lt (cmp : K → K → Int) (x y : Node K V) : Prop := cmp x.1.1 y.1.1 < 0

/-- The heap order, strict. -/
def Heap (cmp : K → K → Int) (d : List (Node K V)) : Prop :=
  ∀ i x y, 2 ≤ i → At d (i / 2) x → At d i y → Lt cmp x y

theorem at_set {d : List (Node K V)} {i j : Nat} {m x : Node K V} (hi : 1 ≤ i) (hl : i ≤ d.length) :
    At (d.set (i - 1) m) j x ↔ (j = i ∧ x = m) ∨ (j ≠ i ∧ At d j x) := by
  unfold At
  rw [List.getElem?_set]
  by_cases h : j = i
  · subst h
    simp only [true_and, not_true, false_and, or_false, ne_eq, ite_true]
    rw [if_pos (by omega)]
    constructor
    · rintro ⟨_, h⟩; exact (Option.some.inj h).symm
    · rintro rfl; exact ⟨hi, rfl⟩
  · constructor
    · rintro ⟨h1, h2⟩
      rw [if_neg (by omega)] at h2
      exact Or.inr ⟨h, h1, h2⟩
    · rintro (⟨h1, _⟩ | ⟨_, h1, h2⟩)
      · exact absurd h1 h
      · rw [if_neg (by omega)]; exact ⟨h1, h2⟩

theorem at_le {d : List (Node K V)} {i : Nat} {x : Node K V} (h : At d i x) : 1 ≤ i ∧ i ≤ d.length := by
  obtain ⟨h1, h2⟩ := h
  have := (List.getElem?_eq_some_iff.1 h2).1
  omega

theorem at_fun {d : List (Node K V)} {i : Nat} {x y : Node K V} (h : At d i x) (h' : At d i y) : x = y := by
  have := h.2.symm.trans h'.2
  exact Option.some.inj this

theorem at_mem {d : List (Node K V)} {i : Nat} {x : Node K V} (h : At d i x) : x ∈ d := List.mem_of_getElem? h.2

theorem set_perm {d : List (Node K V)} {i j : Nat} {m p : Node K V} (hi : 1 ≤ i) (hl : i ≤ d.length) (hj : j ≠ i) (hp : At d j p) :
    ((d.set (i - 1) p).set (j - 1) m).Perm (d.set (i - 1) m) := by
  obtain ⟨h1, h2⟩ := hp
  obtain ⟨h3, h4⟩ := List.getElem?_eq_some_iff.1 h2
  have h := List.set_set_perm (as := d.set (i - 1) m) (i := i - 1) (j := j - 1) (by simp; omega) (by simp; omega)
  rw [List.getElem_set_self, List.getElem_set_ne (by omega), h4, List.set_set] at h
  exact h

theorem twice_of_at {d : List (Node K V)} {i j : Nat} {x y : Node K V} (hx : At d i x) (hy : At d j y) (hij : i < j)
    (h : cmp x.1.1 y.1.1 = 0) : Twice cmp x.1 (d.map (·.1)) := by
  obtain ⟨h1, h2⟩ := hx
  obtain ⟨h3, h4⟩ := List.getElem?_eq_some_iff.1 h2
  obtain ⟨h5, h6⟩ := hy
  obtain ⟨h7, h8⟩ := List.getElem?_eq_some_iff.1 h6
  have : d.map (·.1) = (d.take i).map (·.1) ++ (d.drop i).map (·.1) := by
    rw [← List.map_append, List.take_append_drop]
  rw [this]
  refine Twice.of_mem (r' := y.1) ?_ ?_ h
  · refine List.mem_map.2 ⟨x, ?_, rfl⟩
    rw [← h4]
    have := List.getElem_mem (l := d.take i) (n := i - 1) (by simp; omega)
    rwa [List.getElem_take] at this
  · refine List.mem_map.2 ⟨y, ?_, rfl⟩
    rw [← h8]
    have := List.getElem_mem (l := d.drop i) (n := j - 1 - i) (by simp; omega)
    rw [List.getElem_drop] at this
    simpa only [show i + (j - 1 - i) = j - 1 by omega] using this

theorem twice_of_at' (ho : Order cmp) {d : List (Node K V)} {i j : Nat} {x y : Node K V} (hx : At d i x) (hy : At d j y) (hij : i ≠ j)
    (h : cmp x.1.1 y.1.1 = 0) : Twice cmp x.1 (d.map (·.1)) := by
  rcases Nat.lt_or_gt_of_ne hij with h1 | h1
  · exact twice_of_at hx hy h1 h
  · obtain ⟨r', t, hp, hc⟩ := twice_of_at hy hx h1 (ho.comm0 h)
    obtain ⟨h1, h2⟩ := hx
    obtain ⟨h3, h4⟩ := List.getElem?_eq_some_iff.1 h2
    obtain ⟨h5, h6⟩ := hy
    obtain ⟨h7, h8⟩ := List.getElem?_eq_some_iff.1 h6
    have : d.map (·.1) = (d.take j).map (·.1) ++ (d.drop j).map (·.1) := by
      rw [← List.map_append, List.take_append_drop]
    have hy' : y.1 ∈ (d.take j).map (·.1) := by
      refine List.mem_map.2 ⟨y, ?_, rfl⟩
      rw [← h8]
      have := List.getElem_mem (l := d.take j) (n := j - 1) (by simp; omega)
      rwa [List.getElem_take] at this
    have hx' : x.1 ∈ (d.drop j).map (·.1) := by
      refine List.mem_map.2 ⟨x, ?_, rfl⟩
      rw [← h4]
      have := List.getElem_mem (l := d.drop j) (n := i - 1 - j) (by simp; omega)
      rw [List.getElem_drop] at this
      simpa only [show j + (i - 1 - j) = i - 1 by omega] using this
    rw [this]
    exact (Twice.of_mem hx' hy' h).perm List.perm_append_comm

/-- The heap order with a hole at `i` that `m` may fill or move up from. -/
structure Up (cmp : K → K → Int) (m : Node K V) (d : List (Node K V)) (i : Nat) : Prop where
  rest : ∀ c x y, 2 ≤ c → c ≠ i → c / 2 ≠ i → At d (c / 2) x → At d c y → Lt cmp x y
  below : ∀ c y, c / 2 = i → At d c y → Lt cmp m y
  over : ∀ c x y, c / 2 = i → At d (i / 2) x → At d c y → Lt cmp x y

theorem Up.done {m : Node K V} {d : List (Node K V)} {i : Nat} (h : Up cmp m d i) (hi : 1 ≤ i) (hl : i ≤ d.length)
    (hp : ∀ x, At d (i / 2) x → Lt cmp x m) : Heap cmp (d.set (i - 1) m) := by
  intro c x y hc hx hy
  rw [at_set hi hl] at hx hy
  rcases hx with ⟨h1, rfl⟩ | ⟨h1, hx⟩
  · rcases hy with ⟨h2, rfl⟩ | ⟨h2, hy⟩
    · omega
    · exact h.below c y h1 hy
  · rcases hy with ⟨h2, rfl⟩ | ⟨h2, hy⟩
    · subst h2; exact hp x hx
    · exact h.rest c x y hc h2 h1 hx hy

theorem Up.move (ho : Order cmp) {m p : Node K V} {d : List (Node K V)} {i : Nat} (h : Up cmp m d i) (hi : 2 ≤ i) (hl : i ≤ d.length)
    (hp : At d (i / 2) p) (hm : Lt cmp m p) : Up cmp m (d.set (i - 1) p) (i / 2) := by
  have hi1 : 1 ≤ i := by omega
  constructor
  · intro c x y hc h1 h2 hx hy
    rw [at_set hi1 hl] at hx hy
    rcases hy with ⟨rfl, rfl⟩ | ⟨h4, hy⟩
    · omega
    rcases hx with ⟨h3, rfl⟩ | ⟨h3, hx⟩
    · exact h.over c x y h3 hp hy
    · exact h.rest c x y hc h4 h3 hx hy
  · intro c y hc hy
    rw [at_set hi1 hl] at hy
    rcases hy with ⟨rfl, rfl⟩ | ⟨h4, hy⟩
    · exact hm
    · have := at_le hy
      have h1 : At d (c / 2) p := hc ▸ hp
      have := at_le h1
      exact ho.lt_trans hm (h.rest c p y (by omega) h4 (by omega) h1 hy)
  · intro c x y hc hx hy
    rw [at_set hi1 hl] at hx hy
    have h0 := at_le hp
    rcases hx with ⟨h3, rfl⟩ | ⟨h3, hx⟩
    · omega
    · have h5 := at_le hx
      have hxp : Lt cmp x p := h.rest (i / 2) x p (by omega) (by omega) (by omega) hx hp
      rcases hy with ⟨rfl, rfl⟩ | ⟨h4, hy⟩
      · exact hxp
      · have h1 : At d (c / 2) p := hc ▸ hp
        exact ho.lt_trans hxp (h.rest c p y (by omega) h4 (by omega) h1 hy)

theorem pqCompare_none {dup : Option (Row K V)} {x : Row K V} {k : K} (h : (pqCompare cmp dup x k).2 = none) :
    dup = none ∧ cmp x.1 k ≠ 0 := by
  unfold pqCompare at h
  simp only at h
  split at h
  · cases dup <;> simp at h
  · rename_i h0
    exact ⟨h, h0⟩

theorem pqCompare_some {dup : Option (Row K V)} {x r : Row K V} {k : K} (h : (pqCompare cmp dup x k).2 = some r) :
    dup = some r ∨ (dup = none ∧ r = x ∧ cmp x.1 k = 0) := by
  unfold pqCompare at h
  simp only at h
  split at h
  · rename_i h0
    cases dup with
    | none => exact Or.inr ⟨rfl, (Option.some.inj h).symm, h0⟩
    | some z => exact Or.inl h
  · exact Or.inl h

/-- What a walk along the heap yields. -/
structure Walked (cmp : K → K → Int) (l : List (Node K V)) (dup : Option (Row K V)) (P : Prop) (d' : List (Node K V))
    (dup' : Option (Row K V)) : Prop where
  perm : d'.Perm l
  heap : dup' = none → dup = none ∧ (P → Heap cmp d')
  twice : ∀ r, dup' = some r → dup = some r ∨ (dup = none ∧ Twice cmp r (l.map (·.1)))

theorem bubbleUp_spec (ho : Order cmp) (m : Node K V) : ∀ (n : Nat) (d : List (Node K V)) (i : Nat) (dup : Option (Row K V)),
    1 ≤ i → i ≤ d.length → i ≤ n →
    ∃ d' dup', bubbleUp cmp m n d i dup = some (d', dup') ∧ Walked cmp (d.set (i - 1) m) dup (Up cmp m d i) d' dup' := by
  intro n
  induction n with
  | zero => intro d i dup h1 h2 h3; omega
  | succ n ih =>
    intro d i dup h1 h2 h3
    simp only [bubbleUp]
    split
    · rename_i hi
      have hlt : i / 2 - 1 < d.length := by omega
      rw [List.getElem?_eq_getElem hlt]
      simp only
      have hp : At d (i / 2) d[i / 2 - 1] := ⟨by omega, List.getElem?_eq_getElem hlt⟩
      generalize d[i / 2 - 1] = p at hp
      have hself : At (d.set (i - 1) m) i m := (at_set h1 h2).2 (Or.inl ⟨rfl, rfl⟩)
      have hpar : At (d.set (i - 1) m) (i / 2) p := (at_set h1 h2).2 (Or.inr ⟨by omega, hp⟩)
      split
      · rename_i hc
        obtain ⟨d', dup', he, hw⟩ := ih (d.set (i - 1) p) (i / 2) (pqCompare cmp dup p.1 m.1.1).2 (by omega) (by simp; omega) (by omega)
        have hperm : ((d.set (i - 1) p).set (i / 2 - 1) m).Perm (d.set (i - 1) m) := set_perm h1 h2 (by omega) hp
        refine ⟨d', dup', he, hw.perm.trans hperm, ?_, ?_⟩
        · intro hn
          obtain ⟨h5, h6⟩ := hw.heap hn
          obtain ⟨h7, h8⟩ := pqCompare_none h5
          refine ⟨h7, fun hu => h6 (hu.move ho (by omega) h2 hp ?_)⟩
          have hc' : -1 < cmp p.1.1 m.1.1 := by simpa [pqCompare] using hc
          exact ho.gt (by omega)
        · intro r hr
          rcases hw.twice r hr with h5 | ⟨h5, h6⟩
          · rcases pqCompare_some h5 with h7 | ⟨h7, rfl, h8⟩
            · exact Or.inl h7
            · exact Or.inr ⟨h7, twice_of_at' ho hpar hself (by omega) h8⟩
          · exact Or.inr ⟨(pqCompare_none h5).1, h6.perm (hperm.map _)⟩
      · rename_i hc
        refine ⟨_, _, rfl, List.Perm.refl _, ?_, ?_⟩
        · intro hn
          obtain ⟨h7, h8⟩ := pqCompare_none hn
          refine ⟨h7, fun hu => hu.done h1 h2 ?_⟩
          intro x hx
          rw [at_fun hx hp]
          have hc' : ¬ -1 < cmp p.1.1 m.1.1 := by simpa [pqCompare] using hc
          unfold Lt; omega
        · intro r hr
          rcases pqCompare_some hr with h7 | ⟨h7, rfl, h8⟩
          · exact Or.inl h7
          · exact Or.inr ⟨h7, twice_of_at' ho hpar hself (by omega) h8⟩
    · rename_i hi
      refine ⟨_, _, rfl, List.Perm.refl _, ?_, ?_⟩
      · intro hn
        refine ⟨hn, fun hu => hu.done h1 h2 ?_⟩
        intro x hx
        have := at_le hx
        omega
      · intro r hr
        exact Or.inl hr

/-- The heap order with a hole at `i` from which `m` may move down. -/
structure Down (cmp : K → K → Int) (m : Node K V) (d : List (Node K V)) (i : Nat) : Prop where
  rest : ∀ c x y, 2 ≤ c → c ≠ i → c / 2 ≠ i → At d (c / 2) x → At d c y → Lt cmp x y
  above : ∀ x, At d (i / 2) x → Lt cmp x m
  over : ∀ c x y, c / 2 = i → At d (i / 2) x → At d c y → Lt cmp x y

theorem Down.done {m : Node K V} {d : List (Node K V)} {i : Nat} (h : Down cmp m d i) (hi : 1 ≤ i) (hl : i ≤ d.length)
    (hp : ∀ c y, c / 2 = i → At d c y → Lt cmp m y) : Heap cmp (d.set (i - 1) m) := by
  intro c x y hc hx hy
  rw [at_set hi hl] at hx hy
  rcases hx with ⟨h1, rfl⟩ | ⟨h1, hx⟩
  · rcases hy with ⟨h2, rfl⟩ | ⟨h2, hy⟩
    · omega
    · exact hp c y h1 hy
  · rcases hy with ⟨h2, rfl⟩ | ⟨h2, hy⟩
    · subst h2; exact h.above x hx
    · exact h.rest c x y hc h2 h1 hx hy

theorem Down.move (ho : Order cmp) {m p : Node K V} {d : List (Node K V)} {i c : Nat} (h : Down cmp m d i) (hi : 1 ≤ i) (hl : i ≤ d.length)
    (hc : c / 2 = i) (hp : At d c p) (hm : Lt cmp p m) (hs : ∀ c' y, c' / 2 = i → c' ≠ c → At d c' y → Lt cmp p y) :
    Down cmp m (d.set (i - 1) p) c := by
  constructor
  · intro c' x y hc' h1 h2 hx hy
    rw [at_set hi hl] at hx hy
    rcases hx with ⟨h3, rfl⟩ | ⟨h3, hx⟩
    · rcases hy with ⟨h4, rfl⟩ | ⟨h4, hy⟩
      · omega
      · exact hs c' y h3 h1 hy
    · rcases hy with ⟨h4, rfl⟩ | ⟨h4, hy⟩
      · subst h4; exact h.over c x y hc hx hp
      · exact h.rest c' x y hc' h4 h3 hx hy
  · intro x hx
    rw [at_set hi hl] at hx
    rcases hx with ⟨h3, rfl⟩ | ⟨h3, hx⟩
    · exact hm
    · omega
  · intro c' x y hc' hx hy
    rw [at_set hi hl] at hx hy
    rcases hx with ⟨h3, rfl⟩ | ⟨h3, hx⟩
    · rcases hy with ⟨h4, rfl⟩ | ⟨h4, hy⟩
      · omega
      · exact h.rest c' x y (by omega) h4 (by omega) (hc' ▸ hp) hy
    · omega

/-- What `pqueue_maxchild` yields. -/
theorem maxChild_spec (ho : Order cmp) (d : List (Node K V)) (i : Nat) (dup : Option (Row K V)) (hi : 1 ≤ i) :
    ∃ c dup', maxChild cmp d i dup = some (c, dup') ∧
      ((c = 0 ∧ dup' = dup ∧ ∀ c' y, c' / 2 = i → ¬ At d c' y) ∨
       (c / 2 = i ∧ ∃ p, At d c p ∧ (dup' = none → dup = none ∧ ∀ c' y, c' / 2 = i → c' ≠ c → At d c' y → Lt cmp p y) ∧
         (∀ r, dup' = some r → dup = some r ∨ (dup = none ∧ ∃ x y : Node K V, ∃ j, r = x.1 ∧ At d j x ∧ At d (j + 1) y ∧ j ≠ i ∧ j + 1 ≠ i ∧
            cmp x.1.1 y.1.1 = 0)))) := by
  simp only [maxChild]
  split
  · rename_i h
    refine ⟨0, dup, rfl, Or.inl ⟨rfl, rfl, fun c' y hc hy => ?_⟩⟩
    have := at_le hy
    omega
  · rename_i h
    split
    · rename_i h2
      have hx : 2 * i - 1 < d.length := by omega
      have hy : 2 * i < d.length := by omega
      rw [List.getElem?_eq_getElem hx, List.getElem?_eq_getElem hy]
      simp only
      have hax : At d (2 * i) d[2 * i - 1] := ⟨by omega, List.getElem?_eq_getElem hx⟩
      have hay : At d (2 * i + 1) d[2 * i] := ⟨by omega, List.getElem?_eq_getElem hy⟩
      generalize d[2 * i - 1] = x at hax
      generalize d[2 * i] = y at hay
      have htw : ∀ r, (pqCompare cmp dup x.1 y.1.1).2 = some r → dup = some r ∨ (dup = none ∧ ∃ x y : Node K V, ∃ j, r = x.1 ∧ At d j x ∧ At d (j + 1) y ∧ j ≠ i ∧ j + 1 ≠ i ∧
            cmp x.1.1 y.1.1 = 0) := by
        intro r hr
        rcases pqCompare_some hr with h7 | ⟨h7, h9, h8⟩
        · exact Or.inl h7
        · exact Or.inr ⟨h7, x, y, 2 * i, h9, hax, hay, by omega, by omega, h8⟩
      by_cases hc : (pqCompare cmp dup x.1 y.1.1).1
      · rw [if_pos hc]
        have hc' : -1 < cmp x.1.1 y.1.1 := by simpa [pqCompare] using hc
        refine ⟨_, _, rfl, Or.inr ⟨by omega, y, hay, fun hn => ?_, htw⟩⟩
        obtain ⟨h7, h8⟩ := pqCompare_none hn
        refine ⟨h7, fun c' z hc' hne hz => ?_⟩
        have : c' = 2 * i := by omega
        subst this
        rw [at_fun hz hax]
        exact ho.gt (by omega)
      · rw [if_neg hc]
        have hc' : ¬ -1 < cmp x.1.1 y.1.1 := by simpa [pqCompare] using hc
        refine ⟨_, _, rfl, Or.inr ⟨by omega, x, hax, fun hn => ?_, htw⟩⟩
        obtain ⟨h7, h8⟩ := pqCompare_none hn
        refine ⟨h7, fun c' z hc' hne hz => ?_⟩
        have : c' = 2 * i + 1 := by omega
        subst this
        rw [at_fun hz hay]
        unfold Lt; omega
    · rename_i h2
      have hx : 2 * i - 1 < d.length := by omega
      refine ⟨_, _, rfl, Or.inr ⟨by omega, d[2 * i - 1], ⟨by omega, List.getElem?_eq_getElem hx⟩, fun hn => ⟨hn, ?_⟩, fun r hr => Or.inl hr⟩⟩
      intro c' z hc' hne hz
      have := at_le hz
      omega

theorem percolate_spec (ho : Order cmp) (m : Node K V) : ∀ (n : Nat) (d : List (Node K V)) (i : Nat) (dup : Option (Row K V)),
    1 ≤ i → i ≤ d.length → d.length + 1 ≤ n + i →
    ∃ d' dup', percolate cmp m n d i dup = some (d', dup') ∧ Walked cmp (d.set (i - 1) m) dup (Down cmp m d i) d' dup' := by
  intro n
  induction n with
  | zero => intro d i dup h1 h2 h3; omega
  | succ n ih =>
    intro d i dup h1 h2 h3
    obtain ⟨c, dup1, hmc, hcase⟩ := maxChild_spec ho d i dup h1
    simp only [percolate, hmc]
    have hself : At (d.set (i - 1) m) i m := (at_set h1 h2).2 (Or.inl ⟨rfl, rfl⟩)
    rcases hcase with ⟨rfl, rfl, hno⟩ | ⟨hci, p, hp, hsib, htw⟩
    · rw [if_pos rfl]
      refine ⟨_, _, rfl, List.Perm.refl _, ?_, fun r hr => Or.inl hr⟩
      intro hn
      exact ⟨hn, fun hu => hu.done h1 h2 (fun c y hc hy => (hno c y hc hy).elim)⟩
    · have hcl := at_le hp
      rw [if_neg (by omega), hp.2]
      simp only
      have hpar : At (d.set (i - 1) m) c p := (at_set h1 h2).2 (Or.inr ⟨by omega, hp⟩)
      have htw1 : ∀ r, dup1 = some r → dup = some r ∨ (dup = none ∧ Twice cmp r ((d.set (i - 1) m).map (·.1))) := by
        intro r hr
        rcases htw r hr with h | ⟨h, x, y, j, rfl, hx, hy, hj, hj', hxy⟩
        · exact Or.inl h
        · exact Or.inr ⟨h, twice_of_at' ho ((at_set h1 h2).2 (Or.inr ⟨hj, hx⟩)) ((at_set h1 h2).2 (Or.inr ⟨hj', hy⟩)) (by omega) hxy⟩
      have htw2 : ∀ r, (pqCompare cmp dup1 m.1 p.1.1).2 = some r → dup = some r ∨ (dup = none ∧ Twice cmp r ((d.set (i - 1) m).map (·.1))) := by
        intro r hr
        rcases pqCompare_some hr with h7 | ⟨h7, rfl, h8⟩
        · exact htw1 r h7
        · refine Or.inr ⟨(hsib h7).1, twice_of_at' ho hself hpar (by omega) h8⟩
      split
      · rename_i hc
        obtain ⟨d', dup', he, hw⟩ := ih (d.set (i - 1) p) c (pqCompare cmp dup1 m.1 p.1.1).2 (by omega) (by simp; omega) (by simp; omega)
        have hperm : ((d.set (i - 1) p).set (c - 1) m).Perm (d.set (i - 1) m) := set_perm h1 h2 (by omega) hp
        refine ⟨d', dup', he, hw.perm.trans hperm, ?_, ?_⟩
        · intro hn
          obtain ⟨h5, h6⟩ := hw.heap hn
          obtain ⟨h7, h8⟩ := pqCompare_none h5
          obtain ⟨h9, h10⟩ := hsib h7
          refine ⟨h9, fun hu => h6 (hu.move ho h1 h2 hci hp ?_ h10)⟩
          have hc' : -1 < cmp m.1.1 p.1.1 := by simpa [pqCompare] using hc
          exact ho.gt (by omega)
        · intro r hr
          rcases hw.twice r hr with h5 | ⟨h5, h6⟩
          · exact htw2 r h5
          · exact Or.inr ⟨(hsib (pqCompare_none h5).1).1, h6.perm (hperm.map _)⟩
      · rename_i hc
        refine ⟨_, _, rfl, List.Perm.refl _, ?_, htw2⟩
        intro hn
        obtain ⟨h7, h8⟩ := pqCompare_none hn
        obtain ⟨h9, h10⟩ := hsib h7
        refine ⟨h9, fun hu => hu.done h1 h2 ?_⟩
        intro c' y hc' hy
        have hmp : Lt cmp m p := by
          have hc' : ¬ -1 < cmp m.1.1 p.1.1 := by simpa [pqCompare] using hc
          unfold Lt; omega
        by_cases hcc : c' = c
        · subst hcc; rw [at_fun hy hp]; exact hmp
        · exact ho.lt_trans hmp (h10 c' y hc' hcc hy)

/-- The first element of a heap is the smallest. -/
theorem Heap.min (ho : Order cmp) {d : List (Node K V)} (h : Heap cmp d) {x : Node K V} (hx : At d 1 x) :
    ∀ (i : Nat) (y : Node K V), 2 ≤ i → At d i y → Lt cmp x y := by
  intro i
  induction i using Nat.strongRecOn with
  | ind i ih =>
    intro y hi hy
    have hl := at_le hy
    have hlt : i / 2 - 1 < d.length := by omega
    have hp : At d (i / 2) d[i / 2 - 1] := ⟨by omega, List.getElem?_eq_getElem hlt⟩
    generalize d[i / 2 - 1] = p at hp
    have hpy := h i _ y hi hp hy
    by_cases h1 : i / 2 = 1
    · rw [h1] at hp
      rw [at_fun hx hp]
      exact hpy
    · exact ho.lt_trans (ih (i / 2) (by omega) _ (by omega) hp) hpy

theorem heap_nil : Heap cmp ([] : List (Node K V)) := by
  intro i x y hi hx hy
  have := at_le hx
  simp at this
  omega

theorem insert_spec (ho : Order cmp) (q : PQ K V) (m : Node K V) (hq : q.dup = none) (hh : Heap cmp q.d) (ha : q.d.length + 1 < q.avail) :
    match q.insert cmp m with
    | .ok q' => q'.dup = none ∧ Heap cmp q'.d ∧ q'.avail = q.avail ∧ q'.d.Perm (m :: q.d)
    | .err (.exist r) => Twice cmp r ((m :: q.d).map (·.1))
    | .err _ => False
    | .crash => False := by
  unfold PQ.insert
  rw [if_neg (by omega)]
  obtain ⟨d', dup', he, hw⟩ := bubbleUp_spec ho m (q.d.length + 2) (q.d ++ [m]) (q.d.length + 1) q.dup (by omega) (by simp) (by omega)
  rw [he]
  have hset : (q.d ++ [m]).set (q.d.length + 1 - 1) m = q.d ++ [m] := by
    simp
  rw [hset] at hw
  have hup : Up cmp m (q.d ++ [m]) (q.d.length + 1) := by
    have hsub : ∀ j x, j ≠ q.d.length + 1 → At (q.d ++ [m]) j x → At q.d j x := by
      intro j x hj hx
      have hl := at_le hx
      simp at hl
      refine ⟨hx.1, ?_⟩
      have := hx.2
      rwa [List.getElem?_append_left (by omega)] at this
    constructor
    · intro c x y hc h1 h2 hx hy
      exact hh c x y hc (hsub _ _ h2 hx) (hsub _ _ h1 hy)
    · intro c y hc hy
      have := at_le hy
      simp at this
      omega
    · intro c x y hc hx hy
      have := at_le hy
      simp at this
      omega
  have hpm : (q.d ++ [m]).Perm (m :: q.d) := List.perm_append_singleton m q.d
  cases dup' with
  | none =>
    obtain ⟨h1, h2⟩ := hw.heap rfl
    exact ⟨rfl, h2 hup, rfl, hw.perm.trans hpm⟩
  | some r =>
    rcases hw.twice r rfl with h | ⟨_, h⟩
    · rw [hq] at h; cases h
    · exact h.perm (hpm.map _)

theorem pop_spec (ho : Order cmp) (q : PQ K V) (hq : q.dup = none) (hh : Heap cmp q.d) (hn : q.d ≠ []) :
    match q.pop cmp with
    | .ok (x, q') => q'.dup = none ∧ Heap cmp q'.d ∧ q'.avail = q.avail ∧ q.d.Perm (x :: q'.d) ∧ ∀ y ∈ q'.d, Lt cmp x y
    | .err (.exist r) => Twice cmp r (q.d.map (·.1)) ∧ 3 ≤ q.d.length
    | .err _ => False
    | .crash => False := by
  unfold PQ.pop
  obtain ⟨x, t, hd⟩ := List.exists_cons_of_ne_nil hn
  rcases List.eq_nil_or_concat t with rfl | ⟨t', m, rfl⟩
  · rw [hd]
    simp [percolate, maxChild, hq]
    exact heap_nil
  · rw [List.concat_eq_append] at hd
    have hlast : q.d.getLast? = some m := by
      rw [hd, ← List.cons_append, List.getLast?_append]; rfl
    have hhead : q.d.head? = some x := by rw [hd]; rfl
    rw [hhead, hlast]
    simp only
    have hlen : q.d.length = t'.length + 2 := by rw [hd]; simp
    have hs : (q.d.set 0 m).dropLast = m :: t' := by
      rw [hd, List.set_cons_zero, ← List.cons_append, List.dropLast_concat]
    rw [hs]
    obtain ⟨d', dup', he, hw⟩ := percolate_spec ho m (q.d.length + 1) (m :: t') 1 q.dup (by omega) (by simp) (by simp; omega)
    rw [he]
    rw [show (m :: t').set (1 - 1) m = m :: t' from rfl] at hw
    have hpm : q.d.Perm (x :: m :: t') := by
      rw [hd]
      refine List.Perm.cons _ ?_
      exact List.perm_append_singleton m t'
    have hmin : ∀ y ∈ m :: t', Lt cmp x y := by
      intro y hy
      have hy' : y ∈ t' ++ [m] := (List.perm_append_singleton m t').mem_iff.2 hy
      obtain ⟨j, hj, hjy⟩ := List.getElem_of_mem hy'
      refine hh.min ho (x := x) ⟨by omega, by rw [hd]; rfl⟩ (j + 2) y (by omega) ⟨by omega, ?_⟩
      rw [hd]
      have : j + 2 - 1 = j + 1 := by omega
      rw [this, List.getElem?_cons_succ, List.getElem?_eq_getElem hj, hjy]
    have hdown : Down cmp m (m :: t') 1 := by
      have hsub : ∀ j z, j ≠ 1 → At (m :: t') j z → At q.d j z := by
        intro j z hj hz
        have hl := at_le hz
        simp at hl
        refine ⟨hz.1, ?_⟩
        have := hz.2
        rw [hd]
        obtain ⟨j', rfl⟩ : ∃ j', j = j' + 2 := ⟨j - 2, by omega⟩
        rw [show j' + 2 - 1 = j' + 1 by omega, List.getElem?_cons_succ] at this
        rw [show j' + 2 - 1 = j' + 1 by omega, List.getElem?_cons_succ, List.getElem?_append_left (by omega)]
        exact this
      constructor
      · intro c x y hc h1 h2 hx hy
        exact hh c x y hc (hsub _ _ h2 hx) (hsub _ _ h1 hy)
      · intro x hx
        have := at_le hx
        omega
      · intro c x y hc hx hy
        have := at_le hx
        omega
    cases dup' with
    | none =>
      obtain ⟨h1, h2⟩ := hw.heap rfl
      exact ⟨rfl, h2 hdown, rfl, hpm.trans (List.Perm.cons _ hw.perm.symm), fun y hy => hmin y (hw.perm.mem_iff.1 hy)⟩
    | some r =>
      rcases hw.twice r rfl with h | ⟨_, h⟩
      · rw [hq] at h; cases h
      · refine ⟨(h.cons (x := x.1)).perm (hpm.symm.map _), ?_⟩
        obtain ⟨r', t, hp, _⟩ := h
        have := hp.length_eq
        simp at this
        omega

end Verif.Load
