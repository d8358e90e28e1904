import Verif.Bulk.Lemmas

/-!
# C92: cursors that fetch many rows at a time
-/

namespace Verif.Bulk

theorem move_one {fwd user parts c} : move fwd user parts c [fun _ => true] =
    if (search fwd c (fun _ => true) user parts).1 = .notGranted then
      (.notGranted, (search fwd c (fun _ => true) user parts).2.1, (search fwd c (fun _ => true) user parts).2.2)
    else search fwd c (fun _ => true) user parts := by
  unfold move move
  simp only [List.append_nil]

theorem good_move {fwd user parts c} (hu : ∀ k, user k ≠ .err) (hs : Ordered fwd parts.flatten) :
    Good fwd c user parts.flatten (move fwd user parts c [fun _ => true]) := by
  have g := search_spec (c := c) hu hs
  have : move fwd user parts c [fun _ => true] = search fwd c (fun _ => true) user parts := by
    rw [move_one, if_neg]
    intro h
    by_cases h1 : ahead fwd c.pos parts.flatten = []
    · rw [g.none h1] at h; cases h
    · by_cases h2 : win fwd c (ahead fwd c.pos parts.flatten) = []
      · rw [g.out h1 h2] at h; cases h
      · rw [(g.ok h2).1] at h; cases h
  rw [this]; exact g

/-- One call, no lock refused, no error from the callback.  If no row is ahead the result is "not found"; if the next is outside
the bound, the error chosen, both with the cursor where it was and nothing given to the user.  Otherwise the user is given the next
rows inside the bound, at least one, each in order and once: what was ahead is what was given followed by what is then ahead.  All
answers but the last asked for more. -/
theorem C92_call {fwd user parts c} (hu : ∀ k, user k ≠ .err) (hs : Ordered fwd parts.flatten) :
    let t := move fwd user parts c [fun _ => true]
    (ahead fwd c.pos parts.flatten = [] → t = (.notFound, c.pos, [])) ∧
    (ahead fwd c.pos parts.flatten ≠ [] → inBound fwd (boundOf fwd c) (ahead fwd c.pos parts.flatten) = [] → t = (.outOfRange, c.pos, [])) ∧
    (inBound fwd (boundOf fwd c) (ahead fwd c.pos parts.flatten) ≠ [] → t.1 = .ok ∧ t.2.2 ≠ [] ∧
      inBound fwd (boundOf fwd c) (ahead fwd c.pos parts.flatten) = t.2.2 ++ inBound fwd (boundOf fwd c) (ahead fwd t.2.1 parts.flatten) ∧
      ∀ k ∈ t.2.2.dropLast, user k = .more) := by
  have g := good_move (c := c) hu hs
  simp only [inBound_eq]
  exact ⟨g.none, g.out, fun h => let ⟨g1, _, g3, g4, g5, _⟩ := g.ok h; ⟨g1, g3, g4, g5⟩⟩

/-- Without a bound ahead the cursor is then on the last row given. -/
theorem C92_position_partial {fwd user parts c} (hu : ∀ k, user k ≠ .err) (hs : Ordered fwd parts.flatten)
    (hb : boundOf fwd c = none) (ha : ahead fwd c.pos parts.flatten ≠ []) :
    (move fwd user parts c [fun _ => true]).2.1 = (move fwd user parts c [fun _ => true]).2.2.getLastD c.pos := by
  refine ((good_move (c := c) hu hs).ok ?_).2.2.2.2.2 hb
  have := inBound_eq (fwd := fwd) (c := c) (l := ahead fwd c.pos parts.flatten)
  rw [hb] at this
  intro h
  exact ha (Eq.trans this h)

/-- Partial: no lock refused (`C92_skipped_refuted`), no error from the callback (`C92_error_refuted`).  A scan of any number of
calls, whatever the callbacks answer and however the rows are divided into basement nodes at each call, gives the user the rows
seen ahead of the cursor and inside the bound, in order, each once; and all of them, if the last call found no more. -/
theorem C92_scan_partial {fwd rows} {calls : List ((Nat → Ans) × List (List Row))} (hs : Ordered fwd rows) : ∀ {c : Cursor},
    (∀ x ∈ calls, x.2.flatten = rows ∧ ∀ k, x.1 k ≠ .err) →
    (scan fwd c calls).2.2 <+: inBound fwd (boundOf fwd c) (ahead fwd c.pos rows) ∧
    ((∃ r, (scan fwd c calls).1.getLast? = some r ∧ (r = .notFound ∨ r = .outOfRange)) →
      (scan fwd c calls).2.2 = inBound fwd (boundOf fwd c) (ahead fwd c.pos rows)) ∧
    (∀ r ∈ (scan fwd c calls).1, r = .ok ∨ r = .notFound ∨ r = .outOfRange) := by
  suffices h : ∀ {c : Cursor}, (∀ x ∈ calls, x.2.flatten = rows ∧ ∀ k, x.1 k ≠ .err) →
      win fwd c (ahead fwd c.pos rows) = (scan fwd c calls).2.2 ++ win fwd c (ahead fwd (scan fwd c calls).2.1 rows) ∧
      (∀ r, (scan fwd c calls).1.getLast? = some r → r = .notFound ∨ r = .outOfRange → win fwd c (ahead fwd (scan fwd c calls).2.1 rows) = []) ∧
      (∀ r ∈ (scan fwd c calls).1, r = .ok ∨ r = .notFound ∨ r = .outOfRange) by
    intro c hc
    obtain ⟨h1, h2, h3⟩ := h (c := c) hc
    rw [inBound_eq]
    refine ⟨⟨_, h1.symm⟩, fun ⟨r, hr, hr'⟩ => ?_, h3⟩
    have := h1
    rw [h2 r hr hr', List.append_nil] at this
    exact this.symm
  induction calls with
  | nil => intro c _; exact ⟨rfl, fun r hr => (by cases hr), fun r hr => (by cases hr)⟩
  | cons x calls ih =>
    intro c hc
    obtain ⟨user, parts⟩ := x
    obtain ⟨hp, hu⟩ := hc _ List.mem_cons_self
    simp only at hp hu
    have g := good_move (c := c) hu (by rw [hp]; exact hs)
    rw [hp] at g
    have ih := @ih { c with pos := (move fwd user parts c [fun _ => true]).2.1 } (fun x hx => hc x (List.mem_cons_of_mem _ hx))
    have es : scan fwd c ((user, parts) :: calls) =
      ((move fwd user parts c [fun _ => true]).1 :: (scan fwd { c with pos := (move fwd user parts c [fun _ => true]).2.1 } calls).1,
       (scan fwd { c with pos := (move fwd user parts c [fun _ => true]).2.1 } calls).2.1,
       (move fwd user parts c [fun _ => true]).2.2 ++ (scan fwd { c with pos := (move fwd user parts c [fun _ => true]).2.1 } calls).2.2) := rfl
    rw [es]
    generalize move fwd user parts c [fun _ => true] = t at g ih
    have ew : ∀ q l, win fwd { c with pos := q } l = win fwd c l := fun q l => rfl
    simp only [ew] at ih
    obtain ⟨i1, i2, i3⟩ := ih
    have key : win fwd c (ahead fwd c.pos rows) = t.2.2 ++ win fwd c (ahead fwd t.2.1 rows) ∧
        (t.1 = .ok ∨ (t.1 = .notFound ∨ t.1 = .outOfRange) ∧ win fwd c (ahead fwd t.2.1 rows) = []) := by
      by_cases h1 : ahead fwd c.pos rows = []
      · rw [g.none h1]; exact ⟨rfl, .inr ⟨.inl rfl, by simp only [h1]; rfl⟩⟩
      · by_cases h2 : win fwd c (ahead fwd c.pos rows) = []
        · rw [g.out h1 h2]; exact ⟨rfl, .inr ⟨.inr rfl, h2⟩⟩
        · obtain ⟨g1, _, _, g4, _⟩ := g.ok h2
          exact ⟨g4, .inl g1⟩
    refine ⟨?_, ?_, ?_⟩
    · simp only
      rw [key.1, i1, List.append_assoc]
    · intro r hr hr'
      simp only at hr ⊢
      cases hl : (scan fwd { c with pos := t.2.1 } calls).1 with
      | nil =>
        cases calls with
        | nil =>
          rw [hl] at hr
          cases hr
          rcases key.2 with k | k
          · rw [k] at hr'; rcases hr' with h | h <;> cases h
          · exact k.2
        | cons y ys => cases hl
      | cons a l =>
        rw [hl, List.getLast?_cons_cons, ← hl] at hr
        exact i2 r hr hr'
    · intro r hr
      rcases List.mem_cons.mp hr with rfl | hr
      · rcases key.2 with k | k
        · exact .inl k
        · exact .inr k.1
      · exact i3 r hr

theorem stop_granted {fwd user c} (hu : ∀ k, user k = .stop) : ∀ parts, (search fwd c (fun _ => true) user parts).1 ≠ .notGranted := by
  intro parts
  induction parts with
  | nil => unfold search; simp
  | cons b bs ih =>
    unfold search
    split
    · exact ih
    · rename_i r rs _
      rw [hu]
      by_cases h1 : outside fwd c r.key = true <;> simp [h1]

/-- A callback that takes one row at a time: whatever locks are refused and waited for, the call ends with the lock not granted,
nothing given and the cursor where it was, or as if no lock had been refused. -/
theorem C92_wait {fwd user parts c} (hu : ∀ k, user k = .stop) : ∀ {locks : List (Option Nat → Bool)},
    move fwd user parts c locks = (.notGranted, c.pos, []) ∨
    move fwd user parts c locks = move fwd user parts c [fun _ => true] := by
  rw [move_one (fwd := fwd), if_neg (stop_granted hu parts)]
  have hs : ∀ lock, search fwd c lock user parts = (.notGranted, c.pos, []) ∨
      search fwd c lock user parts = search fwd c (fun _ => true) user parts := by
    intro lock
    induction parts with
    | nil => unfold search; by_cases h : lock none = true <;> simp [h]
    | cons b bs ih =>
      unfold search
      split
      · exact ih
      · rename_i r rs _
        rw [hu]
        by_cases h1 : outside fwd c r.key = true
        · simp [h1]
        · by_cases h2 : lock (some r.key) = false <;> simp [h1, h2]
  intro locks
  induction locks with
  | nil => exact .inl rfl
  | cons lock ls ih =>
    unfold move
    simp only
    by_cases h : (search fwd c lock user parts).1 = .notGranted
    · rw [if_pos h]
      rcases hs lock with e | e
      · rw [e]
        exact ih
      · have hpos : (search fwd c lock user parts).2 = (c.pos, []) := by
          rcases hs lock with e' | e'
          · rw [e']
          · rw [e] at h
            exact absurd h (stop_granted hu parts)
        simp only [hpos]
        exact ih
    · rw [if_neg h]
      rcases hs lock with e | e
      · rw [e] at h; exact absurd rfl h
      · exact .inr e

/-- Bounds set once, on a cursor that never had any, are the bounds. -/
theorem C92_bounds {c left right} (hn : c.negInf = false) (hp : c.posInf = false) :
    boundOf true (setBounds c left right) = right ∧ boundOf false (setBounds c left right) = left := by
  unfold setBounds boundOf
  cases left <;> cases right <;> simp [hn, hp]

def free (p : Nat) : Cursor := ⟨p, 0, 0, false, false, false⟩
/-- Two basement nodes; row 3 is deleted. -/
def two : List (List Row) := [[⟨1, true⟩, ⟨2, true⟩, ⟨3, false⟩, ⟨4, true⟩], [⟨5, true⟩, ⟨6, true⟩]]

/-- The hypotheses are met: three calls that ask for more, within bounds up to 5 and without. -/
example : scan true (setBounds (free 0) (some 1) (some 5)) (List.replicate 3 (fun _ => .more, two)) = ([.ok, .ok, .notFound], 6, [1, 2, 4, 5]) ∧
    scan true (free 0) (List.replicate 3 (fun k => if k = 2 then .stop else .more, two)) = ([.ok, .ok, .ok], 6, [1, 2, 4, 5, 6]) ∧
    Ordered true two.flatten := by
  refine ⟨by decide +kernel, by decide +kernel, ?_⟩
  unfold Ordered; decide +kernel

/-- A row whose lock had to be waited for, after other rows were given in the same call, is never given: the cursor was moved onto
it before the wait. -/
theorem C92_skipped_refuted : ahead true 0 two.flatten = [1, 2, 4, 5, 6] ∧
    move true (fun _ => .more) two (free 0) [fun k => k != some 2, fun _ => true] = (.ok, 4, [1, 4]) := by decide +kernel

/-- After an error of the callback the cursor is where it was, or on the row with the error, depending on the row's place in the
call. -/
theorem C92_error_refuted :
    move true (fun k => if k = 1 then .err else .more) two (free 0) [fun _ => true] = (.userErr, 0, [1]) ∧
    move true (fun k => if k = 2 then .err else .more) two (free 0) [fun _ => true] = (.userErr, 2, [1, 2]) := by decide +kernel

/-- With a bound the cursor can come to rest on a row outside it that was not given to the user: going back then gives the last row
again. -/
theorem C92_position_refuted : let c := setBounds (free 0) (some 1) (some 2)
    move true (fun _ => .more) two c [fun _ => true] = (.ok, 4, [1, 2]) ∧
    move false (fun _ => .stop) (two.map List.reverse).reverse { c with pos := 4 } [fun _ => true] = (.ok, 2, [2]) := by decide +kernel

/-- A bound that was infinite once stays infinite: bounds set later are not kept. -/
theorem C92_bounds_again_refuted : let c := setBounds (setBounds (free 0) (some 1) none) (some 1) (some 2)
    boundOf true c = none ∧ scan true c [(fun _ => .more, two)] = ([.ok], 4, [1, 2, 4]) := by decide +kernel

/-- A cursor to the left of its bounds is given rows outside them: only the bound ahead is looked at. -/
theorem C92_outside_refuted : scan true (setBounds (free 0) (some 4) (some 5)) [(fun _ => .stop, two)] = ([.ok], 1, [1]) := by decide +kernel

end Verif.Bulk
