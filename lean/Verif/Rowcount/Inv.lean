import Verif.Rowcount.Lemmas

/-! # What holds of every basement node -/

namespace Verif.Rowcount

variable {σ μ : Type}

/-- The version that is on disk or being written. -/
def Base.home (b : Base σ μ) : σ × Nat :=
  match b.clone with
  | some c => c
  | none => (b.disk, b.dupto)

/-- A version of a basement node is right, and the messages it lacks are still above it. -/
structure Good (O : Ops σ μ) (R : σ → σ → Prop) (nx f : Nat) (b : Base σ μ) (v : σ) (u : Nat) : Prop where
  le : u ≤ nx
  cov : ∀ x, x ∈ b.hist → x.1 ≤ u ∨ f < x.1
  rel : R v (fold O b.init (b.hist.filter (fun x => decide (x.1 ≤ u))))

structure Inv (O : Ops σ μ) (R : σ → σ → Prop) (nx : Nat) (dirty cloned : Bool) (b : Base σ μ) : Prop where
  asc : Asc b.hist
  le : ∀ x, x ∈ b.hist → x.1 ≤ nx
  main : ∃ f, b.pend = b.hist.filter (fun x => decide (f < x.1)) ∧
    (∀ m, b.mem = some m → Good O R nx f b m.val m.upto) ∧
    (dirty = false → Good O R nx f b b.home.1 b.home.2 ∧
      ∀ m, b.mem = some m → m.lrd = b.dueAt O m.upto - b.dueAt O b.home.2)
  held : dirty = true ∨ cloned = true → b.mem.isSome = true
  two : b.clone.isSome = cloned

theorem advance {O : Ops σ μ} {R : σ → σ → Prop} (hs : Silent O R) {nx f : Nat} {b : Base σ μ} {v : σ} {u : Nat}
    (ha : Asc b.hist) (hl : ∀ x, x ∈ b.hist → x.1 ≤ nx) (g : Good O R nx f b v u) (cut : Nat) :
    let r := applyMsgs O v u (b.hist.filter (fun x => decide (f < x.1 ∧ x.1 ≤ cut)))
    r.2.1 ≤ nx ∧ R r.1 (fold O b.init (b.hist.filter (fun x => decide (x.1 ≤ r.2.1)))) ∧
    b.dueAt O r.2.1 = b.dueAt O u + r.2.2 ∧ (∀ x, x ∈ b.hist → x.1 ≤ r.2.1 ∨ (f < x.1 ∧ cut < x.1)) ∧ u ≤ r.2.1 := by
  intro r
  have hr : r = applyMsgs O v u (b.hist.filter (fun x => decide (f < x.1 ∧ x.1 ≤ cut))) := rfl
  obtain ⟨i1, i2, i3, i4, i5⟩ := apply_spec O (b.hist.filter (fun x => decide (f < x.1 ∧ x.1 ≤ cut)))
    (asc_filter _ ha) v u
  rw [← hr] at i1 i2 i3 i4 i5
  have e : (b.hist.filter (fun x => decide (f < x.1 ∧ x.1 ≤ cut))).filter (fun x => decide (u < x.1)) =
      b.hist.filter (fun x => decide (u < x.1 ∧ x.1 ≤ r.2.1)) := by
    rw [List.filter_filter]
    apply List.filter_congr
    intro x hx
    rcases g.cov x hx with c | c
    · have : ¬ u < x.1 := by omega
      simp [this]
    · by_cases k : u < x.1
      · by_cases k2 : x.1 ≤ cut
        · have := i4 x (List.mem_filter.mpr ⟨hx, by simp; exact ⟨c, k2⟩⟩)
          simp [k, c, k2, this]
        · have k3 : ¬ x.1 ≤ r.2.1 := by
            rcases i5 with h | ⟨y, hy, h⟩
            · omega
            · have := (List.mem_filter.mp hy).2
              simp at this
              omega
          simp [k2, k3]
      · simp [k]
  have sp := filter_split ha i3
  rw [e] at i1 i2
  refine ⟨?_, ?_, ?_, ?_, i3⟩
  · rcases i5 with h | ⟨y, hy, h⟩
    · rw [h]; exact g.le
    · rw [← h]; exact hl y (List.mem_filter.mp hy).1
  · rw [sp, fold_append, i1]
    exact (silent_fold hs _ _ _ g.rel).2
  · unfold Base.dueAt
    rw [sp, tally_append, i2, (silent_fold hs _ _ _ g.rel).1]
  · intro x hx
    rcases g.cov x hx with c | c
    · exact Or.inl (by omega)
    · by_cases k2 : x.1 ≤ cut
      · exact Or.inl (i4 x (List.mem_filter.mpr ⟨hx, by simp; exact ⟨c, k2⟩⟩))
      · exact Or.inr ⟨c, by omega⟩

variable {O : Ops σ μ} {R : σ → σ → Prop} {nx : Nat} {dirty cloned : Bool} {b : Base σ μ}

/-- A message of a new number changes nothing that was known. -/
theorem dueAt_send (b : Base σ μ) (nx u : Nat) (m : μ) (h : u ≤ nx) :
    (b.send (nx + 1) m).dueAt O u = b.dueAt O u := by
  unfold Base.dueAt Base.send
  dsimp only
  rw [List.filter_append, List.filter_cons_of_neg (by simp; omega)]
  simp

theorem good_send {f u : Nat} {v : σ} (m : μ) (hf : f ≤ nx) (g : Good O R nx f b v u) :
    Good O R (nx + 1) f (b.send (nx + 1) m) v u := by
  obtain ⟨g1, g2, g3⟩ := g
  refine ⟨by omega, ?_, ?_⟩
  · intro x hx
    rcases List.mem_append.mp hx with k | k
    · exact g2 x k
    · rw [List.mem_singleton] at k; subst k; right; simp only; omega
  · show R v (fold O b.init ((b.hist ++ [(nx + 1, m)]).filter _))
    rw [List.filter_append, List.filter_cons_of_neg (by simp; omega)]
    simpa using g3

theorem inv_send (m : μ) (h : Inv O R nx dirty cloned b) : Inv O R (nx + 1) dirty cloned (b.send (nx + 1) m) := by
  obtain ⟨h1, h2, ⟨f, h3, h4, h5⟩, h6, h7⟩ := h
  -- the mark can be taken small enough
  have h3' : b.pend = b.hist.filter (fun x => decide (min f nx < x.1)) := by
    rw [h3]
    apply List.filter_congr
    intro x hx
    have := h2 x hx
    by_cases c : f < x.1
    · simp [c]; omega
    · have : ¬ min f nx < x.1 := by omega
      simp [c]; omega
  have gm : ∀ v u, Good O R nx f b v u → Good O R nx (min f nx) b v u := by
    intro v u ⟨a1, a2, a3⟩
    exact ⟨a1, fun x hx => by rcases a2 x hx with k | k <;> omega, a3⟩
  refine ⟨?_, ?_, ⟨min f nx, ?_, ?_, ?_⟩, h6, h7⟩
  · apply List.pairwise_append.mpr
    refine ⟨h1, List.pairwise_singleton _ _, ?_⟩
    intro x hx y hy
    rw [List.mem_singleton] at hy; subst hy
    have := h2 x hx
    simp only; omega
  · intro x hx
    rcases List.mem_append.mp hx with k | k
    · have := h2 x k; omega
    · rw [List.mem_singleton] at k; subst k; exact Nat.le_refl _
  · show b.pend ++ [(nx + 1, m)] = (b.hist ++ [(nx + 1, m)]).filter _
    rw [List.filter_append, List.filter_cons_of_pos (by simp; omega), h3']
    simp
  · intro q hq
    exact good_send m (by omega) (gm _ _ (h4 q hq))
  · intro hd
    obtain ⟨g, hl⟩ := h5 hd
    refine ⟨good_send m (by omega) (gm _ _ g), ?_⟩
    intro q hq
    rw [dueAt_send b nx q.upto m (h4 q hq).le]
    show q.lrd = _ - (b.send (nx + 1) m).dueAt O b.home.2
    rw [dueAt_send b nx b.home.2 m g.le]
    exact hl q hq

theorem due_send (m : μ) (h : Inv O R nx dirty cloned b) : (b.send (nx + 1) m).due O = b.due O := by
  obtain ⟨h1, h2, ⟨f, h3, h4, h5⟩, h6, h7⟩ := h
  show (b.send (nx + 1) m).dueAt O b.seenTo = b.dueAt O b.seenTo
  apply dueAt_send
  unfold Base.seenTo
  cases hm : b.mem with
  | some q => exact (h4 q hm).le
  | none =>
    have nd : dirty = false := by
      cases dirty with
      | false => rfl
      | true => have := h6 (Or.inl rfl); rw [hm] at this; cases this
    have nc : b.clone = none := by
      cases cloned with
      | false =>
        cases hc : b.clone with
        | none => rfl
        | some c => rw [hc] at h7; cases h7
      | true => have := h6 (Or.inr rfl); rw [hm] at this; cases this
    have := (h5 nd).1.le
    unfold Base.home at this
    rw [nc] at this
    exact this

end Verif.Rowcount
