import Verif.Rowcount.Inv

/-! # What each step does to a basement node -/

namespace Verif.Rowcount

variable {σ μ : Type} {O : Ops σ μ} {R : σ → σ → Prop} {nx : Nat} {dirty cloned : Bool} {b : Base σ μ}

theorem no_mem (h : Inv O R nx dirty cloned b) (hm : b.mem = none) :
    dirty = false ∧ cloned = false ∧ b.clone = none := by
  have a : dirty = false := by
    cases dirty with
    | false => rfl
    | true => have := h.held (Or.inl rfl); rw [hm] at this; cases this
  have c : cloned = false := by
    cases cloned with
    | false => rfl
    | true => have := h.held (Or.inr rfl); rw [hm] at this; cases this
  refine ⟨a, c, ?_⟩
  have k := h.two
  rw [c] at k
  cases hc : b.clone with
  | none => rfl
  | some q => rw [hc] at k; cases k

theorem no_clone (h : Inv O R nx dirty false b) : b.clone = none := by
  have k := h.two
  cases hc : b.clone with
  | none => rfl
  | some q => rw [hc] at k; cases k

theorem home_none (h : b.clone = none) : b.home = (b.disk, b.dupto) := by unfold Base.home; rw [h]

theorem inv_load (h : Inv O R nx dirty cloned b) (hm : b.mem = none) :
    Inv O R nx dirty cloned b.load ∧ b.load.due O = b.due O := by
  obtain ⟨nd, nc, hc⟩ := no_mem h hm
  obtain ⟨h1, h2, ⟨f, h3, h4, h5⟩, h6, h7⟩ := h
  obtain ⟨g, hl⟩ := h5 nd
  rw [home_none hc] at g
  refine ⟨⟨h1, h2, ⟨f, h3, ?_, ?_⟩, fun _ => rfl, h7⟩, ?_⟩
  · intro m e
    have e' : m = { val := b.disk, upto := b.dupto, lrd := 0, sd := 0 } := (Option.some.inj e).symm
    subst e'
    exact ⟨g.le, g.cov, g.rel⟩
  · intro _
    have hh : b.load.home = (b.disk, b.dupto) := home_none (b := b.load) hc
    rw [hh]
    refine ⟨⟨g.le, g.cov, g.rel⟩, ?_⟩
    intro m e
    have e' : m = { val := b.disk, upto := b.dupto, lrd := 0, sd := 0 } := (Option.some.inj e).symm
    subst e'
    dsimp only
    omega
  · show b.load.dueAt O b.load.seenTo = b.dueAt O b.seenTo
    have : b.seenTo = b.dupto := by unfold Base.seenTo; rw [hm]
    rw [this]
    rfl

theorem inv_read (hs : Silent O R) (h : Inv O R nx dirty cloned b) {m : Mem σ} (hm : b.mem = some m) :
    Inv O R nx dirty cloned (b.read O m).1 ∧ (b.read O m).1.due O = b.due O + (b.read O m).2.1 := by
  obtain ⟨h1, h2, ⟨f, h3, h4, h5⟩, h6, h7⟩ := h
  have g := h4 m hm
  have ep : b.pend = b.hist.filter (fun x => decide (f < x.1 ∧ x.1 ≤ nx)) := by
    rw [h3]
    apply List.filter_congr
    intro x hx
    have := h2 x hx
    simp [this]
  have k := advance hs h1 h2 g nx
  rw [← ep] at k
  dsimp only at k
  obtain ⟨k1, k2, k3, k4, k5⟩ := k
  refine ⟨⟨h1, h2, ⟨f, h3, ?_, ?_⟩, fun _ => rfl, h7⟩, ?_⟩
  · intro q e
    have e' := (Option.some.inj e).symm
    subst e'
    refine ⟨k1, ?_, k2⟩
    intro x hx
    rcases k4 x hx with c | c
    · exact Or.inl c
    · exact Or.inr c.1
  · intro nd
    obtain ⟨gh, hl⟩ := h5 nd
    refine ⟨⟨gh.le, gh.cov, gh.rel⟩, ?_⟩
    intro q e
    have e' := (Option.some.inj e).symm
    subst e'
    show m.lrd + _ = b.dueAt O _ - b.dueAt O b.home.2
    rw [k3, hl m hm]
    omega
  · have : b.seenTo = m.upto := by unfold Base.seenTo; rw [hm]
    show b.dueAt O (applyMsgs O m.val m.upto b.pend).2.1 = b.dueAt O b.seenTo + _
    rw [this]
    exact k3

theorem inv_flush (hs : Silent O R) (h : Inv O R nx dirty cloned b) (hf : b.mem.isSome = true) (cut : Nat) :
    Inv O R nx true cloned (b.flush O cut).1 ∧ (b.flush O cut).1.due O = b.due O + (b.flush O cut).2.1 := by
  cases hm : b.mem with
  | none => rw [hm] at hf; cases hf
  | some m =>
    obtain ⟨h1, h2, ⟨f, h3, h4, h5⟩, h6, h7⟩ := h
    have g := h4 m hm
    have ep : b.pend.filter (fun x => decide (x.1 ≤ cut)) = b.hist.filter (fun x => decide (f < x.1 ∧ x.1 ≤ cut)) := by
      rw [h3, List.filter_filter]
      apply List.filter_congr
      intro x hx
      by_cases c : f < x.1 <;> by_cases c2 : x.1 ≤ cut <;> simp [c, c2]
    have ed : b.pend.filter (fun x => decide (cut < x.1)) = b.hist.filter (fun x => decide (max f cut < x.1)) := by
      rw [h3, List.filter_filter]
      apply List.filter_congr
      intro x hx
      by_cases c : f < x.1 <;> by_cases c2 : cut < x.1 <;> simp [c, c2] <;> omega
    have k := advance hs h1 h2 g cut
    rw [← ep] at k
    dsimp only at k
    obtain ⟨k1, k2, k3, k4, k5⟩ := k
    have eq : b.flush O cut =
        ({ b with
            mem := some { val := (applyMsgs O m.val m.upto (b.pend.filter (fun x => decide (x.1 ≤ cut)))).1,
                          upto := (applyMsgs O m.val m.upto (b.pend.filter (fun x => decide (x.1 ≤ cut)))).2.1,
                          lrd := m.lrd,
                          sd := m.sd + (O.size (applyMsgs O m.val m.upto (b.pend.filter (fun x => decide (x.1 ≤ cut)))).1 - O.size m.val) },
            pend := b.pend.filter (fun x => decide (cut < x.1)) },
          (applyMsgs O m.val m.upto (b.pend.filter (fun x => decide (x.1 ≤ cut)))).2.2,
          O.size (applyMsgs O m.val m.upto (b.pend.filter (fun x => decide (x.1 ≤ cut)))).1 - O.size m.val) := by
      unfold Base.flush; rw [hm]
    rw [eq]
    refine ⟨⟨h1, h2, ⟨max f cut, ed, ?_, fun e => by cases e⟩, fun _ => rfl, h7⟩, ?_⟩
    · intro q e
      have e' := (Option.some.inj e).symm
      subst e'
      refine ⟨k1, ?_, k2⟩
      intro x hx
      rcases k4 x hx with c | c
      · exact Or.inl c
      · exact Or.inr (by omega)
    · have : b.seenTo = m.upto := by unfold Base.seenTo; rw [hm]
      show b.dueAt O _ = b.dueAt O b.seenTo + _
      rw [this]
      exact k3

theorem inv_write (hs : Silent O R) (h : Inv O R nx dirty false b) (hf : b.mem.isSome = true) :
    Inv O R nx false false (b.write O).1 ∧ (b.write O).1.due O = b.due O := by
  have hc := no_clone h
  cases hm : b.mem with
  | none => rw [hm] at hf; cases hf
  | some m =>
    obtain ⟨h1, h2, ⟨f, h3, h4, h5⟩, h6, h7⟩ := h
    have g := h4 m hm
    have gg : R (O.gc m.val) (fold O b.init (b.hist.filter (fun x => decide (x.1 ≤ m.upto)))) :=
      hs.trans _ _ _ (hs.gc m.val) g.rel
    have eq : (b.write O).1 = { b with
        disk := O.gc m.val, dupto := m.upto, mem := some { val := O.gc m.val, upto := m.upto, lrd := 0, sd := 0 } } := by
      unfold Base.write; rw [hm]
    rw [eq]
    refine ⟨⟨h1, h2, ⟨f, h3, ?_, ?_⟩, fun _ => rfl, h7⟩, ?_⟩
    · intro q e
      have e' := (Option.some.inj e).symm
      subst e'
      exact ⟨g.le, g.cov, gg⟩
    · intro _
      rw [home_none (by exact hc)]
      refine ⟨⟨g.le, g.cov, gg⟩, ?_⟩
      intro q e
      have e' := (Option.some.inj e).symm
      subst e'
      dsimp only
      omega
    · have : b.seenTo = m.upto := by unfold Base.seenTo; rw [hm]
      show b.dueAt O m.upto = b.dueAt O b.seenTo
      rw [this]

theorem inv_copy (h : Inv O R nx true false b) :
    Inv O R nx false true b.copy.1 ∧ b.copy.1.due O = b.due O := by
  have hf := h.held (Or.inl rfl)
  cases hm : b.mem with
  | none => rw [hm] at hf; cases hf
  | some m =>
    obtain ⟨h1, h2, ⟨f, h3, h4, h5⟩, h6, h7⟩ := h
    have g := h4 m hm
    have eq : b.copy.1 = { b with
        clone := some (m.val, m.upto), mem := some { m with lrd := 0, sd := 0 } } := by
      unfold Base.copy; rw [hm]
    rw [eq]
    refine ⟨⟨h1, h2, ⟨f, h3, ?_, ?_⟩, fun _ => rfl, rfl⟩, ?_⟩
    · intro q e
      have e' := (Option.some.inj e).symm
      subst e'
      exact ⟨g.le, g.cov, g.rel⟩
    · intro _
      refine ⟨⟨g.le, g.cov, g.rel⟩, ?_⟩
      intro q e
      have e' := (Option.some.inj e).symm
      subst e'
      show (0 : Int) = b.dueAt O m.upto - b.dueAt O m.upto
      omega
    · have : b.seenTo = m.upto := by unfold Base.seenTo; rw [hm]
      show b.dueAt O m.upto = b.dueAt O b.seenTo
      rw [this]

theorem inv_writeCopy (hs : Silent O R) (h : Inv O R nx dirty true b) :
    Inv O R nx dirty false (b.writeCopy O).1 ∧ (b.writeCopy O).1.due O = b.due O := by
  have hf := h.held (Or.inr rfl)
  have ht := h.two
  cases hm : b.mem with
  | none => rw [hm] at hf; cases hf
  | some m =>
    cases hc : b.clone with
    | none => rw [hc] at ht; cases ht
    | some c =>
      obtain ⟨cv, cu⟩ := c
      obtain ⟨h1, h2, ⟨f, h3, h4, h5⟩, h6, h7⟩ := h
      have eq : (b.writeCopy O).1 = { b with disk := O.gc cv, dupto := cu, clone := none } := by
        unfold Base.writeCopy; rw [hc]
      have hh : b.home = (cv, cu) := by unfold Base.home; rw [hc]
      rw [eq]
      refine ⟨⟨h1, h2, ⟨f, h3, ?_, ?_⟩, ?_, rfl⟩, ?_⟩
      · intro q e
        exact ⟨(h4 q e).le, (h4 q e).cov, (h4 q e).rel⟩
      · intro nd
        obtain ⟨g, hl⟩ := h5 nd
        rw [hh] at g hl
        exact ⟨⟨g.le, g.cov, hs.trans _ _ _ (hs.gc cv) g.rel⟩, hl⟩
      · intro _; rw [hm]; rfl
      · have : b.seenTo = m.upto := by unfold Base.seenTo; rw [hm]
        show b.dueAt O (Base.seenTo { b with disk := O.gc cv, dupto := cu, clone := none }) = b.dueAt O b.seenTo
        rw [this]
        unfold Base.seenTo
        rw [hm]

theorem inv_forget (h : Inv O R nx false false b) :
    Inv O R nx false false b.forget ∧ b.forget.due O = b.due O + b.undo := by
  have hc := no_clone h
  obtain ⟨h1, h2, ⟨f, h3, h4, h5⟩, h6, h7⟩ := h
  obtain ⟨g, hl⟩ := h5 rfl
  rw [home_none hc] at g hl
  refine ⟨⟨h1, h2, ⟨f, h3, fun q e => (by cases e), ?_⟩, ?_, h7⟩, ?_⟩
  · intro _
    have hh : b.forget.home = (b.disk, b.dupto) := home_none (b := b.forget) hc
    rw [hh]
    exact ⟨⟨g.le, g.cov, g.rel⟩, fun q e => by cases e⟩
  · rintro (e | e) <;> cases e
  · show b.dueAt O b.dupto = b.dueAt O b.seenTo + b.undo
    unfold Base.seenTo Base.undo
    cases hm : b.mem with
    | none => dsimp only; omega
    | some m =>
      have := hl m hm
      dsimp only at this ⊢
      omega

end Verif.Rowcount
