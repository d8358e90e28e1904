import Verif.Rowcount.Steps

/-! # The physical counts -/

namespace Verif.Rowcount

variable {σ μ : Type} {O : Ops σ μ}

/-- What holds of every basement node, as far as the physical counts go. -/
structure SInv (O : Ops σ μ) (dirty cloned : Bool) (b : Base σ μ) : Prop where
  sd : ∀ m, b.mem = some m → m.sd = O.size m.val - O.size b.home.1
  held : dirty = true ∨ cloned = true → b.mem.isSome = true
  two : b.clone.isSome = cloned
  clean : ∀ v u, b.clone = some (v, u) → O.size (O.gc v) = O.size v

/-- A leaf as a checkpoint leaves it on disk. -/
def Flat (l : Leaf σ μ) : Prop :=
  l.dirty = false ∧ l.cloned = false ∧ ∀ b, b ∈ l.bases → b.mem = none ∧ b.clone = none

structure SAll (O : Ops σ μ) (s : St σ μ) : Prop where
  each : ∀ l, l ∈ s.leaves → ∀ b, b ∈ l.bases → SInv O l.dirty l.cloned b
  mem : s.stats = total (fun b => O.size b.view) s.leaves
  disk : s.onDisk = total (fun b => O.size b.home.1) s.leaves
  ckpt : ∀ c, s.ckpt = some c → c.stats = total (fun b => O.size b.disk) c.leaves ∧ ∀ l, l ∈ c.leaves → Flat l
  saved : s.saved.stats = total (fun b => O.size b.disk) s.saved.leaves ∧ ∀ l, l ∈ s.saved.leaves → Flat l

theorem view_some {b : Base σ μ} {m : Mem σ} (h : b.mem = some m) : b.view = m.val := by unfold Base.view; rw [h]
theorem view_none {b : Base σ μ} (h : b.mem = none) : b.view = b.disk := by unfold Base.view; rw [h]

theorem s_no_mem {d c : Bool} {b : Base σ μ} (h : SInv O d c b) (hm : b.mem = none) :
    d = false ∧ c = false ∧ b.clone = none := by
  have a : d = false := by
    cases d with
    | false => rfl
    | true => have := h.held (Or.inl rfl); rw [hm] at this; cases this
  have e : c = false := by
    cases c with
    | false => rfl
    | true => have := h.held (Or.inr rfl); rw [hm] at this; cases this
  refine ⟨a, e, ?_⟩
  have k := h.two
  rw [e] at k
  cases hc : b.clone with
  | none => rfl
  | some q => rw [hc] at k; cases k

theorem s_no_clone {d : Bool} {b : Base σ μ} (h : SInv O d false b) : b.clone = none := by
  have k := h.two
  cases hc : b.clone with
  | none => rfl
  | some q => rw [hc] at k; cases k

/-- Base-level facts: invariant, change of the view, change of the home. -/
structure Moves (O : Ops σ μ) (b b' : Base σ μ) (d c : Bool) (dv dh : Int) : Prop where
  inv : SInv O d c b'
  view : O.size b'.view = O.size b.view + dv
  home : O.size b'.home.1 = O.size b.home.1 + dh

theorem m_send {d c : Bool} {b : Base σ μ} (n : Nat) (m : μ) (h : SInv O d c b) : Moves O b (b.send n m) d c 0 0 :=
  ⟨⟨h.sd, h.held, h.two, h.clean⟩, (Int.add_zero _).symm, (Int.add_zero _).symm⟩

theorem m_load {d c : Bool} {b : Base σ μ} (h : SInv O d c b) (hm : b.mem = none) : Moves O b b.load d c 0 0 := by
  obtain ⟨a1, a2, a3⟩ := s_no_mem h hm
  have hh : b.load.home = (b.disk, b.dupto) := home_none (b := b.load) a3
  refine ⟨⟨?_, fun _ => rfl, h.two, h.clean⟩, ?_, ?_⟩
  · intro m e
    have e' := (Option.some.inj e).symm
    subst e'
    rw [hh]; dsimp only; omega
  · rw [view_none hm]; show O.size b.disk = _; omega
  · rw [hh, home_none a3]; dsimp only; omega

theorem m_read {d c : Bool} {b : Base σ μ} {m : Mem σ} (h : SInv O d c b) (hm : b.mem = some m) :
    Moves O b (b.read O m).1 d c (b.read O m).2.2 0 := by
  refine ⟨⟨?_, fun _ => rfl, h.two, h.clean⟩, ?_, (Int.add_zero _).symm⟩
  · intro q e
    have e' := (Option.some.inj e).symm
    subst e'
    have := h.sd m hm
    show m.sd + (O.size (applyMsgs O m.val m.upto b.pend).1 - O.size m.val) = O.size (applyMsgs O m.val m.upto b.pend).1 - O.size b.home.1
    omega
  · rw [view_some hm]
    show O.size (applyMsgs O m.val m.upto b.pend).1 = O.size m.val + (O.size (applyMsgs O m.val m.upto b.pend).1 - O.size m.val)
    omega

theorem m_flush {d c : Bool} {b : Base σ μ} (h : SInv O d c b) (hf : b.mem.isSome = true) (cut : Nat) :
    Moves O b (b.flush O cut).1 true c (b.flush O cut).2.2 0 := by
  cases hm : b.mem with
  | none => rw [hm] at hf; cases hf
  | some m =>
    have h0 := h.sd m hm
    unfold Base.flush
    rw [hm]
    dsimp only
    refine ⟨⟨?_, fun _ => rfl, h.two, h.clean⟩, ?_, (Int.add_zero _).symm⟩
    · intro q e
      have e' := (Option.some.inj e).symm
      subst e'
      generalize (applyMsgs O m.val m.upto (b.pend.filter (fun x => decide (x.1 ≤ cut)))).1 = w
      show m.sd + (O.size w - O.size m.val) = O.size w - O.size b.home.1
      omega
    · rw [view_some hm]
      generalize (applyMsgs O m.val m.upto (b.pend.filter (fun x => decide (x.1 ≤ cut)))) = w
      show O.size w.1 = O.size m.val + (O.size w.1 - O.size m.val)
      omega

theorem m_write {d : Bool} {b : Base σ μ} (h : SInv O d false b) (hf : b.mem.isSome = true) :
    Moves O b (b.write O).1 false false (b.write O).2.1 (b.write O).2.2 := by
  have hc := s_no_clone h
  cases hm : b.mem with
  | none => rw [hm] at hf; cases hf
  | some m =>
    have h0 := h.sd m hm
    rw [home_none hc] at h0
    unfold Base.write
    rw [hm]
    dsimp only at h0 ⊢
    refine ⟨⟨?_, fun _ => rfl, h.two, h.clean⟩, ?_, ?_⟩
    · intro q e
      have e' := (Option.some.inj e).symm
      subst e'
      rw [home_none (by exact hc)]
      dsimp only
      omega
    · rw [view_some hm]
      show O.size (O.gc m.val) = _
      omega
    · rw [home_none (by exact hc), home_none hc]
      dsimp only
      omega

theorem m_copy {b : Base σ μ} (h : SInv O true false b)
    (hg : ∀ m, b.mem = some m → O.size (O.gc m.val) = O.size m.val) :
    Moves O b b.copy.1 false true 0 b.copy.2 := by
  have hc := s_no_clone h
  have hf := h.held (Or.inl rfl)
  cases hm : b.mem with
  | none => rw [hm] at hf; cases hf
  | some m =>
    have h0 := h.sd m hm
    unfold Base.copy
    rw [hm]
    dsimp only
    refine ⟨⟨?_, fun _ => rfl, rfl, ?_⟩, ?_, ?_⟩
    · intro q e
      have e' := (Option.some.inj e).symm
      subst e'
      show (0 : Int) = O.size m.val - O.size m.val
      omega
    · intro v u e
      have e' := Option.some.inj e
      have e1 : m.val = v := congrArg Prod.fst e'
      rw [← e1]; exact hg m hm
    · rw [view_some hm]; show O.size m.val = _; omega
    · show O.size m.val = _; omega

theorem m_writeCopy {d : Bool} {b : Base σ μ} (h : SInv O d true b) :
    Moves O b (b.writeCopy O).1 d false 0 0 ∧ (b.writeCopy O).2.1 + (b.writeCopy O).2.2 = 0 := by
  have hf := h.held (Or.inr rfl)
  have ht := h.two
  cases hm : b.mem with
  | none => rw [hm] at hf; cases hf
  | some m =>
    cases hc : b.clone with
    | none => rw [hc] at ht; cases ht
    | some c =>
      obtain ⟨cv, cu⟩ := c
      have h0 := h.sd m hm
      have hg := h.clean cv cu hc
      have hh : b.home = (cv, cu) := by unfold Base.home; rw [hc]
      rw [hh] at h0
      unfold Base.writeCopy
      rw [hc]
      dsimp only at h0 ⊢
      refine ⟨⟨⟨?_, ?_, rfl, fun v u e => (by cases e)⟩, ?_, ?_⟩, by omega⟩
      · intro q e
        have e' : m = q := Option.some.inj (hm.symm.trans e)
        subst e'
        show m.sd = O.size m.val - O.size (O.gc cv)
        omega
      · intro _; show b.mem.isSome = true; rw [hm]; rfl
      · show O.size (Base.view { b with disk := O.gc cv, dupto := cu, clone := none }) = _
        rw [view_some hm, view_some (m := m) (by exact hm)]; omega
      · rw [hh]; show O.size (O.gc cv) = O.size cv + 0; omega

theorem m_forget {b : Base σ μ} (h : SInv O false false b) {sd : Int}
    (hs : (∀ m, b.mem = some m → m.sd = sd) ∧ (b.mem = none → sd = 0)) :
    Moves O b b.forget false false (- sd) 0 := by
  have hc := s_no_clone h
  refine ⟨⟨fun q e => (by cases e), ?_, h.two, h.clean⟩, ?_, (Int.add_zero _).symm⟩
  · rintro (e | e) <;> cases e
  · show O.size b.disk = _
    cases hm : b.mem with
    | none => rw [view_none hm, hs.2 hm]; omega
    | some m =>
      have := h.sd m hm
      rw [home_none hc, hs.1 m hm] at this
      rw [view_some hm]
      dsimp only at this
      omega

theorem s_one_base {s : St σ μ} (h : SAll O s) {l i : Nat} {lf : Leaf σ μ} {b b' : Base σ μ}
    (hl : s.leaves[l]? = some lf) (hb : lf.bases[i]? = some b) {dv dh : Int}
    (k : Moves O b b' lf.dirty lf.cloned dv dh) {ls : List (Leaf σ μ)}
    (e : ls = s.leaves.set l { lf with bases := lf.bases.set i b' }) :
    (∀ q, q ∈ ls → ∀ x, x ∈ q.bases → SInv O q.dirty q.cloned x) ∧
    total (fun b => O.size b.view) ls = s.stats + dv ∧ total (fun b => O.size b.home.1) ls = s.onDisk + dh := by
  subst e
  refine ⟨?_, ?_, ?_⟩
  · intro q hq x hx
    rcases mem_set hq with e | e
    · exact h.each q e x hx
    · subst e
      rcases mem_set hx with e | e
      · exact h.each lf (getMem hl) x e
      · subst e; exact k.inv
  · rw [total_set _ hl, h.mem]
    dsimp only
    rw [sum_set _ lf.bases i b' b hb, k.view]
    omega
  · rw [total_set _ hl, h.disk]
    dsimp only
    rw [sum_set _ lf.bases i b' b hb, k.home]
    omega

theorem s_one_leaf {s : St σ μ} (h : SAll O s) {l : Nat} {lf : Leaf σ μ} (hl : s.leaves[l]? = some lf)
    (g : Base σ μ → Base σ μ) (dv dh : Base σ μ → Int) (d cl : Bool)
    (k : ∀ b, b ∈ lf.bases → Moves O b (g b) d cl (dv b) (dh b)) :
    (∀ q, q ∈ s.leaves.set l { bases := lf.bases.map g, dirty := d, cloned := cl } → ∀ x, x ∈ q.bases →
      SInv O q.dirty q.cloned x) ∧
    total (fun b => O.size b.view) (s.leaves.set l { bases := lf.bases.map g, dirty := d, cloned := cl }) =
      s.stats + (lf.bases.map dv).sum ∧
    total (fun b => O.size b.home.1) (s.leaves.set l { bases := lf.bases.map g, dirty := d, cloned := cl }) =
      s.onDisk + (lf.bases.map dh).sum := by
  refine ⟨?_, ?_, ?_⟩
  · intro q hq x hx
    rcases mem_set hq with e | e
    · exact h.each q e x hx
    · subst e
      obtain ⟨y, hy, e⟩ := List.mem_map.mp hx
      subst e
      exact (k y hy).inv
  · rw [total_set _ hl, h.mem]
    dsimp only
    rw [sum_map_step (fun b => O.size b.view) dv g (fun x hx => (k x hx).view)]
    omega
  · rw [total_set _ hl, h.disk]
    dsimp only
    rw [sum_map_step (fun b => O.size b.home.1) dh g (fun x hx => (k x hx).home)]
    omega

theorem flat_inv {l : Leaf σ μ} (h : Flat l) {b : Base σ μ} (hb : b ∈ l.bases) : SInv O l.dirty l.cloned b := by
  obtain ⟨h1, h2, h3⟩ := h
  obtain ⟨k1, k2⟩ := h3 b hb
  rw [h1, h2]
  refine ⟨?_, ?_, ?_, ?_⟩
  · intro m e; rw [k1] at e; cases e
  · rintro (e | e) <;> cases e
  · rw [k2]; rfl
  · intro v u e; rw [k2] at e; cases e

theorem total_congr {f g : Base σ μ → Int} {ls : List (Leaf σ μ)}
    (h : ∀ l, l ∈ ls → ∀ b, b ∈ l.bases → f b = g b) : total f ls = total g ls :=
  sum_congr (fun l hl => sum_congr (h l hl))

theorem step_stats {s t : St σ μ} (e : Ev μ) (h : SAll O s) (hst : step O s e = some t)
    (ho : harmless O s e = true) : SAll O t := by
  cases e with
  | oldUpdate => simp only [step] at hst; cases hst; exact ⟨h.each, h.mem, h.disk, h.ckpt, h.saved⟩
  | restart =>
    simp only [step] at hst
    cases hst
    obtain ⟨a, b⟩ := h.saved
    refine ⟨fun l hl x hx => flat_inv (b l hl) hx, ?_, ?_, fun c e => (by cases e), h.saved⟩
    · show s.saved.stats = _
      rw [a]
      exact total_congr (fun l hl x hx => by rw [view_none ((b l hl).2.2 x hx).1])
    · show s.saved.stats = _
      rw [a]
      exact total_congr (fun l hl x hx => by rw [home_none ((b l hl).2.2 x hx).2])
  | put l i m =>
    simp only [step] at hst
    cases hl : s.leaves[l]? with
    | none => rw [hl] at hst; cases hst
    | some lf =>
      rw [hl] at hst; dsimp only at hst
      cases hb : lf.bases[i]? with
      | none => rw [hb] at hst; cases hst
      | some b =>
        rw [hb] at hst; dsimp only at hst
        cases hst
        obtain ⟨a1, a2, a3⟩ := s_one_base h hl hb (m_send (s.next + 1) m (h.each lf (getMem hl) b (getMem hb))) rfl
        exact ⟨a1, by rw [a2]; exact (Int.add_zero _).symm, by rw [a3]; exact (Int.add_zero _).symm, h.ckpt, h.saved⟩
  | broadcast m =>
    simp only [step] at hst
    cases hst
    refine ⟨?_, ?_, ?_, h.ckpt, h.saved⟩
    · intro q hq x hx
      obtain ⟨l, hl, e⟩ := List.mem_map.mp hq
      subst e
      obtain ⟨b, hb, e⟩ := List.mem_map.mp hx
      subst e
      exact (m_send _ m (h.each l hl b hb)).inv
    · show s.stats = _
      dsimp only
      rw [total_map _ _ (fun l hl => by dsimp only; rw [List.map_map]; rfl)]
      exact h.mem
    · show s.onDisk = _
      dsimp only
      rw [total_map _ _ (fun l hl => by dsimp only; rw [List.map_map]; rfl)]
      exact h.disk
  | load l i =>
    simp only [step] at hst
    cases hl : s.leaves[l]? with
    | none => rw [hl] at hst; cases hst
    | some lf =>
      rw [hl] at hst; dsimp only at hst
      cases hb : lf.bases[i]? with
      | none => rw [hb] at hst; cases hst
      | some b =>
        rw [hb] at hst; dsimp only at hst
        by_cases hm : b.mem = none
        · rw [if_pos hm] at hst
          cases hst
          obtain ⟨a1, a2, a3⟩ := s_one_base h hl hb (m_load (h.each lf (getMem hl) b (getMem hb)) hm) rfl
          exact ⟨a1, (a2.trans (Int.add_zero _)).symm, (a3.trans (Int.add_zero _)).symm, h.ckpt, h.saved⟩
        · rw [if_neg hm] at hst; cases hst
  | read l i =>
    simp only [step] at hst
    cases hl : s.leaves[l]? with
    | none => rw [hl] at hst; cases hst
    | some lf =>
      rw [hl] at hst; dsimp only at hst
      cases hb : lf.bases[i]? with
      | none => rw [hb] at hst; cases hst
      | some b =>
        rw [hb] at hst; dsimp only at hst
        cases hm : b.mem with
        | none => rw [hm] at hst; cases hst
        | some m =>
          rw [hm] at hst; dsimp only at hst
          cases hst
          obtain ⟨a1, a2, a3⟩ := s_one_base h hl hb (m_read (h.each lf (getMem hl) b (getMem hb)) hm) rfl
          exact ⟨a1, a2.symm, (a3.trans (Int.add_zero _)).symm, h.ckpt, h.saved⟩
  | flush l cut =>
    simp only [step] at hst
    cases hl : s.leaves[l]? with
    | none => rw [hl] at hst; cases hst
    | some lf =>
      rw [hl] at hst; dsimp only at hst
      by_cases hf : lf.full = true
      · rw [if_pos hf] at hst
        cases hst
        obtain ⟨a1, a2, a3⟩ := s_one_leaf h hl (fun b => (b.flush O cut).1) (fun b => (b.flush O cut).2.2) (fun _ => 0)
          true lf.cloned (fun b hb => m_flush (h.each lf (getMem hl) b hb) (List.all_eq_true.mp hf b hb) cut)
        rw [sum_zero _ _ (fun _ _ => rfl)] at a3
        exact ⟨a1, a2.symm, (a3.trans (Int.add_zero _)).symm, h.ckpt, h.saved⟩
      · rw [if_neg hf] at hst; cases hst
  | write l =>
    simp only [step] at hst
    cases hl : s.leaves[l]? with
    | none => rw [hl] at hst; cases hst
    | some lf =>
      rw [hl] at hst; dsimp only at hst
      by_cases hf : (lf.full && lf.dirty && !lf.cloned) = true
      · rw [if_pos hf] at hst
        cases hst
        simp only [Bool.and_eq_true, Bool.not_eq_true'] at hf
        obtain ⟨⟨f1, f2⟩, f3⟩ := hf
        obtain ⟨a1, a2, a3⟩ := s_one_leaf h hl (fun b => (b.write O).1) (fun b => (b.write O).2.1)
          (fun b => (b.write O).2.2) false lf.cloned
          (fun b hb => by
            have hi := h.each lf (getMem hl) b hb
            rw [f3] at hi ⊢
            exact m_write hi (List.all_eq_true.mp f1 b hb))
        exact ⟨a1, a2.symm, a3.symm, h.ckpt, h.saved⟩
      · rw [if_neg hf] at hst; cases hst
  | writeClone l =>
    simp only [step] at hst
    cases hl : s.leaves[l]? with
    | none => rw [hl] at hst; cases hst
    | some lf =>
      rw [hl] at hst; dsimp only at hst
      by_cases hf : lf.cloned = true
      · rw [if_pos hf] at hst
        cases hst
        have hi : ∀ b, b ∈ lf.bases → SInv O lf.dirty true b := by
          intro b hb
          have := h.each lf (getMem hl) b hb
          rw [hf] at this
          exact this
        obtain ⟨a1, a2, a3⟩ := s_one_leaf h hl (fun b => (b.writeCopy O).1) (fun _ => 0) (fun _ => 0) lf.dirty false
          (fun b hb => (m_writeCopy (hi b hb)).1)
        rw [sum_zero _ _ (fun _ _ => rfl)] at a2 a3
        have z : (lf.bases.map (fun b => (b.writeCopy O).2.1)).sum + (lf.bases.map (fun b => (b.writeCopy O).2.2)).sum = 0 := by
          rw [← sum_add]
          exact sum_zero _ _ (fun b hb => (m_writeCopy (hi b hb)).2)
        refine ⟨a1, ?_, (a3.trans (Int.add_zero _)).symm, h.ckpt, h.saved⟩
        show s.stats + _ + _ = _
        rw [a2]
        omega
      · rw [if_neg hf] at hst; cases hst
  | evict l =>
    simp only [step] at hst
    cases hl : s.leaves[l]? with
    | none => rw [hl] at hst; cases hst
    | some lf =>
      rw [hl] at hst; dsimp only at hst
      by_cases hf : (!lf.dirty && !lf.cloned) = true
      · rw [if_pos hf] at hst
        cases hst
        simp only [Bool.and_eq_true, Bool.not_eq_true'] at hf
        obtain ⟨f1, f2⟩ := hf
        simp only [harmless] at ho
        rw [hl] at ho
        obtain ⟨a1, a2, a3⟩ := s_one_leaf h hl Base.forget (fun _ => 0) (fun _ => 0) lf.dirty lf.cloned
          (fun b hb => by
            have hi := h.each lf (getMem hl) b hb
            rw [f1, f2] at hi ⊢
            refine m_forget (sd := 0) hi ?_
            have hz := List.all_eq_true.mp ho b hb
            refine ⟨?_, fun _ => rfl⟩
            intro m hm
            rw [hm] at hz
            exact of_decide_eq_true hz)
        rw [sum_zero _ _ (fun _ _ => rfl)] at a2 a3
        exact ⟨a1, (a2.trans (Int.add_zero _)).symm, (a3.trans (Int.add_zero _)).symm, h.ckpt, h.saved⟩
      · rw [if_neg hf] at hst; cases hst
  | drop l i =>
    simp only [step] at hst
    cases hl : s.leaves[l]? with
    | none => rw [hl] at hst; cases hst
    | some lf =>
      rw [hl] at hst; dsimp only at hst
      cases hb : lf.bases[i]? with
      | none => rw [hb] at hst; cases hst
      | some b =>
        rw [hb] at hst; dsimp only at hst
        cases hm : b.mem with
        | none => rw [hm] at hst; cases hst
        | some m =>
          rw [hm] at hst; dsimp only at hst
          by_cases hf : (!lf.dirty && !lf.cloned) = true
          · rw [if_pos hf] at hst
            cases hst
            simp only [Bool.and_eq_true, Bool.not_eq_true'] at hf
            obtain ⟨f1, f2⟩ := hf
            have hi := h.each lf (getMem hl) b (getMem hb)
            rw [f1, f2] at hi
            have mv := m_forget hi (sd := m.sd) ⟨fun q e => by
              rw [hm] at e; cases e; rfl, fun e => by rw [hm] at e; cases e⟩
            obtain ⟨a1, a2, a3⟩ := s_one_base h hl hb (b' := b.forget) (dv := - m.sd) (dh := 0) (by rw [f1, f2]; exact mv) rfl
            exact ⟨a1, a2.symm, (a3.trans (Int.add_zero _)).symm, h.ckpt, h.saved⟩
          · rw [if_neg hf] at hst; cases hst
  | beginCkpt =>
    simp only [step] at hst
    by_cases hf : s.ckpt = none ∧ s.leaves.all (fun l => !l.cloned) = true
    · rw [if_pos hf] at hst
      cases hst
      have hc : ∀ l, l ∈ s.leaves → l.cloned = false := by
        intro l hl
        simpa using List.all_eq_true.mp hf.2 l hl
      have hg : ∀ l, l ∈ s.leaves → l.dirty = true → ∀ b, b ∈ l.bases → ∀ m, b.mem = some m →
          O.size (O.gc m.val) = O.size m.val := by
        intro l hl hd b hb m hm
        simp only [harmless] at ho
        have k := List.all_eq_true.mp ho l hl
        rw [hd] at k
        simp only [Bool.not_true, Bool.false_or] at k
        have k2 := List.all_eq_true.mp k b hb
        rw [hm] at k2
        exact of_decide_eq_true k2
      have key : ∀ l, l ∈ s.leaves → (∀ b, b ∈ l.copy.1.bases → SInv O l.copy.1.dirty l.copy.1.cloned b) ∧
          (l.copy.1.bases.map (fun b => O.size b.view)).sum = (l.bases.map (fun b => O.size b.view)).sum ∧
          (l.copy.1.bases.map (fun b => O.size b.home.1)).sum = (l.bases.map (fun b => O.size b.home.1)).sum + l.copy.2 ∧
          ((l.image O).bases.map (fun b => O.size b.disk)).sum = (l.bases.map (fun b => O.size b.home.1)).sum + l.copy.2 ∧
          Flat (l.image O) := by
        intro l hl
        have fl : Flat (l.image O) := by
          refine ⟨rfl, rfl, ?_⟩
          intro x hx
          obtain ⟨b, hb, e⟩ := List.mem_map.mp hx
          subst e
          unfold Base.image
          cases l.dirty <;> cases b.mem <;> exact ⟨rfl, rfl⟩
        by_cases hd : l.dirty = true
        · have hi : ∀ b, b ∈ l.bases → SInv O true false b := by
            intro b hb
            have := h.each l hl b hb
            rw [hd, hc l hl] at this
            exact this
          have mv := fun b hb => m_copy (hi b hb) (hg l hl hd b hb)
          unfold Leaf.copy
          rw [if_pos hd]
          dsimp only
          refine ⟨?_, ?_, ?_, ?_, fl⟩
          · intro x hx
            obtain ⟨b, hb, e⟩ := List.mem_map.mp hx
            subst e
            exact (mv b hb).inv
          · rw [List.map_map]
            exact sum_congr (fun b hb => by
              have := (mv b hb).view
              show O.size b.copy.1.view = O.size b.view
              omega)
          · rw [sum_map_step (fun b => O.size b.home.1) (fun b => b.copy.2) (fun b => b.copy.1)
              (fun b hb => (mv b hb).home)]
          · show (((l.bases.map (Base.image O l.dirty))).map (fun b => O.size b.disk)).sum = _
            rw [← sum_add, List.map_map, hd]
            refine sum_congr (fun b hb => ?_)
            have hm := (hi b hb).held (Or.inl rfl)
            cases hq : b.mem with
            | none => rw [hq] at hm; cases hm
            | some m =>
              have h0 := (hi b hb).sd m hq
              have h1 := hg l hl hd b hb m hq
              show O.size (Base.image O true b).disk = O.size b.home.1 + b.copy.2
              unfold Base.image Base.copy
              rw [hq]
              dsimp only
              omega
        · have hd' : l.dirty = false := by simpa using hd
          unfold Leaf.copy
          rw [if_neg hd]
          dsimp only
          refine ⟨h.each l hl, rfl, (Int.add_zero _).symm, ?_, fl⟩
          show (((l.bases.map (Base.image O l.dirty))).map (fun b => O.size b.disk)).sum = _
          rw [List.map_map, hd', Int.add_zero]
          refine sum_congr (fun b hb => ?_)
          have := h.each l hl b hb
          rw [hc l hl] at this
          rw [home_none (s_no_clone this)]
          rfl
      refine ⟨?_, ?_, ?_, ?_, h.saved⟩
      · intro q hq x hx
        obtain ⟨l, hl, e⟩ := List.mem_map.mp hq
        subst e
        exact (key l hl).1 x hx
      · show s.stats = _
        dsimp only
        rw [total_map _ _ (fun l hl => (key l hl).2.1)]
        exact h.mem
      · show s.onDisk + _ = total _ (s.leaves.map _)
        rw [h.disk]
        unfold total
        rw [sum_map_step (fun l : Leaf σ μ => (l.bases.map (fun b => O.size b.home.1)).sum) (fun l => l.copy.2)
          (fun l => l.copy.1) (fun l hl => (key l hl).2.2.1)]
      · intro c e
        have e' := Option.some.inj e
        subst e'
        refine ⟨?_, ?_⟩
        · show s.onDisk + _ = total _ (s.leaves.map _)
          rw [h.disk]
          unfold total
          rw [List.map_map, ← sum_add]
          exact (sum_congr (fun l hl => (key l hl).2.2.2.1)).symm
        · intro q hq
          obtain ⟨l, hl, e⟩ := List.mem_map.mp hq
          subst e
          exact (key l hl).2.2.2.2
    · rw [if_neg hf] at hst; cases hst
  | endCkpt =>
    simp only [step] at hst
    cases hc : s.ckpt with
    | none => rw [hc] at hst; cases hst
    | some c =>
      rw [hc] at hst; dsimp only at hst
      by_cases hf : s.leaves.all (fun l => !l.cloned) = true
      · rw [if_pos hf] at hst
        cases hst
        exact ⟨h.each, h.mem, h.disk, fun c e => (by cases e), h.ckpt c hc⟩
      · rw [if_neg hf] at hst; cases hst

theorem start_stats (vss : List (List σ)) (r : Nat) : SAll O (start O vss r : St σ μ) := by
  have fl : ∀ l, l ∈ (vss.map (Leaf.fresh (μ := μ))) → Flat l := by
    intro l hl
    obtain ⟨vs, hv, e⟩ := List.mem_map.mp hl
    subst e
    refine ⟨rfl, rfl, ?_⟩
    intro b hb
    obtain ⟨v, hv, e⟩ := List.mem_map.mp hb
    subst e
    exact ⟨rfl, rfl⟩
  have key : ∀ f : Base σ μ → Int, (∀ v, f (Base.fresh v) = O.size v) →
      total f (vss.map (Leaf.fresh (μ := μ))) = (vss.map (fun vs => (vs.map O.size).sum)).sum := by
    intro f hf
    unfold total
    rw [List.map_map]
    refine sum_congr (fun vs _ => ?_)
    show ((vs.map Base.fresh).map f).sum = _
    rw [List.map_map]
    exact sum_congr (fun v _ => hf v)
  exact ⟨fun l hl b hb => flat_inv (fl l hl) hb, (key _ (fun _ => rfl)).symm, (key _ (fun _ => rfl)).symm,
    fun c e => (by cases e), (key _ (fun _ => rfl)).symm, fl⟩

theorem run_stats (evs : List (Ev μ)) : ∀ {s t : St σ μ}, SAll O s → harmlessRun O s evs = true →
    run O s evs = some t → SAll O t := by
  induction evs with
  | nil => intro s t h _ hr; simp only [run] at hr; cases hr; exact h
  | cons e es ih =>
    intro s t h hh hr
    simp only [run] at hr
    simp only [harmlessRun, Bool.and_eq_true] at hh
    cases hq : step O s e with
    | none => rw [hq] at hr; cases hr
    | some q =>
      rw [hq] at hr hh
      exact ih (step_stats e h hq hh.1) hh.2 hr

end Verif.Rowcount
