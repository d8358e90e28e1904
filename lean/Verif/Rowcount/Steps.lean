import Verif.Rowcount.Bases

/-! # What each step does to the row count -/

namespace Verif.Rowcount

variable {σ μ : Type} {O : Ops σ μ} {R : σ → σ → Prop}

/-- The invariant holds of all basement nodes. -/
def All (O : Ops σ μ) (R : σ → σ → Prop) (s : St σ μ) : Prop :=
  ∀ l, l ∈ s.leaves → ∀ b, b ∈ l.bases → Inv O R s.next l.dirty l.cloned b

theorem sum_map_step {α : Type} (f h : α → Int) (g : α → α) {l : List α}
    (k : ∀ x, x ∈ l → f (g x) = f x + h x) : ((l.map g).map f).sum = (l.map f).sum + (l.map h).sum := by
  rw [← sum_add, List.map_map]
  exact sum_congr (f := f ∘ g) k

theorem getMem {α : Type} {l : List α} {i : Nat} {a : α} (h : l[i]? = some a) : a ∈ l :=
  List.mem_of_getElem? h

/-- Replacing a leaf. -/
theorem all_set {s : St σ μ} (h : All O R s) {i : Nat} {l' : Leaf σ μ}
    (k : ∀ b, b ∈ l'.bases → Inv O R s.next l'.dirty l'.cloned b) :
    ∀ l, l ∈ s.leaves.set i l' → ∀ b, b ∈ l.bases → Inv O R s.next l.dirty l.cloned b := by
  intro l hl b hb
  rcases mem_set hl with q | q
  · exact h l q b hb
  · subst q; exact k b hb

theorem adjust_zero (r : Nat) : adjust r 0 = r := by
  unfold adjust; rw [if_neg]; intro h; exact h.1 rfl

theorem inv_mono {nx nx' : Nat} {d c : Bool} {b : Base σ μ} (k : nx ≤ nx') (h : Inv O R nx d c b) :
    Inv O R nx' d c b := by
  obtain ⟨h1, h2, ⟨f, h3, h4, h5⟩, h6, h7⟩ := h
  refine ⟨h1, fun x hx => Nat.le_trans (h2 x hx) k, ⟨f, h3, ?_, ?_⟩, h6, h7⟩
  · intro m hm
    exact ⟨Nat.le_trans (h4 m hm).le k, (h4 m hm).cov, (h4 m hm).rel⟩
  · intro nd
    obtain ⟨g, hl⟩ := h5 nd
    exact ⟨⟨Nat.le_trans g.le k, g.cov, g.rel⟩, hl⟩

/-- One basement node of one leaf is replaced. -/
theorem one_base {s : St σ μ} (h : All O R s) {l i : Nat} {lf : Leaf σ μ} {b b' : Base σ μ} (nx : Nat)
    (hn : s.next ≤ nx) (hl : s.leaves[l]? = some lf) (hb : lf.bases[i]? = some b)
    (k : Inv O R nx lf.dirty lf.cloned b') (d : Int) (kd : b'.due O = b.due O + d) :
    (∀ q, q ∈ s.leaves.set l { lf with bases := lf.bases.set i b' } → ∀ x, x ∈ q.bases → Inv O R nx q.dirty q.cloned x) ∧
    total (Base.due O) (s.leaves.set l { lf with bases := lf.bases.set i b' }) = total (Base.due O) s.leaves + d := by
  refine ⟨?_, ?_⟩
  · intro q hq x hx
    rcases mem_set hq with e | e
    · exact inv_mono hn (h q e x hx)
    · subst e
      rcases mem_set hx with e | e
      · exact inv_mono hn (h lf (getMem hl) x e)
      · subst e; exact k
  · rw [total_set _ hl]
    dsimp only
    rw [sum_set (Base.due O) lf.bases i b' b hb, kd]
    omega

/-- All basement nodes of one leaf are replaced. -/
theorem one_leaf {s : St σ μ} (h : All O R s) {l : Nat} {lf : Leaf σ μ} (hl : s.leaves[l]? = some lf)
    (g : Base σ μ → Base σ μ) (c : Base σ μ → Int) (d cl : Bool)
    (k : ∀ b, b ∈ lf.bases → Inv O R s.next d cl (g b) ∧ (g b).due O = b.due O + c b) :
    (∀ q, q ∈ s.leaves.set l { bases := lf.bases.map g, dirty := d, cloned := cl } → ∀ x, x ∈ q.bases →
      Inv O R s.next q.dirty q.cloned x) ∧
    total (Base.due O) (s.leaves.set l { bases := lf.bases.map g, dirty := d, cloned := cl }) =
      total (Base.due O) s.leaves + (lf.bases.map c).sum := by
  refine ⟨?_, ?_⟩
  · apply all_set h
    intro x hx
    obtain ⟨y, hy, e⟩ := List.mem_map.mp hx
    subst e
    exact (k y hy).1
  · rw [total_set _ hl]
    dsimp only
    rw [sum_map_step (Base.due O) c g (fun x hx => (k x hx).2)]
    omega

theorem total_map (g : Leaf σ μ → Leaf σ μ) {ls : List (Leaf σ μ)} (f : Base σ μ → Int)
    (k : ∀ l, l ∈ ls → ((g l).bases.map f).sum = (l.bases.map f).sum) : total f (ls.map g) = total f ls := by
  unfold total
  rw [List.map_map]
  exact sum_congr k

theorem step_rows (hs : Silent O R) {s t : St σ μ} (e : Ev μ) (h : All O R s) (hst : step O s e = some t)
    (ho : e.ordinary = true) :
    All O R t ∧ ∃ d, t.rows = adjust s.rows d ∧
      total (Base.due O) t.leaves + saidBy O e = total (Base.due O) s.leaves + d := by
  cases e with
  | oldUpdate => cases ho
  | restart => cases ho
  | put l i m =>
    simp only [step] at hst
    cases hl : s.leaves[l]? with
    | none => rw [hl] at hst; cases hst
    | some lf =>
      rw [hl] at hst; dsimp only at hst
      cases hb : lf.bases[i]? with
      | none => rw [hb] at hst; cases hst
      | some b =>
        rw [hb] at hst; dsimp only at hst
        cases hst
        have hi := h lf (getMem hl) b (getMem hb)
        obtain ⟨a1, a2⟩ := one_base h (s.next + 1) (Nat.le_succ _) hl hb (inv_send m hi) 0
          (by rw [due_send m hi]; omega)
        exact ⟨a1, O.said m, rfl, by show total _ _ + O.said m = _; rw [a2]; omega⟩
  | broadcast m =>
    simp only [step] at hst
    cases hst
    refine ⟨?_, 0, (adjust_zero _).symm, ?_⟩
    · intro q hq x hx
      obtain ⟨l, hl, e⟩ := List.mem_map.mp hq
      subst e
      obtain ⟨b, hb, e⟩ := List.mem_map.mp hx
      subst e
      exact inv_send m (h l hl b hb)
    · show total _ _ + 0 = _ + 0
      dsimp only
      rw [total_map _ _ (fun l hl => ?_)]
      dsimp only
      rw [List.map_map]
      exact sum_congr (fun b hb => due_send m (h l hl b hb))
  | load l i =>
    simp only [step] at hst
    cases hl : s.leaves[l]? with
    | none => rw [hl] at hst; cases hst
    | some lf =>
      rw [hl] at hst; dsimp only at hst
      cases hb : lf.bases[i]? with
      | none => rw [hb] at hst; cases hst
      | some b =>
        rw [hb] at hst; dsimp only at hst
        by_cases hm : b.mem = none
        · rw [if_pos hm] at hst
          cases hst
          obtain ⟨b1, b2⟩ := inv_load (h lf (getMem hl) b (getMem hb)) hm
          obtain ⟨a1, a2⟩ := one_base h s.next (Nat.le_refl _) hl hb b1 0 (by omega)
          exact ⟨a1, 0, (adjust_zero _).symm, by show total _ _ + 0 = _; exact (Int.add_zero _).trans a2⟩
        · rw [if_neg hm] at hst; cases hst
  | read l i =>
    simp only [step] at hst
    cases hl : s.leaves[l]? with
    | none => rw [hl] at hst; cases hst
    | some lf =>
      rw [hl] at hst; dsimp only at hst
      cases hb : lf.bases[i]? with
      | none => rw [hb] at hst; cases hst
      | some b =>
        rw [hb] at hst; dsimp only at hst
        cases hm : b.mem with
        | none => rw [hm] at hst; cases hst
        | some m =>
          rw [hm] at hst; dsimp only at hst
          cases hst
          obtain ⟨b1, b2⟩ := inv_read hs (h lf (getMem hl) b (getMem hb)) hm
          obtain ⟨a1, a2⟩ := one_base h s.next (Nat.le_refl _) hl hb b1 _ b2
          exact ⟨a1, _, rfl, by show total _ _ + 0 = _; exact (Int.add_zero _).trans a2⟩
  | flush l cut =>
    simp only [step] at hst
    cases hl : s.leaves[l]? with
    | none => rw [hl] at hst; cases hst
    | some lf =>
      rw [hl] at hst; dsimp only at hst
      by_cases hf : lf.full = true
      · rw [if_pos hf] at hst
        cases hst
        obtain ⟨a1, a2⟩ := one_leaf h hl (fun b => (b.flush O cut).1) (fun b => (b.flush O cut).2.1) true lf.cloned
          (fun b hb => inv_flush hs (h lf (getMem hl) b hb) (List.all_eq_true.mp hf b hb) cut)
        exact ⟨a1, _, rfl, by show total _ _ + 0 = _; exact (Int.add_zero _).trans a2⟩
      · rw [if_neg hf] at hst; cases hst
  | write l =>
    simp only [step] at hst
    cases hl : s.leaves[l]? with
    | none => rw [hl] at hst; cases hst
    | some lf =>
      rw [hl] at hst; dsimp only at hst
      by_cases hf : (lf.full && lf.dirty && !lf.cloned) = true
      · rw [if_pos hf] at hst
        cases hst
        simp only [Bool.and_eq_true, Bool.not_eq_true'] at hf
        obtain ⟨⟨f1, f2⟩, f3⟩ := hf
        obtain ⟨a1, a2⟩ := one_leaf h hl (fun b => (b.write O).1) (fun _ => 0) false lf.cloned
          (fun b hb => by
            have hi := h lf (getMem hl) b hb
            rw [f3] at hi ⊢
            obtain ⟨b1, b2⟩ := inv_write hs hi (List.all_eq_true.mp f1 b hb)
            exact ⟨b1, by rw [b2]; omega⟩)
        rw [sum_zero _ _ (fun _ _ => rfl)] at a2
        exact ⟨a1, 0, (adjust_zero _).symm, by show total _ _ + 0 = _; exact (Int.add_zero _).trans a2⟩
      · rw [if_neg hf] at hst; cases hst
  | writeClone l =>
    simp only [step] at hst
    cases hl : s.leaves[l]? with
    | none => rw [hl] at hst; cases hst
    | some lf =>
      rw [hl] at hst; dsimp only at hst
      by_cases hf : lf.cloned = true
      · rw [if_pos hf] at hst
        cases hst
        obtain ⟨a1, a2⟩ := one_leaf h hl (fun b => (b.writeCopy O).1) (fun _ => 0) lf.dirty false
          (fun b hb => by
            have hi := h lf (getMem hl) b hb
            rw [hf] at hi
            obtain ⟨b1, b2⟩ := inv_writeCopy hs hi
            exact ⟨b1, by rw [b2]; omega⟩)
        rw [sum_zero _ _ (fun _ _ => rfl)] at a2
        exact ⟨a1, 0, (adjust_zero _).symm, by show total _ _ + 0 = _; exact (Int.add_zero _).trans a2⟩
      · rw [if_neg hf] at hst; cases hst
  | evict l =>
    simp only [step] at hst
    cases hl : s.leaves[l]? with
    | none => rw [hl] at hst; cases hst
    | some lf =>
      rw [hl] at hst; dsimp only at hst
      by_cases hf : (!lf.dirty && !lf.cloned) = true
      · rw [if_pos hf] at hst
        cases hst
        simp only [Bool.and_eq_true, Bool.not_eq_true'] at hf
        obtain ⟨f1, f2⟩ := hf
        obtain ⟨a1, a2⟩ := one_leaf h hl Base.forget Base.undo lf.dirty lf.cloned
          (fun b hb => by
            have hi := h lf (getMem hl) b hb
            rw [f1, f2] at hi ⊢
            exact inv_forget hi)
        exact ⟨a1, _, rfl, by show total _ _ + 0 = _; exact (Int.add_zero _).trans a2⟩
      · rw [if_neg hf] at hst; cases hst
  | drop l i =>
    simp only [step] at hst
    cases hl : s.leaves[l]? with
    | none => rw [hl] at hst; cases hst
    | some lf =>
      rw [hl] at hst; dsimp only at hst
      cases hb : lf.bases[i]? with
      | none => rw [hb] at hst; cases hst
      | some b =>
        rw [hb] at hst; dsimp only at hst
        cases hm : b.mem with
        | none => rw [hm] at hst; cases hst
        | some m =>
          rw [hm] at hst; dsimp only at hst
          by_cases hf : (!lf.dirty && !lf.cloned) = true
          · rw [if_pos hf] at hst
            cases hst
            simp only [Bool.and_eq_true, Bool.not_eq_true'] at hf
            obtain ⟨f1, f2⟩ := hf
            have hi := h lf (getMem hl) b (getMem hb)
            have hi' := hi
            rw [f1, f2] at hi'
            obtain ⟨b1, b2⟩ := inv_forget hi'
            have eu : b.undo = - m.lrd := by unfold Base.undo; rw [hm]
            rw [eu] at b2
            obtain ⟨a1, a2⟩ := one_base h s.next (Nat.le_refl _) hl hb (by rw [f1, f2]; exact b1) _ b2
            exact ⟨a1, _, rfl, by show total _ _ + 0 = _; exact (Int.add_zero _).trans a2⟩
          · rw [if_neg hf] at hst; cases hst
  | beginCkpt =>
    simp only [step] at hst
    by_cases hf : s.ckpt = none ∧ s.leaves.all (fun l => !l.cloned) = true
    · rw [if_pos hf] at hst
      cases hst
      have hc : ∀ l, l ∈ s.leaves → l.cloned = false := by
        intro l hl
        simpa using List.all_eq_true.mp hf.2 l hl
      have hcopy : ∀ l, l ∈ s.leaves → (∀ b, b ∈ l.copy.1.bases → Inv O R s.next l.copy.1.dirty l.copy.1.cloned b) ∧
          (l.copy.1.bases.map (Base.due O)).sum = (l.bases.map (Base.due O)).sum := by
        intro l hl
        unfold Leaf.copy
        by_cases hd : l.dirty = true
        · rw [if_pos hd]
          dsimp only
          have k : ∀ b, b ∈ l.bases → Inv O R s.next false true b.copy.1 ∧ b.copy.1.due O = b.due O := by
            intro b hb
            have hi := h l hl b hb
            rw [hd, hc l hl] at hi
            exact inv_copy hi
          refine ⟨?_, ?_⟩
          · intro x hx
            obtain ⟨b, hb, e⟩ := List.mem_map.mp hx
            subst e
            exact (k b hb).1
          · rw [List.map_map]
            exact sum_congr (fun b hb => (k b hb).2)
        · rw [if_neg hd]
          exact ⟨h l hl, rfl⟩
      refine ⟨?_, 0, (adjust_zero _).symm, ?_⟩
      · intro q hq x hx
        obtain ⟨l, hl, e⟩ := List.mem_map.mp hq
        subst e
        exact (hcopy l hl).1 x hx
      · show total _ _ + 0 = _ + 0
        dsimp only
        rw [total_map _ _ (fun l hl => (hcopy l hl).2)]
    · rw [if_neg hf] at hst; cases hst
  | endCkpt =>
    simp only [step] at hst
    cases hc : s.ckpt with
    | none => rw [hc] at hst; cases hst
    | some c =>
      rw [hc] at hst; dsimp only at hst
      by_cases hf : s.leaves.all (fun l => !l.cloned) = true
      · rw [if_pos hf] at hst
        cases hst
        exact ⟨h, 0, (adjust_zero _).symm, rfl⟩
      · rw [if_neg hf] at hst; cases hst

theorem due_fresh (v : σ) : (Base.fresh v : Base σ μ).due O = 0 := rfl

theorem start_all (hs : Silent O R) (vss : List (List σ)) (r : Nat) : All O R (start O vss r : St σ μ) ∧
    total (Base.due O) (start O vss r : St σ μ).leaves = 0 := by
  refine ⟨?_, ?_⟩
  · intro l hl b hb
    obtain ⟨vs, hv, e⟩ := List.mem_map.mp hl
    subst e
    obtain ⟨v, hv, e⟩ := List.mem_map.mp hb
    subst e
    refine ⟨List.Pairwise.nil, fun x hx => (by cases hx), ⟨0, rfl, fun m e => (by cases e), fun _ => ⟨⟨Nat.le_refl _, fun x hx => (by cases hx), hs.refl v⟩, fun m e => by cases e⟩⟩, ?_, rfl⟩
    rintro (e | e) <;> cases e
  · unfold total
    apply sum_zero
    intro l hl
    apply sum_zero
    intro b hb
    obtain ⟨vs, hv, e⟩ := List.mem_map.mp hl
    subst e
    obtain ⟨v, hv, e⟩ := List.mem_map.mp hb
    subst e
    rfl

/-- The row count is the one due, as long as that is never below zero. -/
theorem rows_due (hs : Silent O R) (evs : List (Ev μ)) : ∀ {s t : St σ μ} (base : Int), All O R s →
    (s.rows : Int) = base + total (Base.due O) s.leaves → run O s evs = some t →
    (∀ e, e ∈ evs → e.ordinary = true) → bounded O base s evs = true →
    All O R t ∧ (t.rows : Int) = due O base evs t := by
  induction evs with
  | nil =>
    intro s t base h hb hr _ _
    simp only [run] at hr
    cases hr
    refine ⟨h, ?_⟩
    show (s.rows : Int) = base + 0 + total (Base.due O) s.leaves
    omega
  | cons e es ih =>
    intro s t base h hb hr ho hw
    simp only [run] at hr
    simp only [bounded, Bool.and_eq_true, decide_eq_true_eq] at hw
    cases hq : step O s e with
    | none => rw [hq] at hr; cases hr
    | some q =>
      rw [hq] at hr hw
      obtain ⟨w1, w2⟩ := hw
      have w3 : 0 ≤ base + saidBy O e + total (Base.due O) q.leaves ∧
          base + saidBy O e + total (Base.due O) q.leaves < 2 ^ 63 := by
        cases es with
        | nil => simpa [bounded] using w2
        | cons a r => simp only [bounded, Bool.and_eq_true, decide_eq_true_eq] at w2; exact w2.1
      obtain ⟨b1, d, b2, b3⟩ := step_rows hs e h hq (ho e List.mem_cons_self)
      have hrow : (q.rows : Int) = base + saidBy O e + total (Base.due O) q.leaves := by
        rw [b2, adjust_eq d hb w1.2 (by omega) (by omega)]
        omega
      obtain ⟨c1, c2⟩ := ih (base + saidBy O e) b1 hrow hr (fun x hx => ho x (List.mem_cons_of_mem _ hx)) w2
      refine ⟨c1, ?_⟩
      rw [c2]
      unfold due
      simp only [List.map_cons, List.sum_cons]
      omega

end Verif.Rowcount
