import Verif.Blk.HoleTree

/-! Lemmas about the hole tree: contents, labels, balance. -/
namespace Verif.Blk

/-! ### Contents -/

/-- The holes in order of the tree. -/
def T.holes : T → List Hole
  | .nil => []
  | .node _ h _ _ l r => l.holes ++ h :: r.holes

/-- The holes before and after a position. -/
def before : Ctx → List Hole
  | [] => []
  | k :: ks => match k.dir with | .left => before ks | .right => before ks ++ (k.sib.holes ++ [k.h])

def after : Ctx → List Hole
  | [] => []
  | k :: ks => match k.dir with | .left => k.h :: (k.sib.holes ++ after ks) | .right => after ks

theorem zip_holes (t : T) (ks : Ctx) : (zip t ks).holes = before ks ++ (t.holes ++ after ks) := by
  induction ks generalizing t with
  | nil => simp [zip, before, after]
  | cons k ks ih =>
    rw [zip, ih]
    simp only [before, after, Crumb.plug]
    cases k.dir <;> simp [T.holes]

theorem blacken_node (c : Color) (h : Hole) (lm rm : Nat) (l r : T) : (T.node c h lm rm l r).blacken = .node .black h lm rm l r := rfl

@[simp] theorem blacken_holes (t : T) : t.blacken.holes = t.holes := by cases t <;> rfl

theorem zip_append (t : T) (ks ks' : Ctx) : zip t (ks ++ ks') = zip (zip t ks) ks' := by
  induction ks generalizing t with
  | nil => rfl
  | cons k ks ih => simp [zip, ih]

theorem before_append (ks ks' : Ctx) : before (ks ++ ks') = before ks' ++ before ks := by
  induction ks with
  | nil => simp [before]
  | cons k ks ih => simp only [List.cons_append, before, ih]; cases k.dir <;> simp

theorem after_append (ks ks' : Ctx) : after (ks ++ ks') = after ks ++ after ks' := by
  induction ks with
  | nil => simp [after]
  | cons k ks ih => simp only [List.cons_append, after, ih]; cases k.dir <;> simp

theorem leftRotate_holes {a : Nat} {t t' : T} (h : leftRotate a t = some t') : t'.holes = t.holes := by
  unfold leftRotate at h
  split at h
  · cases h; simp [T.holes]
  · cases h

theorem rightRotate_holes {a : Nat} {t t' : T} (h : rightRotate a t = some t') : t'.holes = t.holes := by
  unfold rightRotate at h
  split at h
  · cases h; simp [T.holes]
  · cases h

/-! ### Labels -/

/-- Every label is the largest usable hole of its side. -/
def Lab (a : Nat) : T → Prop
  | .nil => True
  | .node _ _ lm rm l r => lm = l.mhs a ∧ rm = r.mhs a ∧ Lab a l ∧ Lab a r

/-- The labels along a path are right if the subtree at its end has largest usable hole `m`. -/
def CLab (a : Nat) : Ctx → Nat → Prop
  | [], _ => True
  | k :: ks, m => match k.dir with
    | .left => k.lm = m ∧ k.rm = k.sib.mhs a ∧ Lab a k.sib ∧ CLab a ks (k.mhs a)
    | .right => k.rm = m ∧ k.lm = k.sib.mhs a ∧ Lab a k.sib ∧ CLab a ks (k.mhs a)

theorem mhs_node (a : Nat) (c : Color) (h : Hole) (lm rm : Nat) (l r : T) : (T.node c h lm rm l r).mhs a = nodeMhs a h lm rm := rfl

theorem lab_zip (a : Nat) (t : T) (ks : Ctx) : Lab a (zip t ks) ↔ Lab a t ∧ CLab a ks (t.mhs a) := by
  induction ks generalizing t with
  | nil => simp [zip, CLab]
  | cons k ks ih =>
    rw [zip, ih]
    obtain ⟨d, c, h, lm, rm, s⟩ := k
    cases d <;> simp only [Crumb.plug, Lab, CLab, T.mhs, Crumb.mhs] <;> grind

@[simp] theorem blacken_lab (a : Nat) (t : T) : Lab a t.blacken ↔ Lab a t := by cases t <;> rfl
@[simp] theorem blacken_mhs (a : Nat) (t : T) : t.blacken.mhs a = t.mhs a := by cases t <;> rfl

theorem leftRotate_lab {a : Nat} {t t' : T} (h : leftRotate a t = some t') (hl : Lab a t) : Lab a t' ∧ t'.mhs a = t.mhs a := by
  unfold leftRotate at h
  split at h
  · cases h
    simp only [Lab, T.mhs, nodeMhs] at hl ⊢
    grind
  · cases h

theorem rightRotate_lab {a : Nat} {t t' : T} (h : rightRotate a t = some t') (hl : Lab a t) : Lab a t' ∧ t'.mhs a = t.mhs a := by
  unfold rightRotate at h
  split at h
  · cases h
    simp only [Lab, T.mhs, nodeMhs] at hl ⊢
    grind
  · cases h

theorem recalcUp_lab (a m0 m : Nat) (ks : Ctx) (h : CLab a ks m0) : CLab a (recalcUp a m ks) m := by
  induction ks generalizing m0 m with
  | nil => simp [recalcUp, CLab]
  | cons k ks ih =>
    obtain ⟨d, c, hh, lm, rm, s⟩ := k
    rw [recalcUp]
    by_cases hm : Crumb.label ⟨d, c, hh, lm, rm, s⟩ = m
    · rw [if_pos hm]
      cases d <;> exact ⟨hm, h.2⟩
    · rw [if_neg hm]
      cases d <;> exact ⟨rfl, h.2.1, h.2.2.1, ih _ _ h.2.2.2⟩

/-- Paths that differ in labels only. -/
def Same : Ctx → Ctx → Prop
  | [], [] => True
  | k :: ks, k' :: ks' => k'.dir = k.dir ∧ k'.c = k.c ∧ k'.h = k.h ∧ k'.sib = k.sib ∧ Same ks ks'
  | _, _ => False

theorem Same.refl (ks : Ctx) : Same ks ks := by induction ks <;> simp [Same, *]

theorem recalcUp_same (a m : Nat) (ks : Ctx) : Same ks (recalcUp a m ks) := by
  induction ks generalizing m with
  | nil => simp [recalcUp, Same]
  | cons k ks ih =>
    rw [recalcUp]
    split
    · exact Same.refl _
    · obtain ⟨d, c, hh, lm, rm, s⟩ := k
      cases d <;> simp [Same, Crumb.setLabel, ih]

theorem Same.holes {ks ks' : Ctx} (h : Same ks ks') : before ks' = before ks ∧ after ks' = after ks := by
  induction ks generalizing ks' with
  | nil => cases ks' <;> simp_all [Same]
  | cons k ks ih =>
    cases ks' with
    | nil => simp [Same] at h
    | cons k' ks' =>
      obtain ⟨h1, h2, h3, h4, h5⟩ := h
      have := ih h5
      simp [before, after, h1, h3, h4, this.1, this.2]

@[simp] theorem before_recalcUp (a m : Nat) (ks : Ctx) : before (recalcUp a m ks) = before ks := (recalcUp_same a m ks).holes.1
@[simp] theorem after_recalcUp (a m : Nat) (ks : Ctx) : after (recalcUp a m ks) = after ks := (recalcUp_same a m ks).holes.2

/-! ### Balance -/

/-- Red-black tree of black height `n`. -/
def RB : T → Nat → Prop
  | .nil, n => n = 0
  | .node .red _ _ _ l r, n => l.isRed = false ∧ r.isRed = false ∧ RB l n ∧ RB r n
  | .node .black _ _ _ l r, n => ∃ m, n = m + 1 ∧ RB l m ∧ RB r m

/-- A red node may stand at this position. -/
def okRed : Ctx → Bool
  | [] => false
  | k :: _ => k.c == .black

/-- A path along which a subtree of black height `n` fits. -/
def CRB : Ctx → Nat → Prop
  | [], _ => True
  | k :: ks, n => match k.c with
    | .red => k.sib.isRed = false ∧ RB k.sib n ∧ okRed ks = true ∧ CRB ks n
    | .black => RB k.sib n ∧ CRB ks (n + 1)

theorem Same.okRed {ks ks' : Ctx} (h : Same ks ks') : Blk.okRed ks' = Blk.okRed ks := by
  cases ks <;> cases ks' <;> simp_all [Same, Blk.okRed]

theorem Same.crb {ks ks' : Ctx} (h : Same ks ks') {n : Nat} : CRB ks' n ↔ CRB ks n := by
  induction ks generalizing ks' n with
  | nil => cases ks' <;> simp_all [Same]
  | cons k ks ih =>
    cases ks' with
    | nil => simp [Same] at h
    | cons k' ks' =>
      obtain ⟨h1, h2, h3, h4, h5⟩ := h
      simp only [CRB, h2, h4, ih h5, h5.okRed]

theorem zip_rb {t : T} {ks : Ctx} {n : Nat} (ht : RB t n) (hk : CRB ks n) (hr : t.isRed = false ∨ okRed ks = true) :
    (∃ m, RB (zip t ks) m) ∧ (zip t ks).isRed = false := by
  induction ks generalizing t n with
  | nil => simp [okRed] at hr; exact ⟨⟨n, ht⟩, hr⟩
  | cons k ks ih =>
    obtain ⟨d, c, h, lm, rm, s⟩ := k
    rw [zip]
    cases c with
    | red =>
      simp only [CRB] at hk
      obtain ⟨h1, h2, h3, h4⟩ := hk
      simp [okRed] at hr
      refine ih (n := n) ?_ h4 (.inr h3)
      cases d <;> simp [Crumb.plug, RB, *]
    | black =>
      simp only [CRB] at hk
      refine ih (n := n + 1) ?_ hk.2 (.inl ?_)
      · cases d <;> simp [Crumb.plug, RB, *]
      · cases d <;> simp [Crumb.plug, T.isRed]

/-- Going down one step keeps the balance of subtree and path. -/
theorem RB.black {t : T} {n : Nat} (h : RB t n) : ∃ m, RB t.blacken m := by
  cases t with
  | nil => exact ⟨n, h⟩
  | node c hh lm rm l r =>
    cases c with
    | black => exact ⟨n, h⟩
    | red => simp only [RB] at h; exact ⟨n + 1, by simp [T.blacken, RB, h]⟩

@[simp] theorem blacken_isRed (t : T) : t.blacken.isRed = false := by cases t <;> rfl

theorem blacken_of_not_red {t : T} (h : t.isRed = false) : t.blacken = t := by
  cases t with
  | nil => rfl
  | node c hh lm rm l r => cases c <;> simp_all [T.isRed, T.blacken]

/-! ### Insertion fixup -/

theorem insertFixup_holes {a : Nat} {t t' : T} {ks : Ctx} (h : insertFixup a t ks = some t') :
    t'.holes = (zip t ks).holes := by
  fun_induction insertFixup a t ks with
  | case1 t => cases h; simp [zip]
  | case2 t p hp => cases h
  | case3 t p hp => cases h; simp
  | case4 t p g ks hp => cases h; simp
  | case5 t p g ks hp hg ih =>
    rw [ih h]
    simp only [zip, zip_holes, Crumb.plug]
    cases p.dir <;> cases g.dir <;> simp [T.holes]
  | case6 t p g ks hp hg hd =>
    simp only [Option.bind_eq_some_iff, Option.map_eq_some_iff] at h
    obtain ⟨sub, hs, t1, ht, rfl⟩ := h
    have e1 : sub.holes = (p.plug t).holes := by
      split at hs
      · exact leftRotate_holes hs
      · cases hs; rfl
    have e2 := rightRotate_holes ht
    simp only [blacken_holes, zip_holes, e2, zip, Crumb.plug, hd, T.holes, e1]
  | case7 t p g ks hp hg hd =>
    simp only [Option.bind_eq_some_iff, Option.map_eq_some_iff] at h
    obtain ⟨sub, hs, t1, ht, rfl⟩ := h
    have e1 : sub.holes = (p.plug t).holes := by
      split at hs
      · exact rightRotate_holes hs
      · cases hs; rfl
    have e2 := leftRotate_holes ht
    simp only [blacken_holes, zip_holes, e2, zip, Crumb.plug, hd, T.holes, e1]

theorem plug_lab {a : Nat} {k : Crumb} {t : T} {ks : Ctx} : Lab a (zip t (k :: ks)) → Lab a (k.plug t) ∧ CLab a ks ((k.plug t).mhs a) := by
  rw [zip]; exact (lab_zip a _ _).mp

theorem insertFixup_lab {a : Nat} {t t' : T} {ks : Ctx} (h : insertFixup a t ks = some t') (hl : Lab a (zip t ks)) : Lab a t' := by
  fun_induction insertFixup a t ks with
  | case1 t => cases h; simpa [zip] using hl
  | case2 t p hp => cases h
  | case3 t p hp => cases h; simpa using hl
  | case4 t p g ks hp => cases h; simpa using hl
  | case5 t p g ks hp hg ih =>
    refine ih h ?_
    simp only [zip, lab_zip] at hl ⊢
    revert hl
    simp only [Crumb.plug]
    cases p.dir <;> cases g.dir <;> (simp only [Lab, mhs_node, blacken_lab, blacken_mhs]; exact id)
  | case6 t p g ks hp hg hd =>
    simp only [Option.bind_eq_some_iff, Option.map_eq_some_iff] at h
    obtain ⟨sub, hs, t1, ht, rfl⟩ := h
    simp only [zip, lab_zip] at hl
    obtain ⟨h1, h2⟩ := hl
    have hpt : Lab a (p.plug t) := by simp only [Crumb.plug, hd, Lab] at h1; exact h1.2.2.1
    have e1 : Lab a sub ∧ sub.mhs a = (p.plug t).mhs a := by
      split at hs
      · exact leftRotate_lab hs hpt
      · cases hs; exact ⟨hpt, rfl⟩
    have e2 := rightRotate_lab ht (by
      simp only [Crumb.plug, hd, Lab] at h1 ⊢
      simp only [blacken_lab, blacken_mhs, e1]
      exact ⟨h1.1, h1.2.1, trivial, h1.2.2.2⟩)
    rw [blacken_lab, lab_zip]
    refine ⟨e2.1, ?_⟩
    rw [e2.2]
    simp only [Crumb.plug, hd, T.mhs] at h2 ⊢
    exact h2
  | case7 t p g ks hp hg hd =>
    simp only [Option.bind_eq_some_iff, Option.map_eq_some_iff] at h
    obtain ⟨sub, hs, t1, ht, rfl⟩ := h
    simp only [zip, lab_zip] at hl
    obtain ⟨h1, h2⟩ := hl
    have hpt : Lab a (p.plug t) := by simp only [Crumb.plug, hd, Lab] at h1; exact h1.2.2.2
    have e1 : Lab a sub ∧ sub.mhs a = (p.plug t).mhs a := by
      split at hs
      · exact rightRotate_lab hs hpt
      · cases hs; exact ⟨hpt, rfl⟩
    have e2 := leftRotate_lab ht (by
      simp only [Crumb.plug, hd, Lab] at h1 ⊢
      simp only [blacken_lab, blacken_mhs, e1]
      exact ⟨h1.1, h1.2.1, h1.2.2.1, trivial⟩)
    rw [blacken_lab, lab_zip]
    refine ⟨e2.1, ?_⟩
    rw [e2.2]
    simp only [Crumb.plug, hd, T.mhs] at h2 ⊢
    exact h2

/-- A red node with black children. -/
theorem insertFixup_rb {a : Nat} {t : T} {ks : Ctx} {n : Nat} (ht : RB t n) (hr : t.isRed = true) (hk : CRB ks n) :
    ∃ t', insertFixup a t ks = some t' ∧ (∃ m, RB t' m) ∧ t'.isRed = false := by
  fun_induction insertFixup a t ks generalizing n with
  | case1 t => exact ⟨_, rfl, ht.black, by simp⟩
  | case2 t p hp => simp [CRB, hp, okRed] at hk
  | case3 t p hp =>
    have hp : p.c = .black := by cases h : p.c <;> simp_all
    obtain ⟨h1, h2⟩ := zip_rb ht hk (.inr (by simp [okRed, hp]))
    exact ⟨_, rfl, by rw [blacken_of_not_red h2]; exact h1, by simp⟩
  | case4 t p g ks hp =>
    obtain ⟨h1, h2⟩ := zip_rb ht hk (.inr (by simp [okRed, hp]))
    exact ⟨_, rfl, by rw [blacken_of_not_red h2]; exact h1, by simp⟩
  | case5 t p g ks hp hg ih =>
    have hp : p.c = .red := by cases h : p.c <;> simp_all
    obtain ⟨pd, pc, ph, plm, prm, ps⟩ := p
    obtain ⟨gd, gc, gh, glm, grm, gs⟩ := g
    simp only at hp hg; subst hp
    simp only [CRB, okRed, beq_iff_eq] at hk
    obtain ⟨h1, h2, rfl, h3, h4⟩ := hk
    refine ih (n := n + 1) ?_ (by cases gd <;> simp [Crumb.plug, T.isRed]) h4
    cases gs with
    | nil => simp [T.isRed] at hg
    | node c hh lm rm l r =>
      cases c with
      | black => simp [T.isRed] at hg
      | red =>
        simp only [RB] at h3
        cases pd <;> cases gd <;> simp [Crumb.plug, T.blacken, RB, T.isRed, ht, h2, h3]
  | case6 t p g ks hp hg hd =>
    have hp : p.c = .red := by cases h : p.c <;> simp_all
    obtain ⟨pd, pc, ph, plm, prm, ps⟩ := p
    obtain ⟨gd, gc, gh, glm, grm, gs⟩ := g
    simp only at hp hg hd; subst hp hd
    simp only [CRB, okRed, beq_iff_eq] at hk
    obtain ⟨h1, h2, rfl, h3, h4⟩ := hk
    cases t with
    | nil => simp [T.isRed] at hr
    | node c hh lm rm l r =>
      cases c with
      | black => simp [T.isRed] at hr
      | red =>
        simp only [RB] at ht
        cases pd with
        | left =>
          simp only [Crumb.plug, blacken_node, rightRotate, reduceCtorEq, if_false, Option.bind_some, Option.map_some]
          refine ⟨_, rfl, ?_, by simp⟩
          obtain ⟨h5, h6⟩ := zip_rb (t := T.node .black ph plm (nodeMhs a gh prm grm) (.node .red hh lm rm l r)
            (.node .red gh prm grm ps gs)) (ks := ks) (n := n + 1) ⟨n, rfl, by simp [RB, ht], by simp_all [RB]⟩ h4 (.inl rfl)
          rw [blacken_of_not_red h6]; exact h5
        | right =>
          simp only [Crumb.plug, blacken_node, leftRotate, rightRotate, if_true, Option.bind_some, Option.map_some]
          refine ⟨_, rfl, ?_, by simp⟩
          obtain ⟨h5, h6⟩ := zip_rb (t := T.node .black hh (nodeMhs a ph plm lm) (nodeMhs a gh rm grm) (.node .red ph plm lm ps l)
            (.node .red gh rm grm r gs)) (ks := ks) (n := n + 1) ⟨n, rfl, by simp [RB, ht, h1, h2], by simp_all [RB]⟩ h4 (.inl rfl)
          rw [blacken_of_not_red h6]; exact h5
  | case7 t p g ks hp hg hd =>
    have hp : p.c = .red := by cases h : p.c <;> simp_all
    obtain ⟨pd, pc, ph, plm, prm, ps⟩ := p
    obtain ⟨gd, gc, gh, glm, grm, gs⟩ := g
    simp only at hp hg hd; subst hp hd
    simp only [CRB, okRed, beq_iff_eq] at hk
    obtain ⟨h1, h2, rfl, h3, h4⟩ := hk
    cases t with
    | nil => simp [T.isRed] at hr
    | node c hh lm rm l r =>
      cases c with
      | black => simp [T.isRed] at hr
      | red =>
        simp only [RB] at ht
        cases pd with
        | right =>
          simp only [Crumb.plug, blacken_node, leftRotate, reduceCtorEq, if_false, Option.bind_some, Option.map_some]
          refine ⟨_, rfl, ?_, by simp⟩
          obtain ⟨h5, h6⟩ := zip_rb (t := T.node .black ph (nodeMhs a gh glm plm) prm 
            (.node .red gh glm plm gs ps) (.node .red hh lm rm l r)) (ks := ks) (n := n + 1) ⟨n, rfl, by simp_all [RB], by simp [RB, ht]⟩ h4 (.inl rfl)
          rw [blacken_of_not_red h6]; exact h5
        | left =>
          simp only [Crumb.plug, blacken_node, leftRotate, rightRotate, if_true, Option.bind_some, Option.map_some]
          refine ⟨_, rfl, ?_, by simp⟩
          obtain ⟨h5, h6⟩ := zip_rb (t := T.node .black hh (nodeMhs a gh glm lm) (nodeMhs a ph rm prm) (.node .red gh glm lm gs l)
            (.node .red ph rm prm r ps)) (ks := ks) (n := n + 1) ⟨n, rfl, by simp_all [RB], by simp [RB, ht, h1, h2]⟩ h4 (.inl rfl)
          rw [blacken_of_not_red h6]; exact h5

/-! ### Removal fixup -/

/-- The tree inside the outcome of a fixup step. -/
def side : T ⊕ T → T
  | .inl t => t
  | .inr t => t

theorem fixLeft_holes {a : Nat} {t : T} {k : Crumb} {w : T ⊕ T} (hd : k.dir = .left) (h : fixLeft a t k = some w) :
    (side w).holes = (k.plug t).holes := by
  obtain ⟨d, c, hh, lm, rm, s⟩ := k
  simp only at hd; subst hd
  unfold fixLeft at h
  split at h
  · cases h
  · rename_i oc oh olm orm ol or hs
    simp only at hs; subst hs
    split at h
    · cases h; simp [side, Crumb.plug, T.holes]
    · simp only [Option.bind_eq_some_iff] at h
      obtain ⟨o, ho, h⟩ := h
      have e : o.holes = (T.node oc oh olm orm ol or).holes := by
        split at ho
        · rw [rightRotate_holes ho]; simp [T.holes]
        · cases ho; rfl
      split at h
      · simp only [Option.map_eq_some_iff] at h
        obtain ⟨t1, h1, rfl⟩ := h
        simp only [side]
        rw [leftRotate_holes h1]
        simp only [Crumb.plug, T.holes] at e ⊢
        rw [e]
      · cases h

theorem fixRight_holes {a : Nat} {t : T} {k : Crumb} {w : T ⊕ T} (hd : k.dir = .right) (h : fixRight a t k = some w) :
    (side w).holes = (k.plug t).holes := by
  obtain ⟨d, c, hh, lm, rm, s⟩ := k
  simp only at hd; subst hd
  unfold fixRight at h
  split at h
  · cases h
  · rename_i oc oh olm orm ol or hs
    simp only at hs; subst hs
    split at h
    · cases h; simp [side, Crumb.plug, T.holes]
    · simp only [Option.bind_eq_some_iff] at h
      obtain ⟨o, ho, h⟩ := h
      have e : o.holes = (T.node oc oh olm orm ol or).holes := by
        split at ho
        · rw [leftRotate_holes ho]; simp [T.holes]
        · cases ho; rfl
      split at h
      · simp only [Option.map_eq_some_iff] at h
        obtain ⟨t1, h1, rfl⟩ := h
        simp only [side]
        rw [rightRotate_holes h1]
        simp only [Crumb.plug, T.holes] at e ⊢
        rw [e]
      · cases h

theorem fixLeft_lab {a : Nat} {t : T} {k : Crumb} {w : T ⊕ T} (hd : k.dir = .left) (h : fixLeft a t k = some w)
    (hl : Lab a (k.plug t)) : Lab a (side w) ∧ (side w).mhs a = (k.plug t).mhs a := by
  obtain ⟨d, c, hh, lm, rm, s⟩ := k
  simp only at hd; subst hd
  unfold fixLeft at h
  split at h
  · cases h
  · rename_i oc oh olm orm ol or hs
    simp only at hs; subst hs
    split at h
    · cases h; exact ⟨hl, rfl⟩
    · simp only [Option.bind_eq_some_iff] at h
      obtain ⟨o, ho, h⟩ := h
      obtain ⟨l1, l2, l3, l4⟩ := hl
      have e : Lab a o ∧ o.mhs a = (T.node oc oh olm orm ol or).mhs a := by
        split at ho
        · have := rightRotate_lab ho ⟨by rw [blacken_mhs]; exact l4.1, l4.2.1, by rw [blacken_lab]; exact l4.2.2.1, l4.2.2.2⟩
          exact ⟨this.1, this.2⟩
        · cases ho; exact ⟨l4, rfl⟩
      split at h
      · simp only [Option.map_eq_some_iff] at h
        obtain ⟨t1, h1, rfl⟩ := h
        have r := leftRotate_lab h1 (by exact ⟨l1, l2.trans e.2.symm, l3, e.1⟩)
        exact ⟨r.1, r.2⟩
      · cases h

theorem fixRight_lab {a : Nat} {t : T} {k : Crumb} {w : T ⊕ T} (hd : k.dir = .right) (h : fixRight a t k = some w)
    (hl : Lab a (k.plug t)) : Lab a (side w) ∧ (side w).mhs a = (k.plug t).mhs a := by
  obtain ⟨d, c, hh, lm, rm, s⟩ := k
  simp only at hd; subst hd
  unfold fixRight at h
  split at h
  · cases h
  · rename_i oc oh olm orm ol or hs
    simp only at hs; subst hs
    split at h
    · cases h; exact ⟨hl, rfl⟩
    · simp only [Option.bind_eq_some_iff] at h
      obtain ⟨o, ho, h⟩ := h
      obtain ⟨l1, l2, l3, l4⟩ := hl
      have e : Lab a o ∧ o.mhs a = (T.node oc oh olm orm ol or).mhs a := by
        split at ho
        · have := leftRotate_lab ho ⟨l3.1, by rw [blacken_mhs]; exact l3.2.1, l3.2.2.1, by rw [blacken_lab]; exact l3.2.2.2⟩
          exact ⟨this.1, this.2⟩
        · cases ho; exact ⟨l3, rfl⟩
      split at h
      · simp only [Option.map_eq_some_iff] at h
        obtain ⟨t1, h1, rfl⟩ := h
        have r := rightRotate_lab h1 (by exact ⟨l1.trans e.2.symm, l2, e.1, l4⟩)
        exact ⟨r.1, r.2⟩
      · cases h

/-- What a fixup step must deliver for the parent `k`. -/
def FixOk (n : Nat) (c : Color) : T ⊕ T → Prop
  | .inl sub => match c with | .red => RB sub (n + 1) | .black => RB sub (n + 2) ∧ sub.isRed = false
  | .inr par => match c with | .red => par.isRed = true ∧ RB par.blacken (n + 1) | .black => par.isRed = false ∧ RB par (n + 1)

theorem isRed_red (h : Hole) (lm rm : Nat) (l r : T) : (T.node .red h lm rm l r).isRed = true := rfl
theorem isRed_black (h : Hole) (lm rm : Nat) (l r : T) : (T.node .black h lm rm l r).isRed = false := rfl

theorem fixLeft_rb {a n : Nat} {t : T} {k : Crumb} (hd : k.dir = .left) (ht : t.isRed = false) (hrt : RB t n)
    (hs : k.sib.isRed = false) (hrs : RB k.sib (n + 1)) : ∃ w, fixLeft a t k = some w ∧ FixOk n k.c w := by
  obtain ⟨d, c, hh, lm, rm, s⟩ := k
  simp only at hd hs hrs ⊢; subst hd
  cases s with
  | nil => simp [RB] at hrs
  | node oc oh olm orm ol or =>
    cases oc with
    | red => simp [T.isRed] at hs
    | black =>
      simp only [RB, Nat.add_right_cancel_iff, exists_eq_left'] at hrs
      obtain ⟨hol, hor⟩ := hrs
      unfold fixLeft
      cases hl : ol.isRed <;> cases hr : or.isRed
      · simp only [hl, hr, Bool.not_false, Bool.not_true, Bool.and_false, Bool.false_and, Bool.and_true, Bool.and_self, Bool.false_eq_true, if_true, if_false, Option.bind_some, leftRotate, rightRotate, Crumb.plug, blacken_node, Option.map_some]
        refine ⟨_, rfl, ?_⟩
        cases c <;> simp [FixOk, isRed_red, isRed_black, blacken_node, RB, *]
      · cases or with
        | nil => simp [T.isRed] at hr
        | node orc orh orlm orrm orl orr =>
          cases orc with
          | black => simp [T.isRed] at hr
          | red =>
            simp only [RB] at hor
            simp only [hl, hr, Bool.not_false, Bool.not_true, Bool.and_false, Bool.false_and, Bool.and_true, Bool.and_self, Bool.false_eq_true, if_true, if_false, Option.bind_some, leftRotate, rightRotate, Crumb.plug, blacken_node, Option.map_some]
            refine ⟨_, rfl, ?_⟩
            cases c <;> simp [FixOk, T.isRed, RB, *]
      · cases ol with
        | nil => simp [T.isRed] at hl
        | node olc olh ollm olrm oll olr =>
          cases olc with
          | black => simp [T.isRed] at hl
          | red =>
            simp only [RB] at hol
            simp only [hl, hr, Bool.not_false, Bool.not_true, Bool.and_false, Bool.false_and, Bool.and_true, Bool.and_self, Bool.false_eq_true, if_true, if_false, Option.bind_some, leftRotate, rightRotate, Crumb.plug, blacken_node, Option.map_some]
            refine ⟨_, rfl, ?_⟩
            cases c <;> simp [FixOk, T.isRed, RB, *]
      · cases or with
        | nil => simp [T.isRed] at hr
        | node orc orh orlm orrm orl orr =>
          cases orc with
          | black => simp [T.isRed] at hr
          | red =>
            simp only [RB] at hor
            simp only [hl, hr, Bool.not_false, Bool.not_true, Bool.and_false, Bool.false_and, Bool.and_true, Bool.and_self, Bool.false_eq_true, if_true, if_false, Option.bind_some, leftRotate, rightRotate, Crumb.plug, blacken_node, Option.map_some]
            refine ⟨_, rfl, ?_⟩
            cases c <;> simp [FixOk, T.isRed, RB, *]

theorem fixRight_rb {a n : Nat} {t : T} {k : Crumb} (hd : k.dir = .right) (ht : t.isRed = false) (hrt : RB t n)
    (hs : k.sib.isRed = false) (hrs : RB k.sib (n + 1)) : ∃ w, fixRight a t k = some w ∧ FixOk n k.c w := by
  obtain ⟨d, c, hh, lm, rm, s⟩ := k
  simp only at hd hs hrs ⊢; subst hd
  cases s with
  | nil => simp [RB] at hrs
  | node oc oh olm orm ol or =>
    cases oc with
    | red => simp [T.isRed] at hs
    | black =>
      simp only [RB, Nat.add_right_cancel_iff, exists_eq_left'] at hrs
      obtain ⟨hol, hor⟩ := hrs
      unfold fixRight
      cases hr : or.isRed <;> cases hl : ol.isRed
      · simp only [hl, hr, Bool.not_false, Bool.not_true, Bool.and_false, Bool.false_and, Bool.and_true, Bool.and_self, Bool.false_eq_true, if_true, if_false, Option.bind_some, leftRotate, rightRotate, Crumb.plug, blacken_node, Option.map_some]
        refine ⟨_, rfl, ?_⟩
        cases c <;> simp [FixOk, isRed_red, isRed_black, blacken_node, RB, *]
      · cases ol with
        | nil => simp [T.isRed] at hl
        | node olc olh ollm olrm oll olr =>
          cases olc with
          | black => simp [T.isRed] at hl
          | red =>
            simp only [RB] at hol
            simp only [hl, hr, Bool.not_false, Bool.not_true, Bool.and_false, Bool.false_and, Bool.and_true, Bool.and_self, Bool.false_eq_true, if_true, if_false, Option.bind_some, leftRotate, rightRotate, Crumb.plug, blacken_node, Option.map_some]
            refine ⟨_, rfl, ?_⟩
            cases c <;> simp [FixOk, T.isRed, RB, *]
      · cases or with
        | nil => simp [T.isRed] at hr
        | node orc orh orlm orrm orl orr =>
          cases orc with
          | black => simp [T.isRed] at hr
          | red =>
            simp only [RB] at hor
            simp only [hl, hr, Bool.not_false, Bool.not_true, Bool.and_false, Bool.false_and, Bool.and_true, Bool.and_self, Bool.false_eq_true, if_true, if_false, Option.bind_some, leftRotate, rightRotate, Crumb.plug, blacken_node, Option.map_some]
            refine ⟨_, rfl, ?_⟩
            cases c <;> simp [FixOk, T.isRed, RB, *]
      · cases ol with
        | nil => simp [T.isRed] at hl
        | node olc olh ollm olrm oll olr =>
          cases olc with
          | black => simp [T.isRed] at hl
          | red =>
            simp only [RB] at hol
            simp only [hl, hr, Bool.not_false, Bool.not_true, Bool.and_false, Bool.false_and, Bool.and_true, Bool.and_self, Bool.false_eq_true, if_true, if_false, Option.bind_some, leftRotate, rightRotate, Crumb.plug, blacken_node, Option.map_some]
            refine ⟨_, rfl, ?_⟩
            cases c <;> simp [FixOk, T.isRed, RB, *]

theorem removeFixup_holes {a : Nat} {t t' : T} {ks : Ctx} (h : removeFixup a t ks = some t') : t'.holes = (zip t ks).holes := by
  induction ks generalizing t with
  | nil => simp only [removeFixup, Option.some.injEq] at h; subst h; simp [zip]
  | cons k ks ih =>
    obtain ⟨d, c, hh, lm, rm, s⟩ := k
    rw [removeFixup] at h
    split at h
    · cases h; simp [zip_holes]
    · cases d with
      | left =>
        simp only at h
        split at h
        · cases h
        · simp only [Option.map_eq_some_iff] at h
          obtain ⟨w, hw, h⟩ := h
          have := fixLeft_holes rfl hw
          cases w <;> simp only at h <;> subst h <;>
            simp [side, zip, zip_holes, this, Crumb.plug, T.holes] at this ⊢ <;> simp [this]
        · simp only [Option.bind_eq_some_iff] at h
          obtain ⟨w, hw, h⟩ := h
          have := fixLeft_holes rfl hw
          cases w with
          | inl sub => simp only [Option.some.injEq] at h; subst h; simp only [side] at this; simp [zip, zip_holes, this]
          | inr par => rw [ih h]; simp only [side] at this; simp [zip, zip_holes, this]
      | right =>
        simp only at h
        split at h
        · cases h
        · simp only [Option.map_eq_some_iff] at h
          obtain ⟨w, hw, h⟩ := h
          have := fixRight_holes rfl hw
          cases w <;> simp only at h <;> subst h <;>
            simp [side, zip, zip_holes, this, Crumb.plug, T.holes] at this ⊢ <;> simp [this]
        · simp only [Option.bind_eq_some_iff] at h
          obtain ⟨w, hw, h⟩ := h
          have := fixRight_holes rfl hw
          cases w with
          | inl sub => simp only [Option.some.injEq] at h; subst h; simp only [side] at this; simp [zip, zip_holes, this]
          | inr par => rw [ih h]; simp only [side] at this; simp [zip, zip_holes, this]

theorem removeFixup_lab {a : Nat} {t t' : T} {ks : Ctx} (h : removeFixup a t ks = some t') (hl : Lab a (zip t ks)) : Lab a t' := by
  induction ks generalizing t with
  | nil => simp only [removeFixup, Option.some.injEq] at h; subst h; simpa [zip] using hl
  | cons k ks ih =>
    obtain ⟨d, c, hh, lm, rm, s⟩ := k
    rw [removeFixup] at h
    split at h
    · cases h; rw [lab_zip] at hl ⊢; simpa using hl
    · cases d with
      | left =>
        simp only at h
        obtain ⟨hp, hk⟩ := plug_lab hl
        split at h
        · cases h
        · rename_i yh ylm yrm yl yr
          simp only [Option.map_eq_some_iff] at h
          obtain ⟨w, hw, h⟩ := h
          obtain ⟨l1, l2, l3, l4⟩ := hp
          obtain ⟨e1, e2⟩ := fixLeft_lab rfl hw ⟨l1, l4.1, l3, l4.2.2.1⟩
          have hu : CLab a (⟨.left, .black, yh, nodeMhs a hh lm ylm, yrm, yr⟩ :: ks) ((side w).mhs a) := by
            refine ⟨e2.symm, l4.2.1, l4.2.2.2, ?_⟩
            have : Crumb.mhs a ⟨.left, .black, yh, nodeMhs a hh lm ylm, yrm, yr⟩ = (Crumb.plug ⟨.left, c, hh, lm, rm, .node .red yh ylm yrm yl yr⟩ t).mhs a := by
              have l2' : rm = nodeMhs a yh ylm yrm := l2
              simp only [Crumb.mhs, Crumb.plug, mhs_node]; rw [l2']; simp only [nodeMhs]; omega
            rw [this]; exact hk
          cases w with
          | inl sub => simp only at h; subst h; rw [blacken_lab, lab_zip]; exact ⟨e1, hu⟩
          | inr par => simp only at h; subst h; rw [lab_zip, blacken_lab, blacken_mhs]; exact ⟨e1, hu⟩
        · simp only [Option.bind_eq_some_iff] at h
          obtain ⟨w, hw, h⟩ := h
          obtain ⟨e1, e2⟩ := fixLeft_lab rfl hw hp
          cases w with
          | inl sub => simp only [Option.some.injEq] at h; subst h; rw [blacken_lab, lab_zip]; exact ⟨e1, e2 ▸ hk⟩
          | inr par => exact ih h ((lab_zip ..).mpr ⟨e1, e2 ▸ hk⟩)
      | right =>
        simp only at h
        obtain ⟨hp, hk⟩ := plug_lab hl
        split at h
        · cases h
        · rename_i yh ylm yrm yl yr
          simp only [Option.map_eq_some_iff] at h
          obtain ⟨w, hw, h⟩ := h
          obtain ⟨l1, l2, l3, l4⟩ := hp
          obtain ⟨e1, e2⟩ := fixRight_lab rfl hw ⟨l3.2.1, l2, l3.2.2.2, l4⟩
          have hu : CLab a (⟨.right, .black, yh, ylm, nodeMhs a hh yrm rm, yl⟩ :: ks) ((side w).mhs a) := by
            refine ⟨e2.symm, l3.1, l3.2.2.1, ?_⟩
            have : Crumb.mhs a ⟨.right, .black, yh, ylm, nodeMhs a hh yrm rm, yl⟩ = (Crumb.plug ⟨.right, c, hh, lm, rm, .node .red yh ylm yrm yl yr⟩ t).mhs a := by
              have l1' : lm = nodeMhs a yh ylm yrm := l1
              simp only [Crumb.mhs, Crumb.plug, mhs_node]; rw [l1']; simp only [nodeMhs]; omega
            rw [this]; exact hk
          cases w with
          | inl sub => simp only at h; subst h; rw [blacken_lab, lab_zip]; exact ⟨e1, hu⟩
          | inr par => simp only at h; subst h; rw [lab_zip, blacken_lab, blacken_mhs]; exact ⟨e1, hu⟩
        · simp only [Option.bind_eq_some_iff] at h
          obtain ⟨w, hw, h⟩ := h
          obtain ⟨e1, e2⟩ := fixRight_lab rfl hw hp
          cases w with
          | inl sub => simp only [Option.some.injEq] at h; subst h; rw [blacken_lab, lab_zip]; exact ⟨e1, e2 ▸ hk⟩
          | inr par => exact ih h ((lab_zip ..).mpr ⟨e1, e2 ▸ hk⟩)

/-- A subtree that is one black node short of `n + 1`, or red and not short once blackened. -/
def Short (t : T) (n : Nat) : Prop := (t.isRed = false ∧ RB t n) ∨ (t.isRed = true ∧ RB t.blacken (n + 1))

theorem removeFixup_rb {a n : Nat} {t : T} {ks : Ctx} (ht : Short t n) (hk : CRB ks (n + 1)) :
    ∃ t', removeFixup a t ks = some t' ∧ (∃ m, RB t' m) ∧ t'.isRed = false := by
  induction ks generalizing t n with
  | nil =>
    refine ⟨_, rfl, ?_, by simp⟩
    rcases ht with ⟨h1, h2⟩ | ⟨h1, h2⟩
    · exact h2.black
    · exact ⟨_, h2⟩
  | cons k ks ih =>
    rw [removeFixup]
    rcases ht with ⟨h1, h2⟩ | ⟨h1, h2⟩
    · simp only [h1, Bool.false_eq_true, if_false]
      obtain ⟨d, c, hh, lm, rm, s⟩ := k
      -- one step below a black sibling
      have go : ∀ w : T ⊕ T, FixOk n c w → s.isRed = false →
          ∃ t', (match w with | .inl sub => some (zip sub ks).blacken | .inr par => removeFixup a par ks) = some t' ∧
            (∃ m, RB t' m) ∧ t'.isRed = false := by
        intro w hw hs
        cases c with
        | red =>
          simp only [CRB] at hk
          obtain ⟨k1, k2, k3, k4⟩ := hk
          cases w with
          | inl sub =>
            refine ⟨_, rfl, ?_, by simp⟩
            obtain ⟨h5, h6⟩ := zip_rb (ks := ks) hw k4 (.inr k3)
            rw [blacken_of_not_red h6]; exact h5
          | inr par => exact ih (.inr hw) k4
        | black =>
          simp only [CRB] at hk
          cases w with
          | inl sub =>
            refine ⟨_, rfl, ?_, by simp⟩
            obtain ⟨h5, h6⟩ := zip_rb (ks := ks) hw.1 hk.2 (.inl hw.2)
            rw [blacken_of_not_red h6]; exact h5
          | inr par => exact ih (.inl hw) hk.2
      have hrs : RB s (n + 1) := by cases c <;> simp only [CRB] at hk <;> simp [hk]
      cases s with
      | nil => simp [RB] at hrs
      | node sc sh slm srm sl sr =>
        cases sc with
        | black =>
          cases d with
          | left =>
            obtain ⟨w, hw, hf⟩ := fixLeft_rb (a := a) (k := ⟨.left, c, hh, lm, rm, .node .black sh slm srm sl sr⟩) rfl h1 h2 rfl hrs
            obtain ⟨t', h3⟩ := go w hf rfl
            refine ⟨t', ?_, h3.2⟩
            simp only [hw, Option.bind_some]
            cases w <;> exact h3.1
          | right =>
            obtain ⟨w, hw, hf⟩ := fixRight_rb (a := a) (k := ⟨.right, c, hh, lm, rm, .node .black sh slm srm sl sr⟩) rfl h1 h2 rfl hrs
            obtain ⟨t', h3⟩ := go w hf rfl
            refine ⟨t', ?_, h3.2⟩
            simp only [hw, Option.bind_some]
            cases w <;> exact h3.1
        | red =>
          cases c with
          | red => simp [CRB, T.isRed] at hk
          | black =>
            simp only [CRB] at hk
            simp only [RB] at hrs
            obtain ⟨r1, r2, r3, r4⟩ := hrs
            cases d with
            | left =>
              obtain ⟨w, hw, hf⟩ := fixLeft_rb (a := a) (k := ⟨.left, .red, hh, lm, slm, sl⟩) rfl h1 h2 r1 r3
              simp only [hw, Option.map_some]
              refine ⟨_, rfl, ?_⟩
              have hu : CRB (⟨.left, .black, sh, nodeMhs a hh lm slm, srm, sr⟩ :: ks) (n + 1) := ⟨r4, hk.2⟩
              cases w with
              | inl sub =>
                obtain ⟨h5, h6⟩ := zip_rb hf hu (.inr rfl)
                simp only
                rw [blacken_of_not_red h6]; exact ⟨h5, h6⟩
              | inr par => exact zip_rb hf.2 hu (.inl (by simp))
            | right =>
              obtain ⟨w, hw, hf⟩ := fixRight_rb (a := a) (k := ⟨.right, .red, hh, srm, rm, sr⟩) rfl h1 h2 r2 r4
              simp only [hw, Option.map_some]
              refine ⟨_, rfl, ?_⟩
              have hu : CRB (⟨.right, .black, sh, slm, nodeMhs a hh srm rm, sl⟩ :: ks) (n + 1) := ⟨r3, hk.2⟩
              cases w with
              | inl sub =>
                obtain ⟨h5, h6⟩ := zip_rb hf hu (.inr rfl)
                simp only
                rw [blacken_of_not_red h6]; exact ⟨h5, h6⟩
              | inr par => exact zip_rb hf.2 hu (.inl (by simp))
    · simp only [h1, if_true]
      exact ⟨_, rfl, zip_rb h2 hk (.inl (by simp))⟩

end Verif.Blk
