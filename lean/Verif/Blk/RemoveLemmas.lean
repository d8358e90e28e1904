import Verif.Blk.HoleLemmas

/-! Removing a node of the hole tree. -/
namespace Verif.Blk

/-- What the balance of a path depends on. -/
def shape (ks : Ctx) : List (Color × T) := ks.map fun k => (k.c, k.sib)

theorem Same.shape {ks ks' : Ctx} (h : Same ks ks') : Blk.shape ks' = Blk.shape ks := by
  induction ks generalizing ks' with
  | nil => cases ks' <;> simp_all [Same]
  | cons k ks ih =>
    cases ks' with
    | nil => simp [Same] at h
    | cons k' ks' =>
      obtain ⟨h1, h2, h3, h4, h5⟩ := h
      have := ih h5
      unfold Blk.shape at this ⊢
      simp [h2, h4, this]

theorem okRed_congr {ks ks' : Ctx} (h : shape ks = shape ks') : okRed ks = okRed ks' := by
  cases ks <;> cases ks' <;> simp_all [shape, okRed]

theorem crb_congr {ks ks' : Ctx} (h : shape ks = shape ks') {n : Nat} : CRB ks n ↔ CRB ks' n := by
  induction ks generalizing ks' n with
  | nil => cases ks' <;> simp_all [shape]
  | cons k ks ih =>
    cases ks' with
    | nil => simp [shape] at h
    | cons k' ks' =>
      have h' : shape ks = shape ks' := by simp only [shape, List.map_cons, List.cons.injEq] at h; exact h.2
      simp only [shape, List.map_cons, List.cons.injEq, Prod.mk.injEq] at h
      simp only [CRB, h.1.1, h.1.2, ih h', okRed_congr h']

theorem shape_append (ks ks' : Ctx) : shape (ks ++ ks') = shape ks ++ shape ks' := by simp [shape]

theorem minFocus_append (t : T) (ks ks' : Ctx) : minFocus t (ks ++ ks') = (minFocus t ks).map fun w => (w.1, w.2.1, w.2.2.1, w.2.2.2.1, w.2.2.2.2 ++ ks') := by
  fun_induction minFocus t ks with
  | case1 => rfl
  | case2 => rfl
  | case3 c h lm rm c' h' lm' rm' l' r' r ks ih => rw [minFocus, ← List.cons_append, ih]

/-- What `minFocus` finds. -/
theorem minFocus_spec {t : T} (ht : t ≠ .nil) (ks : Ctx) : ∃ c h lm rm child inner, minFocus t ks = some (c, h, rm, child, inner ++ ks) ∧
    zip (.node c h lm rm .nil child) inner = t ∧ (∀ k ∈ inner, k.dir = .left) := by
  fun_induction minFocus t ks with
  | case1 => exact absurd rfl ht
  | case2 c h lm rm r ks => exact ⟨c, h, lm, rm, r, [], rfl, rfl, by simp⟩
  | case3 c h lm rm c' h' lm' rm' l' r' r ks ih =>
    obtain ⟨c1, h1, lm1, rm1, ch, inner, e1, e2, e3⟩ := ih (by simp)
    refine ⟨c1, h1, lm1, rm1, ch, inner ++ [⟨.left, c, h, lm, rm, r⟩], ?_, ?_, ?_⟩
    · rw [e1]; simp
    · rw [zip_append, e2]; rfl
    · intro k hk
      rcases List.mem_append.mp hk with hk | hk
      · exact e3 k hk
      · simp at hk; subst hk; rfl

theorem rb_unzip {t : T} {inner ks : Ctx} {n : Nat} (h : RB (zip t inner) n) (hk : CRB ks n)
    (hr : (zip t inner).isRed = false ∨ okRed ks = true) :
    ∃ m, RB t m ∧ CRB (inner ++ ks) m ∧ (t.isRed = false ∨ okRed (inner ++ ks) = true) := by
  induction inner generalizing t with
  | nil => exact ⟨n, h, hk, hr⟩
  | cons k inner ih =>
    rw [zip] at h hr
    obtain ⟨m, h1, h2, h3⟩ := ih h hr
    obtain ⟨d, c, hh, lm, rm, s⟩ := k
    cases c with
    | red =>
      have h3' : okRed (inner ++ ks) = true := by
        rcases h3 with h3 | h3
        · cases d <;> simp [Crumb.plug, T.isRed] at h3
        · exact h3
      cases d <;> simp only [Crumb.plug, RB] at h1
      · exact ⟨m, h1.2.2.1, ⟨h1.2.1, h1.2.2.2, h3', h2⟩, .inl h1.1⟩
      · exact ⟨m, h1.2.2.2, ⟨h1.1, h1.2.2.1, h3', h2⟩, .inl h1.2.1⟩
    | black =>
      cases d <;> simp only [Crumb.plug, RB] at h1 <;> obtain ⟨m', rfl, h4, h5⟩ := h1 <;>
        exact ⟨m', by assumption, ⟨by assumption, h2⟩, .inr rfl⟩

theorem recalcTo_eq (a m : Nat) (ps : Ctx) (rm : Nat) (c : Color) (h : Hole) (lm : Nat) (l : T) :
    recalcUp a m (ps ++ [⟨.right, c, h, lm, rm, l⟩]) = (recalcTo a m ps rm).1 ++ [⟨.right, c, h, lm, (recalcTo a m ps rm).2, l⟩] := by
  induction ps generalizing m with
  | nil =>
    simp only [List.nil_append, recalcUp, recalcTo]
    split
    · rename_i h; rw [← show rm = m from h]
    · rfl
  | cons k ps ih =>
    simp only [List.cons_append, recalcUp, recalcTo]
    split
    · rfl
    · rw [ih]; rfl

/-- The largest hole of the subtree at the top of a path. -/
def upMhs (a : Nat) : Ctx → Nat → Nat
  | [], m => m
  | k :: ks, _ => upMhs a ks (k.mhs a)

theorem clab_append (a : Nat) (xs ys : Ctx) (m : Nat) : CLab a (xs ++ ys) m ↔ CLab a xs m ∧ CLab a ys (upMhs a xs m) := by
  induction xs generalizing m with
  | nil => simp [CLab, upMhs]
  | cons k xs ih =>
    simp only [List.cons_append, CLab, ih, upMhs]
    cases k.dir <;> simp only [and_assoc]

theorem before_lefts {ks : Ctx} (h : ∀ k ∈ ks, k.dir = .left) : before ks = [] := by
  induction ks with
  | nil => rfl
  | cons k ks ih => rw [before, h k (by simp)]; exact ih fun k hk => h k (by simp [hk])

theorem finishRemove_holes {a : Nat} {c : Color} {t t' : T} {ks : Ctx} (h : finishRemove a c t ks = some t') :
    t'.holes = (zip t ks).holes := by
  unfold finishRemove at h
  split at h
  · exact removeFixup_holes h
  · cases h; rfl

theorem finishRemove_lab {a : Nat} {c : Color} {t t' : T} {ks : Ctx} (h : finishRemove a c t ks = some t') (hl : Lab a (zip t ks)) :
    Lab a t' := by
  unfold finishRemove at h
  split at h
  · exact removeFixup_lab h hl
  · cases h; exact hl

/-- Removing a node with at most one child, `child`. -/
theorem finishRemove_rb {a n : Nat} {c : Color} {h : Hole} {lm rm : Nat} {l r child : T} {ks : Ctx}
    (ht : RB (.node c h lm rm l r) n) (hc : (l = .nil ∧ child = r) ∨ (r = .nil ∧ child = l)) (hk : CRB ks n) :
    ∃ t', finishRemove a c child ks = some t' ∧ (∃ m, RB t' m) ∧ t'.isRed = false := by
  unfold finishRemove
  cases c with
  | red =>
    simp only [RB] at ht
    simp only [reduceCtorEq, if_false]
    refine ⟨_, rfl, zip_rb (n := n) ?_ hk (.inl ?_)⟩ <;> rcases hc with ⟨-, rfl⟩ | ⟨-, rfl⟩ <;> simp [ht]
  | black =>
    simp only [RB] at ht
    obtain ⟨m, rfl, h1, h2⟩ := ht
    simp only [if_true]
    refine removeFixup_rb (n := m) ?_ hk
    have hch : RB child m := by rcases hc with ⟨-, rfl⟩ | ⟨-, rfl⟩ <;> assumption
    unfold Short
    cases hr : child.isRed with
    | false => exact .inl ⟨rfl, hch⟩
    | true =>
      refine .inr ⟨rfl, ?_⟩
      cases child with
      | nil => simp [T.isRed] at hr
      | node cc hh' lm' rm' l' r' =>
        cases cc with
        | black => simp [T.isRed] at hr
        | red => simp only [RB] at hch; simp [blacken_node, RB, hch]

theorem setLabel_same (k : Crumb) (m : Nat) : (k.setLabel m).dir = k.dir ∧ (k.setLabel m).c = k.c ∧ (k.setLabel m).h = k.h ∧ (k.setLabel m).sib = k.sib := by
  obtain ⟨d, c, hh, lm, rm, s⟩ := k
  cases d <;> simp [Crumb.setLabel]

theorem rawRemove_holes {a : Nat} {c : Color} {h : Hole} {lm rm : Nat} {l r : T} {ks : Ctx} {t' : T}
    (hr : rawRemove a (.node c h lm rm l r) ks = some t') : t'.holes = before ks ++ (l.holes ++ r.holes ++ after ks) := by
  rw [rawRemove] at hr
  split at hr
  · rename_i hlr
    obtain ⟨c1, h1, lm1, rm1, ch, inner, e1, e2, e3⟩ := minFocus_spec hlr.2 []
    rw [List.append_nil] at e1
    simp only [e1, Option.bind_some] at hr
    have hrh : r.holes = h1 :: (ch.holes ++ after inner) := by
      rw [← e2, zip_holes, before_lefts e3]; simp [T.holes]
    cases inner with
    | nil =>
      simp only at hr
      rw [finishRemove_holes hr, zip_holes]
      simp [before, after, hrh]
    | cons p ps =>
      simp only at hr
      obtain ⟨pd, pc, ph, plm, prm, psb⟩ := p
      have hpd : pd = .left := e3 _ List.mem_cons_self
      subst hpd
      have s1 : Same (ps ++ [⟨.right, c, h, lm, rm, l⟩]) (recalcUp a (Crumb.mhs a ⟨.left, pc, ph, rm1, prm, psb⟩) (ps ++ [⟨.right, c, h, lm, rm, l⟩])) := recalcUp_same ..
      rw [recalcTo_eq] at s1
      have s2 := s1.holes
      have hb : before ps = [] := before_lefts fun k hk => e3 k (by simp [hk])
      simp only [before_append, after_append, before, after, hb, List.append_nil, List.nil_append] at s2
      rw [finishRemove_holes hr, zip_holes]
      have hb' : before (recalcTo a (Crumb.mhs a ⟨.left, pc, ph, rm1, prm, psb⟩) ps rm).1 = [] := by
        have := s2.1; simp at this; exact this
      simp [before_append, after_append, before, after, hb', hrh, s2.2]
  · rename_i hlr
    have hch : (if l ≠ .nil then l else r).holes = l.holes ++ r.holes := by
      split
      · rename_i hl
        have : r = .nil := Classical.byContradiction fun hr => hlr ⟨hl, hr⟩
        simp [this, T.holes]
      · rename_i hl
        have : l = .nil := Classical.byContradiction fun h => hl h
        simp [this, T.holes]
    cases ks with
    | nil => simp only at hr; rw [finishRemove_holes hr, zip_holes, hch]
    | cons k ks =>
      simp only at hr
      rw [finishRemove_holes hr, zip_holes, hch]
      generalize (if l ≠ .nil then l else r) = w at *
      have := setLabel_same k (w.mhs a)
      simp [before, after, this]

theorem rawRemove_lab {a : Nat} {c : Color} {h : Hole} {lm rm m0 : Nat} {l r : T} {ks : Ctx} {t' : T}
    (hr : rawRemove a (.node c h lm rm l r) ks = some t') (hl : Lab a (.node c h lm rm l r)) (hk : CLab a ks m0) : Lab a t' := by
  obtain ⟨l1, l2, l3, l4⟩ := hl
  rw [rawRemove] at hr
  split at hr
  · rename_i hlr
    obtain ⟨c1, h1, lm1, rm1, ch, inner, e1, e2, e3⟩ := minFocus_spec hlr.2 []
    rw [List.append_nil] at e1
    simp only [e1, Option.bind_some] at hr
    rw [← e2, lab_zip] at l4
    cases inner with
    | nil =>
      simp only at hr
      refine finishRemove_lab hr ((lab_zip ..).mpr ⟨l4.1.2.2.2, l4.1.2.1, l1, l3, ?_⟩)
      exact recalcUp_lab a m0 _ _ hk
    | cons p ps =>
      simp only at hr
      refine finishRemove_lab hr ((lab_zip ..).mpr ⟨l4.1.2.2.2, ?_⟩)
      have hpd : p.dir = .left := e3 p (by simp)
      have q1 : CLab a (ps ++ [⟨.right, c, h, lm, rm, l⟩]) (p.mhs a) := by
        rw [clab_append]
        have q := l4.2
        simp only [CLab, hpd] at q
        refine ⟨q.2.2.2, ?_, l1, l3, trivial⟩
        -- the top of the inner path is the right child
        have top : ∀ (xs : Ctx) (t : T), upMhs a xs (t.mhs a) = (zip t xs).mhs a := by
          intro xs
          induction xs with
          | nil => intro t; rfl
          | cons k xs ih =>
            intro t
            rw [zip, ← ih]
            simp only [upMhs]
            congr 1
            obtain ⟨d, c, hh, lm, rm, s⟩ := k
            cases d <;> rfl
        have tp := top ps (p.plug (.node c1 h1 lm1 rm1 .nil ch))
        have e : (p.plug (.node c1 h1 lm1 rm1 .nil ch)).mhs a = p.mhs a := by
          obtain ⟨d, c, hh, lm, rm, s⟩ := p
          cases d <;> rfl
        rw [e] at tp
        rw [tp, show zip (p.plug (.node c1 h1 lm1 rm1 .nil ch)) ps = r from e2]
        exact l2
      have q2 : CLab a ({ p with lm := rm1 } :: (recalcUp a (Crumb.mhs a { p with lm := rm1 }) (ps ++ [⟨.right, c, h, lm, rm, l⟩]))) (ch.mhs a) := by
        have q := l4.2
        simp only [CLab, hpd] at q ⊢
        exact ⟨l4.1.2.1, q.2.1, q.2.2.1, recalcUp_lab _ _ _ _ q1⟩
      rw [recalcTo_eq, ← List.cons_append, clab_append] at q2
      obtain ⟨q3, q4, -⟩ := q2
      rw [clab_append]
      exact ⟨q3, q4, l1, l3, recalcUp_lab _ _ _ _ hk⟩
  · have hch : Lab a (if l ≠ .nil then l else r) := by split <;> assumption
    cases ks with
    | nil => simp only at hr; exact finishRemove_lab hr ((lab_zip ..).mpr ⟨hch, trivial⟩)
    | cons k ks =>
      simp only at hr
      refine finishRemove_lab hr ((lab_zip ..).mpr ⟨hch, ?_⟩)
      obtain ⟨d, kc, hh, klm, krm, s⟩ := k
      cases d <;> exact ⟨rfl, hk.2.1, hk.2.2.1, recalcUp_lab _ _ _ _ hk.2.2.2⟩

theorem rawRemove_rb {a n : Nat} {c : Color} {h : Hole} {lm rm : Nat} {l r : T} {ks : Ctx}
    (ht : RB (.node c h lm rm l r) n) (hk : CRB ks n) (hok : c = .black ∨ okRed ks = true) :
    ∃ t', rawRemove a (.node c h lm rm l r) ks = some t' ∧ (∃ m, RB t' m) ∧ t'.isRed = false := by
  rw [rawRemove]
  split
  · rename_i hlr
    obtain ⟨c1, h1, lm1, rm1, ch, inner, e1, e2, e3⟩ := minFocus_spec hlr.2 []
    rw [List.append_nil] at e1
    simp only [e1, Option.bind_some]
    -- the right child sits below the removed node
    have hr : ∃ m, RB r m ∧ CRB (⟨.right, c, h, lm, rm, l⟩ :: ks) m ∧ (r.isRed = false ∨ okRed (⟨.right, c, h, lm, rm, l⟩ :: ks) = true) := by
      cases c with
      | red =>
        simp only [RB] at ht
        exact ⟨n, ht.2.2.2, ⟨ht.1, ht.2.2.1, by simpa using hok, hk⟩, .inl ht.2.1⟩
      | black =>
        simp only [RB] at ht
        obtain ⟨m, rfl, r1, r2⟩ := ht
        exact ⟨m, r2, ⟨r1, hk⟩, .inr rfl⟩
    obtain ⟨m, r1, r2, r3⟩ := hr
    rw [← e2] at r1 r3
    obtain ⟨m', u1, u2, u3⟩ := rb_unzip r1 r2 r3
    cases inner with
    | nil =>
      simp only
      refine finishRemove_rb u1 (.inl ⟨rfl, rfl⟩) ((crb_congr ?_).mp u2)
      have := (recalcUp_same a (Crumb.mhs a ⟨.right, c, h1, lm, rm1, l⟩) ks).shape
      unfold shape at this ⊢
      simp [this]
    | cons p ps =>
      simp only
      refine finishRemove_rb u1 (.inl ⟨rfl, rfl⟩) ((crb_congr ?_).mp u2)
      have s1 := (recalcUp_same a (Crumb.mhs a { p with lm := rm1 }) (ps ++ [⟨.right, c, h, lm, rm, l⟩])).shape
      have s3 := (recalcUp_same a (Crumb.mhs a ⟨.right, c, h1, lm, (recalcTo a (Crumb.mhs a { p with lm := rm1 }) ps rm).2, l⟩) ks).shape
      rw [recalcTo_eq] at s1
      unfold shape at s1 s3 ⊢
      simp at s1
      simp [s1, s3]
  · rename_i hlr
    have hc : (l = .nil ∧ (if l ≠ .nil then l else r) = r) ∨ (r = .nil ∧ (if l ≠ .nil then l else r) = l) := by
      by_cases hl : l = .nil
      · exact .inl ⟨hl, by simp [hl]⟩
      · exact .inr ⟨Classical.byContradiction fun hr => hlr ⟨hl, hr⟩, by simp [hl]⟩
    cases ks with
    | nil => exact finishRemove_rb ht hc hk
    | cons k ks =>
      refine finishRemove_rb ht hc ((crb_congr ?_).mp hk)
      generalize (if l ≠ .nil then l else r) = w at *
      have s3 := (recalcUp_same a ((k.setLabel (w.mhs a)).mhs a) ks).shape
      have := setLabel_same k (w.mhs a)
      unfold shape at s3 ⊢
      simp [s3, this]

end Verif.Blk
