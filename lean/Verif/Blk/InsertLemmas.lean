import Verif.Blk.RemoveLemmas

/-! Adding a hole to the tree. -/
namespace Verif.Blk

/-- The invariant of the tree itself: balanced, labels exact. -/
def Good (a : Nat) (t : T) : Prop := (∃ n, RB t n) ∧ t.isRed = false ∧ Lab a t

theorem nearest_right (ks : Ctx) : nearest .right ks = (before ks).getLast? := by
  induction ks with
  | nil => rfl
  | cons k ks ih =>
    rw [nearest, before]
    cases h : k.dir <;> simp [ih]

theorem nearest_left (ks : Ctx) : nearest .left ks = (after ks).head? := by
  induction ks with
  | nil => rfl
  | cons k ks ih =>
    rw [nearest, after]
    cases h : k.dir <;> simp [ih]

theorem setNearest_shape (d : Dir) (h : Hole) (ks : Ctx) : shape (setNearest d h ks) = shape ks := by
  induction ks with
  | nil => rfl
  | cons k ks ih =>
    rw [setNearest]
    split
    · simp [shape]
    · unfold shape at ih ⊢; simp [ih]

theorem setNearest_right {h q : Hole} {ks : Ctx} {B : List Hole} (hb : before ks = B ++ [q]) :
    before (setNearest .right h ks) = B ++ [h] ∧ after (setNearest .right h ks) = after ks := by
  induction ks generalizing B with
  | nil => simp [before] at hb
  | cons k ks ih =>
    obtain ⟨d, c, hh, lm, rm, s⟩ := k
    cases d with
    | left => simp only [setNearest, reduceCtorEq, if_false, before, after] at hb ⊢; simp [ih hb]
    | right =>
      simp only [setNearest, if_true, before, after] at hb ⊢
      rw [← List.append_assoc] at hb
      have := List.append_inj_left' hb rfl
      rw [← List.append_assoc, this]; simp

theorem setNearest_left {h q : Hole} {ks : Ctx} {A : List Hole} (hb : after ks = q :: A) :
    after (setNearest .left h ks) = h :: A ∧ before (setNearest .left h ks) = before ks := by
  induction ks generalizing A with
  | nil => simp [after] at hb
  | cons k ks ih =>
    obtain ⟨d, c, hh, lm, rm, s⟩ := k
    cases d with
    | right => simp only [setNearest, reduceCtorEq, if_false, before, after] at hb ⊢; simp [ih hb]
    | left =>
      simp only [setNearest, if_true, before, after] at hb ⊢
      simp at hb
      simp [hb]

theorem recalcNearest_same (a : Nat) (d : Dir) (ks : Ctx) : Same ks (recalcNearest a d ks) := by
  induction ks with
  | nil => simp [recalcNearest, Same]
  | cons k ks ih =>
    rw [recalcNearest]
    split
    · simp [Same, recalcUp_same]
    · simp [Same, ih]

/-- Labels exact except that of the nearest ancestor on side `d`, seen from above. -/
def XLab (a : Nat) (d : Dir) : Ctx → Nat → Prop
  | [], _ => True
  | k :: ks, m => (match k.dir with | .left => k.lm = m ∧ k.rm = k.sib.mhs a | .right => k.rm = m ∧ k.lm = k.sib.mhs a) ∧ Lab a k.sib ∧
    (k.dir = d → ∃ m1, CLab a ks m1) ∧ (k.dir ≠ d → XLab a d ks (k.mhs a))

theorem xlab_set {a m : Nat} (d : Dir) (h : Hole) {ks : Ctx} (hk : CLab a ks m) : XLab a d (setNearest d h ks) m := by
  induction ks generalizing m with
  | nil => trivial
  | cons k ks ih =>
    obtain ⟨kd, c, hh, lm, rm, s⟩ := k
    cases kd <;> cases d <;> simp only [setNearest, reduceCtorEq, if_true, if_false, CLab] at hk ⊢
    · exact ⟨⟨hk.1, hk.2.1⟩, hk.2.2.1, fun _ => ⟨_, hk.2.2.2⟩, fun h => absurd rfl h⟩
    · exact ⟨⟨hk.1, hk.2.1⟩, hk.2.2.1, (fun e => by simp at e), fun _ => ih hk.2.2.2⟩
    · exact ⟨⟨hk.1, hk.2.1⟩, hk.2.2.1, (fun e => by simp at e), fun _ => ih hk.2.2.2⟩
    · exact ⟨⟨hk.1, hk.2.1⟩, hk.2.2.1, fun _ => ⟨_, hk.2.2.2⟩, fun h => absurd rfl h⟩

theorem xlab_recalc {a m0 : Nat} {d : Dir} (m : Nat) {ks : Ctx} (hk : XLab a d ks m0) : XLab a d (recalcUp a m ks) m := by
  induction ks generalizing m0 m with
  | nil => trivial
  | cons k ks ih =>
    obtain ⟨kd, c, hh, lm, rm, s⟩ := k
    rw [recalcUp]
    by_cases hm : Crumb.label ⟨kd, c, hh, lm, rm, s⟩ = m
    · rw [if_pos hm]
      cases kd <;> exact ⟨⟨hm, hk.1.2⟩, hk.2⟩
    · rw [if_neg hm]
      obtain ⟨h1, h2, h3, h4⟩ := hk
      cases kd
      · refine ⟨⟨rfl, h1.2⟩, h2, fun h => ?_, fun h => ih _ (h4 h)⟩
        obtain ⟨m1, h5⟩ := h3 h
        exact ⟨_, recalcUp_lab _ _ _ _ h5⟩
      · refine ⟨⟨rfl, h1.2⟩, h2, fun h => ?_, fun h => ih _ (h4 h)⟩
        obtain ⟨m1, h5⟩ := h3 h
        exact ⟨_, recalcUp_lab _ _ _ _ h5⟩

theorem xlab_fix {a m : Nat} {d : Dir} {ks : Ctx} (hk : XLab a d ks m) : CLab a (recalcNearest a d ks) m := by
  induction ks generalizing m with
  | nil => trivial
  | cons k ks ih =>
    obtain ⟨kd, c, hh, lm, rm, s⟩ := k
    obtain ⟨h1, h2, h3, h4⟩ := hk
    rw [recalcNearest]
    split
    · rename_i hd
      obtain ⟨m1, h5⟩ := h3 hd
      cases kd <;> exact ⟨h1.1, h1.2, h2, recalcUp_lab _ _ _ _ h5⟩
    · rename_i hd
      cases kd <;> exact ⟨h1.1, h1.2, h2, ih (h4 hd)⟩

/-! ### Where the new hole goes -/

theorem descend_spec {o : Nat} (ho : o < maxVal) {t : T} {ks : Ctx} (hb : ∀ h ∈ before ks, h.off ≤ o) (ha : ∀ h ∈ after ks, o < h.off)
    (hs : t.holes.Pairwise fun x y => x.off < y.off) :
    ∃ ks', descend o t ks = some ks' ∧ zip .nil ks' = zip t ks ∧ (∀ h ∈ before ks', h.off ≤ o) ∧ (∀ h ∈ after ks', o < h.off) := by
  induction t generalizing ks with
  | nil => exact ⟨ks, rfl, rfl, hb, ha⟩
  | node c h lm rm l r ihl ihr =>
    simp only [T.holes, List.pairwise_append, List.pairwise_cons] at hs
    obtain ⟨s1, ⟨s2, s3⟩, s4⟩ := hs
    have hlt : ouLt o h.off = some (decide (o < h.off)) := by unfold ouLt; rw [if_neg (by omega)]
    rw [descend, hlt, Option.bind_some]
    by_cases hoh : o < h.off
    · simp only [hoh, decide_true, if_true]
      obtain ⟨ks', e1, e2, e3, e4⟩ := ihl (ks := ⟨.left, c, h, lm, rm, r⟩ :: ks) (by simpa [before] using hb) (by
        intro x hx
        simp only [after, List.mem_cons, List.mem_append] at hx
        rcases hx with rfl | hx | hx
        · exact hoh
        · have := s2 x hx; omega
        · exact ha x hx) s1
      exact ⟨ks', e1, e2, e3, e4⟩
    · simp only [hoh, decide_false, Bool.false_eq_true, if_false]
      obtain ⟨ks', e1, e2, e3, e4⟩ := ihr (ks := ⟨.right, c, h, lm, rm, l⟩ :: ks) (by
        intro x hx
        simp only [before, List.mem_append, List.mem_singleton] at hx
        rcases hx with hx | hx | rfl
        · exact hb x hx
        · have := s4 x hx h List.mem_cons_self; omega
        · omega) (by simpa [after] using ha) s3
      exact ⟨ks', e1, e2, e3, e4⟩

/-! ### The result -/

/-- A finite hole. -/
def Hole.fin (h : Hole) : Prop := h.size < maxVal

/-- What the holes are after adding `p` between `B` and `A`. -/
def InsRes (B : List Hole) (p : Hole) (A hs : List Hole) : Prop :=
  (∃ B' q s A', B = B' ++ [q] ∧ A = s :: A' ∧ q.off + q.size = p.off ∧ p.off + p.size = s.off ∧
    hs = B' ++ ⟨q.off, if s.size = maxVal then maxVal else q.size + p.size + s.size⟩ :: A') ∨
  (∃ B' q, B = B' ++ [q] ∧ q.off + q.size = p.off ∧ (∀ s ∈ A.head?, p.off + p.size < s.off) ∧
    hs = B' ++ ⟨q.off, if p.size = maxVal then maxVal else q.size + p.size⟩ :: A) ∨
  (∃ s A', A = s :: A' ∧ p.off + p.size = s.off ∧ (∀ q ∈ B.getLast?, q.off + q.size < p.off) ∧
    hs = B ++ ⟨p.off, if s.size = maxVal then maxVal else p.size + s.size⟩ :: A') ∨
  ((∀ s ∈ A.head?, p.off + p.size < s.off) ∧ (∀ q ∈ B.getLast?, q.off + q.size < p.off) ∧ hs = B ++ p :: A)

theorem insertAt_spec {a : Nat} {p : Hole} {ks : Ctx} (hr : CRB ks 0) (hl : CLab a ks 0) :
    ∃ t', insertAt a p ks = some t' ∧ Good a t' ∧ t'.holes = before ks ++ p :: after ks := by
  obtain ⟨t', h1, h2, h3⟩ := insertFixup_rb (a := a) (t := .node .red p 0 0 .nil .nil) (n := 0) (ks := recalcUp a (nodeMhs a p 0 0) ks)
    (by simp [RB, T.isRed]) rfl ((crb_congr (recalcUp_same ..).shape).mpr hr)
  refine ⟨t', h1, ⟨h2, h3, insertFixup_lab h1 ?_⟩, ?_⟩
  · rw [lab_zip]
    exact ⟨⟨rfl, rfl, trivial, trivial⟩, recalcUp_lab _ _ _ _ hl⟩
  · rw [insertFixup_holes h1, zip_holes]; simp [T.holes]

theorem leftMerge_spec {B : List Hole} {p : Hole} (hp : p.off < maxVal) (hb : ∀ q ∈ B.getLast?, q.fin ∧ q.off + q.size ≤ p.off) :
    (leftMerge B.getLast? p = some true ∧ ∃ B' q, B = B' ++ [q] ∧ q.fin ∧ q.off + q.size = p.off) ∨
    (leftMerge B.getLast? p = some false ∧ ∀ q ∈ B.getLast?, q.off + q.size < p.off) := by
  cases h : B.getLast? with
  | none => right; exact ⟨rfl, by simp⟩
  | some q =>
    obtain ⟨B', hB⟩ : ∃ B', B = B' ++ [q] := List.getLast?_eq_some_iff.mp h
    obtain ⟨h1, h2⟩ := hb q (by rw [h]; rfl)
    unfold Hole.fin at h1
    have e : ouAdd q.size q.off = some (q.size + q.off) := by
      unfold ouAdd; rw [if_neg (by omega), if_pos (by omega)]
    have e2 : ouLt (q.size + q.off) p.off = some (decide (q.size + q.off < p.off)) := by unfold ouLt; rw [if_neg (by omega)]
    simp only [leftMerge, e, e2, Option.bind_some]
    by_cases hlt : q.size + q.off < p.off
    · right; simp only [hlt, decide_true, if_true, true_and]; intro x hx; cases hx; omega
    · left
      have : q.size + q.off = p.off := by omega
      simp only [hlt, decide_false, Bool.false_eq_true, if_false]
      rw [if_pos this]
      refine ⟨rfl, ?_⟩
      exact ⟨B', q, hB, h1, by omega⟩

theorem rightMerge_spec {A : List Hole} {p : Hole} (ha : ∀ s ∈ A.head?, s.off < maxVal ∧ p.fin ∧ p.off + p.size ≤ s.off) :
    (rightMerge A.head? p = some true ∧ ∃ s A', A = s :: A' ∧ s.off < maxVal ∧ p.fin ∧ p.off + p.size = s.off) ∨
    (rightMerge A.head? p = some false ∧ ∀ s ∈ A.head?, p.off + p.size < s.off) := by
  cases A with
  | nil => right; exact ⟨rfl, by simp⟩
  | cons s A =>
    obtain ⟨h0, h1, h2⟩ := ha s rfl
    unfold Hole.fin at h1
    have e : ouAdd p.off p.size = some (p.off + p.size) := by
      unfold ouAdd; rw [if_neg (by omega), if_pos (by omega)]
    have e2 : ouLt (p.off + p.size) s.off = some (decide (p.off + p.size < s.off)) := by unfold ouLt; rw [if_neg (by omega)]
    simp only [rightMerge, List.head?_cons, e, e2, Option.bind_some]
    by_cases hlt : p.off + p.size < s.off
    · right; simp only [hlt, decide_true, if_true, true_and]; intro x hx; cases hx; exact hlt
    · left
      have : p.off + p.size = s.off := by omega
      simp only [hlt, decide_false, Bool.false_eq_true, if_false]
      rw [if_pos this]
      exact ⟨rfl, s, A, rfl, h0, h1, this⟩

/-- Adding up sizes of adjacent holes. -/
theorem ouAdd_ok {x y : Nat} (h : x = maxVal ∨ y = maxVal ∨ x + y < maxVal) : ouAdd x y = some (if x = maxVal ∨ y = maxVal then maxVal else x + y) := by
  unfold ouAdd
  split
  · rfl
  · rw [if_pos (by omega)]

theorem sameshape_crb {ks ks' : Ctx} {n : Nat} (h : shape ks' = shape ks) (hr : CRB ks n) : CRB ks' n := (crb_congr h).mpr hr

/-- A hole whose end, if it has one, is a 64-bit number. -/
def Hole.ok (h : Hole) : Prop := 0 < h.size ∧ h.off < maxVal ∧ (h.size = maxVal ∨ h.off + h.size < maxVal)

theorem insert_spec {a : Nat} {t : T} {p : Hole} (hg : Good a t) (hp : p.ok)
    (hsort : t.holes.Pairwise fun x y => x.off < y.off) (hok : ∀ h ∈ t.holes, h.ok)
    (hfit : ∀ h ∈ t.holes, (h.fin ∧ h.off + h.size ≤ p.off) ∨ (p.fin ∧ p.off + p.size ≤ h.off)) :
    ∃ t' B A, insert a t p = some t' ∧ Good a t' ∧ t.holes = B ++ A ∧ (∀ h ∈ B, h.fin ∧ h.off + h.size ≤ p.off) ∧
      (∀ h ∈ A, p.fin ∧ p.off + p.size ≤ h.off) ∧ InsRes B p A t'.holes := by
  obtain ⟨⟨n, hrb⟩, hblack, hlab⟩ := hg
  obtain ⟨hp0, hp1, hp2⟩ := hp
  obtain ⟨ks, e1, e2, e3, e4⟩ := descend_spec hp1 (t := t) (ks := []) (by simp [before]) (by simp [after]) hsort
  simp only [zip] at e2
  have hh : t.holes = before ks ++ after ks := by rw [← e2, zip_holes]; simp [T.holes]
  rw [← e2] at hrb hblack hlab
  obtain ⟨m, u1, u2, -⟩ := rb_unzip (ks := []) hrb trivial (.inl hblack)
  simp only [RB] at u1; subst u1
  rw [List.append_nil] at u2
  rw [lab_zip] at hlab
  have hcl : CLab a ks 0 := hlab.2
  have hB : ∀ h ∈ before ks, h.fin ∧ h.off + h.size ≤ p.off := by
    intro h hm
    rcases hfit h (by simp [hh, hm]) with h1 | h1
    · exact h1
    · have := e3 h hm; omega
  have hA : ∀ h ∈ after ks, p.fin ∧ p.off + p.size ≤ h.off := by
    intro h hm
    rcases hfit h (by simp [hh, hm]) with h1 | h1
    · have := e4 h hm; omega
    · exact h1
  have hlm := leftMerge_spec (B := before ks) hp1 (fun q hq => hB q (List.mem_of_getLast? hq))
  have hrm := rightMerge_spec (A := after ks) (p := p) (fun s hs => by
    have hs' := List.mem_of_head? hs
    exact ⟨(hok s (by simp [hh, hs'])).2.1, hA s hs'⟩)
  suffices ∃ t', insert a t p = some t' ∧ Good a t' ∧ InsRes (before ks) p (after ks) t'.holes by
    obtain ⟨t', h1, h2, h3⟩ := this
    exact ⟨t', _, _, h1, h2, hh, hB, hA, h3⟩
  unfold insert
  rw [e1, Option.bind_some]
  cases ks with
  | nil =>
    obtain ⟨t', h1, h2, h3⟩ := insertAt_spec (p := p) u2 hcl
    exact ⟨t', h1, h2, .inr (.inr (.inr ⟨by simp [after], by simp [before], h3⟩))⟩
  | cons y rest =>
    obtain ⟨d, c, h, lm, rm, s⟩ := y
    -- the node at the end of the path
    cases d with
    | left =>
      simp only
      have hB0 : before (⟨.left, c, h, lm, rm, s⟩ :: rest) = before rest := rfl
      have hA0 : after (⟨.left, c, h, lm, rm, s⟩ :: rest) = h :: (s.holes ++ after rest) := rfl
      rw [nearest_right, ← hB0, show some h = (after (⟨.left, c, h, lm, rm, s⟩ :: rest)).head? from rfl]
      simp only [CLab] at hcl
      obtain ⟨c1, c2, c3, c4⟩ := hcl
      have hokh : h.ok := hok h (by rw [hh, hA0]; simp)
      -- the balance at the node `h`
      have hyr : ∀ h' : Hole, ∃ n, RB (.node c h' lm rm .nil s) n ∧ CRB rest n ∧ (c = .black ∨ okRed rest = true) := by
        intro h'
        cases c with
        | red => simp only [CRB] at u2; exact ⟨0, ⟨rfl, u2.1, rfl, u2.2.1⟩, u2.2.2.2, .inr u2.2.2.1⟩
        | black => simp only [CRB] at u2; exact ⟨1, ⟨0, rfl, rfl, u2.1⟩, u2.2, .inl rfl⟩
      have hyl : ∀ h' : Hole, Lab a (.node c h' lm rm .nil s) := fun h' => ⟨c1, c2, trivial, c3⟩
      -- plugging back a node of the same shape
      have back : ∀ (h' : Hole) (rest' : Ctx), shape rest' = shape rest → CLab a rest' (nodeMhs a h' lm rm) →
          Good a (zip (.node c h' lm rm .nil s) rest') := by
        intro h' rest' hs hc
        obtain ⟨n, r1, r2, r3⟩ := hyr h'
        obtain ⟨r4, r5⟩ := zip_rb (ks := rest') r1 (sameshape_crb hs r2) (by
          rcases r3 with r3 | r3
          · subst r3; exact .inl rfl
          · rw [okRed_congr hs]; exact .inr r3)
        exact ⟨r4, r5, (lab_zip ..).mpr ⟨hyl h', hc⟩⟩
      rcases hlm with ⟨l1, B', q, l2, l3, l4⟩ | ⟨l1, l2⟩ <;> rcases hrm with ⟨r1, sx, A', r2, r3, r4, r5⟩ | ⟨r1, r2⟩ <;>
        rw [l1, r1] <;> simp only [Option.bind_some, Bool.or_self, Bool.or_true, Bool.or_false, Bool.true_or, if_true, Bool.false_eq_true, if_false]
      · rw [hA0] at r2
        simp only [List.cons.injEq] at r2
        obtain ⟨rfl, rfl⟩ := r2
        simp only [absorbLeft, Bool.and_self, if_true]
        rw [nearest_right, ← hB0, l2, List.getLast?_append, List.getLast?_singleton, Option.some_or, Option.bind_some]
        unfold Hole.fin at l3 r4
        obtain ⟨k1, k2, k3⟩ := hokh
        rw [ouAdd_ok (by omega), Option.bind_some, ouAdd_ok (by split <;> omega), Option.bind_some, ouAdd_ok (by split <;> omega), Option.bind_some]
        rw [hB0] at l2
        generalize hssz : (if h.size = maxVal ∨ p.size = maxVal then maxVal else h.size + p.size) = ssz
        generalize hqsz : (if q.size = maxVal ∨ ssz = maxVal then maxVal else q.size + ssz) = qsz
        generalize (if p.off = maxVal ∨ ssz = maxVal then maxVal else p.off + ssz) = soff
        have sn := setNearest_right (h := ⟨q.off, qsz⟩) l2
        generalize hr' : recalcNearest a .right (recalcUp a (T.mhs a (.node c ⟨soff, 0⟩ lm rm .nil s)) (setNearest .right ⟨q.off, qsz⟩ rest)) = rest'
        have hsh : shape rest' = shape rest := by
          rw [← hr', (recalcNearest_same ..).shape, (recalcUp_same ..).shape, setNearest_shape]
        have hcl' : CLab a rest' (T.mhs a (.node c ⟨soff, 0⟩ lm rm .nil s)) := by
          rw [← hr']; exact xlab_fix (xlab_recalc _ (xlab_set .right _ c4))
        obtain ⟨n, y1, y2, y3⟩ := hyr ⟨soff, 0⟩
        obtain ⟨t', z1, z2, z3⟩ := rawRemove_rb (a := a) y1 (sameshape_crb hsh y2) (by rw [okRed_congr hsh]; exact y3)
        refine ⟨t', z1, ⟨z2, z3, rawRemove_lab z1 (hyl _) hcl'⟩, .inl ⟨B', q, h, _, rfl, rfl, l4, r5, ?_⟩⟩
        rw [rawRemove_holes z1, ← hr', (recalcNearest_same ..).holes.1, (recalcNearest_same ..).holes.2, before_recalcUp, after_recalcUp, sn.1, sn.2]
        have : qsz = if h.size = maxVal then maxVal else q.size + p.size + h.size := by
          rw [← hqsz, ← hssz]; repeat' split
          all_goals omega
        simp [T.holes, this]
      · simp only [absorbLeft, Bool.and_false, Bool.false_eq_true, if_false, if_true]
        rw [nearest_right, ← hB0, l2, List.getLast?_append, List.getLast?_singleton, Option.some_or, Option.bind_some]
        unfold Hole.fin at l3
        rw [ouAdd_ok (by omega), Option.map_some]
        rw [hB0] at l2
        generalize hqsz : (if q.size = maxVal ∨ p.size = maxVal then maxVal else q.size + p.size) = qsz
        have sn := setNearest_right (h := ⟨q.off, qsz⟩) l2
        refine ⟨_, rfl, back h _ ?_ ?_, .inr (.inl ⟨B', q, rfl, l4, r2, ?_⟩)⟩
        · rw [(recalcNearest_same ..).shape, setNearest_shape]
        · exact xlab_fix (xlab_set .right _ c4)
        · rw [zip_holes, (recalcNearest_same ..).holes.1, (recalcNearest_same ..).holes.2, sn.1, sn.2]
          have : qsz = if p.size = maxVal then maxVal else q.size + p.size := by
            rw [← hqsz]; repeat' split
            all_goals omega
          simp [T.holes, this, hA0]
      · rw [hA0] at r2
        simp only [List.cons.injEq] at r2
        obtain ⟨rfl, rfl⟩ := r2
        simp only [absorbLeft, Bool.and_true, Bool.false_eq_true, if_false]
        unfold Hole.fin at r4
        obtain ⟨k1, k2, k3⟩ := hokh
        have e5 : ouSubEq h.off p.size = some p.off := by
          unfold ouSubEq; rw [if_neg (by omega), if_neg (by omega), if_pos (by omega)]; congr 1; omega
        rw [e5, Option.bind_some, ouAdd_ok (by omega), Option.map_some]
        generalize hssz : (if h.size = maxVal ∨ p.size = maxVal then maxVal else h.size + p.size) = ssz
        refine ⟨_, rfl, back ⟨p.off, ssz⟩ _ (recalcUp_same ..).shape (recalcUp_lab _ _ _ _ c4), .inr (.inr (.inl ⟨h, _, rfl, r5, l2, ?_⟩))⟩
        rw [zip_holes, before_recalcUp, after_recalcUp]
        have : ssz = if h.size = maxVal then maxVal else p.size + h.size := by
          rw [← hssz]; repeat' split
          all_goals omega
        simp [T.holes, this, hB0]
      · obtain ⟨t', h1, h2, h3⟩ := insertAt_spec (p := p) u2 (show CLab a (⟨.left, c, h, lm, rm, s⟩ :: rest) 0 from ⟨c1, c2, c3, c4⟩)
        exact ⟨t', h1, h2, .inr (.inr (.inr ⟨r2, l2, h3⟩))⟩
    | right =>
      simp only
      have hA0 : after (⟨.right, c, h, lm, rm, s⟩ :: rest) = after rest := rfl
      have hB0 : before (⟨.right, c, h, lm, rm, s⟩ :: rest) = (before rest ++ s.holes) ++ [h] := by simp [before]
      rw [nearest_left, ← hA0, show some h = (before (⟨.right, c, h, lm, rm, s⟩ :: rest)).getLast? from by rw [hB0]; simp]
      simp only [CLab] at hcl
      obtain ⟨c1, c2, c3, c4⟩ := hcl
      have hyr : ∀ h' : Hole, ∃ n, RB (.node c h' lm rm s .nil) n ∧ CRB rest n ∧ (c = .black ∨ okRed rest = true) := by
        intro h'
        cases c with
        | red => simp only [CRB] at u2; exact ⟨0, ⟨u2.1, rfl, u2.2.1, rfl⟩, u2.2.2.2, .inr u2.2.2.1⟩
        | black => simp only [CRB] at u2; exact ⟨1, ⟨0, rfl, u2.1, rfl⟩, u2.2, .inl rfl⟩
      have hyl : ∀ h' : Hole, Lab a (.node c h' lm rm s .nil) := fun h' => ⟨c2, c1, c3, trivial⟩
      have back : ∀ (h' : Hole) (rest' : Ctx), shape rest' = shape rest → CLab a rest' (nodeMhs a h' lm rm) →
          Good a (zip (.node c h' lm rm s .nil) rest') := by
        intro h' rest' hs hc
        obtain ⟨n, r1, r2, r3⟩ := hyr h'
        obtain ⟨r4, r5⟩ := zip_rb (ks := rest') r1 (sameshape_crb hs r2) (by
          rcases r3 with r3 | r3
          · subst r3; exact .inl rfl
          · rw [okRed_congr hs]; exact .inr r3)
        exact ⟨r4, r5, (lab_zip ..).mpr ⟨hyl h', hc⟩⟩
      rcases hlm with ⟨l1, B', q, l2, l3, l4⟩ | ⟨l1, l2⟩ <;> rcases hrm with ⟨r1, sx, A', r2, r3, r4, r5⟩ | ⟨r1, r2⟩ <;>
        rw [l1, r1] <;> simp only [Option.bind_some, Bool.or_self, Bool.or_true, Bool.or_false, Bool.true_or, if_true, Bool.false_eq_true, if_false]
      · rw [hB0] at l2
        obtain ⟨rfl, l2'⟩ := List.append_inj' l2 rfl
        simp only [List.cons.injEq, and_true] at l2'
        subst l2'
        have hoks : sx.ok := hok sx (by rw [hh, r2]; simp)
        rw [hA0] at r2
        simp only [absorbRight, Bool.and_self, if_true]
        rw [nearest_left, r2, List.head?_cons, Option.bind_some]
        unfold Hole.fin at l3 r4
        obtain ⟨k1, k2, k3⟩ := hoks
        rw [ouAdd_ok (by omega), Option.bind_some, ouAdd_ok (by split <;> omega), Option.bind_some, ouAdd_ok (by split <;> omega), Option.bind_some]
        generalize hqsz : (if h.size = maxVal ∨ p.size = maxVal then maxVal else h.size + p.size) = qsz
        generalize hssz : (if sx.size = maxVal ∨ qsz = maxVal then maxVal else sx.size + qsz) = ssz
        generalize (if h.off = maxVal ∨ qsz = maxVal then maxVal else h.off + qsz) = qoff
        have sn := setNearest_left (h := ⟨h.off, ssz⟩) r2
        generalize hr' : recalcNearest a .left (recalcUp a (T.mhs a (.node c ⟨qoff, 0⟩ lm rm s .nil)) (setNearest .left ⟨h.off, ssz⟩ rest)) = rest'
        have hsh : shape rest' = shape rest := by
          rw [← hr', (recalcNearest_same ..).shape, (recalcUp_same ..).shape, setNearest_shape]
        have hcl' : CLab a rest' (T.mhs a (.node c ⟨qoff, 0⟩ lm rm s .nil)) := by
          rw [← hr']; exact xlab_fix (xlab_recalc _ (xlab_set .left _ c4))
        obtain ⟨n, y1, y2, y3⟩ := hyr ⟨qoff, 0⟩
        obtain ⟨t', z1, z2, z3⟩ := rawRemove_rb (a := a) y1 (sameshape_crb hsh y2) (by rw [okRed_congr hsh]; exact y3)
        refine ⟨t', z1, ⟨z2, z3, rawRemove_lab z1 (hyl _) hcl'⟩, .inl ⟨_, h, sx, A', hB0, hA0.trans r2, l4, r5, ?_⟩⟩
        rw [rawRemove_holes z1, ← hr', (recalcNearest_same ..).holes.1, (recalcNearest_same ..).holes.2, before_recalcUp, after_recalcUp, sn.1, sn.2]
        have : ssz = if sx.size = maxVal then maxVal else h.size + p.size + sx.size := by
          rw [← hssz, ← hqsz]; repeat' split
          all_goals omega
        simp [T.holes, this]
      · rw [hB0] at l2
        obtain ⟨rfl, l2'⟩ := List.append_inj' l2 rfl
        simp only [List.cons.injEq, and_true] at l2'
        subst l2'
        simp only [absorbRight, Bool.and_false, Bool.false_eq_true, if_false, if_true]
        unfold Hole.fin at l3
        rw [ouAdd_ok (by omega), Option.map_some]
        generalize hqsz : (if h.size = maxVal ∨ p.size = maxVal then maxVal else h.size + p.size) = qsz
        refine ⟨_, rfl, back ⟨h.off, qsz⟩ _ (recalcUp_same ..).shape (recalcUp_lab _ _ _ _ c4), .inr (.inl ⟨_, h, hB0, l4, r2, ?_⟩)⟩
        rw [zip_holes, before_recalcUp, after_recalcUp]
        have : qsz = if p.size = maxVal then maxVal else h.size + p.size := by
          rw [← hqsz]; repeat' split
          all_goals omega
        simp [T.holes, this, hA0]
      · have hoks : sx.ok := hok sx (by rw [hh, r2]; simp)
        rw [hA0] at r2
        simp only [absorbRight, Bool.and_true, Bool.false_eq_true, if_false]
        rw [nearest_left, r2, List.head?_cons, Option.bind_some]
        unfold Hole.fin at r4
        obtain ⟨k1, k2, k3⟩ := hoks
        have e5 : ouSubEq sx.off p.size = some p.off := by
          unfold ouSubEq; rw [if_neg (by omega), if_neg (by omega), if_pos (by omega)]; congr 1; omega
        rw [e5, Option.bind_some, ouAdd_ok (by omega), Option.map_some]
        generalize hssz : (if sx.size = maxVal ∨ p.size = maxVal then maxVal else sx.size + p.size) = ssz
        have sn := setNearest_left (h := ⟨p.off, ssz⟩) r2
        refine ⟨_, rfl, back h _ ?_ ?_, .inr (.inr (.inl ⟨sx, A', hA0.trans r2, r5, l2, ?_⟩))⟩
        · rw [(recalcNearest_same ..).shape, setNearest_shape]
        · exact xlab_fix (xlab_set .left _ c4)
        · rw [zip_holes, (recalcNearest_same ..).holes.1, (recalcNearest_same ..).holes.2, sn.1, sn.2]
          have : ssz = if sx.size = maxVal then maxVal else p.size + sx.size := by
            rw [← hssz]; repeat' split
            all_goals omega
          simp [T.holes, this, hB0]
      · obtain ⟨t', h1, h2, h3⟩ := insertAt_spec (p := p) u2 (show CLab a (⟨.right, c, h, lm, rm, s⟩ :: rest) 0 from ⟨c1, c2, c3, c4⟩)
        exact ⟨t', h1, h2, .inr (.inr (.inr ⟨r2, l2, h3⟩))⟩

end Verif.Blk
