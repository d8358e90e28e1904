import Verif.Blk.InsertLemmas

/-! Holes as sets of bytes; taking a block out of the first hole that fits. -/
namespace Verif.Blk

/-- A byte of a hole. -/
def Hole.has (h : Hole) (n : Nat) : Prop := h.off ≤ n ∧ (h.size = maxVal ∨ n < h.off + h.size)

/-- A free byte. -/
def FreeAt (hs : List Hole) (n : Nat) : Prop := ∃ h ∈ hs, h.has n

/-- Holes in order, apart from each other, nonempty. -/
def HS (hs : List Hole) : Prop := hs.Pairwise (fun x y => x.fin ∧ x.off + x.size < y.off) ∧ ∀ h ∈ hs, h.ok

theorem HS.sorted {hs : List Hole} (h : HS hs) : hs.Pairwise fun x y => x.off < y.off :=
  h.1.imp fun {x y} hxy => by have := hxy.2; omega

theorem freeAt_append (B A : List Hole) (n : Nat) : FreeAt (B ++ A) n ↔ FreeAt B n ∨ FreeAt A n := by
  simp only [FreeAt, List.mem_append, or_and_right, exists_or]

theorem freeAt_cons (h : Hole) (A : List Hole) (n : Nat) : FreeAt (h :: A) n ↔ h.has n ∨ FreeAt A n := by
  simp [FreeAt]

theorem hs_append {B A : List Hole} : HS (B ++ A) ↔ HS B ∧ HS A ∧ ∀ x ∈ B, ∀ y ∈ A, x.fin ∧ x.off + x.size < y.off := by
  simp only [HS, List.pairwise_append, List.mem_append]
  constructor
  · rintro ⟨⟨h1, h2, h3⟩, h4⟩; exact ⟨⟨h1, fun h hh => h4 h (.inl hh)⟩, ⟨h2, fun h hh => h4 h (.inr hh)⟩, h3⟩
  · rintro ⟨⟨h1, h2⟩, ⟨h3, h4⟩, h5⟩; exact ⟨⟨h1, h3, h5⟩, fun h hh => hh.elim (h2 h) (h4 h)⟩

theorem hs_cons {h : Hole} {A : List Hole} : HS (h :: A) ↔ h.ok ∧ HS A ∧ ∀ y ∈ A, h.fin ∧ h.off + h.size < y.off := by
  simp only [HS, List.pairwise_cons, List.mem_cons]
  constructor
  · rintro ⟨⟨h1, h2⟩, h4⟩; exact ⟨h4 h (.inl rfl), ⟨h2, fun x hx => h4 x (.inr hx)⟩, h1⟩
  · rintro ⟨h1, ⟨h3, h4⟩, h5⟩; exact ⟨⟨h5, h3⟩, fun x hx => hx.elim (fun e => e ▸ h1) (h4 x)⟩

/-- Head and last bounds extend to the whole list. -/
theorem hs_head_le {A : List Hole} {e : Nat} (h : HS A) (hb : ∀ s ∈ A.head?, e < s.off) : ∀ s ∈ A, e < s.off := by
  cases A with
  | nil => simp
  | cons s A =>
    rw [hs_cons] at h
    intro x hx
    have := hb s rfl
    rcases List.mem_cons.mp hx with rfl | hx
    · exact this
    · have := (h.2.2 x hx).2; omega

theorem hs_last_le {B : List Hole} {e : Nat} (h : HS B) (hb : ∀ s ∈ B.getLast?, s.off + s.size < e) : ∀ s ∈ B, s.off + s.size < e := by
  rcases List.eq_nil_or_concat B with rfl | ⟨B', q, rfl⟩
  · simp
  · rw [List.concat_eq_append] at *
    rw [hs_append] at h
    have := hb q (by simp)
    intro x hx
    rcases List.mem_append.mp hx with hx | hx
    · have := (h.2.2 x hx q (by simp)).2; omega
    · simp at hx; subst hx; exact this

theorem insres_free {B A hs : List Hole} {p : Hole} (hp : p.ok) (hBA : HS (B ++ A)) (hB : ∀ h ∈ B, h.fin ∧ h.off + h.size ≤ p.off)
    (hA : ∀ h ∈ A, p.fin ∧ p.off + p.size ≤ h.off) (h : InsRes B p A hs) :
    HS hs ∧ ∀ n, FreeAt hs n ↔ FreeAt (B ++ A) n ∨ p.has n := by
  rw [hs_append] at hBA
  obtain ⟨hsB, hsA, hba⟩ := hBA
  obtain ⟨hp1, hp2, hp3⟩ := hp
  rcases h with ⟨B', q, s, A', rfl, rfl, h1, h2, rfl⟩ | ⟨B', q, rfl, h1, h2, rfl⟩ | ⟨s, A', rfl, h1, h2, rfl⟩ | ⟨h1, h2, rfl⟩
  · rw [hs_append, hs_cons] at hsB
    rw [hs_cons] at hsA
    obtain ⟨b1, ⟨b2, -, -⟩, b3⟩ := hsB
    obtain ⟨a1, a2, a3⟩ := hsA
    have fq := (hB q (by simp)).1
    have fp := (hA s (by simp)).1
    unfold Hole.fin at fq fp
    obtain ⟨q1, q2, q3⟩ := b2
    obtain ⟨s1, s2, s3⟩ := a1
    constructor
    · rw [hs_append, hs_cons]
      refine ⟨b1, ⟨⟨?_, q2, ?_⟩, a2, ?_⟩, ?_⟩
      · simp only; split <;> omega
      · simp only; split <;> omega
      · intro y hy
        have := a3 y hy
        unfold Hole.fin at this
        simp only [Hole.fin]; rw [if_neg (by omega)]; omega
      · intro x hx y hy
        have hxq := b3 x hx q (by simp)
        refine ⟨hxq.1, ?_⟩
        rcases List.mem_cons.mp hy with rfl | hy
        · exact hxq.2
        · have := (hba x (by simp [hx]) y (by simp [hy])).2; exact this
    · intro n
      simp only [freeAt_append, freeAt_cons]
      have : Hole.has ⟨q.off, if s.size = maxVal then maxVal else q.size + p.size + s.size⟩ n ↔ q.has n ∨ p.has n ∨ s.has n := by
        simp only [Hole.has]; split <;> omega
      simp only [this, show ¬ FreeAt [] n from by simp [FreeAt], or_false]
      grind
  · rw [hs_append, hs_cons] at hsB
    obtain ⟨b1, ⟨b2, -, -⟩, b3⟩ := hsB
    have fq := (hB q (by simp)).1
    unfold Hole.fin at fq
    obtain ⟨q1, q2, q3⟩ := b2
    have hA' := hs_head_le hsA h2
    constructor
    · rw [hs_append, hs_cons]
      refine ⟨b1, ⟨⟨?_, q2, ?_⟩, hsA, ?_⟩, ?_⟩
      · simp only; split <;> omega
      · simp only; split <;> omega
      · intro y hy
        have h3 := hA' y hy
        have h4 := (hA y hy).1
        unfold Hole.fin at h4
        have := (hsA.2 y hy).2.1
        simp only [Hole.fin]; rw [if_neg (by omega)]; omega
      · intro x hx y hy
        have hxq := b3 x hx q (by simp)
        refine ⟨hxq.1, ?_⟩
        rcases List.mem_cons.mp hy with rfl | hy
        · exact hxq.2
        · have := (hba x (by simp [hx]) y hy).2; exact this
    · intro n
      simp only [freeAt_append, freeAt_cons]
      have : Hole.has ⟨q.off, if p.size = maxVal then maxVal else q.size + p.size⟩ n ↔ q.has n ∨ p.has n := by
        simp only [Hole.has]; split <;> omega
      simp only [this, show ¬ FreeAt [] n from by simp [FreeAt], or_false]
      grind
  · rw [hs_cons] at hsA
    obtain ⟨a1, a2, a3⟩ := hsA
    have fp := (hA s (by simp)).1
    unfold Hole.fin at fp
    obtain ⟨s1, s2, s3⟩ := a1
    have hB' := hs_last_le hsB h2
    constructor
    · rw [hs_append, hs_cons]
      refine ⟨hsB, ⟨⟨?_, hp2, ?_⟩, a2, ?_⟩, ?_⟩
      · simp only; split <;> omega
      · simp only; split <;> omega
      · intro y hy
        have := a3 y hy
        unfold Hole.fin at this
        simp only [Hole.fin]; rw [if_neg (by omega)]; omega
      · intro x hx y hy
        refine ⟨(hB x hx).1, ?_⟩
        rcases List.mem_cons.mp hy with rfl | hy
        · exact hB' x hx
        · have := (hba x hx y (by simp [hy])).2; exact this
    · intro n
      simp only [freeAt_append, freeAt_cons]
      have : Hole.has ⟨p.off, if s.size = maxVal then maxVal else p.size + s.size⟩ n ↔ p.has n ∨ s.has n := by
        simp only [Hole.has]; split <;> omega
      simp only [this]
      grind
  · have hB' := hs_last_le hsB h2
    have hA' := hs_head_le hsA h1
    constructor
    · rw [hs_append, hs_cons]
      refine ⟨hsB, ⟨⟨hp1, hp2, hp3⟩, hsA, fun y hy => ⟨(hA y hy).1, hA' y hy⟩⟩, ?_⟩
      intro x hx y hy
      refine ⟨(hB x hx).1, ?_⟩
      rcases List.mem_cons.mp hy with rfl | hy
      · exact hB' x hx
      · exact (hba x hx y hy).2
    · intro n
      simp only [freeAt_append, freeAt_cons]
      grind

/-- Giving back a range: it becomes free, nothing else changes. -/
theorem insert_free {a : Nat} {t : T} {p : Hole} (hg : Good a t) (hs : HS t.holes) (hp : p.ok)
    (hfit : ∀ h ∈ t.holes, (h.fin ∧ h.off + h.size ≤ p.off) ∨ (p.fin ∧ p.off + p.size ≤ h.off)) :
    ∃ t', insert a t p = some t' ∧ Good a t' ∧ HS t'.holes ∧ ∀ n, FreeAt t'.holes n ↔ FreeAt t.holes n ∨ p.has n := by
  obtain ⟨t', B, A, h1, h2, h3, h4, h5, h6⟩ := insert_spec hg hp hs.sorted hs.2 hfit
  rw [h3] at hs ⊢
  obtain ⟨h7, h8⟩ := insres_free hp hs h4 h5 h6
  exact ⟨t', h1, h2, h7, h8⟩

/-! ### Alignment -/

theorem alignUp_spec {v a : Nat} (ha : 0 < a) (h : v + a ≤ 2 ^ 64) : alignUp v a % a = 0 ∧ v ≤ alignUp v a ∧ alignUp v a < v + a ∧
    ∀ y, y % a = 0 → v ≤ y → alignUp v a ≤ y := by
  have hmod : (v + (a - 1)) % 2 ^ 64 = v + (a - 1) := Nat.mod_eq_of_lt (by omega)
  unfold alignUp
  rw [hmod]
  have hd := Nat.div_add_mod (v + (a - 1)) a
  have hm := Nat.mod_lt (v + (a - 1)) ha
  rw [Nat.mul_comm] at hd
  generalize hq : (v + (a - 1)) / a = q at *
  refine ⟨Nat.mul_mod_left q a, by omega, by omega, fun y hy hvy => ?_⟩
  have hyd : y = y / a * a := by have := Nat.div_add_mod y a; rw [Nat.mul_comm] at this; omega
  have : q ≤ y / a := by
    rw [← hq]
    apply Nat.le_of_lt_succ
    rw [Nat.div_lt_iff_lt_mul ha, Nat.succ_mul, ← hyd]
    omega
  rw [hyd]; exact Nat.mul_le_mul_right a this

theorem effSize_spec {a size : Nat} {h : Hole} (ha : 0 < a) (hok : h.ok) (hw : h.off + a < maxVal) (hz : 0 < size) (hzm : size < maxVal) :
    size ≤ effSize a h ↔ h.size = maxVal ∨ alignUp h.off a + size ≤ h.off + h.size := by
  obtain ⟨h1, h2, h3⟩ := hok
  have hm : maxVal = 2 ^ 64 - 1 := rfl
  obtain ⟨-, b1, b2, -⟩ := alignUp_spec (v := h.off) ha (by omega)
  unfold effSize
  rw [ouAdd_ok (by omega)]
  simp only [Option.getD_some]
  generalize alignUp h.off a = al at *
  by_cases hi : h.size = maxVal
  · have e : (if h.off = maxVal ∨ h.size = maxVal then maxVal else h.off + h.size) = maxVal := if_pos (.inr hi)
    rw [e, if_neg (by omega), ouSub, if_neg (by omega), if_pos rfl]; simp only [Option.getD_some]; omega
  · have e : (if h.off = maxVal ∨ h.size = maxVal then maxVal else h.off + h.size) = h.off + h.size := if_neg (by omega)
    rw [e]
    by_cases hc : h.off + h.size < al
    · rw [if_pos hc]; omega
    · rw [if_neg hc, ouSub, if_neg (by omega), if_neg (by omega), if_pos (by omega)]; simp only [Option.getD_some]; omega

/-! ### First fit -/

theorem mhs_ge {a size : Nat} {t : T} (hl : Lab a t) (hz : 0 < size) : size ≤ t.mhs a ↔ ∃ h ∈ t.holes, size ≤ effSize a h := by
  induction t with
  | nil => simp [T.mhs, T.holes]; omega
  | node c h lm rm l r ihl ihr =>
    obtain ⟨h1, h2, h3, h4⟩ := hl
    rw [mhs_node, nodeMhs, h1, h2]
    simp only [T.holes, List.mem_append, List.mem_cons, or_and_right, exists_or, exists_eq_left]
    rw [← ihl h3, ← ihr h4]
    omega

theorem searchFit_spec {a size : Nat} (hz : 0 < size) {t : T} {ks : Ctx} (hl : Lab a t) (hex : ∃ h ∈ t.holes, size ≤ effSize a h)
    (hb : ∀ h ∈ before ks, effSize a h < size) :
    ∃ c h lm rm l r ks', searchFit a size t ks = some (.node c h lm rm l r, ks') ∧ zip (.node c h lm rm l r) ks' = zip t ks ∧
      size ≤ effSize a h ∧ (∀ x ∈ before ks' ++ l.holes, effSize a x < size) := by
  induction t generalizing ks with
  | nil => simp [T.holes] at hex
  | node c h lm rm l r ihl ihr =>
    obtain ⟨h1, h2, h3, h4⟩ := hl
    have ml := mhs_ge h3 hz
    have mr := mhs_ge h4 hz
    rw [← h1] at ml
    rw [← h2] at mr
    have left : size ≤ lm → ∃ c' h' lm' rm' l' r' ks', searchFit a size l (⟨.left, c, h, lm, rm, r⟩ :: ks) = some (.node c' h' lm' rm' l' r', ks') ∧
        zip (.node c' h' lm' rm' l' r') ks' = zip (.node c h lm rm l r) ks ∧ size ≤ effSize a h' ∧ (∀ x ∈ before ks' ++ l'.holes, effSize a x < size) :=
      fun hlm => ihl (ks := ⟨.left, c, h, lm, rm, r⟩ :: ks) h3 (ml.mp hlm) (by simpa [before] using hb)
    rw [searchFit]
    by_cases c1 : size ≤ effSize a h
    · rw [if_pos c1]
      by_cases c2 : size ≤ lm
      · rw [if_pos c2]; exact left c2
      · rw [if_neg c2]
        refine ⟨c, h, lm, rm, l, r, ks, rfl, rfl, c1, fun x hx => ?_⟩
        rcases List.mem_append.mp hx with hx | hx
        · exact hb x hx
        · exact Nat.lt_of_not_le fun hc => c2 (ml.mpr ⟨x, hx, hc⟩)
    · rw [if_neg c1]
      by_cases c2 : size ≤ lm
      · rw [if_pos c2]; exact left c2
      · rw [if_neg c2]
        have c3 : size ≤ rm := by
          obtain ⟨x, hx, hx2⟩ := hex
          simp only [T.holes, List.mem_append, List.mem_cons] at hx
          rcases hx with hx | rfl | hx
          · exact absurd (ml.mpr ⟨x, hx, hx2⟩) c2
          · exact absurd hx2 c1
          · exact mr.mpr ⟨x, hx, hx2⟩
        rw [if_pos c3]
        refine ihr (ks := ⟨.right, c, h, lm, rm, l⟩ :: ks) h4 (mr.mp c3) fun x hx => ?_
        simp only [before, List.mem_append, List.mem_singleton] at hx
        rcases hx with hx | hx | rfl
        · exact hb x hx
        · exact Nat.lt_of_not_le fun hc => c2 (ml.mpr ⟨x, hx, hc⟩)
        · omega

/-! ### Taking the block -/

/-- Replacing the hole at a node. -/
theorem replace_spec {a : Nat} {c : Color} {h h' : Hole} {lm rm : Nat} {l r : T} {ks : Ctx} (hg : Good a (zip (.node c h lm rm l r) ks)) :
    Good a (zip (.node c h' lm rm l r) (recalcUp a (T.mhs a (.node c h' lm rm l r)) ks)) ∧
    (zip (.node c h' lm rm l r) (recalcUp a (T.mhs a (.node c h' lm rm l r)) ks)).holes = before ks ++ l.holes ++ h' :: (r.holes ++ after ks) := by
  obtain ⟨⟨n, hrb⟩, hblack, hlab⟩ := hg
  obtain ⟨m, u1, u2, u3⟩ := rb_unzip (ks := []) hrb trivial (.inl hblack)
  rw [List.append_nil] at u2 u3
  rw [lab_zip] at hlab
  have hsh := (recalcUp_same a (T.mhs a (.node c h' lm rm l r)) ks).shape
  have hrb' : RB (.node c h' lm rm l r) m := by cases c <;> exact u1
  obtain ⟨r4, r5⟩ := zip_rb (ks := recalcUp a (T.mhs a (.node c h' lm rm l r)) ks) hrb' (sameshape_crb hsh u2) (by
    rw [okRed_congr hsh]; cases c <;> exact u3)
  refine ⟨⟨r4, r5, (lab_zip ..).mpr ⟨hlab.1, recalcUp_lab _ _ _ _ hlab.2⟩⟩, ?_⟩
  rw [zip_holes, before_recalcUp, after_recalcUp]; simp [T.holes]

theorem removeAt_spec {a size : Nat} {c : Color} {h : Hole} {lm rm : Nat} {l r : T} {ks : Ctx} (ha : 0 < a)
    (hg : Good a (zip (.node c h lm rm l r) ks)) (hs : HS (zip (.node c h lm rm l r) ks).holes)
    (hz : 0 < size) (hw : h.off + a + size < maxVal) (hfit : size ≤ effSize a h) :
    ∃ t', removeAt a size (.node c h lm rm l r) ks = some (alignUp h.off a, t') ∧ Good a t' ∧ HS t'.holes ∧
      ∀ n, FreeAt t'.holes n ↔ FreeAt (zip (.node c h lm rm l r) ks).holes n ∧ ¬ (alignUp h.off a ≤ n ∧ n < alignUp h.off a + size) := by
  have hh : (zip (.node c h lm rm l r) ks).holes = before ks ++ l.holes ++ h :: (r.holes ++ after ks) := by rw [zip_holes]; simp [T.holes]
  rw [hh] at hs ⊢
  have hmv : maxVal = 2 ^ 64 - 1 := rfl
  generalize hP : before ks ++ l.holes = P at *
  generalize hS : r.holes ++ after ks = S at *
  have hs0 := hs
  rw [hs_append, hs_cons] at hs
  obtain ⟨sP, ⟨okh, sS, hS1⟩, hP1⟩ := hs
  rw [effSize_spec ha okh (by omega) hz (by omega)] at hfit
  obtain ⟨k1, k2, k3⟩ := okh
  obtain ⟨b0, b1, b2, b3⟩ := alignUp_spec (v := h.off) ha (by omega)
  generalize hal : alignUp h.off a = al at *
  have hPh : ∀ x ∈ P, x.fin ∧ x.off + x.size < h.off := fun x hx => hP1 x hx h (by simp)
  have hPS : ∀ x ∈ P, ∀ y ∈ S, x.fin ∧ x.off + x.size < y.off := fun x hx y hy => hP1 x hx y (by simp [hy])
  -- bytes of the other holes are not touched
  have other : ∀ n, al ≤ n → n < al + size → ¬ FreeAt P n ∧ ¬ FreeAt S n := by
    intro n hn1 hn2
    constructor
    · rintro ⟨x, hx, hx1, hx2⟩
      have := hPh x hx
      unfold Hole.fin at this; omega
    · rintro ⟨y, hy, hy1, hy2⟩
      have := hS1 y hy
      unfold Hole.fin at this; omega
  have e1 : ouAdd al size = some (al + size) := by rw [ouAdd_ok (by omega), if_neg (by omega)]
  obtain ⟨he, e2, he1, he2⟩ : ∃ he, ouAdd h.off h.size = some he ∧ (h.size = maxVal → he = maxVal) ∧ (h.size ≠ maxVal → he = h.off + h.size) :=
    ⟨_, ouAdd_ok (by omega), fun hi => if_pos (.inr hi), fun hi => if_neg (by omega)⟩
  have e3 : ouLe (al + size) he = some true := by
    unfold ouLe; rw [if_neg (by omega)]; congr 1; apply decide_eq_true
    by_cases hi : h.size = maxVal
    · have := he1 hi; omega
    · have := he2 hi; omega
  simp only [removeAt, hal, e1, e2, e3, Option.bind_some, Bool.not_true, Bool.false_eq_true, if_false]
  by_cases hc1 : al = h.off
  · rw [if_pos hc1]
    have e4 : ouAdd h.off size = some (h.off + size) := by rw [ouAdd_ok (by omega), if_neg (by omega)]
    obtain ⟨nsz, e5, n1, n2⟩ : ∃ nsz, ouSubEq h.size size = some nsz ∧ (h.size = maxVal → nsz = maxVal) ∧ (h.size ≠ maxVal → nsz = h.size - size) := by
      by_cases hi : h.size = maxVal
      · exact ⟨maxVal, by rw [ouSubEq, if_pos hi, hi], fun _ => rfl, fun h => absurd hi h⟩
      · exact ⟨h.size - size, by rw [ouSubEq, if_neg hi, if_neg (by omega), if_pos (by omega)], fun h => absurd h hi, fun _ => rfl⟩
    simp only [e4, e5, Option.bind_some]
    by_cases hn0 : nsz = 0
    · rw [if_pos hn0]
      have hi : h.size ≠ maxVal := fun hi => by have := n1 hi; omega
      have := n2 hi
      obtain ⟨⟨n, hrb⟩, hblack, hlab⟩ := hg
      obtain ⟨m, u1, u2, u3⟩ := rb_unzip (ks := []) hrb trivial (.inl hblack)
      rw [List.append_nil] at u2 u3
      rw [lab_zip] at hlab
      have hsh := (recalcUp_same a (T.mhs a (.node c ⟨h.off + size, nsz⟩ lm rm l r)) ks).shape
      have hrb' : RB (.node c ⟨h.off + size, nsz⟩ lm rm l r) m := by cases c <;> exact u1
      obtain ⟨t', z1, z2, z3⟩ := rawRemove_rb (a := a) hrb' (sameshape_crb hsh u2) (by
        rw [okRed_congr hsh]; cases c with | red => exact .inr (by simpa [T.isRed] using u3) | black => exact .inl rfl)
      have hl' := rawRemove_lab z1 (show Lab a (.node c ⟨h.off + size, nsz⟩ lm rm l r) from hlab.1) (recalcUp_lab _ _ _ _ hlab.2)
      have hh' : t'.holes = P ++ S := by
        rw [rawRemove_holes z1, before_recalcUp, after_recalcUp, ← hP, ← hS]; simp
      refine ⟨t', by rw [z1]; rfl, ⟨z2, z3, hl'⟩, ?_, fun n => ?_⟩
      · rw [hh', hs_append]; exact ⟨sP, sS, hPS⟩
      · rw [hh']; simp only [freeAt_append, freeAt_cons]
        have h1 := other n
        have h2 : h.has n ↔ al ≤ n ∧ n < al + size := by unfold Hole.has; omega
        rw [h2]; grind
    · rw [if_neg hn0]
      obtain ⟨g1, g2⟩ := replace_spec (h' := ⟨h.off + size, nsz⟩) hg
      rw [hP, hS] at g2
      have hnew : Hole.ok ⟨h.off + size, nsz⟩ := by
        refine ⟨by simp only; omega, by simp only; omega, ?_⟩
        by_cases hi : h.size = maxVal
        · exact .inl (n1 hi)
        · right; have := n2 hi; simp only; omega
      refine ⟨_, rfl, g1, ?_, fun n => ?_⟩
      · rw [g2, hs_append, hs_cons]
        refine ⟨sP, ⟨hnew, sS, fun y hy => ?_⟩, fun x hx y hy => ?_⟩
        · have := hS1 y hy
          unfold Hole.fin at this ⊢
          have := n2 (by omega)
          simp only; omega
        · rcases List.mem_cons.mp hy with rfl | hy
          · have := hPh x hx; refine ⟨this.1, ?_⟩; have := this.2; simp only; omega
          · exact hPS x hx y hy
      · rw [g2]; simp only [freeAt_append, freeAt_cons]
        have h1 := other n
        have h2 : Hole.has ⟨h.off + size, nsz⟩ n ↔ h.has n ∧ ¬ (al ≤ n ∧ n < al + size) := by
          unfold Hole.has; by_cases hi : h.size = maxVal
          · have := n1 hi; simp only; omega
          · have := n2 hi; simp only; omega
        rw [h2]; grind
  · rw [if_neg hc1]
    by_cases hc2 : al + size = he
    · rw [if_pos hc2]
      have hi : h.size ≠ maxVal := fun hi => by have := he1 hi; omega
      have := he2 hi
      have e5 : ouSubEq h.size size = some (h.size - size) := by rw [ouSubEq, if_neg hi, if_neg (by omega), if_pos (by omega)]
      rw [e5, Option.map_some]
      obtain ⟨g1, g2⟩ := replace_spec (h' := ⟨h.off, h.size - size⟩) hg
      rw [hP, hS] at g2
      refine ⟨_, rfl, g1, ?_, fun n => ?_⟩
      · rw [g2, hs_append, hs_cons]
        refine ⟨sP, ⟨⟨by simp only; omega, k2, .inr (by simp only; omega)⟩, sS, fun y hy => ?_⟩, fun x hx y hy => ?_⟩
        · have := hS1 y hy
          unfold Hole.fin at this ⊢
          simp only; omega
        · rcases List.mem_cons.mp hy with rfl | hy
          · exact hPh x hx
          · exact hPS x hx y hy
      · rw [g2]; simp only [freeAt_append, freeAt_cons]
        have h1 := other n
        have h2 : Hole.has ⟨h.off, h.size - size⟩ n ↔ h.has n ∧ ¬ (al ≤ n ∧ n < al + size) := by
          unfold Hole.has; simp only; omega
        rw [h2]; grind
    · rw [if_neg hc2]
      have e5 : ouSub al h.off = some (al - h.off) := by rw [ouSub, if_neg (by omega), if_neg (by omega), if_pos (by omega)]
      obtain ⟨rsz, e6, n1, n2⟩ : ∃ rsz, ouSub he (al + size) = some rsz ∧ (h.size = maxVal → rsz = maxVal) ∧
          (h.size ≠ maxVal → rsz = h.off + h.size - (al + size)) := by
        by_cases hi : h.size = maxVal
        · have := he1 hi
          exact ⟨maxVal, by rw [ouSub, if_neg (by omega), if_pos this, this], fun _ => rfl, fun h => absurd hi h⟩
        · have := he2 hi
          exact ⟨_, by rw [ouSub, if_neg (by omega), if_neg (by omega), if_pos (by omega), this], fun h => absurd h hi, fun _ => rfl⟩
      simp only [e5, e6, Option.bind_some]
      obtain ⟨g1, g2⟩ := replace_spec (h' := ⟨h.off, al - h.off⟩) hg
      rw [hP, hS] at g2
      generalize zip (.node c ⟨h.off, al - h.off⟩ lm rm l r) (recalcUp a (T.mhs a (.node c ⟨h.off, al - h.off⟩ lm rm l r)) ks) = t1 at *
      have hs1 : HS t1.holes := by
        rw [g2, hs_append, hs_cons]
        refine ⟨sP, ⟨⟨by simp only; omega, k2, .inr (by simp only; omega)⟩, sS, fun y hy => ?_⟩, fun x hx y hy => ?_⟩
        · have := hS1 y hy
          unfold Hole.fin at this ⊢
          simp only; omega
        · rcases List.mem_cons.mp hy with rfl | hy
          · exact hPh x hx
          · exact hPS x hx y hy
      have hrsz : 0 < rsz := by
        by_cases hi : h.size = maxVal
        · have := n1 hi; omega
        · have := n2 hi; have := he2 hi; omega
      have hpok : Hole.ok ⟨al + size, rsz⟩ := by
        refine ⟨hrsz, by simp only; omega, ?_⟩
        by_cases hi : h.size = maxVal
        · exact .inl (n1 hi)
        · right; have := n2 hi; simp only; omega
      obtain ⟨t', i1, i2, i3, i4⟩ := insert_free (p := ⟨al + size, rsz⟩) g1 hs1 hpok (by
        rw [g2]
        intro x hx
        rcases List.mem_append.mp hx with hx | hx
        · have := hPh x hx; exact .inl ⟨this.1, by have := this.2; simp only; omega⟩
        · rcases List.mem_cons.mp hx with rfl | hx
          · exact .inl ⟨by unfold Hole.fin; simp only; omega, by simp only; omega⟩
          · have h1 := hS1 x hx
            unfold Hole.fin at h1
            have := n2 (by omega)
            exact .inr ⟨by unfold Hole.fin; simp only; omega, by simp only; omega⟩)
      refine ⟨t', by rw [i1]; rfl, i2, i3, fun n => ?_⟩
      rw [i4, g2]; simp only [freeAt_append, freeAt_cons]
      have h1 := other n
      have h2 : (Hole.has ⟨h.off, al - h.off⟩ n ∨ Hole.has ⟨al + size, rsz⟩ n) ↔ h.has n ∧ ¬ (al ≤ n ∧ n < al + size) := by
        unfold Hole.has; by_cases hi : h.size = maxVal
        · have := n1 hi; simp only; omega
        · have := n2 hi; have := he2 hi; simp only; omega
      grind

end Verif.Blk
