import Verif.Ser.MsgBufDisk
/-!
The invariant of a child's buffer.
-/
set_option linter.unusedSectionVars false
namespace Verif.Ser
open MsgBufSpec

variable {cmp : List Nat → List Nat → Ordering} [Std.TransCmp cmp]

/-! ### The order -/

theorem keyMsnCmp_eq (a b : Msg) : keyMsnCmp cmp a.key a.msn b.key b.msn = (cmp a.key b.key).then (compare a.msn b.msn) := by
  unfold keyMsnCmp
  cases cmp a.key b.key with
  | eq =>
    simp only [Ordering.eq_then]
    rcases Nat.lt_trichotomy a.msn b.msn with h | h | h
    · rw [if_neg (by omega), if_pos h, Nat.compare_eq_lt.2 h]
    · rw [if_neg (by omega), if_neg (by omega), Nat.compare_eq_eq.2 h]
    · rw [if_pos h, Nat.compare_eq_gt.2 h]
  | lt => rfl
  | gt => rfl

theorem before_lt {a b : Msg} (h : Before cmp a b) : keyMsnCmp cmp a.key a.msn b.key b.msn = .lt := by
  rw [keyMsnCmp_eq]
  rcases h with h | ⟨h, h'⟩
  · rw [h]; rfl
  · rw [h]; exact Nat.compare_eq_lt.2 h'

theorem before_gt {a b : Msg} (h : Before cmp a b) : keyMsnCmp cmp b.key b.msn a.key a.msn = .gt := by
  rw [keyMsnCmp_eq]
  rcases h with h | ⟨h, h'⟩
  · rw [Std.OrientedCmp.gt_of_lt h]; rfl
  · rw [Std.OrientedCmp.eq_symm h]; exact Nat.compare_eq_gt.2 h'

theorem before_trans {a b c : Msg} (h1 : Before cmp a b) (h2 : Before cmp b c) : Before cmp a c := by
  rcases h1 with h1 | ⟨h1, h1'⟩ <;> rcases h2 with h2 | ⟨h2, h2'⟩
  · exact .inl (Std.TransCmp.lt_trans h1 h2)
  · exact .inl (Std.TransCmp.lt_of_lt_of_eq h1 h2)
  · exact .inl (Std.TransCmp.lt_of_eq_of_lt h1 h2)
  · exact .inr ⟨Std.TransCmp.eq_trans h1 h2, by omega⟩

theorem before_irrefl {a : Msg} (h : Before cmp a a) : False := by
  have h1 := before_lt h
  rw [before_gt h] at h1
  cases h1

/-! ### Trees -/

/-- The message at one offset sorts before the message at another. -/
def Lt (cmp : List Nat → List Nat → Ordering) (b : MB) (o o' : Nat) : Prop := ∃ m m', b.getMessage o = .ok m ∧ b.getMessage o' = .ok m' ∧ Before cmp m m'

theorem Lt.trans {b : MB} {x y z : Nat} (h1 : Lt cmp b x y) (h2 : Lt cmp b y z) : Lt cmp b x z := by
  obtain ⟨m1, m2, e1, e2, h1⟩ := h1
  obtain ⟨m2', m3, e2', e3, h2⟩ := h2
  rw [e2] at e2'
  cases e2'
  exact ⟨m1, m3, e1, e3, before_trans h1 h2⟩

theorem Lt.asymm {b : MB} {x y : Nat} (h1 : Lt cmp b x y) (h2 : Lt cmp b y x) : False := by
  obtain ⟨m1, m2, e1, e2, h⟩ := Lt.trans h1 h2
  rw [e1] at e2
  cases e2
  exact before_irrefl h

theorem sorted_unique {α : Type} {R : α → α → Prop} (hr : ∀ x y, R x y → R y x → False) {l1 l2 : List α} (h1 : l1.Pairwise R) (h2 : l2.Pairwise R)
    (hm : ∀ x, x ∈ l1 ↔ x ∈ l2) : l1 = l2 := by
  induction l1 generalizing l2 with
  | nil =>
    cases l2 with
    | nil => rfl
    | cons y ys => exact absurd ((hm y).2 (by simp)) (by simp)
  | cons x xs ih =>
    cases l2 with
    | nil => exact absurd ((hm x).1 (by simp)) (by simp)
    | cons y ys =>
      rw [List.pairwise_cons] at h1 h2
      have hxy : x = y := by
        rcases List.mem_cons.1 ((hm x).1 (by simp)) with h | h
        · exact h
        · rcases List.mem_cons.1 ((hm y).2 (by simp)) with h' | h'
          · exact h'.symm
          · exact (hr _ _ (h1.1 y h') (h2.1 x h)).elim
      subst hxy
      congr 1
      refine ih h1.2 h2.2 (fun z => ⟨fun hz => ?_, fun hz => ?_⟩)
      · rcases List.mem_cons.1 ((hm z).1 (by simp [hz])) with h | h
        · subst h; exact (hr _ _ (h1.1 _ hz) (h1.1 _ hz)).elim
        · exact h
      · rcases List.mem_cons.1 ((hm z).2 (by simp [hz])) with h | h
        · subst h; exact (hr _ _ (h2.1 _ hz) (h2.1 _ hz)).elim
        · exact h

theorem omtInsert_ok {b : MB} {x : Nat} {m : Msg} {l : List Nat} (hx : b.getMessage x = .ok m) (hl : l.Pairwise (Lt cmp b)) (hc : ∀ y ∈ l, Lt cmp b x y ∨ Lt cmp b y x) :
    ∃ l', omtInsert (heaviside cmp b m.key m.msn) x l = .ok l' ∧ l'.Pairwise (Lt cmp b) ∧ ∀ o, o ∈ l' ↔ o = x ∨ o ∈ l := by
  induction l with
  | nil => exact ⟨[x], rfl, by simp, by simp⟩
  | cons y ys ih =>
    rw [List.pairwise_cons] at hl
    rcases hc y (by simp) with h | h
    · refine ⟨x :: y :: ys, ?_, ?_, by simp⟩
      · obtain ⟨m1, m2, e1, e2, hb⟩ := id h
        rw [hx] at e1; cases e1
        rw [omtInsert, heaviside, e2, R.bind_ok, R.pure_ok, R.bind_ok, before_gt hb]
        rfl
      · rw [List.pairwise_cons]
        refine ⟨fun z hz => ?_, List.pairwise_cons.2 hl⟩
        rcases List.mem_cons.1 hz with rfl | hz
        · exact h
        · exact Lt.trans h (hl.1 z hz)
    · obtain ⟨l', e, hp, hm⟩ := ih hl.2 (fun z hz => hc z (by simp [hz]))
      refine ⟨y :: l', ?_, ?_, fun o => ?_⟩
      · obtain ⟨m1, m2, e1, e2, hb⟩ := id h
        rw [hx] at e2; cases e2
        rw [omtInsert, heaviside, e1, R.bind_ok, R.pure_ok, R.bind_ok, before_lt hb]
        simp only [e, R.bind_ok, R.pure_ok]
      · rw [List.pairwise_cons]
        refine ⟨fun z hz => ?_, hp⟩
        rcases (hm z).1 hz with rfl | hz
        · exact h
        · exact hl.1 z hz
      · simp only [List.mem_cons, hm o]
        constructor
        · rintro (h | h | h) <;> simp [h]
        · rintro (h | h | h) <;> simp [h]

theorem sortedInsert_eq {b : MB} {x : Nat} {m : Msg} {l : List Nat} (hx : b.getMessage x = .ok m) (hc : ∀ y ∈ l, Lt cmp b x y ∨ Lt cmp b y x) :
    sortedInsert cmp b x l = omtInsert (heaviside cmp b m.key m.msn) x l := by
  induction l with
  | nil => rfl
  | cons y ys ih =>
    have ih := ih (fun z hz => hc z (by simp [hz]))
    rw [sortedInsert, omtInsert, hx, R.bind_ok]
    rcases hc y (by simp) with h | h
    · obtain ⟨m1, m2, e1, e2, hb⟩ := id h
      rw [hx] at e1; cases e1
      simp only [heaviside, e2, R.bind_ok, R.pure_ok, before_gt hb]
    · obtain ⟨m1, m2, e1, e2, hb⟩ := id h
      rw [hx] at e2; cases e2
      simp only [heaviside, e1, R.bind_ok, R.pure_ok, before_lt hb] at ih ⊢
      rw [ih]

theorem sortOffsets_ok {b : MB} {l : List Nat} (hg : ∀ x ∈ l, ∃ m, b.getMessage x = .ok m) (hn : l.Pairwise fun x y => Lt cmp b x y ∨ Lt cmp b y x) :
    ∃ l', sortOffsets cmp b l = .ok l' ∧ l'.Pairwise (Lt cmp b) ∧ ∀ o, o ∈ l' ↔ o ∈ l := by
  induction l with
  | nil => exact ⟨[], rfl, by simp, by simp⟩
  | cons x xs ih =>
    rw [List.pairwise_cons] at hn
    obtain ⟨l1, e1, p1, m1⟩ := ih (fun y hy => hg y (by simp [hy])) hn.2
    obtain ⟨m, hm⟩ := hg x (by simp)
    have hc : ∀ y ∈ l1, Lt cmp b x y ∨ Lt cmp b y x := fun y hy => hn.1 y ((m1 y).1 hy)
    obtain ⟨l2, e2, p2, m2⟩ := omtInsert_ok hm p1 hc
    refine ⟨l2, ?_, p2, fun o => ?_⟩
    · rw [sortOffsets, e1, R.bind_ok, sortedInsert_eq hm hc, e2]
    · rw [m2, List.mem_cons, m1]

theorem copyAll_ok {b : MB} {offs stale : List Nat} (hg : ∀ x ∈ offs, ∃ m, b.getMessage x = .ok m) (hs : stale.Pairwise (Lt cmp b))
    (hn : offs.Pairwise fun x y => Lt cmp b x y ∨ Lt cmp b y x) (hc : ∀ x ∈ offs, ∀ y ∈ stale, Lt cmp b x y ∨ Lt cmp b y x) :
    ∃ l', Bnc.copyAll cmp b offs stale = .ok l' ∧ l'.Pairwise (Lt cmp b) ∧ ∀ o, o ∈ l' ↔ o ∈ offs ∨ o ∈ stale := by
  induction offs generalizing stale with
  | nil => exact ⟨stale, rfl, hs, by simp⟩
  | cons x xs ih =>
    rw [List.pairwise_cons] at hn
    obtain ⟨m, hm⟩ := hg x (by simp)
    obtain ⟨l1, e1, p1, m1⟩ := omtInsert_ok hm hs (hc x (by simp))
    obtain ⟨l2, e2, p2, m2⟩ := ih (stale := l1) (fun y hy => hg y (by simp [hy])) p1 hn.2 (by
      intro y hy z hz
      rcases (m1 z).1 hz with rfl | hz
      · exact (hn.1 y hy).symm
      · exact hc y (by simp [hy]) z hz)
    refine ⟨l2, ?_, p2, fun o => ?_⟩
    · rw [Bnc.copyAll, hm, R.bind_ok, e1, R.bind_ok, e2]
    · rw [m2, m1, List.mem_cons]
      constructor
      · rintro (h | h | h) <;> simp [h]
      · rintro ((h | h) | h) <;> simp [h]

/-! ### Offsets -/

theorem offAt_append {ms ns : List Msg} {i : Nat} (h : i ≤ ms.length) : offAt (ms ++ ns) i = offAt ms i := by
  unfold offAt
  rw [List.take_append_of_le_length h]

theorem offAt_succ {ms : List Msg} {i : Nat} {m : Msg} (h : ms[i]? = some m) : offAt ms (i + 1) = offAt ms i + m.memsize := by
  unfold offAt
  rw [List.take_add_one, h]
  simp

theorem offAt_lt {ms : List Msg} {i j : Nat} (h : i < j) (hj : j ≤ ms.length) : offAt ms i < offAt ms j := by
  induction j with
  | zero => omega
  | succ j ih =>
    have hm : ms[j]? = some ms[j] := List.getElem?_eq_getElem (by omega)
    rw [offAt_succ hm]
    have h19 : 19 ≤ ms[j].memsize := by unfold Msg.memsize; omega
    rcases Nat.lt_or_ge i j with hlt | hge
    · have := ih hlt (by omega); omega
    · rw [show i = j by omega]; omega

theorem offAt_inj {ms : List Msg} {i j : Nat} (hi : i < ms.length) (hj : j < ms.length) (h : offAt ms i = offAt ms j) : i = j := by
  rcases Nat.lt_trichotomy i j with hlt | he | hgt
  · have := offAt_lt (ms := ms) hlt (by omega); omega
  · exact he
  · have := offAt_lt (ms := ms) hgt (by omega); omega

theorem offAt_length (ms : List Msg) : offAt ms ms.length = (ms.map Msg.memsize).sum := by unfold offAt; rw [List.take_length]

theorem mem_collect {P : Msg → Bool → Bool} {s : List (Msg × Bool)} {base o : Nat} :
    o ∈ collect P base s ↔ ∃ (i : Nat) (m : Msg) (f : Bool), s[i]? = some (m, f) ∧ P m f = true ∧ o = base + offAt (s.map Prod.fst) i := by
  induction s generalizing base with
  | nil => simp [collect]
  | cons x s ih =>
    obtain ⟨m, f⟩ := x
    have step : o ∈ collect P (base + m.memsize) s ↔ ∃ (i : Nat) (m' : Msg) (f' : Bool), ((m, f) :: s)[i + 1]? = some (m', f') ∧ P m' f' = true ∧ o = base + offAt (((m, f) :: s).map Prod.fst) (i + 1) := by
      rw [ih]
      simp only [List.getElem?_cons_succ, List.map_cons]
      have : ∀ i, offAt (m :: s.map Prod.fst) (i + 1) = m.memsize + offAt (s.map Prod.fst) i := by intro i; simp [offAt]
      simp only [this, Nat.add_assoc]
    unfold collect
    constructor
    · intro h
      by_cases hp : P m f = true
      · rw [if_pos hp] at h
        rcases List.mem_cons.1 h with rfl | h
        · exact ⟨0, m, f, rfl, hp, by simp [offAt]⟩
        · obtain ⟨i, h⟩ := step.1 h; exact ⟨i + 1, h⟩
      · rw [if_neg hp] at h
        obtain ⟨i, h⟩ := step.1 h; exact ⟨i + 1, h⟩
    · rintro ⟨i, m', f', h1, h2, h3⟩
      cases i with
      | zero =>
        cases h1
        rw [if_pos h2, h3]; simp [offAt]
      | succ i =>
        have := step.2 ⟨i, m', f', h1, h2, h3⟩
        split <;> simp [this]

theorem collect_incr {P : Msg → Bool → Bool} {s : List (Msg × Bool)} {base : Nat} : (collect P base s).Pairwise (· < ·) ∧ ∀ o ∈ collect P base s, base ≤ o := by
  induction s generalizing base with
  | nil => simp [collect]
  | cons x s ih =>
    obtain ⟨m, f⟩ := x
    have h := ih (base := base + m.memsize)
    have h19 : 19 ≤ m.memsize := by unfold Msg.memsize; omega
    unfold collect
    split
    · refine ⟨List.pairwise_cons.2 ⟨fun o ho => by have := h.2 o ho; omega, h.1⟩, fun o ho => ?_⟩
      rcases List.mem_cons.1 ho with rfl | ho
      · omega
      · have := h.2 o ho; omega
    · exact ⟨h.1, fun o ho => by have := h.2 o ho; omega⟩

/-! ### The invariant -/

/-- The messages of a list of slots, with their freshness. -/
def rowsOf (s : List Slot) : List (Msg × Bool) := s.map fun x => (x.m, x.fresh)

/-- The messages alone. -/
def msgsOf (s : List Slot) : List Msg := s.map Slot.m

theorem rowsOf_fst (s : List Slot) : (rowsOf s).map Prod.fst = msgsOf s := by simp [rowsOf, msgsOf]

theorem rowsOf_get {s : List Slot} {i : Nat} {x : Slot} (h : s[i]? = some x) : (rowsOf s)[i]? = some (x.m, x.fresh) := by
  simp [rowsOf, h]

theorem msgsOf_get {s : List Slot} {i : Nat} {x : Slot} (h : s[i]? = some x) : (msgsOf s)[i]? = some x.m := by simp [msgsOf, h]

/-- Messages that may be together in a buffer. -/
structure Fit (cmp : List Nat → List Nat → Ordering) (ms : List Msg) : Prop where
  valid : ∀ m ∈ ms, Valid m
  distinct : ms.Pairwise fun a b => a.typ ∈ single → b.typ ∈ single → Before cmp a b ∨ Before cmp b a
  size : (ms.map Msg.memsize).sum ≤ 2 ^ 30

theorem mem_sum {ms : List Msg} {m : Msg} (h : m ∈ ms) : m.memsize ≤ (ms.map Msg.memsize).sum := by
  induction ms with
  | nil => cases h
  | cons x xs ih =>
    simp only [List.map_cons, List.sum_cons]
    rcases List.mem_cons.1 h with rfl | h
    · omega
    · have := ih h; omega

theorem Fit.good {s : List Slot} (h : Fit cmp (msgsOf s)) : Good (rowsOf s) := by
  intro x hx
  obtain ⟨y, hy, rfl⟩ := List.mem_map.1 hx
  have hm : y.m ∈ msgsOf s := List.mem_map_of_mem hy
  have := mem_sum hm
  have h2 := h.size
  simp only [Msg.memsize] at this
  refine ⟨h.valid _ hm, ?_, ?_⟩ <;> simp only <;> omega

/-- A buffer with its trees holds exactly the given messages. -/
structure BncInv (cmp : List Nat → List Nat → Ordering) (c : Bnc) (offs : List Nat) (s : List Slot) : Prop where
  fit : Fit cmp (msgsOf s)
  mem : c.b.mem = memOf (rowsOf s)
  n : c.b.n = s.length
  offs : offs = (List.range s.length).map (offAt (msgsOf s))
  fresh : ∀ o, o ∈ c.fresh ↔ ∃ (i : Nat) (x : Slot), s[i]? = some x ∧ x.m.typ ∈ single ∧ x.filed = false ∧ o = offAt (msgsOf s) i
  stale : ∀ o, o ∈ c.stale ↔ ∃ (i : Nat) (x : Slot), s[i]? = some x ∧ x.m.typ ∈ single ∧ x.filed = true ∧ o = offAt (msgsOf s) i
  freshSorted : c.fresh.Pairwise (Lt cmp c.b)
  staleSorted : c.stale.Pairwise (Lt cmp c.b)
  bcast : c.bcast = collect (fun m _ => !isSingle m) 0 (rowsOf s)
  marked : ∀ (i : Nat) (x : Slot), s[i]? = some x → x.m.typ ∈ single → x.filed = false → (offAt (msgsOf s) i ∈ c.marked ↔ x.fresh = false)
  markedFresh : ∀ o ∈ c.marked, o ∈ c.fresh
  filed : ∀ x ∈ s, x.filed = true → x.fresh = false

theorem get_at {b : MB} {s : List Slot} (hf : Fit cmp (msgsOf s)) (hm : b.mem = memOf (rowsOf s)) {i : Nat} {x : Slot} (h : s[i]? = some x) : b.getMessage (offAt (msgsOf s) i) = .ok x.m := by
  obtain ⟨h1, h2⟩ := memOf_split (rowsOf_get h)
  have hx := hf.good (x.m, x.fresh) (List.mem_iff_getElem?.2 ⟨i, rowsOf_get h⟩)
  rw [rowsOf_fst] at h2
  rw [← h2]
  exact MB.get_ok (hm.trans h1) hx.1 hx.2.1 hx.2.2

theorem cmp_at {b : MB} {s : List Slot} (hf : Fit cmp (msgsOf s)) (hm : b.mem = memOf (rowsOf s)) {i j : Nat} {x y : Slot} (hi : s[i]? = some x) (hj : s[j]? = some y) (hne : i ≠ j)
    (hx : x.m.typ ∈ single) (hy : y.m.typ ∈ single) : Lt cmp b (offAt (msgsOf s) i) (offAt (msgsOf s) j) ∨ Lt cmp b (offAt (msgsOf s) j) (offAt (msgsOf s) i) := by
  have g1 := get_at hf hm hi
  have g2 := get_at hf hm hj
  have key : ∀ (i j : Nat) (x y : Slot), s[i]? = some x → s[j]? = some y → i < j → x.m.typ ∈ single → y.m.typ ∈ single → Before cmp x.m y.m ∨ Before cmp y.m x.m := by
    intro i j x y hi hj hlt hx hy
    obtain ⟨l1, e1⟩ := List.getElem?_eq_some_iff.1 (msgsOf_get hi)
    obtain ⟨l2, e2⟩ := List.getElem?_eq_some_iff.1 (msgsOf_get hj)
    have := List.pairwise_iff_getElem.1 hf.distinct i j l1 l2 hlt
    rw [e1, e2] at this
    exact this hx hy
  have : Before cmp x.m y.m ∨ Before cmp y.m x.m := by
    rcases Nat.lt_or_gt_of_ne hne with h | h
    · exact key i j x y hi hj h hx hy
    · exact (key j i y x hj hi h hy hx).symm
  rcases this with h | h
  · exact .inl ⟨_, _, g1, g2, h⟩
  · exact .inr ⟨_, _, g2, g1, h⟩

/-- The order depends on the messages alone. -/
theorem Lt.congr {b b' : MB} {l : List Nat} (h : l.Pairwise (Lt cmp b)) (hg : ∀ o ∈ l, b'.getMessage o = b.getMessage o) : l.Pairwise (Lt cmp b') := by
  refine List.Pairwise.imp_of_mem ?_ h
  rintro x y hx hy ⟨m, m', e1, e2, hb⟩
  exact ⟨m, m', (hg x hx).trans e1, (hg y hy).trans e2, hb⟩

end Verif.Ser
