import Verif.Ser.MsgBufInv
import Mathlib.Data.List.Perm.Subperm
/-!
From the invariant to what a buffer shows.
-/
set_option linter.unusedSectionVars false
namespace Verif.Ser
open MsgBufSpec

variable {cmp : List Nat → List Nat → Ordering} [Std.TransCmp cmp]

theorem at_congr {b d : MB} (h : d.mem = b.mem) (off n : Nat) : d.at off n = b.at off n := by unfold MB.at; rw [h]

theorem xidsAt_congr {b d : MB} (h : d.mem = b.mem) (off n : Nat) : d.xidsAt off n = b.xidsAt off n := by
  induction n generalizing off with
  | zero => rfl
  | succ n ih => simp only [MB.xidsAt, at_congr h, ih]

theorem get_congr {b d : MB} (h : d.mem = b.mem) (off : Nat) : d.getMessage off = b.getMessage off := by
  simp only [MB.getMessage, at_congr h, xidsAt_congr h]

theorem getFresh_congr {b d : MB} (h : d.mem = b.mem) (off : Nat) : d.getFreshness off = b.getFreshness off := by
  simp only [MB.getFreshness, at_congr h]

theorem iter_congr {b d : MB} (h : d.mem = b.mem) : d.iterate = b.iterate := by
  have : ∀ fuel off, d.iterLoop fuel off = b.iterLoop fuel off := by
    intro fuel
    induction fuel with
    | zero => intro off; rfl
    | succ n ih => intro off; simp only [MB.iterLoop, h, get_congr h, getFresh_congr h, ih]
  unfold MB.iterate
  rw [h, this]

theorem zip_snd {os : List Nat} {s : List (Msg × Bool)} (h : os.length = s.length) : (os.zip s).map (·.2) = s := by
  induction s generalizing os with
  | nil => cases os <;> simp
  | cons x s ih =>
    cases os with
    | nil => simp at h
    | cons o os => simp only [List.zip_cons_cons, List.map_cons, ih (by simpa using h)]

theorem read_tree {b : MB} {l : List Nat} (hs : l.Pairwise (Lt cmp b)) (hg : ∀ o ∈ l, ∃ m, b.getMessage o = .ok m) :
    ∃ ms, readAll b l = .ok ms ∧ ms.Pairwise (Before cmp) ∧ ∀ m, m ∈ ms ↔ ∃ o ∈ l, b.getMessage o = .ok m := by
  induction l with
  | nil => exact ⟨[], rfl, List.Pairwise.nil, by simp⟩
  | cons o l ih =>
    rw [List.pairwise_cons] at hs
    obtain ⟨ms, e, p, hm⟩ := ih hs.2 (fun o ho => hg o (by simp [ho]))
    obtain ⟨m, h⟩ := hg o (by simp)
    refine ⟨m :: ms, ?_, ?_, fun m' => ?_⟩
    · simp only [readAll, h, R.bind_ok, e, R.pure_ok]
    · rw [List.pairwise_cons]
      refine ⟨fun m' hm' => ?_, p⟩
      obtain ⟨o', ho', h'⟩ := (hm m').1 hm'
      obtain ⟨m1, m2, e1, e2, hb⟩ := hs.1 o' ho'
      rw [h] at e1; rw [h'] at e2
      cases e1; cases e2
      exact hb
    · rw [List.mem_cons, hm]
      constructor
      · rintro (rfl | ⟨o', h1, h2⟩)
        · exact ⟨o, by simp, h⟩
        · exact ⟨o', by simp [h1], h2⟩
      · rintro ⟨o', h1, h2⟩
        rcases List.mem_cons.1 h1 with rfl | h1
        · rw [h] at h2; cases h2; exact .inl rfl
        · exact .inr ⟨o', h1, h2⟩

theorem read_collect {b : MB} {pre s : List (Msg × Bool)} (h : b.mem = memOf pre ++ memOf s) (hg : Good s) :
    readAll b (collect (fun m _ => !isSingle m) (memOf pre).length s) = .ok ((s.map Prod.fst).filter fun m => m.typ ∉ single) := by
  induction s generalizing pre with
  | nil => rfl
  | cons x s ih =>
    obtain ⟨m, f⟩ := x
    obtain ⟨h1, h2, h3⟩ : Valid m ∧ m.key.length < 2 ^ 32 ∧ m.val.length < 2 ^ 32 := hg (m, f) (by simp)
    have hm : memOf ((m, f) :: s) = m.entry f ++ memOf s := rfl
    rw [hm] at h
    have hp : (memOf pre).length + m.memsize = (memOf (pre ++ [(m, f)])).length := by
      rw [memOf_append, List.length_append, show memOf [(m, f)] = m.entry f by simp [memOf], Msg.entry_length]
    have ih := ih (pre := pre ++ [(m, f)]) (by rw [h, memOf_append, List.append_assoc]; simp [memOf]) (fun y hy => hg y (by simp [hy]))
    unfold collect
    rw [hp]
    cases hs : isSingle m with
    | true =>
      have : m.typ ∈ single := by simpa [isSingle] using hs
      simp [ih, this]
    | false =>
      have : m.typ ∉ single := by simpa [isSingle] using hs
      simp [readAll, ih, this, MB.get_ok h h1 h2 h3, R.bind_ok, R.pure_ok]

theorem inv_shows {c : Bnc} {offs : List Nat} {s : List Slot} (h : BncInv cmp c offs s) : Shows cmp c s := by
  refine ⟨?_, h.n, ?_, ?_, ?_⟩
  · obtain ⟨os, e1, e2, _⟩ := MB.iterLoop_ok (b := c.b) (pre := []) (s := rowsOf s) (fuel := c.b.mem.length) (by rw [h.mem]; rfl) h.fit.good (by rw [h.mem]; exact Nat.le_refl _)
    exact ⟨_, e1, zip_snd e2⟩
  · obtain ⟨ms, e, p, hm⟩ := read_tree h.freshSorted (fun o ho => by obtain ⟨i, x, h1, _, _, h4⟩ := (h.fresh o).1 ho; exact ⟨x.m, by rw [h4]; exact get_at h.fit h.mem h1⟩)
    refine ⟨ms, e, p, fun m => (hm m).trans ⟨?_, ?_⟩⟩
    · rintro ⟨o, ho, hg⟩
      obtain ⟨i, x, h1, h2, h3, h4⟩ := (h.fresh o).1 ho
      have := get_at h.fit h.mem h1
      rw [← h4, hg] at this
      cases this
      exact ⟨x, List.mem_iff_getElem?.2 ⟨i, h1⟩, rfl, h2, h3⟩
    · rintro ⟨x, hx, rfl, h2, h3⟩
      obtain ⟨i, hi⟩ := List.mem_iff_getElem?.1 hx
      exact ⟨_, (h.fresh _).2 ⟨i, x, hi, h2, h3, rfl⟩, get_at h.fit h.mem hi⟩
  · obtain ⟨ms, e, p, hm⟩ := read_tree h.staleSorted (fun o ho => by obtain ⟨i, x, h1, _, _, h4⟩ := (h.stale o).1 ho; exact ⟨x.m, by rw [h4]; exact get_at h.fit h.mem h1⟩)
    refine ⟨ms, e, p, fun m => (hm m).trans ⟨?_, ?_⟩⟩
    · rintro ⟨o, ho, hg⟩
      obtain ⟨i, x, h1, h2, h3, h4⟩ := (h.stale o).1 ho
      have := get_at h.fit h.mem h1
      rw [← h4, hg] at this
      cases this
      exact ⟨x, List.mem_iff_getElem?.2 ⟨i, h1⟩, rfl, h2, h3⟩
    · rintro ⟨x, hx, rfl, h2, h3⟩
      obtain ⟨i, hi⟩ := List.mem_iff_getElem?.1 hx
      exact ⟨_, (h.stale _).2 ⟨i, x, hi, h2, h3, rfl⟩, get_at h.fit h.mem hi⟩
  · have := read_collect (b := c.b) (pre := []) (s := rowsOf s) (by rw [h.mem]; rfl) h.fit.good
    rw [h.bcast, ← show (rowsOf s).map Prod.fst = s.map Slot.m from rowsOf_fst s]
    exact this

/-! ### Sizes -/

theorem sorted_nodup {b : MB} {l : List Nat} (h : l.Pairwise (Lt cmp b)) : l.Nodup :=
  h.imp (fun {x y} hxy he => by subst he; exact Lt.asymm hxy hxy)

theorem collect_length {P : Msg → Bool → Bool} {s : List (Msg × Bool)} {base : Nat} : (collect P base s).length ≤ s.length := by
  induction s generalizing base with
  | nil => simp [collect]
  | cons x s ih =>
    obtain ⟨m, f⟩ := x
    unfold collect
    split
    · simpa using ih
    · exact Nat.le_succ_of_le ih

theorem count_small (ms : List Msg) : 19 * ms.length ≤ (ms.map Msg.memsize).sum := by
  induction ms with
  | nil => simp
  | cons m ms ih =>
    simp only [List.length_cons, List.map_cons, List.sum_cons]
    have : 19 ≤ m.memsize := by unfold Msg.memsize; omega
    omega

structure Sizes (c : Bnc) (s : List Slot) : Prop where
  count : 19 * s.length ≤ 2 ^ 30
  mem : (memOf (rowsOf s)).length ≤ 2 ^ 30
  fresh : Small c.fresh
  stale : Small c.stale
  bcast : Small c.bcast
  total : c.partitionSize = (bncBytes (rowsOf s) c.fresh c.stale c.bcast).length + 4
  lengths : c.fresh.length ≤ s.length ∧ c.stale.length ≤ s.length ∧ c.bcast.length ≤ s.length

theorem inv_sizes {c : Bnc} {offs : List Nat} {s : List Slot} (h : BncInv cmp c offs s) : Sizes c s := by
  have hl : (msgsOf s).length = s.length := by simp [msgsOf]
  have hc : 19 * s.length ≤ 2 ^ 30 := by rw [← hl]; exact Nat.le_trans (count_small _) h.fit.size
  have hm : (memOf (rowsOf s)).length ≤ 2 ^ 30 := by rw [memOf_length, rowsOf_fst]; exact h.fit.size
  have hoff : ∀ i, i < s.length → offAt (msgsOf s) i < 2 ^ 32 := by
    intro i hi
    have := offAt_lt (ms := msgsOf s) (i := i) (j := s.length) hi (by omega)
    rw [← hl, offAt_length] at this
    have := h.fit.size
    omega
  have hsub : ∀ l : List Nat, l.Nodup → (∀ o ∈ l, ∃ (i : Nat), i < s.length ∧ o = offAt (msgsOf s) i) → l.length ≤ s.length := by
    intro l hn hs
    have := (List.Nodup.subperm hn (l₂ := (List.range s.length).map (offAt (msgsOf s))) (fun o ho => by
      obtain ⟨i, hi, rfl⟩ := hs o ho
      exact List.mem_map_of_mem (List.mem_range.2 hi))).length_le
    simpa using this
  have f1 : ∀ o ∈ c.fresh, ∃ (i : Nat), i < s.length ∧ o = offAt (msgsOf s) i := fun o ho => by
    obtain ⟨i, x, h1, _, _, h4⟩ := (h.fresh o).1 ho
    exact ⟨i, (List.getElem?_eq_some_iff.1 h1).1, h4⟩
  have f2 : ∀ o ∈ c.stale, ∃ (i : Nat), i < s.length ∧ o = offAt (msgsOf s) i := fun o ho => by
    obtain ⟨i, x, h1, _, _, h4⟩ := (h.stale o).1 ho
    exact ⟨i, (List.getElem?_eq_some_iff.1 h1).1, h4⟩
  have f3 : ∀ o ∈ c.bcast, ∃ (i : Nat), i < s.length ∧ o = offAt (msgsOf s) i := fun o ho => by
    rw [h.bcast] at ho
    obtain ⟨i, m, f, h1, _, h3⟩ := mem_collect.1 ho
    rw [rowsOf_fst] at h3
    have := (List.getElem?_eq_some_iff.1 h1).1
    exact ⟨i, by simpa [rowsOf] using this, by omega⟩
  have l1 := hsub c.fresh (sorted_nodup h.freshSorted) f1
  have l2 := hsub c.stale (sorted_nodup h.staleSorted) f2
  have l3 : c.bcast.length ≤ s.length := by rw [h.bcast]; exact Nat.le_trans collect_length (by simp [rowsOf])
  refine ⟨hc, hm, ⟨fun o ho => ?_, by omega⟩, ⟨fun o ho => ?_, by omega⟩, ⟨fun o ho => ?_, by omega⟩, ?_, l1, l2, l3⟩
  · obtain ⟨i, hi, rfl⟩ := f1 o ho; exact hoff i hi
  · obtain ⟨i, hi, rfl⟩ := f2 o ho; exact hoff i hi
  · obtain ⟨i, hi, rfl⟩ := f3 o ho; exact hoff i hi
  · rw [bncBytes_length]
    unfold Bnc.partitionSize m32
    rw [h.mem]
    exact Nat.mod_eq_of_lt (by omega)

/-! ### The older format -/

theorem deserialize26_ok {c : Bnc} {offs : List Nat} {s : List Slot} (h : BncInv cmp c offs s) (hset : ∀ x ∈ s, x.filed = !x.fresh) (pre post : List Nat) :
    ∃ size, Bnc.deserialize26 cmp ⟨pre ++ (BufSpec.bytes (.int (rowsOf s).length) ++ (diskOf (rowsOf s) ++ post)), pre.length⟩ =
      .ok (⟨⟨memOf (rowsOf s), (rowsOf s).length, size⟩, c.fresh, [], c.stale, c.bcast⟩,
        ⟨pre ++ (BufSpec.bytes (.int (rowsOf s).length) ++ (diskOf (rowsOf s) ++ post)), pre.length + (4 + (diskOf (rowsOf s)).length)⟩) := by
  have hsz := inv_sizes h
  have hrl : (rowsOf s).length = s.length := by simp [rowsOf]
  have d := MB.deserialize_ok h.fit.good (by have := hsz.count; omega) pre post
  unfold Bnc.deserialize26
  rw [d, R.bind_ok]
  simp only
  generalize (pre ++ (BufSpec.bytes (.int (rowsOf s).length) ++ (diskOf (rowsOf s) ++ post))).length + 64 = size
  generalize hb : (⟨memOf (rowsOf s), (rowsOf s).length, size⟩ : MB) = b
  have hbm : b.mem = memOf (rowsOf s) := by rw [← hb]
  have hgc : ∀ o, b.getMessage o = c.b.getMessage o := get_congr (hbm.trans h.mem.symm)
  have sorted : ∀ (P : Msg → Bool → Bool), (∀ m f, P m f = true → m.typ ∈ single) →
      ∃ l', sortOffsets cmp b (collect P 0 (rowsOf s)) = .ok l' ∧ l'.Pairwise (Lt cmp b) ∧ ∀ o, o ∈ l' ↔ o ∈ collect P 0 (rowsOf s) := by
    intro P hP
    have hx : ∀ o ∈ collect P 0 (rowsOf s), ∃ (i : Nat) (x : Slot), s[i]? = some x ∧ x.m.typ ∈ single ∧ o = offAt (msgsOf s) i := by
      intro o ho
      obtain ⟨i, m, f, h1, h2, h3⟩ := mem_collect.1 ho
      rw [rowsOf_fst, Nat.zero_add] at h3
      rw [rowsOf, List.getElem?_map] at h1
      obtain ⟨x, hx, he⟩ := Option.map_eq_some_iff.1 h1
      cases he
      exact ⟨i, x, hx, hP _ _ h2, h3⟩
    refine sortOffsets_ok (fun o ho => ?_) ?_
    · obtain ⟨i, x, h1, _, h3⟩ := hx o ho
      exact ⟨x.m, by rw [h3]; exact get_at h.fit hbm h1⟩
    · refine List.Pairwise.imp_of_mem ?_ (collect_incr (P := P) (s := rowsOf s) (base := 0)).1
      intro o o' ho ho' hlt
      obtain ⟨i, x, h1, h2, h3⟩ := hx o ho
      obtain ⟨j, y, g1, g2, g3⟩ := hx o' ho'
      rw [h3, g3]
      refine cmp_at h.fit hbm h1 g1 (fun hij => ?_) h2 g2
      subst hij
      omega
  obtain ⟨l1, e1, p1, m1⟩ := sorted (fun m f => isSingle m && f) (fun m f hm => by simp [isSingle] at hm; exact hm.1)
  obtain ⟨l2, e2, p2, m2⟩ := sorted (fun m f => isSingle m && !f) (fun m f hm => by simp [isSingle] at hm; exact hm.1)
  have q1 : l1 = c.fresh := sorted_unique (fun x y => Lt.asymm) p1 (Lt.congr h.freshSorted (fun o _ => hgc o)) (fun o => by
    rw [m1, h.fresh, mem_collect]
    constructor
    · rintro ⟨i, m, f, g1, g2, g3⟩
      rw [rowsOf, List.getElem?_map] at g1
      obtain ⟨x, hx, he⟩ := Option.map_eq_some_iff.1 g1
      cases he
      simp only [isSingle, Bool.and_eq_true, decide_eq_true_eq] at g2
      rw [rowsOf_fst, Nat.zero_add] at g3
      exact ⟨i, x, hx, g2.1, by rw [hset x (List.mem_iff_getElem?.2 ⟨i, hx⟩), g2.2]; rfl, g3⟩
    · rintro ⟨i, x, g1, g2, g3, g4⟩
      refine ⟨i, x.m, x.fresh, rowsOf_get g1, ?_, by rw [rowsOf_fst, Nat.zero_add]; exact g4⟩
      rw [hset x (List.mem_iff_getElem?.2 ⟨i, g1⟩)] at g3
      simp only [isSingle, Bool.and_eq_true, decide_eq_true_eq]
      exact ⟨g2, by simpa using g3⟩)
  have q2 : l2 = c.stale := sorted_unique (fun x y => Lt.asymm) p2 (Lt.congr h.staleSorted (fun o _ => hgc o)) (fun o => by
    rw [m2, h.stale, mem_collect]
    constructor
    · rintro ⟨i, m, f, g1, g2, g3⟩
      rw [rowsOf, List.getElem?_map] at g1
      obtain ⟨x, hx, he⟩ := Option.map_eq_some_iff.1 g1
      cases he
      simp only [isSingle, Bool.and_eq_true, decide_eq_true_eq] at g2
      rw [rowsOf_fst, Nat.zero_add] at g3
      exact ⟨i, x, hx, g2.1, by rw [hset x (List.mem_iff_getElem?.2 ⟨i, hx⟩)]; exact g2.2, g3⟩
    · rintro ⟨i, x, g1, g2, g3, g4⟩
      refine ⟨i, x.m, x.fresh, rowsOf_get g1, ?_, by rw [rowsOf_fst, Nat.zero_add]; exact g4⟩
      rw [hset x (List.mem_iff_getElem?.2 ⟨i, g1⟩)] at g3
      simp only [isSingle, Bool.and_eq_true, decide_eq_true_eq]
      exact ⟨g2, g3⟩)
  refine ⟨size, ?_⟩
  rw [e1, R.bind_ok, e2, R.bind_ok, q1, q2, ← h.bcast, hb]
  rfl

end Verif.Ser
