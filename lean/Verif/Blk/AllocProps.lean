import Verif.Blk.AllocLemmas

/-! C28, C29, C47: the block allocator. -/
namespace Verif.Blk

variable {r a : Nat} {s s' : Alloc} {L : List Block}

theorem Run.inv (h : Run r a s L) : Inv r a s L := by
  induction h with
  | created hr h =>
    by_cases ha : 512 ≤ a ∧ a % 512 = 0
    · obtain ⟨s, e1, e2⟩ := Inv.create hr ha.1 ha.2
      rw [h] at e1; cases e1; exact e2
    · rw [create, createInternal, if_neg ha] at h; cases h
  | opened hr he h =>
    obtain ⟨h1, h2, h3, h4⟩ := createFrom_chain he h
    obtain ⟨s, e1, e2⟩ := Inv.createFrom hr h1 h2 h3 h4
    rw [h] at e1; cases e1; exact e2
  | @alloc s s' L size x _ hr h ih =>
    by_cases hz : size = 0
    · rw [allocBlock, if_pos hz] at h; cases h
    · obtain ⟨x, s', e1, e2, -⟩ := ih.alloc (by omega) hr
      rw [h] at e1; cases e1; exact e2
  | free _ hb h ih =>
    obtain ⟨s', e1, e2⟩ := ih.freeB hb
    rw [h] at e1; cases e1; exact e2

/-! ### C28 -/

/-- C28: in every history, the blocks in use never overlap, are aligned, and keep out of the reserved area. -/
theorem C28_blocks_in_use_are_apart (h : Run r a s L) :
    (L.Pairwise fun x y => ¬ x.overlap y) ∧ ∀ b ∈ L, b.off % a = 0 ∧ r ≤ b.off :=
  ⟨h.inv.disj, fun b hb => ⟨(h.inv.blocks b hb).2.2.1, (h.inv.blocks b hb).2.1⟩⟩

/-- C28: an allocation always succeeds, and its block fits among the blocks in use. -/
theorem C28_allocation_succeeds (h : Run r a s L) {size : Nat} (hz : 0 < size) (hr : Room r a L size) :
    ∃ x s', allocBlock s size = some (x, s') ∧ Fits r a L size x := by
  obtain ⟨x, s', e1, e2, -⟩ := h.inv.alloc hz hr
  have h1 := e2.blocks ⟨x, size⟩ (by simp)
  refine ⟨x, s', e1, h1.2.2.1, h1.2.1, fun b hb ho => ?_⟩
  exact (List.pairwise_cons.mp e2.disj).1 b hb ⟨ho.2, ho.1⟩

/-- C28: freeing a block in use always succeeds. -/
theorem C28_free_succeeds (h : Run r a s L) {b : Block} (hb : b ∈ L) : ∃ s', freeBlock s b.off b.size = some s' := by
  obtain ⟨s', e1, -⟩ := h.inv.freeB hb
  exact ⟨s', e1⟩

/-- C28: a dictionary whose translation names separate, aligned, nonempty blocks can be opened. -/
theorem C28_open_succeeds (hr : r < maxVal) (ha : 512 ≤ a) (ha2 : a % 512 = 0) (hne : L ≠ [])
    (hd : L.Pairwise fun x y => ¬ x.overlap y) (hok : ∀ b ∈ L, 0 < b.size ∧ r ≤ b.off ∧ b.off % a = 0 ∧ b.off + b.size < maxVal) :
    ∃ s, createFrom r a L = some s := by
  obtain ⟨s, e1, -⟩ := Inv.createFrom hr ha ha2 hne (chain_of hok hd)
  exact ⟨s, e1⟩

/-- C28: the accounts are those of the blocks in use (64-bit counters). -/
theorem C28_accounts (h : Run r a s L) : s.nBlocks % 2 ^ 64 = L.length % 2 ^ 64 ∧ s.nBytes % 2 ^ 64 = (r + total L) % 2 ^ 64 :=
  ⟨h.inv.count, h.inv.bytes⟩

/-- C28: freed space is available again: after a free, whatever fitted before still does, and so does the freed block's
own place. -/
theorem C28_freed_space_is_available (h : Run r a s L) {b : Block} (hb : b ∈ L) {size : Nat} (hz : size ≤ b.size) :
    Fits r a (L.erase b) size b.off := by
  obtain ⟨k1, k2, k3, k4⟩ := h.inv.blocks b hb
  obtain ⟨s', e1, e2⟩ := h.inv.freeB hb
  refine ⟨k3, k2, fun x hx ho => ?_⟩
  have h1 := h.inv.disj
  have := (List.perm_cons_erase hb).pairwise_iff (R := fun x y : Block => ¬ x.overlap y) (fun h ho => h ⟨ho.2, ho.1⟩)
  have h2 := (List.pairwise_cons.mp (this.mp h1)).1 x hx
  unfold Block.overlap at ho h2
  simp only at ho
  omega

example : ∃ s L, Run 8192 4096 s L ∧ L = [⟨20480, 4096⟩, ⟨8192, 5000⟩] ∧ Room 8192 4096 L 4096 := by
  have h1 : ∃ s, create 8192 4096 = some s := ⟨_, rfl⟩
  obtain ⟨s1, e1⟩ := h1
  have r1 : Run 8192 4096 s1 [] := .created (by decide) e1
  have h2 : ∃ s, allocBlock s1 5000 = some (8192, s) := by cases e1; exact ⟨_, rfl⟩
  obtain ⟨s2, e2⟩ := h2
  have r2 := Run.alloc r1 (by simp [Room, maxVal]) e2
  have h3 : ∃ s, allocBlock s2 100 = some (16384, s) := by cases e1; cases e2; exact ⟨_, rfl⟩
  obtain ⟨s3, e3⟩ := h3
  have r3 := Run.alloc r2 (by simp [Room, maxVal]) e3
  have h4 : ∃ s, allocBlock s3 4096 = some (20480, s) := by cases e1; cases e2; cases e3; exact ⟨_, rfl⟩
  obtain ⟨s4, e4⟩ := h4
  have r4 := Run.alloc r3 (by simp [Room, maxVal]) e4
  have h5 : ∃ s, freeBlock s4 16384 100 = some s := by cases e1; cases e2; cases e3; cases e4; exact ⟨_, rfl⟩
  obtain ⟨s5, e5⟩ := h5
  exact ⟨s5, _, Run.free r4 (b := ⟨16384, 100⟩) (by simp) e5, by decide, by unfold Room; decide⟩

/-! ### C29 -/

/-- C29: an allocation returns the lowest offset at which the block fits. -/
theorem C29_first_fit (h : Run r a s L) {size x : Nat} (hr : Room r a L size) (he : allocBlock s size = some (x, s')) :
    Fits r a L size x ∧ ∀ y, Fits r a L size y → x ≤ y := by
  have hz : 0 < size := by
    by_cases hz : size = 0
    · rw [allocBlock, if_pos hz] at he; cases he
    · omega
  obtain ⟨x, s', e1, e2⟩ := C28_allocation_succeeds h hz hr
  obtain ⟨x', s'', f1, f2, f3⟩ := h.inv.alloc hz hr
  rw [he] at e1 f1; cases e1; cases f1
  exact ⟨e2, fun y hy => f3 y hy.1 hy.2.1 hy.2.2⟩

theorem inOrder_eq (t : T) : inOrder t = t.holes := by
  induction t with
  | nil => rfl
  | node c h lm rm l r ihl ihr => simp [inOrder, T.holes, ihl, ihr]

theorem largestFit_append (B A : List Hole) : largestFit a (B ++ A) = max (largestFit a B) (largestFit a A) := by
  induction B with
  | nil => simp [largestFit]
  | cons x B ih => simp only [largestFit, List.cons_append, List.foldr_cons] at ih ⊢; rw [ih]; omega

theorem lab_exact {t : T} (h : Lab a t) : SummariesExact a t ∧ t.mhs a = largestFit a (inOrder t) := by
  induction t with
  | nil => exact ⟨trivial, rfl⟩
  | node c x lm rm l r ihl ihr =>
    obtain ⟨h1, h2, h3, h4⟩ := h
    obtain ⟨l1, l2⟩ := ihl h3
    obtain ⟨r1, r2⟩ := ihr h4
    refine ⟨⟨h1.trans l2, h2.trans r2, l1, r1⟩, ?_⟩
    rw [mhs_node, nodeMhs, inOrder, largestFit_append, h1, h2, l2, r2]
    simp only [largestFit, List.foldr_cons]; omega

/-- C29: in every history each node's summaries are exactly the largest usable hole of its two subtrees. -/
theorem C29_summaries_exact (h : Run r a s L) : SummariesExact a s.tree := (lab_exact h.inv.good.2.2).1

theorem rb_depth {t : T} {n : Nat} (h : RB t n) : t.depth ≤ 2 * n + (if t.isRed then 1 else 0) ∧ 2 ^ n ≤ (inOrder t).length + 1 := by
  induction t generalizing n with
  | nil => simp only [RB] at h; subst h; exact ⟨Nat.zero_le _, by simp [inOrder]⟩
  | node c x lm rm l r ihl ihr =>
    cases c with
    | red =>
      obtain ⟨h1, h2, h3, h4⟩ := h
      obtain ⟨a1, a2⟩ := ihl h3
      obtain ⟨b1, b2⟩ := ihr h4
      simp only [h1, h2, Bool.false_eq_true, if_false] at a1 b1
      simp only [T.depth, isRed_red, if_true, inOrder, List.length_append, List.length_cons]
      omega
    | black =>
      obtain ⟨m, rfl, h3, h4⟩ := h
      obtain ⟨a1, a2⟩ := ihl h3
      obtain ⟨b1, b2⟩ := ihr h4
      simp only [T.depth, isRed_black, Bool.false_eq_true, if_false, inOrder, List.length_append, List.length_cons, Nat.pow_succ]
      split at a1 <;> split at b1 <;> omega

/-- C29: the tree stays balanced: a search visits at most about twice the logarithm of the number of holes. -/
theorem C29_search_is_logarithmic (h : Run r a s L) : 2 ^ (s.tree.depth / 2) ≤ (inOrder s.tree).length + 1 := by
  obtain ⟨⟨n, h1⟩, h2, -⟩ := h.inv.good
  obtain ⟨d1, d2⟩ := rb_depth h1
  rw [h2] at d1
  simp only [Bool.false_eq_true, if_false] at d1
  exact Nat.le_trans (Nat.pow_le_pow_right (by omega) (by omega)) d2

theorem maxNode_eq (t : T) : maxNode t = t.holes.getLast? := by
  induction t with
  | nil => rfl
  | node c h lm rm l r ihl ihr =>
    cases r with
    | nil => simp [maxNode, T.holes]
    | node c' h' lm' rm' l' r' =>
      rw [maxNode, ihr]
      simp only [T.holes]
      simp [List.getLast?_append, List.getLast?_cons]

theorem fileEnd_spec (r : Nat) (L : List Block) : r ≤ fileEnd r L ∧ (∀ b ∈ L, b.off + b.size ≤ fileEnd r L) ∧
    (fileEnd r L = r ∨ ∃ b ∈ L, fileEnd r L = b.off + b.size) := by
  induction L generalizing r with
  | nil => simp [fileEnd]
  | cons x L ih =>
    obtain ⟨h1, h2, h3⟩ := ih (max r (x.off + x.size))
    have e : fileEnd r (x :: L) = fileEnd (max r (x.off + x.size)) L := rfl
    rw [e]
    refine ⟨by omega, fun b hb => ?_, ?_⟩
    · rcases List.mem_cons.mp hb with rfl | hb
      · omega
      · exact h2 b hb
    · rcases h3 with h3 | ⟨b, hb, h3⟩
      · rw [h3]
        by_cases hc : r ≤ x.off + x.size
        · exact .inr ⟨x, by simp, by omega⟩
        · exact .inl (by omega)
      · exact .inr ⟨b, by simp [hb], h3⟩

/-- C29: the allocated limit, to which the file is truncated, is the end of the last block in use. -/
theorem C29_allocated_limit (h : Run r a s L) : allocatedLimit s = some (fileEnd r L) := by
  have i := h.inv
  obtain ⟨x, hx, hi⟩ := i.infinite
  have hlast : s.tree.holes.getLast? = some x := by
    obtain ⟨B, A, e⟩ := List.append_of_mem hx
    have hs := i.hs
    rw [e, hs_append, hs_cons] at hs
    have : A = [] := by
      cases A with
      | nil => rfl
      | cons y A => have := (hs.2.1.2.2 y (by simp)).1; unfold Hole.fin at this; omega
    rw [e, this]; simp
  rw [allocatedLimit, maxNode_eq, hlast, Option.map_some]
  congr 1
  obtain ⟨f1, f2, f3⟩ := fileEnd_spec r L
  have hk := (i.hs.2 x hx)
  have h1 := fun n (hn : x.off ≤ n) => (i.free n).mp ⟨x, hx, hn, .inl hi⟩
  have hle : ∀ b ∈ L, b.off + b.size ≤ x.off := fun b hb => Nat.le_of_not_lt fun hc => by
    have hb0 := (i.blocks b hb).1
    exact (h1 (max x.off (b.off + b.size - 1)) (by omega)).2 b hb ⟨by omega, by omega⟩
  have hr := (h1 x.off (Nat.le_refl _)).1
  rcases i.hole_off hx with e | ⟨b, hb, e⟩
  · rcases f3 with f | ⟨b, hb, f⟩
    · omega
    · have := hle b hb; omega
  · have := f2 b hb
    rcases f3 with f | ⟨b', hb', f⟩
    · omega
    · have := hle b' hb'; omega

/-! ### C47 -/

/-- Where finite holes end: at a block in use. -/
theorem Inv.hole_end (i : Inv r a s L) {h : Hole} (hh : h ∈ s.tree.holes) (hf : h.size ≠ maxVal) : ∃ b ∈ L, h.off + h.size = b.off := by
  have hk := i.hs.2 h hh
  obtain ⟨k1, k2, k3⟩ := hk
  have hlast := (i.free (h.off + h.size - 1)).mp ⟨h, hh, by unfold Hole.has; omega⟩
  have : ¬ FreeAt s.tree.holes (h.off + h.size) := by
    rintro ⟨x, hx, hx2⟩
    have := hs_touch i.hs hh hx (n := h.off + h.size - 1) (by unfold Hole.has; omega) hx2 (by omega)
    subst this
    unfold Hole.has at hx2; omega
  rw [i.free] at this
  have hb : ∃ b ∈ L, b.has (h.off + h.size) := Classical.byContradiction fun hc =>
    this ⟨by omega, fun b hb hbh => hc ⟨b, hb, hbh⟩⟩
  obtain ⟨b, hb, hb2⟩ := hb
  refine ⟨b, hb, ?_⟩
  have := hlast.2 b hb
  unfold Block.has at hb2 this; omega

theorem visUnused_ok (i : Inv r a s L) (hr : Room r a L 0) {h : Hole} (hh : h ∈ s.tree.holes) (u : Unused) :
    ∃ u', visUnused a u h = some u' ∧ u.largest ≤ u'.largest ∧ (h.size = maxVal → maxVal ≤ u'.largest) ∧
      (u.largest ≤ maxVal → u'.largest ≤ maxVal) := by
  have hw := i.hole_room hr hh
  have hmv : maxVal = 2 ^ 64 - 1 := rfl
  obtain ⟨k1, k2, k3⟩ := i.hs.2 h hh
  obtain ⟨b0, b1, b2, b3⟩ := alignUp_spec (v := h.off) i.apos (by omega)
  rw [visUnused, ouAdd_ok (by omega), Option.bind_some]
  by_cases hi : h.size = maxVal
  · have e : (if h.off = maxVal ∨ h.size = maxVal then maxVal else h.off + h.size) = maxVal := if_pos (.inr hi)
    rw [e, ouSub, if_neg (by omega), if_pos rfl, Option.map_some, if_pos (by omega)]
    exact ⟨_, rfl, by simp only; omega, fun _ => by simp only; omega, fun _ => by simp only; omega⟩
  · have e : (if h.off = maxVal ∨ h.size = maxVal then maxVal else h.off + h.size) = h.off + h.size := if_neg (by omega)
    obtain ⟨b, hb, hbe⟩ := i.hole_end hh hi
    have := b3 b.off (i.blocks b hb).2.2.1 (by omega)
    rw [e, ouSub, if_neg (by omega), if_neg (by omega), if_pos (by omega), Option.map_some]
    split
    · exact ⟨_, rfl, by simp only; omega, fun h => absurd h hi, fun _ => by simp only; omega⟩
    · exact ⟨_, rfl, by omega, fun h => absurd h hi, fun h => h⟩

theorem foldUnused (i : Inv r a s L) (hr : Room r a L 0) (hs : List Hole) (hsub : ∀ h ∈ hs, h ∈ s.tree.holes) (u : Unused) (hu : u.largest ≤ maxVal) :
    ∃ u', hs.foldlM (visUnused a) u = some u' ∧ u.largest ≤ u'.largest ∧ ((∃ h ∈ hs, h.size = maxVal) → u'.largest = maxVal) ∧ u'.largest ≤ maxVal := by
  induction hs generalizing u with
  | nil => exact ⟨u, rfl, Nat.le_refl _, by simp, hu⟩
  | cons h hs ih =>
    obtain ⟨u1, e1, e2, e3, e4⟩ := visUnused_ok i hr (hsub h (by simp)) u
    obtain ⟨u2, f1, f2, f3, f4⟩ := ih (fun x hx => hsub x (by simp [hx])) u1 (e4 hu)
    refine ⟨u2, by rw [List.foldlM_cons, e1]; exact f1, by omega, ?_, f4⟩
    rintro ⟨x, hx, hxi⟩
    rcases List.mem_cons.mp hx with rfl | hx
    · have := e3 hxi; omega
    · exact f3 ⟨x, hx, hxi⟩

/-- C47, the part that holds: the report can always be made. -/
theorem C47_report_never_fails_partial (h : Run r a s L) (hr : Room r a L 0) : ∃ u, unusedStatistics s = some u := by
  have i := h.inv
  obtain ⟨u, e1, -⟩ := foldUnused i hr s.tree.holes (fun _ h => h) ⟨0, 0, 0⟩ (by simp)
  exact ⟨u, by rw [unusedStatistics, inOrder_eq, i.align]; exact e1⟩

/-- C47 (violated): whatever the history, the fragmentation report claims an unused block of 2^64-1 bytes: the space
after the end of the file is counted as if it were in it. -/
theorem C47_report_counts_space_beyond_the_file (h : Run r a s L) (hr : Room r a L 0) :
    ∃ u, unusedStatistics s = some u ∧ u.largest = 2 ^ 64 - 1 := by
  have i := h.inv
  obtain ⟨u, e1, -, e3, -⟩ := foldUnused i hr s.tree.holes (fun _ h => h) ⟨0, 0, 0⟩ (by simp)
  exact ⟨u, by rw [unusedStatistics, inOrder_eq, i.align]; exact e1, e3 i.infinite⟩

end Verif.Blk
