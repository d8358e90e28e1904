import Verif.Blk.CkptWitness

/-!
C48, C49: the block table never stops the server, and loses no disk space.
-/
namespace Verif.Blk

/-- C48: asking for, writing and freeing block numbers, and beginning and writing out a checkpoint, never fail an
assertion, in any state of any history.  (Missing: ending a checkpoint, below.) -/
theorem C48_operations_never_fail_partial {w : World} (h : Reach w) :
    allocateBlocknum w.bt ≠ none ∧
    (∀ b ∈ w.held, ∀ size, 0 < size → hasRoom w.bt.alloc size → reallocOnDisk w.bt b size (w.pending.contains b) ≠ none) ∧
    (∀ size, 0 < size → hasRoom w.bt.alloc size → reallocDescriptor w.bt size ≠ none) ∧
    (∀ b ∈ w.held, freeBlocknum w.bt b (w.pending.contains b) ≠ none) ∧
    (∀ root, freeUnusedBlocknums w.bt root ≠ none) ∧
    (w.bt.inp = none → noteStart w.bt ≠ none) ∧
    (∀ inp, w.bt.inp = some inp → inp.block bnTranslation = none → hasRoom w.bt.alloc (sizeOnDisk inp) → allocTranslation w.bt ≠ none) := by
  have hi := h.inv
  obtain ⟨L, hL⟩ := hi.bt
  refine ⟨?_, ?_, ?_, ?_, ?_, ?_, ?_⟩
  · obtain ⟨b1, s1, e1, -⟩ := hL.newNumber
    rw [e1]; simp
  · intro b hb size hz hr
    obtain ⟨u1, u2, old, u3, u4⟩ := (hi.held _).mp hb
    obtain ⟨s1, off1, L', e1, -⟩ := hL.realloc u2 u3 u4 hz hr (forCk := w.pending.contains b) (by
        intro hfc
        obtain ⟨h1, inp, h2, ⟨h3, h4, q, h5, h6⟩, h7⟩ := hi.pend _ (List.contains_iff_mem.mp hfc)
        exact ⟨inp, q, h2, h4, h5, h6⟩)
    rw [reallocOnDisk, if_pos ⟨u1, u2⟩, e1]; simp
  · intro size hz hr
    have hlt : bnDescriptor < w.bt.cur.smallest := by have := hL.cur.res; unfold reservedBn at this; unfold bnDescriptor; omega
    have hlt2 : bnDescriptor < w.bt.cur.arr.length := by have := hL.cur.len; omega
    obtain ⟨old, ho⟩ : ∃ q, w.bt.cur.arr[bnDescriptor]? = some q := ⟨_, List.getElem?_eq_getElem hlt2⟩
    have ho0 := hL.cur.low _ old (by decide) ho
    obtain ⟨s1, off1, L', e1, -⟩ := hL.realloc hlt ho (by unfold sizeFree; omega) hz hr (forCk := false) (by simp)
    rw [reallocDescriptor, e1]; simp
  · intro b hb
    obtain ⟨s1, L', e1, -⟩ := hL.freeNumber ((hi.held _).mp hb) (forCk := w.pending.contains b) (by
      intro hfc
      obtain ⟨h1, inp, h2, h3, h4⟩ := hi.pend _ (List.contains_iff_mem.mp hfc)
      exact ⟨inp, h2, h3⟩)
    rw [e1]; simp
  · intro root
    obtain ⟨s1, e1, -⟩ := hL.freeUnused root
    rw [e1]; simp
  · intro hn
    obtain ⟨s1, inp, e1, -⟩ := hL.start hn
    rw [e1]; simp
  · intro inp hii hn hr
    obtain ⟨s1, off1, e1, -⟩ := hL.serialize hii hn hr
    rw [e1]; simp

/-- C48: a checkpoint that was written out, or skipped, can be ended, if the dictionary has at most 8189 block numbers. -/
theorem C48_checkpoint_end_never_fails_partial {w : World} (h : Reach w) {inp : Tr} (hinp : w.bt.inp = some inp)
    (hd : w.bt.skipped = true ∨ (inp.block bnTranslation).isSome) (hsmall : w.bt.cur.smallest ≤ hdr) : noteEnd w.bt ≠ none := by
  have hi := h.inv
  obtain ⟨L, hL⟩ := hi.bt
  rw [noteEnd, hinp]
  simp only [Option.bind_some]
  by_cases hsk : w.bt.skipped
  · rw [if_pos hsk]; simp
  · rw [if_neg hsk]
    have hb : (inp.block bnTranslation).isSome := by rcases hd with hd | hd; exact absurd hd hsk; exact hd
    obtain ⟨k, hk⟩ := Option.isSome_iff_exists.mp hb
    obtain ⟨p, p1, p2, p3⟩ := block_of_some.mp hk
    have hkL := hL.live bnTranslation k (Or.inr (Or.inr ⟨inp, hinp, hk⟩))
    have hoff := (hL.run.ok hkL).2.1
    rw [p1]
    simp only [Option.bind_some]
    have hpu : 0 < p.u := by
      rw [p3] at hoff; simp only at hoff; unfold hdr at hoff; omega
    rw [if_pos ⟨p2, hpu⟩]
    have hck : ∀ (j : Nat) p, w.bt.ckp.arr[j]? = some p → 0 < p.size → w.bt.ckp.block j = some ⟨p.u.toNat, p.size.toNat⟩ ∧ 0 ≤ p.u :=
      fun j p h1 h2 => hL.ckp.block_shape h1 h2
    obtain ⟨al', ha⟩ := freeOld_ok (inp := inp) (cur := w.bt.cur) (i := 0) hL.run (fun j p h1 h2 => hL.live j _ (Or.inr (Or.inl (hck j p h1 h2).1)))
      (fun j j' p p' h1 h1' h2 h2' h3 h4 => by
          have e1 := (hck j p h1 h2).1
          have e2 := (hck j' p' h1' h2').1
          rw [h3, h4] at e1
          exact hL.own j j' _ (Or.inr (Or.inl e1)) (Or.inr (Or.inl e2)))
      (by
        intro j q h1 h2 h3
        rw [Nat.zero_add] at h3 ⊢
        obtain ⟨c1, c2⟩ := hck j q h1 h2
        cases hv : prevents (some w.bt.cur) j q with
        | false => rfl
        | true =>
          have hcb := hL.prevents_exact hL.cur (hL.cur.small hsmall) (fun b k hb => hL.live b k (Or.inl hb)) c2 (hL.live j _ (Or.inr (Or.inl c1))) rfl hv
          have := hi.kept j _ hcb c1 inp hinp
          rw [prevents_of_block (hL.inp inp hinp) this c2 rfl] at h3
          cases h3)
    rw [ha]; simp

/-- C49: while the dictionary has at most 8189 block numbers, every byte of the file beyond the header is either free, or
part of a block named by the current translation, the last checkpoint or the one in progress. -/
theorem C49_no_space_is_lost_partial {w : World} (h : ReachSmall w) {n : Nat} (hn : hdr ≤ n) : FreeAt w.bt.alloc.tree.holes n ↔ ¬ Named w.bt n := by
  obtain ⟨L, hL, hex⟩ := h.inv.ex
  exact hL.freeAt hex hn

/-- C49: free space is never named, in any history. -/
theorem C49_free_space_is_not_named {w : World} (h : Reach w) {n : Nat} (hn : FreeAt w.bt.alloc.tree.holes n) : ¬ Named w.bt n := by
  obtain ⟨L, hL⟩ := h.inv.bt
  rintro ⟨b, k, hr, hk⟩
  exact ((hL.run.inv.free n).mp hn).2 k (hL.live b k hr) hk

/-- C49: opening a dictionary again, after any history, finds all the space its last checkpoint does not name. -/
theorem C49_reopening_finds_all_space {w : World} (h : Reach w) {bt' : BT} (ho : openBT w.bt.ckp = some bt') {n : Nat} (hn : hdr ≤ n) :
    FreeAt bt'.alloc.tree.holes n ↔ ∀ b k, w.bt.ckp.block b = some k → ¬ (k.off ≤ n ∧ n < k.off + k.size) := by
  obtain ⟨L, hL⟩ := h.inv.bt
  obtain ⟨b0, k0, hk0⟩ := openBT_block ho
  obtain ⟨s1, L', e1, e2, e3, e4, e5, e6, e7, e8, e9, e10, e11⟩ := hL.reopen hk0
  rw [ho] at e1; cases e1
  rw [e2.freeAt e11 hn]
  constructor
  · intro hnm b k hk hh
    exact hnm ⟨b, k, Or.inr (Or.inl (by rw [e3]; exact hk)), hh⟩
  · rintro hnm ⟨b, k, hr, hh⟩
    rcases hr with hr | hr | ⟨i, hr, -⟩
    · by_cases hb : b = bnTranslation
      · rw [hb, e9] at hr; cases hr
      · rw [e6 b hb] at hr; exact hnm b k hr hh
    · rw [e3] at hr; exact hnm b k hr hh
    · rw [e4] at hr; cases hr

/-- C48 fails with 8191 block numbers: number 3 is checkpointed at offset 8192, is written again, the next checkpoint
begins, and numbers 8192 and 3 are freed, in this order.  The free entry of 3 links to number 8192, the end of the
checkpoint takes the link for a disk offset, and the assertion that the current translation no longer uses the old block
fails, with every write done and nothing pending. -/
theorem C48_checkpoint_end_can_fail : ∃ (w : World) (inp : Tr), Reach w ∧ w.pending = [] ∧ w.writes = [] ∧ w.bt.inp = some inp ∧ w.bt.skipped = false ∧
    (inp.block bnTranslation).isSome ∧ noteEnd w.bt = none := abort_reach

/-- C49 fails with 8191 block numbers: number 3 is checkpointed at offset 8192, then numbers 8192 and 3 are freed, in this
order, and another checkpoint completes.  It takes the link in the free entry of 3 for a disk offset, so it does not free
the old block; afterwards nothing names its 700 bytes, and they are not free. -/
theorem C49_space_can_be_lost : ∃ w : World, Reach w ∧ w.pending = [] ∧ w.writes = [] ∧ w.bt.inp = none ∧
    ∀ n, 8192 ≤ n → n < 8892 → ¬ FreeAt w.bt.alloc.tree.holes n ∧ ¬ Named w.bt n := by
  obtain ⟨w, Z, h1, h2, h3, h4, h5, h6, ⟨Z', h7, h8⟩, h9⟩ := leak_reach
  refine ⟨w, h1, h2, h3, h4, fun n hn hn' => ⟨?_, ?_⟩⟩
  · have : al6.tree.holes = [⟨8892, 138564⟩, ⟨278580, maxVal⟩] := by decide +kernel
    rw [h9, this]
    rintro ⟨h, hh, hx⟩
    have := hx.1
    simp only [List.mem_cons, List.not_mem_nil, or_false] at hh
    rcases hh with rfl | rfl <;> simp only at this <;> omega
  · rintro ⟨b, k, hr, hk1, hk2⟩
    have aux : ∀ {x : Pair} {arr Z : List Pair} {b : Nat} {p : Pair}, (∀ (i : Nat) (p : Pair), Z[i]? = some p → p.size ≤ 0) →
        arr = p0 :: x :: p0 :: ⟨8192, sizeFree⟩ :: Z → arr[b]? = some p → 0 < p.size → p = x := by
      intro x arr Z b p hZ he hp hs
      subst he
      match b with
      | 0 => simp only [List.getElem?_cons_zero, Option.some.injEq] at hp; rw [← hp] at hs; exact absurd hs (by decide)
      | 1 => simp only [List.getElem?_cons_succ, List.getElem?_cons_zero, Option.some.injEq] at hp; exact hp.symm
      | 2 => simp only [List.getElem?_cons_succ, List.getElem?_cons_zero, Option.some.injEq] at hp; rw [← hp] at hs; exact absurd hs (by decide)
      | 3 => simp only [List.getElem?_cons_succ, List.getElem?_cons_zero, Option.some.injEq] at hp; rw [← hp] at hs; exact absurd hs (by decide)
      | b + 4 =>
        simp only [List.getElem?_cons_succ] at hp
        have := hZ b p hp; omega
    rcases hr with hr | hr | ⟨i, hr, -⟩
    · obtain ⟨p, q1, q2, q3⟩ := block_of_some.mp hr
      rw [aux h5 h6 q1 q2] at q2
      exact absurd q2 (by decide)
    · obtain ⟨p, q1, q2, q3⟩ := block_of_some.mp hr
      rw [aux h7 h8 q1 q2] at q3
      rw [q3] at hk1
      simp only at hk1
      rw [show (147456 : Int).toNat = 147456 from rfl] at hk1
      omega
    · rw [h4] at hr; cases hr

/-! Concrete cases. -/

/-- A history with few numbers, in which a checkpoint is ready to end while a node has moved: both theorems apply. -/
example : ∃ w, Reach w ∧ (∃ inp, w.bt.inp = some inp ∧ (inp.block bnTranslation).isSome) ∧ w.bt.skipped = false ∧ w.bt.cur.smallest = 5 ∧
    w.bt.cur.block 3 = some ⟨16384, 900⟩ ∧ w.bt.ckp.block 3 = some ⟨8192, 700⟩ := by
  obtain ⟨w, h1, h2⟩ := history_witness (os := [.new, .new, .write 3 700, .done, .start [], .ser, .done, .fin, .write 3 900, .done, .start [4], .free 4, .ser, .done])
    (P := fun w => decide ((w.bt.inp.any fun i => (i.block bnTranslation).isSome) = true ∧ w.bt.skipped = false ∧ w.bt.cur.smallest = 5 ∧
    w.bt.cur.block 3 = some ⟨16384, 900⟩ ∧ w.bt.ckp.block 3 = some ⟨8192, 700⟩)) (by decide +kernel)
  obtain ⟨k1, k2⟩ := of_decide_eq_true h2
  refine ⟨w, h1, ?_, k2⟩
  cases hi : w.bt.inp with
  | none => rw [hi] at k1; cases k1
  | some inp => rw [hi] at k1; exact ⟨inp, rfl, k1⟩

/-- `ReachSmall` allows ordinary histories. -/
example : ∃ w, ReachSmall w ∧ w.bt.cur.block 3 = some ⟨8192, 700⟩ := by
  have h0 : ∃ bt, createBT = some bt ∧ ∃ b bt1, allocateBlocknum bt = some (b, bt1) ∧ b = 3 ∧ bt1.cur.smallest ≤ hdr ∧ room? bt1.alloc 700 = true ∧
      ∃ bt2 off, reallocOnDisk bt1 3 700 false = some (bt2, off) ∧ bt2.cur.smallest ≤ hdr ∧ bt2.cur.block 3 = some ⟨8192, 700⟩ := by
    refine ⟨_, rfl, _, _, rfl, rfl, by decide, by decide +kernel, _, _, rfl, by decide, by decide +kernel⟩
  obtain ⟨bt, h1, b, bt1, h2, rfl, h3, h4, bt2, off, h5, h6, h7⟩ := h0
  have r0 : ReachSmall ⟨bt, fun _ => 0, [], [], []⟩ := .created h1
  have r1 := r0.step (Step.newNumber h2) h3
  have r2 := r1.step (Step.writeNode (b := 3) (size := 700) (by simp) (by simp) (by decide) (room?_iff.mp h4) h5) h6
  exact ⟨_, r2, h7⟩

end Verif.Blk
