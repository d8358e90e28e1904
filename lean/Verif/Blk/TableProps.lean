import Verif.Blk.WorldLemmas
import Verif.Blk.Exec

/-!
C30, C31: the block table.
-/
namespace Verif.Blk

theorem span_apart {al : Alloc} {L : List Block} (h : Run hdr algn al L) {k k' : Block} (hk : k ∈ L) (hk' : k' ∈ L) (hne : k ≠ k') {n : Nat}
    (hs : k.span n) : ¬ k'.span n := by
  have ho := h.apart hk hk' hne
  obtain ⟨a1, a2, a3, a4⟩ := h.ok hk
  obtain ⟨b1, b2, b3, b4⟩ := h.ok hk'
  unfold Block.overlap at ho
  unfold Block.span at hs ⊢
  unfold algn at a3 b3
  omega

/-- C30: a block named by any of the three translations keeps its bytes through every step, unless it is the very block
whose own write is still in flight. -/
theorem C30_no_block_is_overwritten {w w' : World} (h : Reach w) (hs : Step w w') {b : Nat} {k : Block} (hr : Refs w.bt b k)
    (hw : (b, k) ∉ w.writes) {n : Nat} (hn : k.span n) : w'.disk n = w.disk n := by
  have hi := h.inv
  obtain ⟨L, hL⟩ := hi.bt
  have hkL := hL.live b k hr
  cases hs with
  | disk hx hd =>
    rename_i x d
    refine hd n ?_
    by_cases hkx : k = x.2
    · exfalso
      have := hL.own b x.1 k hr (hkx ▸ hi.refs hx)
      exact hw (by rw [this, hkx]; exact hx)
    · exact span_apart hL.run hkL (hL.live _ _ (hi.refs hx)) hkx hn
  | header hd =>
    refine hd n ?_
    have := (hL.run.ok hkL).2.1
    have := hn.1
    omega
  | _ => rfl

/-- C30: the last completed checkpoint stays as it is on disk, until another checkpoint completes.  Each of its blocks
keeps every byte, and no write in flight touches it. -/
theorem C30_checkpoint_survives {w w' : World} (h : Reach w) (hs : Steps w w') {b : Nat} {k : Block} (hb : w.bt.ckp.block b = some k) :
    Reach w' ∧ w'.bt.ckp.block b = some k ∧ ∀ n, k.span n → w'.disk n = w.disk n ∧ ∀ x ∈ w'.writes, ¬ x.2.span n := by
  have key : ∀ w'', Reach w'' → w''.bt.ckp.block b = some k → ∀ n, k.span n → ∀ x ∈ w''.writes, ¬ x.2.span n := by
    intro w'' h'' hb'' n hn x hx
    have hi := h''.inv
    obtain ⟨L, hL⟩ := hi.bt
    refine span_apart hL.run (hL.live b k (Or.inr (Or.inl hb''))) (hL.live _ _ (hi.refs hx)) ?_ hn
    rintro rfl
    exact hi.fresh x hx b hb''
  induction hs with
  | refl => exact ⟨h, hb, fun n hn => ⟨rfl, key _ h hb n hn⟩⟩
  | step _ hst hck ih =>
    rename_i w1 w2 _
    obtain ⟨i1, i2, i3⟩ := ih
    have h' := Reach.step i1 hst
    have hb' : w2.bt.ckp.block b = some k := by rw [hck]; exact hb
    refine ⟨h', hb', fun n hn => ⟨?_, key _ h' hb' n hn⟩⟩
    rw [C30_no_block_is_overwritten i1 hst (Or.inr (Or.inl i2)) (fun hm => i1.inv.fresh _ hm b i2) hn]
    exact (i3 n hn).1

/-- C30: at any moment of any history a crash can be recovered from: once a checkpoint has completed, the dictionary
opens from it, and every block number has the block it had in that checkpoint. -/
theorem C30_recovery_succeeds {w : World} (h : Reach w) (hc : (w.bt.ckp.block bnTranslation).isSome) :
    ∃ bt', openBT w.bt.ckp = some bt' ∧ bt'.ckp = w.bt.ckp ∧ (∀ b, b ≠ bnTranslation → bt'.cur.block b = w.bt.ckp.block b) ∧
      (∀ b, bt'.cur.inUse b ↔ w.bt.ckp.inUse b) := by
  obtain ⟨L, hL⟩ := h.inv.bt
  obtain ⟨k0, hk0⟩ := Option.isSome_iff_exists.mp hc
  obtain ⟨s', L', e1, e2, e3, e4, e5, e6, e7, e8, e9, -⟩ := hL.reopen hk0
  exact ⟨s', e1, e3, e6, e7⟩

/-- C30: a checkpoint that completes has its translation on disk, and becomes the one that is kept. -/
theorem C30_completed_checkpoint_is_kept {w w' : World} (h : Reach w) (hs : Step w w') :
    w'.bt.ckp = w.bt.ckp ∨ (w.bt.inp = some w'.bt.ckp ∧ (w'.bt.ckp.block bnTranslation).isSome ∧ w.pending = [] ∧
      ∀ x ∈ w.writes, ∀ b k, w'.bt.ckp.block b = some k → ∀ n, k.span n → ¬ x.2.span n) := by
  have h' := (Reach.step h hs).inv
  have hi := h.inv
  obtain ⟨L, hL⟩ := hi.bt
  cases hs with
  | newNumber he =>
    obtain ⟨b1, s1, e1, e2, e3, e4, e5, e6, e7, e8, e9, -⟩ := hL.newNumber
    rw [he] at e1; cases e1; exact Or.inl e7
  | writeNode hb hw hz hr he =>
    left
    unfold reallocOnDisk at he
    split at he
    · rename_i hb2
      obtain ⟨u1, u2, old, u3, u4⟩ := (hi.held _).mp hb
      exact (hi.move hL u2 u3 u4 hz hr (fun hc => List.contains_iff_mem.mp hc) hw (by unfold reservedBn at hb2; unfold bnTranslation; omega) he
        (fun x hx hxb => by subst hxb; exact List.contains_iff_mem.mpr hx)).2
    · cases he
  | writeDescriptor hw hz hr he =>
    left
    unfold reallocDescriptor realloc at he
    obtain ⟨p, -, he⟩ := Option.bind_eq_some_iff.mp he
    obtain ⟨al, -, he⟩ := Option.bind_eq_some_iff.mp he
    obtain ⟨⟨o, al2⟩, -, he⟩ := Option.bind_eq_some_iff.mp he
    simp only [Bool.false_eq_true, if_false, Option.some.injEq, Prod.mk.injEq] at he
    rw [← he.1]
  | freeNumber hb hw he =>
    left
    unfold freeBlocknum at he
    obtain ⟨p, -, he⟩ := Option.bind_eq_some_iff.mp he
    obtain ⟨c, -, he⟩ := Option.bind_eq_some_iff.mp he
    obtain ⟨i, -, he⟩ := Option.bind_eq_some_iff.mp he
    split at he
    · obtain ⟨al, -, rfl⟩ := Option.map_eq_some_iff.mp he; rfl
    · cases he; rfl
  | freeUnused hp he =>
    left
    obtain ⟨t, -, rfl⟩ := Option.map_eq_some_iff.mp he; rfl
  | disk hx hd => exact Or.inl rfl
  | writeDone hx => exact Or.inl rfl
  | header hd => exact Or.inl rfl
  | beginCheckpoint hP he =>
    left
    unfold noteStart at he
    split at he
    · cases he
    · obtain ⟨t, -, rfl⟩ := Option.map_eq_some_iff.mp he; rfl
  | serialize hp hsk hi hn hr hw he =>
    left
    obtain ⟨s1, off1, e1, e2, e3, e4, e5, e6, e7, -⟩ := hL.serialize hi hn hr
    rw [he] at e1; cases e1; exact e3
  | skip hp hi hn hcl => exact Or.inl rfl
  | endCheckpoint hp hw he =>
    rename_i bt'
    obtain ⟨inp, e1, e2, e3, ⟨L', e4, -⟩, e5⟩ := hL.endCk he
    rcases e5 with ⟨e5, -⟩ | ⟨e5, e6, e7⟩
    · exact Or.inl e5
    · right
      simp only [e5]
      refine ⟨e1, e7, hp, fun x hx b k hk n hn => ?_⟩
      refine span_apart hL.run (hL.live b k (Or.inr (Or.inr ⟨inp, e1, hk⟩))) (hL.live _ _ (hi.refs hx)) ?_ hn
      rintro rfl
      have := hL.own b x.1 x.2 (Or.inr (Or.inr ⟨inp, e1, hk⟩)) (hi.refs hx)
      subst this
      exact hw x hx inp e1 hk
  | crash he =>
    left
    obtain ⟨c, -, he⟩ := Option.bind_eq_some_iff.mp he
    obtain ⟨bs, -, he⟩ := Option.bind_eq_some_iff.mp he
    obtain ⟨al, -, rfl⟩ := Option.map_eq_some_iff.mp he
    rfl

/-- C31: asking for a block number always succeeds, and gives one nobody holds. -/
theorem C31_new_number_is_unused {w : World} (h : Reach w) :
    ∃ b bt', allocateBlocknum w.bt = some (b, bt') ∧ b ∉ w.held ∧ reservedBn ≤ b ∧ bt'.cur.inUse b ∧ bt'.cur.block b = none := by
  have hi := h.inv
  obtain ⟨L, hL⟩ := hi.bt
  obtain ⟨b, s1, e1, e2, e3, e4, e5, e6, e7, e8, e9, -⟩ := hL.newNumber
  refine ⟨b, s1, e1, by rw [hi.held]; exact e3, e4, (e5 b).mpr (Or.inl rfl), ?_⟩
  obtain ⟨b', t, f1, f2, f3, f4, f5, f6, f7, f8, -⟩ := hL.cur.allocate
  rw [allocateBlocknum, f1] at e1
  cases e1
  rw [e6]; exact f8

/-- C31: the numbers callers hold are exactly the numbers in use, and the free list of every translation, also of the
one a crash would recover, meets every free number exactly once. -/
theorem C31_free_list_is_exact {w : World} (h : Reach w) :
    (∀ b, b ∈ w.held ↔ w.bt.cur.inUse b) ∧ w.bt.cur.FreeListExact ∧ w.bt.ckp.FreeListExact ∧ ∀ inp, w.bt.inp = some inp → inp.FreeListExact := by
  have hi := h.inv
  obtain ⟨L, hL⟩ := hi.bt
  exact ⟨hi.held, hL.cur.exact, hL.ckp.exact, fun inp hinp => (hL.inp inp hinp).exact⟩

/-- C31: blocks of different numbers, in the same or in different translations, do not overlap. -/
theorem C31_numbers_have_separate_blocks {w : World} (h : Reach w) {b b' : Nat} {k k' : Block} (hr : Refs w.bt b k) (hr' : Refs w.bt b' k') (hne : b ≠ b') :
    ¬ k.overlap k' := by
  obtain ⟨L, hL⟩ := h.inv.bt
  refine hL.run.apart (hL.live b k hr) (hL.live b' k' hr') ?_
  rintro rfl
  exact hne (hL.own b b' k hr hr')

/-- C31: a number keeps its block through every step, unless it is the one being written (or the dictionary is opened
again, and it has the block of the checkpoint). -/
theorem C31_number_keeps_its_block {w w' : World} (h : Reach w) (hs : Step w w') {b : Nat} (hb : b ∈ w.held) (hb' : b ∈ w'.held) :
    w'.bt.cur.block b = w.bt.cur.block b ∨ (∃ k, w'.writes = (b, k) :: w.writes ∧ w'.bt.cur.block b = some k) ∨
      (w'.writes = [] ∧ w'.bt.ckp = w.bt.ckp ∧ w'.bt.cur.block b = w.bt.ckp.block b) := by
  have hi := h.inv
  obtain ⟨L, hL⟩ := hi.bt
  have hb3 := ((hi.held b).mp hb).1
  have hset : ∀ {x size : Nat} {fc : Bool} {s' : BT} {off : Int}, realloc w.bt x size fc = some (s', off) → x < w.bt.cur.smallest → 0 < size → (∃ o : Nat, off = o) →
      s'.cur.block b = if b = x then some ⟨off.toNat, size⟩ else w.bt.cur.block b := by
    intro x size fc s' off he hx hz ⟨o, ho⟩
    unfold realloc at he
    obtain ⟨p, -, he⟩ := Option.bind_eq_some_iff.mp he
    obtain ⟨al, -, he⟩ := Option.bind_eq_some_iff.mp he
    obtain ⟨⟨o2, al2⟩, -, he⟩ := Option.bind_eq_some_iff.mp he
    have hlt : x < w.bt.cur.arr.length := by have := hL.cur.len; omega
    have hc : s'.cur = { w.bt.cur with arr := w.bt.cur.arr.set x ⟨o2, size⟩ } ∧ o2 = off := by
      simp only at he
      split at he
      · obtain ⟨i, -, he⟩ := Option.bind_eq_some_iff.mp he
        split at he
        · simp only [Option.some.injEq, Prod.mk.injEq] at he; rw [← he.1]; exact ⟨rfl, he.2⟩
        · cases he
      · simp only [Option.some.injEq, Prod.mk.injEq] at he; rw [← he.1]; exact ⟨rfl, he.2⟩
    rw [hc.1, block_set hlt, hc.2]
    by_cases hbx : b = x
    · rw [if_pos hbx, if_pos hbx]; simp [hz]
    · rw [if_neg hbx, if_neg hbx]
  have hoff : ∀ {x size : Nat} {fc : Bool} {s' : BT} {off : Int} {old : Pair}, realloc w.bt x size fc = some (s', off) → x < w.bt.cur.smallest →
      w.bt.cur.arr[x]? = some old → old.size ≠ sizeFree → 0 < size → hasRoom w.bt.alloc size → (fc = true → x ∈ w.pending) → ∃ o : Nat, off = o := by
    intro x size fc s' off old he hx ho hu hz hr hf
    obtain ⟨s1, off1, L', e1, -⟩ := hL.realloc hx ho hu hz hr (forCk := fc) (by
      intro hfc
      obtain ⟨h1, inp, h2, ⟨h3, h4, q, h5, h6⟩, h7⟩ := hi.pend x (hf hfc)
      exact ⟨inp, q, h2, h4, h5, h6⟩)
    rw [he] at e1; cases e1; exact ⟨off1, rfl⟩
  cases hs with
  | newNumber he =>
    obtain ⟨b1, s1, e1, e2, e3, e4, e5, e6, e7, e8, e9, -⟩ := hL.newNumber
    rw [he] at e1; cases e1; exact Or.inl (e6 b)
  | writeNode hbw hw hz hr he =>
    unfold reallocOnDisk at he
    split at he
    · rename_i x size bt' off hx
      obtain ⟨u1, u2, old, u3, u4⟩ := (hi.held _).mp hbw
      have := hset he hx.2 hz (hoff he u2 u3 u4 hz hr (fun hc => List.contains_iff_mem.mp hc))
      by_cases hbx : b = x
      · subst hbx
        rw [if_pos rfl] at this
        exact Or.inr (Or.inl ⟨_, rfl, this⟩)
      · rw [if_neg hbx] at this; exact Or.inl this
    · cases he
  | writeDescriptor hw hz hr he =>
    have hlt : bnDescriptor < w.bt.cur.smallest := by have := hL.cur.res; unfold reservedBn at this; unfold bnDescriptor; omega
    have hlt2 : bnDescriptor < w.bt.cur.arr.length := by have := hL.cur.len; omega
    obtain ⟨old, ho⟩ : ∃ q, w.bt.cur.arr[bnDescriptor]? = some q := ⟨_, List.getElem?_eq_getElem hlt2⟩
    have ho0 := hL.cur.low _ old (by decide) ho
    have := hset he hlt hz (hoff he hlt ho (by unfold sizeFree; omega) hz hr (by simp))
    rw [if_neg (by unfold reservedBn at hb3; unfold bnDescriptor; omega)] at this
    exact Or.inl this
  | freeNumber hbw hw he =>
    left
    rename_i x bt'
    unfold freeBlocknum at he
    obtain ⟨p, -, he⟩ := Option.bind_eq_some_iff.mp he
    obtain ⟨c, hc, he⟩ := Option.bind_eq_some_iff.mp he
    obtain ⟨i, -, he⟩ := Option.bind_eq_some_iff.mp he
    have hbx : b ≠ x := by simp only [List.mem_filter, decide_eq_true_eq] at hb'; exact hb'.2
    have hcb := block_free hc b
    rw [if_neg hbx] at hcb
    split at he
    · obtain ⟨al, -, rfl⟩ := Option.map_eq_some_iff.mp he; exact hcb
    · cases he; exact hcb
  | freeUnused hp he =>
    left
    obtain ⟨s1, e1, e2, e3, e4, e5, e6, e7, -⟩ := hL.freeUnused _
    rw [he] at e1; cases e1; exact e6 b
  | disk hx hd => exact Or.inl rfl
  | writeDone hx => exact Or.inl rfl
  | header hd => exact Or.inl rfl
  | beginCheckpoint hP he =>
    left
    have hn : w.bt.inp = none := by
      unfold noteStart at he
      cases hi : w.bt.inp with
      | none => rfl
      | some x => rw [hi] at he; simp at he
    obtain ⟨s1, inp, e1, e2, e3, e4, e5, e6, e7, e8, e9, e10, e11, -⟩ := hL.start hn
    rw [he] at e1; cases e1
    exact e7 b
  | serialize hp hsk hi hn hr hw he =>
    left
    obtain ⟨s1, off1, e1, e2, e3, e4, e5, e6, e7, -⟩ := hL.serialize hi hn hr
    rw [he] at e1; cases e1; simp only [e4]
  | skip hp hi hn hcl => exact Or.inl rfl
  | endCheckpoint hp hw he =>
    left
    obtain ⟨inp, e1, e2, -⟩ := hL.endCk he
    simp only [e2]
  | crash he =>
    right; right
    obtain ⟨b0, k0, hk0⟩ := openBT_block he
    obtain ⟨s1, L', e1, e2, e3, e4, e5, e6, e7, e8, e9, -⟩ := hL.reopen hk0
    rw [he] at e1; cases e1
    exact ⟨rfl, e3, e6 b (by unfold reservedBn at hb3; unfold bnTranslation; omega)⟩

/-! Concrete cases: a node is written, a checkpoint completes, and the node is written again while the next checkpoint is
in progress; the write is in flight.  The checkpointed block and the new one are different; a number was freed too. -/
def exRun : List Op := [.new, .new, .new, .write 3 700, .done, .write 4 9000, .done, .desc 40, .done, .start [], .ser, .done, .fin, .free 4, .start [3], .write 3 900]

example : ∃ w, Reach w ∧ w.bt.ckp.block bnTranslation = some ⟨28672, 116⟩ ∧ w.bt.ckp.block 3 = some ⟨8192, 700⟩ ∧
    w.bt.cur.block 3 = some ⟨32768, 900⟩ ∧ w.writes = [(3, ⟨32768, 900⟩)] ∧ w.bt.inp.isSome ∧ w.held = [5, 3] ∧ w.bt.cur.head = 4 := by
  obtain ⟨w, h1, h2⟩ := history_witness (os := exRun) (P := fun w => decide (w.bt.ckp.block bnTranslation = some ⟨28672, 116⟩ ∧ w.bt.ckp.block 3 = some ⟨8192, 700⟩ ∧
    w.bt.cur.block 3 = some ⟨32768, 900⟩ ∧ w.writes = [(3, ⟨32768, 900⟩)] ∧ w.bt.inp.isSome ∧ w.held = [5, 3] ∧ w.bt.cur.head = 4)) (by decide +kernel)
  exact ⟨w, h1, of_decide_eq_true h2⟩

/-- After a crash at that moment the dictionary opens from the checkpoint: the number has its old block, the freed one is back. -/
example : ∃ w, Reach w ∧ w.bt.cur.block 3 = some ⟨8192, 700⟩ ∧ w.bt.cur.block 4 = some ⟨12288, 9000⟩ ∧ 4 ∈ w.held ∧ w.writes = [] := by
  obtain ⟨w, h1, h2⟩ := history_witness (os := exRun) (P := fun w => decide (w.bt.ckp.block bnTranslation = some ⟨28672, 116⟩ ∧ w.bt.ckp.block 3 = some ⟨8192, 700⟩ ∧
    w.bt.ckp.block 4 = some ⟨12288, 9000⟩ ∧ w.bt.ckp.inUse 4)) (by decide +kernel)
  obtain ⟨k1, k2, k3, k4⟩ := of_decide_eq_true h2
  obtain ⟨bt', e1, e2, e3, e4⟩ := C30_recovery_succeeds h1 (by rw [k1]; rfl)
  have hs := Reach.step h1 (Step.crash e1)
  refine ⟨_, hs, ?_, ?_, ?_, rfl⟩
  · simp only [e3 3 (by decide), k2]
  · simp only [e3 4 (by decide), k3]
  · rw [(C31_free_list_is_exact hs).1]; exact (e4 4).mpr k4

/-- The second checkpoint completes as well. -/
example : ∃ w, Reach w ∧ w.bt.ckp.block 3 = some ⟨32768, 900⟩ ∧ w.bt.ckp.block 4 = none ∧ w.bt.inp = none := by
  obtain ⟨w, h1, h2⟩ := history_witness (os := exRun ++ [.done, .ser, .done, .fin]) (P := fun w => decide (w.bt.ckp.block 3 = some ⟨32768, 900⟩ ∧ w.bt.ckp.block 4 = none ∧
    w.bt.inp = none)) (by decide +kernel)
  exact ⟨w, h1, of_decide_eq_true h2⟩

end Verif.Blk
