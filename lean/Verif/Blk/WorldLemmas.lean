import Verif.Blk.TableLemmas

/-!
The invariant of `World`.
-/
namespace Verif.Blk

structure WInv (w : World) : Prop where
  bt : ∃ L, BInv w.bt L
  held : ∀ b, b ∈ w.held ↔ w.bt.cur.inUse b
  pend : ∀ b ∈ w.pending, w.bt.cur.inUse b ∧ ∃ inp, w.bt.inp = some inp ∧ inp.inUse b ∧ inp.arr[b]? = w.bt.cur.arr[b]?
  writes : ∀ x ∈ w.writes, (x.1 = bnTranslation ∧ ∃ inp, w.bt.inp = some inp ∧ inp.block bnTranslation = some x.2) ∨
    (x.1 ≠ bnTranslation ∧ w.bt.cur.block x.1 = some x.2)
  fresh : ∀ x ∈ w.writes, ∀ b, w.bt.ckp.block b ≠ some x.2
  notr : w.bt.cur.block bnTranslation = none
  kept : ∀ b k, w.bt.cur.block b = some k → w.bt.ckp.block b = some k → ∀ inp, w.bt.inp = some inp → inp.block b = some k
  skip : w.bt.skipped = true → ∀ inp, w.bt.inp = some inp → w.pending = [] ∧ inp.block bnTranslation = none ∧
    ∀ b, b ≠ bnTranslation → inp.block b = w.bt.ckp.block b

theorem WInv.refs {w : World} (h : WInv w) {x : Nat × Block} (hx : x ∈ w.writes) : Refs w.bt x.1 x.2 := by
  rcases h.writes x hx with ⟨h1, inp, h2, h3⟩ | ⟨h1, h2⟩
  · exact Or.inr (Or.inr ⟨inp, h2, by rw [h1]; exact h3⟩)
  · exact Or.inl h2

theorem Tr.OK.inUse_lt {t : Tr} (h : t.OK) {b : Nat} (hb : t.inUse b) : b < t.arr.length := by
  have := h.len; have := hb.2.1; omega

/-- The consequences of moving a number, for the world. -/
theorem WInv.move {w : World} (h : WInv w) {L : List Block} (hL : BInv w.bt L) {b size : Nat} {forCk : Bool} {old : Pair} (hb : b < w.bt.cur.smallest)
    (hold : w.bt.cur.arr[b]? = some old) (hu : old.size ≠ sizeFree) (hz : 0 < size) (hr : hasRoom w.bt.alloc size)
    (hf : forCk = true → b ∈ w.pending) (hw : ∀ x ∈ w.writes, x.1 ≠ b) (hb1 : b ≠ bnTranslation) {s' : BT} {off : Int}
    (he : realloc w.bt b size forCk = some (s', off)) (hp : ∀ x ∈ w.pending, x = b → forCk = true) :
    WInv { w with bt := s', writes := (b, ⟨off.toNat, size⟩) :: w.writes, pending := w.pending.filter (· ≠ b) } ∧ s'.ckp = w.bt.ckp := by
  obtain ⟨s1, off1, L', e1, e2, e3, e4, e5, e6, e7, -⟩ := hL.realloc hb hold hu hz hr (forCk := forCk) (by
    intro hfc
    obtain ⟨h1, inp, h2, ⟨h3, h4, q, h5, h6⟩, h7⟩ := h.pend b (hf hfc)
    exact ⟨inp, q, h2, h4, h5, h6⟩)
  rw [he] at e1; cases e1
  have hlt : b < w.bt.cur.arr.length := by have := hL.cur.len; omega
  have hsz : (0 : Int) < ((size : Nat) : Int) := by omega
  have hcb : ∀ x, s'.cur.block x = if x = b then some ⟨off1, size⟩ else w.bt.cur.block x := by
    intro x; rw [e4, block_set hlt]; simp [hz]
  have hcu : ∀ x, s'.cur.inUse x ↔ w.bt.cur.inUse x := by
    intro x
    rw [e4]
    unfold Tr.inUse
    simp only [get_set]
    by_cases hx : x = b
    · subst hx
      simp only [hlt, and_self, if_true, Option.some.injEq, exists_eq_left', hold]
      simp only [hu, ne_eq, not_false_eq_true, and_true]
      constructor
      · rintro ⟨a, b, -⟩; exact ⟨a, b⟩
      · rintro ⟨a, b⟩; exact ⟨a, b, by unfold sizeFree; omega⟩
    · rw [if_neg (by omega)]
  have hca : ∀ x, x ≠ b → s'.cur.arr[x]? = w.bt.cur.arr[x]? := by
    intro x hx; rw [e4]; simp only [get_set]; rw [if_neg (by omega)]
  have hin : ∀ inp', s'.inp = some inp' → ∃ inp, w.bt.inp = some inp ∧ (∀ x, x ≠ b → inp'.arr[x]? = inp.arr[x]? ∧ inp'.block x = inp.block x ∧ (inp'.inUse x ↔ inp.inUse x)) := by
    intro inp' hi
    cases forCk with
    | false => rw [e6] at hi; exact ⟨inp', hi, fun x hx => ⟨rfl, rfl, Iff.rfl⟩⟩
    | true =>
      rw [e6] at hi
      simp only [if_true, Option.map_eq_some_iff] at hi
      obtain ⟨inp, h1, rfl⟩ := hi
      refine ⟨inp, h1, fun x hx => ?_⟩
      have : (inp.arr.set b ⟨(off1 : Int), size⟩)[x]? = inp.arr[x]? := by rw [get_set, if_neg (by omega)]
      exact ⟨this, by unfold Tr.block; simp only [this], by unfold Tr.inUse; simp only [this]⟩
  have hinE : ∀ inp, w.bt.inp = some inp → ∃ inp', s'.inp = some inp' := by
    intro inp hi
    cases forCk with
    | false => rw [e6]; exact ⟨inp, hi⟩
    | true => rw [e6, hi]; exact ⟨_, rfl⟩
  refine ⟨⟨⟨L', e2⟩, fun x => by rw [hcu]; exact h.held x, ?_, ?_, ?_, ?_, ?_, ?_⟩, e3⟩
  · intro x hx
    simp only [List.mem_filter, decide_eq_true_eq] at hx
    obtain ⟨h1, inp, h2, h3, h4⟩ := h.pend x hx.1
    obtain ⟨inp', hi'⟩ := hinE inp h2
    obtain ⟨inp0, h5, h6⟩ := hin inp' hi'
    rw [h2] at h5; cases h5
    obtain ⟨h7, h8, h9⟩ := h6 x hx.2
    exact ⟨(hcu x).mpr h1, inp', hi', h9.mpr h3, by rw [h7, h4]; exact (hca x hx.2).symm⟩
  · intro x hx
    simp only [List.mem_cons] at hx
    rcases hx with rfl | hx
    · right
      exact ⟨hb1, by simp only [Int.toNat_natCast]; rw [hcb, if_pos rfl]⟩
    · rcases h.writes x hx with ⟨h1, inp, h2, h3⟩ | ⟨h1, h2⟩
      · left
        obtain ⟨inp', hi'⟩ := hinE inp h2
        obtain ⟨inp0, h5, h6⟩ := hin inp' hi'
        rw [h2] at h5; cases h5
        exact ⟨h1, inp', hi', by rw [(h6 bnTranslation (Ne.symm hb1)).2.1]; exact h3⟩
      · right
        exact ⟨h1, by rw [hcb, if_neg (hw x hx)]; exact h2⟩
  · intro x hx y
    simp only [List.mem_cons] at hx
    simp only [e3]
    rcases hx with rfl | hx
    · simp only [Int.toNat_natCast]; exact e7 y
    · exact h.fresh x hx y
  · rw [hcb, if_neg (Ne.symm hb1)]; exact h.notr
  · intro x k hx hk inp' hi
    simp only [e3] at hk
    rw [hcb] at hx
    by_cases hxb : x = b
    · rw [if_pos hxb] at hx; cases hx
      exact absurd hk (e7 x)
    · rw [if_neg hxb] at hx
      obtain ⟨inp, h5, h6⟩ := hin inp' hi
      rw [(h6 x hxb).2.1]
      exact h.kept x k hx hk inp h5
  · intro hsk inp' hi
    simp only [e5] at hsk
    have hfc : forCk = false := by
      cases hfc : forCk with
      | false => rfl
      | true =>
        have hb := hf hfc
        obtain ⟨-, inp, h2, -⟩ := h.pend b hb
        rw [(h.skip hsk inp h2).1] at hb; simp at hb
    simp only [hfc, Bool.false_eq_true, if_false] at e6
    simp only [e6] at hi
    obtain ⟨k1, k2, k3⟩ := h.skip hsk inp' hi
    exact ⟨by simp only [k1]; rfl, k2, fun x hx => by simp only [e3]; exact k3 x hx⟩

/-- The translations a checkpointed state keeps, whatever happens. -/
theorem WInv.step {w w' : World} (h : WInv w) (hs : Step w w') : WInv w' := by
  obtain ⟨L, hL⟩ := h.bt
  cases hs with
  | newNumber he =>
    rename_i b bt'
    obtain ⟨b1, s1, e1, e2, e3, e4, e5, e6, e7, e8, e9, -⟩ := hL.newNumber
    rw [he] at e1; cases e1
    refine ⟨⟨L, e2⟩, fun x => by simp only [List.mem_cons, h.held, e5], ?_, ?_, ?_, by rw [e6]; exact h.notr, ?_, ?_⟩
    · intro x hx
      obtain ⟨h1, inp, h2, h3, h4⟩ := h.pend x hx
      exact ⟨(e5 x).mpr (Or.inr h1), inp, by rw [e8]; exact h2, h3, by rw [h4]; exact (e9 x (by rintro rfl; exact e3 h1) h1.2.1).symm⟩
    · intro x hx
      simp only [e8, e6]; exact h.writes x hx
    · intro x hx; simp only [e7]; exact h.fresh x hx
    · intro x k; simp only [e6, e7, e8]; exact h.kept x k
    · have hsk : bt'.skipped = w.bt.skipped := by
        obtain ⟨r, -, hr⟩ := Option.map_eq_some_iff.mp he
        cases hr; rfl
      simp only [e7, e8, hsk]; exact h.skip
  | writeNode hb hw hz hr he =>
    unfold reallocOnDisk at he
    split at he
    · rename_i hb2
      obtain ⟨u1, u2, old, u3, u4⟩ := (h.held _).mp hb
      exact (h.move hL u2 u3 u4 hz hr (fun hc => List.contains_iff_mem.mp hc) hw (by unfold reservedBn at hb2; unfold bnTranslation; omega) he
        (fun x hx hxb => by subst hxb; exact List.contains_iff_mem.mpr hx)).1
    · cases he
  | writeDescriptor hw hz hr he =>
    have hlt : bnDescriptor < w.bt.cur.smallest := by have := hL.cur.res; unfold reservedBn at this; unfold bnDescriptor; omega
    have hlt2 : bnDescriptor < w.bt.cur.arr.length := by have := hL.cur.len; omega
    obtain ⟨old, ho⟩ : ∃ q, w.bt.cur.arr[bnDescriptor]? = some q := ⟨_, List.getElem?_eq_getElem hlt2⟩
    have ho0 := hL.cur.low _ old (by decide) ho
    have hnp : ∀ x ∈ w.pending, x ≠ bnDescriptor := by
      rintro x hx rfl
      have := (h.pend _ hx).1.1
      revert this; decide
    have hm := (h.move hL hlt ho (by unfold sizeFree; omega) hz hr (forCk := false) (by simp) hw (by decide) he (fun x hx hxb => absurd hxb (hnp x hx))).1
    have hpf : w.pending.filter (· ≠ bnDescriptor) = w.pending := List.filter_eq_self.mpr fun x hx => by simpa using hnp x hx
    rw [hpf] at hm
    exact hm
  | freeNumber hb hw he =>
    rename_i b bt'
    have hbu := (h.held b).mp hb
    obtain ⟨s1, L', e1, e2, e3, e4, e5, e6, -⟩ := hL.freeNumber (forCk := w.pending.contains b) hbu (by
      intro hc
      obtain ⟨h1, inp, h2, h3, -⟩ := h.pend b (List.contains_iff_mem.mp hc)
      exact ⟨inp, h2, h3⟩)
    rw [he] at e1; cases e1
    obtain ⟨c1, c2, c3, c4⟩ := freeIn_some e4
    have hb1 : b ≠ bnTranslation := by unfold reservedBn at c1; unfold bnTranslation; omega
    have hcb := block_free e4
    have hca : ∀ x, x ≠ b → bt'.cur.arr[x]? = w.bt.cur.arr[x]? := by
      intro x hx; rw [c4]; simp only [get_set]; rw [if_neg (by omega)]
    have hcu : ∀ x, bt'.cur.inUse x ↔ x ≠ b ∧ w.bt.cur.inUse x := by
      intro x
      by_cases hx : x = b
      · subst hx
        simp only [ne_eq, not_true, false_and, iff_false]
        rintro ⟨-, -, p, h1, h2⟩
        rw [c4] at h1
        simp only [get_set, c3, and_self, if_true, Option.some.injEq] at h1
        subst h1; exact h2 rfl
      · have hsm : bt'.cur.smallest = w.bt.cur.smallest := by rw [c4]
        simp only [ne_eq, hx, not_false_eq_true, true_and, Tr.inUse, hca x hx, hsm]
    have hin : ∀ inp', bt'.inp = some inp' → ∃ inp, w.bt.inp = some inp ∧ (∀ x, x ≠ b → inp'.arr[x]? = inp.arr[x]? ∧ inp'.block x = inp.block x ∧ (inp'.inUse x ↔ inp.inUse x)) := by
      intro inp' hi
      split at e6
      · obtain ⟨inp, i1, f1, f2, f3⟩ := e6
        rw [hi] at f2; cases f2
        obtain ⟨-, -, -, g4⟩ := freeIn_some f3
        refine ⟨inp, f1, fun x hx => ?_⟩
        have ha : inp'.arr[x]? = inp.arr[x]? := by rw [g4]; simp only [get_set]; rw [if_neg (by omega)]
        have hsm : inp'.smallest = inp.smallest := by rw [g4]
        exact ⟨ha, by unfold Tr.block; rw [ha], by unfold Tr.inUse; rw [ha, hsm]⟩
      · rw [e6] at hi; exact ⟨inp', hi, fun x hx => ⟨rfl, rfl, Iff.rfl⟩⟩
    have hinE : ∀ inp, w.bt.inp = some inp → ∃ inp', bt'.inp = some inp' := by
      intro inp hi
      split at e6
      · obtain ⟨inp, i1, f1, f2, f3⟩ := e6; exact ⟨i1, f2⟩
      · rw [e6]; exact ⟨inp, hi⟩
    refine ⟨⟨L', e2⟩, fun x => by rw [hcu]; simp only [List.mem_filter, decide_eq_true_eq, h.held]; exact And.comm, ?_, ?_, ?_, ?_, ?_, ?_⟩
    · intro x hx
      simp only [List.mem_filter, decide_eq_true_eq] at hx
      obtain ⟨h1, inp, h2, h3, h4⟩ := h.pend x hx.1
      obtain ⟨inp', hi'⟩ := hinE inp h2
      obtain ⟨inp0, h5, h6⟩ := hin inp' hi'
      rw [h2] at h5; cases h5
      obtain ⟨h7, h8, h9⟩ := h6 x hx.2
      exact ⟨(hcu x).mpr ⟨hx.2, h1⟩, inp', hi', h9.mpr h3, by rw [h7, h4]; exact (hca x hx.2).symm⟩
    · intro x hx
      rcases h.writes x hx with ⟨h1, inp, h2, h3⟩ | ⟨h1, h2⟩
      · left
        obtain ⟨inp', hi'⟩ := hinE inp h2
        obtain ⟨inp0, h5, h6⟩ := hin inp' hi'
        rw [h2] at h5; cases h5
        exact ⟨h1, inp', hi', by rw [(h6 bnTranslation (Ne.symm hb1)).2.1]; exact h3⟩
      · right
        exact ⟨h1, by rw [hcb, if_neg (hw x hx)]; exact h2⟩
    · intro x hx; simp only [e3]; exact h.fresh x hx
    · simp only [hcb]; rw [if_neg (Ne.symm hb1)]; exact h.notr
    · intro x k hx hk inp' hi
      simp only [e3] at hk
      simp only [hcb] at hx
      split at hx
      · cases hx
      · rename_i hxb
        obtain ⟨inp, h5, h6⟩ := hin inp' hi
        rw [(h6 x hxb).2.1]
        exact h.kept x k hx hk inp h5
    · intro hsk inp' hi
      simp only [e5] at hsk
      have hfc : w.pending.contains b = false := by
        cases hfc : w.pending.contains b with
        | false => rfl
        | true =>
          have hb := List.contains_iff_mem.mp hfc
          obtain ⟨-, inp, h2, -⟩ := h.pend b hb
          rw [(h.skip hsk inp h2).1] at hb; simp at hb
      rw [hfc] at e6
      simp only [Bool.false_eq_true, if_false] at e6
      simp only [e6] at hi
      obtain ⟨k1, k2, k3⟩ := h.skip hsk inp' hi
      exact ⟨by simp only [k1]; rfl, k2, fun x hx => by simp only [e3]; exact k3 x hx⟩
  | freeUnused hp he =>
    rename_i root bt'
    obtain ⟨s1, e1, e2, e3, e4, e5, e6, e7, -⟩ := hL.freeUnused root
    rw [he] at e1; cases e1
    refine ⟨⟨L, e2⟩, fun x => ?_, ?_, ?_, ?_, ?_, ?_, ?_⟩
    · simp only [List.mem_filter, decide_eq_true_eq, h.held]
      exact ⟨fun hx => hx.2, fun hx => ⟨(e7 x hx).1, hx⟩⟩
    · rw [hp]; simp
    · intro x hx; simp only [e4, e6]; exact h.writes x hx
    · intro x hx; simp only [e3]; exact h.fresh x hx
    · simp only [e6]; exact h.notr
    · intro x k; simp only [e3, e4, e6]; exact h.kept x k
    · simp only [e3, e4, e5]; exact h.skip
  | disk hx hd => exact ⟨⟨L, hL⟩, h.held, h.pend, h.writes, h.fresh, h.notr, h.kept, h.skip⟩
  | writeDone hx => exact ⟨⟨L, hL⟩, h.held, h.pend, fun y hy => h.writes y (List.mem_of_mem_erase hy), fun y hy => h.fresh y (List.mem_of_mem_erase hy), h.notr, h.kept, h.skip⟩
  | header hd => exact ⟨⟨L, hL⟩, h.held, h.pend, h.writes, h.fresh, h.notr, h.kept, h.skip⟩
  | beginCheckpoint hP he =>
    rename_i P bt'
    have hn : w.bt.inp = none := by
      unfold noteStart at he
      cases hi : w.bt.inp with
      | none => rfl
      | some x => rw [hi] at he; simp at he
    obtain ⟨s1, inp, e1, e2, e3, e4, e5, e6, e7, e8, e9, e10, e11, -⟩ := hL.start hn
    rw [he] at e1; cases e1
    refine ⟨⟨L, e2⟩, fun x => by rw [e8]; exact h.held x, ?_, ?_, ?_, by rw [e7]; exact h.notr, ?_, ?_⟩
    · intro x hx
      have hu := (h.held x).mp (hP x hx)
      have hu' := (e8 x).mpr hu
      have hx1 : x ≠ bnTranslation := by have := hu.1; unfold reservedBn at this; unfold bnTranslation; omega
      exact ⟨hu', inp, e4, (e9 x).mpr hu, e10 x hx1 hu'.2.1⟩
    · intro x hx
      rcases h.writes x hx with ⟨-, i, h2, -⟩ | h2
      · rw [hn] at h2; cases h2
      · right; simp only [e7]; exact h2
    · intro x hx; simp only [e3]; exact h.fresh x hx
    · intro x k hx hk i hi
      rw [e4] at hi; cases hi
      have hx1 : x ≠ bnTranslation := by
        rintro rfl
        rw [e7] at hx; rw [h.notr] at hx; cases hx
      obtain ⟨p, p1, p2, p3⟩ := block_of_some.mp hx
      have : x < bt'.cur.smallest := by
        by_cases hlt : x < bt'.cur.smallest
        · exact hlt
        · have := e2.cur.high x p (by omega) p1
          unfold sizeFree at this; omega
      exact block_of_some.mpr ⟨p, by rw [e10 x hx1 this]; exact p1, p2, p3⟩
    · intro hsk; simp only [e6] at hsk; cases hsk
  | serialize hp hsk hi hn hr hw he =>
    rename_i bt' off inp
    obtain ⟨s1, off1, e1, e2, e3, e4, e5, e6, e7, -⟩ := hL.serialize hi hn hr
    rw [he] at e1; cases e1
    have hok := hL.inp inp hi
    have hlt2 : bnTranslation < inp.arr.length := by have := hok.len; have := hok.res; unfold reservedBn at this; unfold bnTranslation; omega
    have hib : ({ inp with arr := inp.arr.set bnTranslation ⟨(off : Int), sizeOnDisk inp⟩ } : Tr).block bnTranslation = some ⟨off, sizeOnDisk inp⟩ := by
      rw [block_set hlt2, if_pos rfl, if_pos (by simp only; unfold sizeOnDisk; omega)]; simp
    refine ⟨⟨_, e2⟩, fun x => by rw [e4]; exact h.held x, by rw [hp]; simp, ?_, ?_, by rw [e4]; exact h.notr, ?_, ?_⟩
    · intro x hx
      simp only [List.mem_cons] at hx
      rcases hx with rfl | hx
      · left; exact ⟨rfl, _, e6, hib⟩
      · rcases h.writes x hx with ⟨h1, -⟩ | h2
        · exact absurd h1 (hw x hx)
        · right; simp only [e4]; exact h2
    · intro x hx y
      simp only [List.mem_cons] at hx
      simp only [e3]
      rcases hx with rfl | hx
      · intro hy; exact e7 (hL.live y _ (Or.inr (Or.inl hy)))
      · exact h.fresh x hx y
    · intro x k hx hk i hi'
      simp only [e3, e4] at hx hk
      rw [e6] at hi'; cases hi'
      have hx1 : x ≠ bnTranslation := by rintro rfl; rw [h.notr] at hx; cases hx
      rw [block_set hlt2, if_neg hx1]
      exact h.kept x k hx hk inp hi
    · intro hsk'; simp only [e5, hsk] at hsk'; cases hsk'
  | skip hp hi hn hcl =>
    refine ⟨⟨L, hL.keep rfl hL.cur hL.ckp hL.inp hL.ckpLen hL.inpLen (fun b k hr => hr)⟩, h.held, h.pend, h.writes, h.fresh, h.notr, h.kept, ?_⟩
    intro _ inp' hi'
    simp only [noteSkipped, hi, Option.some.injEq] at hi'
    subst hi'
    exact ⟨hp, hn, hcl⟩
  | endCheckpoint hp hw he =>
    rename_i bt'
    obtain ⟨inp, e1, e2, e3, ⟨L', e4, -⟩, e5⟩ := hL.endCk he
    refine ⟨⟨L', e4⟩, fun x => by rw [e2]; exact h.held x, by rw [hp]; simp, ?_, ?_, by rw [e2]; exact h.notr, ?_, ?_⟩
    · intro x hx
      rcases h.writes x hx with ⟨h1, i, h2, h3⟩ | h2
      · rw [e1] at h2; cases h2
        exact absurd (by rw [h1]; exact h3) (hw x hx inp e1)
      · right; simp only [e2]; exact h2
    · intro x hx y hy
      rcases e5 with ⟨e5, -⟩ | ⟨e5, -⟩
      · simp only [e5] at hy; exact h.fresh x hx y hy
      · simp only [e5] at hy
        have := hL.own y x.1 x.2 (Or.inr (Or.inr ⟨inp, e1, hy⟩)) (h.refs hx)
        subst this
        exact hw x hx inp e1 hy
    · intro x k hx hk i hi
      rw [e3] at hi; cases hi
    · intro _ i hi
      rw [e3] at hi; cases hi
  | crash he =>
    rename_i bt'
    obtain ⟨b0, k0, hk0⟩ := openBT_block he
    obtain ⟨s1, L', e1, e2, e3, e4, e5, e6, e7, e8, e9, -⟩ := hL.reopen hk0
    rw [he] at e1; cases e1
    refine ⟨⟨L', e2⟩, fun x => ?_, by simp, by simp, by simp, e9, ?_, ?_⟩
    · simp only [List.mem_filter, List.mem_range, decide_eq_true_eq]
      exact ⟨fun hx => hx.2, fun hx => ⟨hx.2.1, hx⟩⟩
    · intro x k _ _ i hi
      rw [e4] at hi; cases hi
    · intro _ i hi
      rw [e4] at hi; cases hi

theorem Reach.inv {w : World} (h : Reach w) : WInv w := by
  induction h with
  | created he =>
    obtain ⟨s, e1, e2, e3, -, -, e4, e5⟩ := BInv.create
    rw [he] at e1; cases e1
    exact ⟨⟨[], e2⟩, fun x => by simp [e5], by simp, by simp, by simp, e4 _, fun x k hx => (by rw [e4] at hx; cases hx), fun _ i hi => (by rw [e3] at hi; cases hi)⟩
  | step _ hs ih => exact ih.step hs

end Verif.Blk
