import Verif.Blk.CkptSpec
import Verif.Blk.WorldLemmas

/-!
The end of a checkpoint, and the blocks nobody names.
-/
namespace Verif.Blk

theorem chain_next {arr : List Pair} {h : Int} {fl : List Nat} (hc : IsChain arr h fl) {x : Nat} (hx : x ∈ fl) {p : Pair} (hp : arr[x]? = some p) :
    p.u = flNull ∨ ∃ y ∈ fl, p.u = (y : Int) := by
  induction fl generalizing h with
  | nil => simp at hx
  | cons z zs ih =>
    obtain ⟨h1, q, h2, h3⟩ := hc
    rcases List.mem_cons.mp hx with rfl | hx
    · rw [hp] at h2; cases h2
      cases zs with
      | nil => exact Or.inl h3
      | cons y ys => exact Or.inr ⟨y, by simp, h3.1⟩
    · rcases ih h3 hx with h | ⟨y, h4, h5⟩
      · exact Or.inl h
      · exact Or.inr ⟨y, List.mem_cons_of_mem _ h4, h5⟩

theorem Tr.OK.small {t : Tr} (h : t.OK) (hs : t.smallest ≤ hdr) : t.Small := by
  intro b p hb hp hz
  obtain ⟨fl, f1, f2, f3⟩ := h.fl
  rcases chain_next f2 ((f3 b).mpr ⟨hb, p, hp, hz⟩) hp with h | ⟨y, h4, h5⟩
  · rw [h]; unfold flNull hdr; omega
  · have := ((f3 y).mp h4).1
    rw [h5]; omega

structure SInv (w : World) : Prop where
  winv : WInv w
  ex : ∃ L, BInv w.bt L ∧ Exact w.bt L
  cur : w.bt.cur.smallest ≤ hdr
  ckp : w.bt.ckp.smallest ≤ hdr
  inp : ∀ inp, w.bt.inp = some inp → inp.smallest ≤ hdr

theorem BInv.bsmall {s : BT} {L : List Block} (h : BInv s L) (h1 : s.cur.smallest ≤ hdr) (h2 : s.ckp.smallest ≤ hdr) (h3 : ∀ inp, s.inp = some inp → inp.smallest ≤ hdr) :
    BSmall s := ⟨h.cur.small h1, h.ckp.small h2, fun inp hi => (h.inp inp hi).small (h3 inp hi)⟩

theorem freeIn_smallest {t t' : Tr} {b : Nat} (h : freeIn t b = some t') : t'.smallest = t.smallest := by
  unfold freeIn at h
  split at h
  · cases h; rfl
  · cases h

theorem SInv.step {w w' : World} (h : SInv w) (hs : Step w w') (hw' : w'.bt.cur.smallest ≤ hdr) : SInv w' := by
  obtain ⟨L, hL, hex⟩ := h.ex
  have hi := h.winv
  have hsm := hL.bsmall h.cur h.ckp h.inp
  have hi' := hi.step hs
  have hpend : ∀ b, w.pending.contains b = true → ∀ inp, w.bt.inp = some inp → inp.arr[b]? = w.bt.cur.arr[b]? := by
    intro b hb inp hinp
    obtain ⟨-, inp', h2, h3, h4⟩ := hi.pend b (List.contains_iff_mem.mp hb)
    rw [hinp] at h2; cases h2; exact h4
  cases hs with
  | newNumber he =>
    obtain ⟨b1, s1, e1, e2, e3, e4, e5, e6, e7, e8, e9, e10⟩ := hL.newNumber
    rw [he] at e1; cases e1
    exact ⟨hi', ⟨L, e2, e10 hex⟩, hw', by simp only [e7]; exact h.ckp, by simp only [e8]; exact h.inp⟩
  | writeNode hb hw hz hr he =>
    unfold reallocOnDisk at he
    split at he
    · obtain ⟨u1, u2, old, u3, u4⟩ := (hi.held _).mp hb
      obtain ⟨s1, off1, L', e1, e2, e3, e4, e5, e6, e7, e8⟩ := hL.realloc u2 u3 u4 hz hr (forCk := w.pending.contains _) (by
        intro hfc
        obtain ⟨h1, inp, h2, ⟨h3, h4, q, h5, h6⟩, h7⟩ := hi.pend _ (List.contains_iff_mem.mp hfc)
        exact ⟨inp, q, h2, h4, h5, h6⟩)
      rw [he] at e1; cases e1
      refine ⟨hi', ⟨L', e2, e8 hex hsm (hpend _)⟩, hw', by simp only [e3]; exact h.ckp, ?_⟩
      intro inp' hinp
      simp only [e6] at hinp
      split at hinp
      · obtain ⟨i, h1, rfl⟩ := Option.map_eq_some_iff.mp hinp; exact h.inp i h1
      · exact h.inp _ hinp
    · cases he
  | writeDescriptor hw hz hr he =>
    have hlt : bnDescriptor < w.bt.cur.smallest := by have := hL.cur.res; unfold reservedBn at this; unfold bnDescriptor; omega
    have hlt2 : bnDescriptor < w.bt.cur.arr.length := by have := hL.cur.len; omega
    obtain ⟨old, ho⟩ : ∃ q, w.bt.cur.arr[bnDescriptor]? = some q := ⟨_, List.getElem?_eq_getElem hlt2⟩
    have ho0 := hL.cur.low _ old (by decide) ho
    obtain ⟨s1, off1, L', e1, e2, e3, e4, e5, e6, e7, e8⟩ := hL.realloc hlt ho (by unfold sizeFree; omega) hz hr (forCk := false) (by simp)
    rw [reallocDescriptor] at he
    rw [he] at e1; cases e1
    refine ⟨hi', ⟨L', e2, e8 hex hsm (by simp)⟩, hw', by simp only [e3]; exact h.ckp, ?_⟩
    intro inp' hinp
    simp only [e6, Bool.false_eq_true, if_false] at hinp
    exact h.inp _ hinp
  | freeNumber hb hw he =>
    rename_i b bt'
    obtain ⟨s1, L', e1, e2, e3, e4, e5, e6, e7⟩ := hL.freeNumber ((hi.held _).mp hb) (forCk := w.pending.contains _) (by
      intro hfc
      obtain ⟨h1, inp, h2, h3, h4⟩ := hi.pend _ (List.contains_iff_mem.mp hfc)
      exact ⟨inp, h2, h3⟩)
    rw [he] at e1; cases e1
    have hck : bt'.ckp.smallest ≤ hdr := by rw [e3]; exact h.ckp
    have hin : ∀ inp, bt'.inp = some inp → inp.smallest ≤ hdr := by
      intro inp' hinp
      split at e6
      · obtain ⟨i, i', h1, h2, h3⟩ := e6
        rw [hinp] at h2; cases h2
        rw [freeIn_smallest h3]; exact h.inp i h1
      · rw [e6] at hinp; exact h.inp _ hinp
    exact ⟨hi', ⟨L', e2, e7 hex (e2.bsmall hw' hck hin) (hpend _)⟩, hw', hck, hin⟩
  | freeUnused hp he =>
    rename_i root bt'
    obtain ⟨s1, e1, e2, e3, e4, e5, e6, e7, e8⟩ := hL.freeUnused root
    rw [he] at e1; cases e1
    exact ⟨hi', ⟨L, e2, e8 hex⟩, hw', by simp only [e3]; exact h.ckp, by simp only [e4]; exact h.inp⟩
  | disk hx hd => exact ⟨hi', h.ex, hw', h.ckp, h.inp⟩
  | writeDone hx => exact ⟨hi', h.ex, hw', h.ckp, h.inp⟩
  | header hd => exact ⟨hi', h.ex, hw', h.ckp, h.inp⟩
  | beginCheckpoint hP he =>
    have hn : w.bt.inp = none := by
      unfold noteStart at he
      cases hi : w.bt.inp with
      | none => rfl
      | some x => rw [hi] at he; simp at he
    obtain ⟨s1, inp, e1, e2, e3, e4, e5, e6, e7, e8, e9, e10, e11, e12, e13⟩ := hL.start hn
    rw [he] at e1; cases e1
    refine ⟨hi', ⟨L, e2, e13 hex⟩, hw', by simp only [e3]; exact h.ckp, ?_⟩
    intro inp' hinp
    simp only [e4, Option.some.injEq] at hinp
    subst hinp
    rw [e12]; exact hw'
  | serialize hp hsk hii hn hr hw he =>
    obtain ⟨s1, off1, e1, e2, e3, e4, e5, e6, e7, e8⟩ := hL.serialize hii hn hr
    rw [he] at e1; cases e1
    refine ⟨hi', ⟨_, e2, e8 hex⟩, hw', by simp only [e3]; exact h.ckp, ?_⟩
    intro inp' hinp
    simp only [e6, Option.some.injEq] at hinp
    subst hinp
    have := h.inp _ hii
    exact this
  | skip hp hii hn hcl =>
    refine ⟨hi', ⟨L, hL.keep rfl hL.cur hL.ckp hL.inp hL.ckpLen hL.inpLen (fun b k hr => hr), hex⟩, hw', h.ckp, h.inp⟩
  | endCheckpoint hp hw he =>
    obtain ⟨inp, e1, e2, e3, ⟨L', e4, e4'⟩, e5⟩ := hL.endCk he
    refine ⟨hi', ⟨L', e4, e4' hex hsm ?_⟩, hw', ?_, by simp only [e3]; simp⟩
    · intro hsk b k hk
      obtain ⟨k1, k2, k3⟩ := hi.skip hsk inp e1
      by_cases hb : b = bnTranslation
      · rw [hb, k2] at hk; cases hk
      · rw [← k3 b hb]; exact hk
    · rcases e5 with ⟨e5, -⟩ | ⟨e5, e6, e7⟩
      · simp only [e5]; exact h.ckp
      · simp only [e5]; exact h.inp _ e1
  | crash he =>
    obtain ⟨b0, k0, hk0⟩ := openBT_block he
    obtain ⟨s1, L', e1, e2, e3, e4, e5, e6, e7, e8, e9, e10, e11⟩ := hL.reopen hk0
    rw [he] at e1; cases e1
    exact ⟨hi', ⟨L', e2, e11⟩, hw', by simp only [e3]; exact h.ckp, by simp only [e4]; simp⟩

theorem ReachSmall.reach {w : World} (h : ReachSmall w) : Reach w := by
  induction h with
  | created he => exact .created he
  | step _ hs _ ih => exact ih.step hs

theorem ReachSmall.inv {w : World} (h : ReachSmall w) : SInv w := by
  induction h with
  | created he =>
    obtain ⟨s, e1, e2, e3, c1, c2, e4, e5⟩ := BInv.create
    have he' := he
    rw [he] at e1; cases e1
    exact ⟨(Reach.created he').inv, ⟨[], e2, fun k hk => (by simp at hk)⟩, by simp only [c2]; decide, by simp only [c1]; decide, by simp only [e3]; simp⟩
  | step _ hs hw ih => exact ih.step hs hw

theorem BInv.freeAt {s : BT} {L : List Block} (h : BInv s L) (hex : Exact s L) {n : Nat} (hn : hdr ≤ n) : FreeAt s.alloc.tree.holes n ↔ ¬ Named s n := by
  rw [h.run.inv.free]
  constructor
  · rintro ⟨-, h2⟩ ⟨b, k, hr, hk⟩
    exact h2 k (h.live b k hr) hk
  · intro hnm
    refine ⟨hn, fun k hk hh => ?_⟩
    obtain ⟨b, hb⟩ := hex k hk
    exact hnm ⟨b, k, hb, hh⟩

theorem freeOld_ok {inp cur : Tr} {ps : List Pair} {i : Nat} {al : Alloc} {L : List Block} (hrun : Run hdr algn al L)
    (hps : ∀ (j : Nat) p, ps[j]? = some p → 0 < p.size → (⟨p.u.toNat, p.size.toNat⟩ : Block) ∈ L)
    (hown2 : ∀ (j j' : Nat) (p p' : Pair), ps[j]? = some p → ps[j']? = some p' → 0 < p.size → 0 < p'.size → p.u.toNat = p'.u.toNat → p.size.toNat = p'.size.toNat → j = j')
    (hcur : ∀ (j : Nat) p, ps[j]? = some p → 0 < p.size → prevents (some inp) (i + j) p = false → prevents (some cur) (i + j) p = false) :
    ∃ al', freeOld inp cur i ps al = some al' := by
  induction ps generalizing i al L with
  | nil => exact ⟨al, rfl⟩
  | cons p ps ih =>
    rw [freeOld]
    have hc2 : ∀ (j : Nat) q, ps[j]? = some q → 0 < q.size → prevents (some inp) (i + 1 + j) q = false → prevents (some cur) (i + 1 + j) q = false := by
      intro j q hq hs
      have := hcur (j + 1) q hq hs
      rw [Nat.add_assoc, Nat.add_comm 1]; exact this
    have ho2 : ∀ (j j' : Nat) (p p' : Pair), ps[j]? = some p → ps[j']? = some p' → 0 < p.size → 0 < p'.size → p.u.toNat = p'.u.toNat → p.size.toNat = p'.size.toNat → j = j' := by
      intro j j' q q' hq hq' h1 h2 h3 h4
      have := hown2 (j + 1) (j' + 1) q q' hq hq' h1 h2 h3 h4; omega
    by_cases hcond : 0 < p.size ∧ prevents (some inp) i p = false
    · rw [if_pos hcond]
      have := hcur 0 p rfl hcond.1 hcond.2
      rw [Nat.add_zero] at this
      rw [if_neg (by rw [this]; simp)]
      obtain ⟨al1, ha1⟩ := C28_free_succeeds hrun (hps 0 p rfl hcond.1)
      simp only at ha1
      rw [ha1]
      refine ih (hrun.free (hps 0 p rfl hcond.1) ha1) ?_ ho2 hc2
      intro j q hq hs
      rw [List.Nodup.mem_erase_iff hrun.nodup]
      refine ⟨fun heq => ?_, hps (j + 1) q hq hs⟩
      have := hown2 (j + 1) 0 q p hq rfl hs hcond.1 (congrArg Block.off heq) (congrArg Block.size heq)
      omega
    · rw [if_neg hcond]
      exact ih hrun (fun j q hq hs => hps (j + 1) q hq hs) ho2 hc2

end Verif.Blk
