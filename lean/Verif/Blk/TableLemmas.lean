import Verif.Blk.TrLemmas
import Verif.Blk.AllocProps

/-!
The block table: every block named by one of the three translations is allocated, and belongs to one block number.
-/
namespace Verif.Blk

structure BInv (s : BT) (L : List Block) : Prop where
  run : Run hdr algn s.alloc L
  cur : s.cur.OK
  ckp : s.ckp.OK
  inp : ∀ inp, s.inp = some inp → inp.OK
  ckpLen : s.ckp.arr.length = s.ckp.smallest
  inpLen : ∀ inp, s.inp = some inp → inp.arr.length = inp.smallest
  live : ∀ b k, Refs s b k → k ∈ L
  own : ∀ b b' k, Refs s b k → Refs s b' k → b = b'

/-- Every block in use is named by a translation. -/
def Exact (s : BT) (L : List Block) : Prop := ∀ k ∈ L, ∃ b, Refs s b k

/-- The links of the free lists are too small to be mistaken for disk offsets. -/
def Tr.Small (t : Tr) : Prop := ∀ (b : Nat) (p : Pair), b < t.smallest → t.arr[b]? = some p → p.size = sizeFree → p.u < hdr

def BSmall (s : BT) : Prop := s.cur.Small ∧ s.ckp.Small ∧ ∀ inp, s.inp = some inp → inp.Small

theorem Run.ok {al : Alloc} {L : List Block} (h : Run hdr algn al L) {k : Block} (hk : k ∈ L) :
    0 < k.size ∧ hdr ≤ k.off ∧ k.off % algn = 0 ∧ k.off + k.size < maxVal := by
  obtain ⟨k1, k2, k3, k4⟩ := h.inv.blocks k hk
  exact ⟨k1, k2, k3, k4⟩

theorem Run.apart {al : Alloc} {L : List Block} (h : Run hdr algn al L) {k k' : Block} (hk : k ∈ L) (hk' : k' ∈ L) (hne : k ≠ k') : ¬ k.overlap k' := by
  have hd := h.inv.disj
  clear h
  induction L with
  | nil => simp at hk
  | cons x L ih =>
    rw [List.pairwise_cons] at hd
    simp only [List.mem_cons] at hk hk'
    rcases hk with rfl | hk <;> rcases hk' with rfl | hk'
    · exact absurd rfl hne
    · exact hd.1 _ hk'
    · exact fun ho => hd.1 _ hk ⟨ho.2, ho.1⟩
    · exact ih hk hk' hd.2

theorem Run.nodup {al : Alloc} {L : List Block} (h : Run hdr algn al L) : L.Nodup := by
  have hb := fun k hk => (h.ok (k := k) hk).1
  have hd := h.inv.disj
  clear h
  induction L with
  | nil => simp
  | cons k L ih =>
    rw [List.pairwise_cons] at hd
    rw [List.nodup_cons]
    refine ⟨fun hm => hd.1 k hm ?_, ih (fun x hx => hb x (by simp [hx])) hd.2⟩
    have := hb k (by simp)
    exact ⟨by omega, by omega⟩

theorem Run.room {al : Alloc} {L : List Block} (h : Run hdr algn al L) {size : Nat} (hr : hasRoom al size) : Room hdr algn L size := by
  obtain ⟨lim, h1, h2⟩ := hr
  rw [C29_allocated_limit h] at h1
  cases h1
  obtain ⟨f1, f2, -⟩ := fileEnd_spec hdr L
  have hmv : maxVal = 2 ^ 64 - 1 := rfl
  refine ⟨by omega, fun b hb => ?_⟩
  have := f2 b hb
  omega

theorem Room.erase {L : List Block} {size : Nat} {k : Block} (h : Room hdr algn L size) : Room hdr algn (L.erase k) size :=
  ⟨h.1, fun b hb => h.2 b (List.mem_of_mem_erase hb)⟩

theorem prevents_of_block {t : Tr} (h : t.OK) {b : Nat} {k : Block} (hb : t.block b = some k) {old : Pair} (hu : 0 ≤ old.u) (ho : old.u.toNat = k.off) :
    prevents (some t) b old = true := by
  obtain ⟨p, h1, h2, rfl⟩ := block_of_some.mp hb
  have hp := (h.shape b p h1).2.2 h2
  have hlt : b < t.smallest := by
    by_cases hlt : b < t.smallest
    · exact hlt
    · have := h.high b p (by omega) h1
      unfold sizeFree at this; omega
  simp only at ho
  have : p.u = old.u := by omega
  simp [prevents, hlt, h1, this]

theorem BInv.same_off {s : BT} {L : List Block} (h : BInv s L) {k k' : Block} (hk : k ∈ L) (hk' : k' ∈ L) (he : k.off = k'.off) : k = k' := by
  by_cases hne : k = k'
  · exact hne
  · exfalso
    refine h.run.apart hk hk' hne ?_
    have h1 := (h.run.ok hk).1
    have h2 := (h.run.ok hk').1
    exact ⟨by omega, by omega⟩

/-- With small links the comparison of offsets tells which blocks are the same. -/
theorem BInv.prevents_exact {s : BT} {L : List Block} (h : BInv s L) {t : Tr} (ht : t.OK) (hs : t.Small) (hl : ∀ b k, t.block b = some k → k ∈ L)
    {b : Nat} {old : Pair} (hu : 0 ≤ old.u) {k : Block} (hk : k ∈ L) (ho : old.u.toNat = k.off) (hp : prevents (some t) b old = true) :
    t.block b = some k := by
  simp only [prevents, Bool.and_eq_true, decide_eq_true_eq] at hp
  obtain ⟨p, p1, p2⟩ := Option.map_eq_some_iff.mp hp.2
  have hge := (h.run.ok hk).2.1
  have hsh := ht.shape b p p1
  have hpos : 0 < p.size := by
    have := hs b p hp.1 p1
    have h1 := hsh.1
    have h2 := hsh.2.1
    unfold sizeFree diskUnused at *
    by_cases h0 : p.size = 0
    · have := h2 h0; omega
    · by_cases h3 : p.size = -1
      · have := this h3; unfold hdr at *; omega
      · omega
  have hb := block_of_some.mpr ⟨p, p1, hpos, rfl⟩
  have := h.same_off (hl b _ hb) hk (by simp only; omega)
  rw [hb, this]

theorem Tr.OK.block_shape {t : Tr} (h : t.OK) {b : Nat} {p : Pair} (hp : t.arr[b]? = some p) (hs : 0 < p.size) :
    t.block b = some ⟨p.u.toNat, p.size.toNat⟩ ∧ 0 ≤ p.u :=
  ⟨block_of_some.mpr ⟨p, hp, hs, rfl⟩, (h.shape b p hp).2.2 hs⟩

theorem block_set {t : Tr} {b : Nat} (hb : b < t.arr.length) (p : Pair) (x : Nat) :
    ({ t with arr := t.arr.set b p } : Tr).block x = if x = b then (if 0 < p.size then some ⟨p.u.toNat, p.size.toNat⟩ else none) else t.block x := by
  unfold Tr.block
  simp only [get_set]
  by_cases hx : x = b
  · rw [if_pos ⟨hx, hb⟩, if_pos hx]
  · rw [if_neg (by omega), if_neg hx]

theorem block_free {t t' : Tr} {b : Nat} (he : freeIn t b = some t') (x : Nat) : t'.block x = if x = b then none else t.block x := by
  obtain ⟨h3, hb, hlt, rfl⟩ := freeIn_some he
  unfold Tr.block
  simp only [get_set]
  by_cases hx : x = b
  · rw [if_pos ⟨hx, hlt⟩, if_pos hx]; simp [sizeFree]
  · rw [if_neg (by omega), if_neg hx]

/-- Giving back a block nobody names any more. -/
theorem BInv.drop {s s' : BT} {L : List Block} (h : BInv s L) {k : Block} (hk : k ∈ L) {al : Alloc} (hal : freeBlock s.alloc k.off k.size = some al)
    (ha : s'.alloc = al) (h1 : s'.cur.OK) (h2 : s'.ckp.OK) (h3 : ∀ inp, s'.inp = some inp → inp.OK) (h4 : s'.ckp.arr.length = s'.ckp.smallest)
    (h5 : ∀ inp, s'.inp = some inp → inp.arr.length = inp.smallest) (h6 : ∀ b k, Refs s' b k → Refs s b k) (h7 : ∀ b, ¬ Refs s' b k) :
    BInv s' (L.erase k) := by
  refine ⟨?_, h1, h2, h3, h4, h5, fun b k' hr => ?_, fun b b' k' hr hr' => h.own b b' k' (h6 _ _ hr) (h6 _ _ hr')⟩
  · rw [ha]; exact h.run.free hk hal
  · rw [List.Nodup.mem_erase_iff h.run.nodup]
    refine ⟨?_, h.live b k' (h6 _ _ hr)⟩
    rintro rfl
    exact h7 b hr

/-- Keeping the allocator. -/
theorem BInv.keep {s s' : BT} {L : List Block} (h : BInv s L) (ha : s'.alloc = s.alloc) (h1 : s'.cur.OK) (h2 : s'.ckp.OK)
    (h3 : ∀ inp, s'.inp = some inp → inp.OK) (h4 : s'.ckp.arr.length = s'.ckp.smallest)
    (h5 : ∀ inp, s'.inp = some inp → inp.arr.length = inp.smallest) (h6 : ∀ b k, Refs s' b k → Refs s b k) : BInv s' L :=
  ⟨by rw [ha]; exact h.run, h1, h2, h3, h4, h5, fun b k' hr => h.live b k' (h6 _ _ hr), fun b b' k' hr hr' => h.own b b' k' (h6 _ _ hr) (h6 _ _ hr')⟩

theorem BInv.create : ∃ s, createBT = some s ∧ BInv s [] ∧ s.inp = none ∧ s.ckp.smallest = reservedBn ∧ s.cur.smallest = reservedBn ∧ (∀ b, s.cur.block b = none) ∧ (∀ b, ¬ s.cur.inUse b) := by
  have hck : (⟨List.replicate reservedBn ⟨diskUnused, 0⟩, reservedBn, flNull⟩ : Tr).OK := by
    constructor
    · simp
    · simp
    · intro b p hb he
      simp only [List.getElem?_replicate] at he
      rw [if_pos hb] at he
      cases he; simp
    · intro b p he
      simp only [List.getElem?_replicate] at he
      split at he
      · cases he; exact ⟨by decide, by simp, by decide⟩
      · cases he
    · intro b p hb he
      simp only [List.getElem?_replicate] at he hb
      rw [if_neg (by omega)] at he; cases he
    · refine ⟨[], by simp, rfl, fun b => ?_⟩
      simp only [List.not_mem_nil, false_iff, Fr, List.getElem?_replicate]
      rintro ⟨h1, p, h2, h3⟩
      rw [if_pos h1] at h2; cases h2; revert h3; decide
  obtain ⟨cur, e1, e2, e3, e4, e5, e6, e7, e8, e9⟩ := hck.copy
  obtain ⟨al, a1, a2⟩ := Inv.create (r := hdr) (a := algn) (by decide) (by decide) (by decide)
  have hb0 : ∀ b, (⟨List.replicate reservedBn ⟨diskUnused, 0⟩, reservedBn, flNull⟩ : Tr).block b = none := by
    intro b
    unfold Tr.block
    simp only [List.getElem?_replicate]
    by_cases hb : b < reservedBn
    · rw [if_pos hb]; simp
    · rw [if_neg hb]
  have hb1 : ∀ b, cur.block b = none := by
    intro b
    by_cases hb : b = bnTranslation
    · rw [hb]; exact e9
    · rw [e8 b hb, hb0]
  have hrefs : ∀ b k, ¬ Refs ⟨cur, none, ⟨List.replicate reservedBn ⟨diskUnused, 0⟩, reservedBn, flNull⟩, al, false⟩ b k := by
    rintro b k (h | h | ⟨i, h, -⟩)
    · simp only [hb1] at h; cases h
    · simp only [hb0] at h; cases h
    · cases h
  refine ⟨_, by rw [createBT, e1, Option.bind_some, a1]; rfl, ⟨.created (by decide) a1, e2, hck, by simp, by simp, by simp,
    fun b k h => absurd h (hrefs b k), fun b b' k h => absurd h (hrefs b k)⟩, rfl, rfl, e3, hb1, ?_⟩
  intro b hb
  rw [e7] at hb
  have h1 := hb.1
  have h2 := hb.2.1
  simp only at h2
  omega

/-- Getting a block number. -/
theorem BInv.newNumber {s : BT} {L : List Block} (h : BInv s L) : ∃ b s', allocateBlocknum s = some (b, s') ∧ BInv s' L ∧ ¬ s.cur.inUse b ∧ reservedBn ≤ b ∧
    (∀ x, s'.cur.inUse x ↔ x = b ∨ s.cur.inUse x) ∧ (∀ x, s'.cur.block x = s.cur.block x) ∧ s'.ckp = s.ckp ∧ s'.inp = s.inp ∧
    (∀ x, x ≠ b → x < s.cur.smallest → s'.cur.arr[x]? = s.cur.arr[x]?) ∧ (Exact s L → Exact s' L) := by
  obtain ⟨b, t, e1, e2, e3, e4, e5, e6, e7, e8, e9, e10, e11, e12⟩ := h.cur.allocate
  have hbl : ∀ x, t.block x = s.cur.block x := by
    intro x
    by_cases hx : x = b
    · subst hx
      rw [e8]; unfold Tr.block; rw [e7]; simp
    · exact e10 x hx
  refine ⟨b, { s with cur := t }, by rw [allocateBlocknum, e1]; rfl, h.keep rfl e2 h.ckp h.inp h.ckpLen h.inpLen ?_, e3, e4, ?_, hbl, rfl, rfl, e12, ?_⟩
  · rintro x k (hr | hr | hr)
    · exact Or.inl (by rw [← hbl]; exact hr)
    · exact Or.inr (Or.inl hr)
    · exact Or.inr (Or.inr hr)
  · intro x
    by_cases hx : x = b
    · subst hx
      simp only [true_or, iff_true]
      exact ⟨e4, e5, _, e7, by decide⟩
    · simp only [hx, false_or]; exact e9 x hx
  · intro hex k hk
    obtain ⟨x, hr | hr | hr⟩ := hex k hk
    · exact ⟨x, Or.inl (by simp only [hbl]; exact hr)⟩
    · exact ⟨x, Or.inr (Or.inl hr)⟩
    · exact ⟨x, Or.inr (Or.inr hr)⟩

theorem inUse_set {t : Tr} {b : Nat} {p : Pair} (hb : t.inUse b) (hlt : b < t.arr.length) (hp : 0 ≤ p.size) (x : Nat) :
    ({ t with arr := t.arr.set b p } : Tr).inUse x ↔ t.inUse x := by
  unfold Tr.inUse
  simp only [get_set]
  by_cases hx : x = b
  · subst hx
    obtain ⟨h1, h2, q, h3, h4⟩ := hb
    simp only [hlt, and_self, if_true, Option.some.injEq, exists_eq_left']
    constructor
    · intro _; exact ⟨h1, h2, q, h3, h4⟩
    · intro _; exact ⟨h1, h2, by unfold sizeFree; omega⟩
  · rw [if_neg (by omega)]

/-- Moving a number to a new block. -/
theorem BInv.realloc {s : BT} {L : List Block} (h : BInv s L) {b size : Nat} {forCk : Bool} {old : Pair} (hb : b < s.cur.smallest)
    (hold : s.cur.arr[b]? = some old) (hu : old.size ≠ sizeFree) (hz : 0 < size) (hr : hasRoom s.alloc size)
    (hf : forCk = true → ∃ inp q, s.inp = some inp ∧ b < inp.smallest ∧ inp.arr[b]? = some q ∧ q.size ≠ sizeFree) :
    ∃ (s' : BT) (off : Nat) (L' : List Block), Verif.Blk.realloc s b size forCk = some (s', (off : Int)) ∧ BInv s' L' ∧ s'.ckp = s.ckp ∧
      s'.cur = { s.cur with arr := s.cur.arr.set b ⟨off, size⟩ } ∧ s'.skipped = s.skipped ∧
      s'.inp = (if forCk then s.inp.map fun inp => { inp with arr := inp.arr.set b ⟨off, size⟩ } else s.inp) ∧
      (∀ x, s.ckp.block x ≠ some ⟨off, size⟩) ∧
      (Exact s L → BSmall s → (forCk = true → ∀ inp, s.inp = some inp → inp.arr[b]? = s.cur.arr[b]?) → Exact s' L') := by
  have hlt : b < s.cur.arr.length := by have := h.cur.len; omega
  have hshape := h.cur.shape b old hold
  -- the part that frees
  have hfree : ∃ al L1, (if !((!forCk && prevents s.inp b old) || prevents (some s.ckp) b old) && decide (old.u ≠ diskUnused) then
      freeBlock s.alloc old.u.toNat old.size.toNat else some s.alloc) = some al ∧ Run hdr algn al L1 ∧ Room hdr algn L1 size ∧
      (∀ k ∈ L, k ∈ L1 ∨ s.cur.block b = some k ∧ s.ckp.block b ≠ some k ∧ (forCk = false → ∀ inp, s.inp = some inp → inp.block b ≠ some k)) ∧
      (∀ k ∈ L1, k ∈ L) ∧ (BSmall s → ∀ k ∈ L1, s.cur.block b = some k → s.ckp.block b = some k ∨ (forCk = false ∧ ∃ inp, s.inp = some inp ∧ inp.block b = some k)) := by
    have hroom := h.run.room hr
    split
    · rename_i hc
      simp only [Bool.and_eq_true, Bool.not_eq_true', Bool.or_eq_false_iff, decide_eq_true_eq, Bool.and_eq_false_iff] at hc
      obtain ⟨⟨hc1, hc2⟩, hc3⟩ := hc
      have hpos : 0 < old.size := by
        have h1 := hshape.1
        have h2 := hshape.2.1
        unfold sizeFree at *
        by_cases h0 : old.size = 0
        · exact absurd (h2 h0) hc3
        · omega
      obtain ⟨hbl, hu0⟩ := h.cur.block_shape hold hpos
      have hkL := h.live b _ (Or.inl hbl)
      obtain ⟨al, a1⟩ := C28_free_succeeds h.run hkL
      refine ⟨al, _, a1, h.run.free hkL a1, hroom.erase, fun k hk => ?_, fun k hk => List.mem_of_mem_erase hk, fun _ k hk hkb => ?_⟩
      rotate_left
      · rw [hbl] at hkb; cases hkb
        rw [List.Nodup.mem_erase_iff h.run.nodup] at hk; exact absurd rfl hk.1
      by_cases hkk : k = ⟨old.u.toNat, old.size.toNat⟩
      · refine Or.inr ⟨by rw [hkk]; exact hbl, fun hck => ?_, fun hfc inp hinp hck => ?_⟩
        · rw [prevents_of_block h.ckp hck hu0 (by rw [hkk])] at hc2; cases hc2
        · have := prevents_of_block (h.inp inp hinp) hck hu0 (by rw [hkk])
          rw [hinp, this] at hc1
          rw [hfc] at hc1
          simp at hc1
      · exact Or.inl (by rw [List.Nodup.mem_erase_iff h.run.nodup]; exact ⟨hkk, hk⟩)
    · rename_i hc
      refine ⟨s.alloc, L, rfl, h.run, hroom, fun k hk => Or.inl hk, fun k hk => hk, fun hsm k hk hkb => ?_⟩
      obtain ⟨p, p1, p2, p3⟩ := block_of_some.mp hkb
      rw [hold] at p1; cases p1
      have hu0 := hshape.2.2 p2
      have hun : old.u ≠ diskUnused := by unfold diskUnused; omega
      simp only [hun, ne_eq, not_false_eq_true, decide_true, Bool.and_true, Bool.not_eq_true', Bool.not_eq_false, Bool.or_eq_true, Bool.and_eq_true] at hc
      rcases hc with ⟨hc1, hc2⟩ | hc
      · right
        refine ⟨hc1, ?_⟩
        cases hin : s.inp with
        | none => rw [hin] at hc2; simp [prevents] at hc2
        | some inp =>
          rw [hin] at hc2
          exact ⟨inp, rfl, h.prevents_exact (h.inp inp hin) (hsm.2.2 inp hin) (fun x k hx => h.live x k (Or.inr (Or.inr ⟨inp, hin, hx⟩))) hu0 hk (by rw [p3]) hc2⟩
      · exact Or.inl (h.prevents_exact h.ckp hsm.2.1 (fun x k hx => h.live x k (Or.inr (Or.inl hx))) hu0 hk (by rw [p3]) hc)
  obtain ⟨al, L1, f1, f2, f3, f4, f5, f6⟩ := hfree
  obtain ⟨off, al', g1, g2⟩ := C28_allocation_succeeds f2 hz f3
  have hrun : Run hdr algn al' (⟨off, size⟩ :: L1) := f2.alloc f3 g1
  have hnew1 : (⟨off, size⟩ : Block) ∉ L1 := (List.nodup_cons.mp hrun.nodup).1
  have hold1 : ∀ x k, Refs s x k → (x = b → s.cur.block b = some k → s.ckp.block b = some k ∨ (forCk = false ∧ ∃ inp, s.inp = some inp ∧ inp.block b = some k)) → k ∈ L1 := by
    intro x k hx hk
    rcases f4 k (h.live x k hx) with h1 | ⟨h1, h2, h3⟩
    · exact h1
    · have hxb := h.own x b k hx (Or.inl h1)
      rcases hk hxb h1 with h4 | ⟨h4, inp, h5, h6⟩
      · exact absurd h4 h2
      · exact absurd h6 (h3 h4 inp h5)
  have hsz : (0 : Int) < ((size : Nat) : Int) := by omega
  have hck : ∀ x k, s.ckp.block x = some k → k ∈ L1 := fun x k hx => hold1 x k (Or.inr (Or.inl hx)) (fun hxb _ => Or.inl (hxb ▸ hx))
  have hcur1 : ({ s.cur with arr := s.cur.arr.set b ⟨off, size⟩ } : Tr).OK := h.cur.write hb hold hu (by simp) (by simp only; omega) (by simp)
  have hcb : ∀ x k, ({ s.cur with arr := s.cur.arr.set b ⟨off, size⟩ } : Tr).block x = some k → x = b ∧ k = ⟨off, size⟩ ∨ x ≠ b ∧ s.cur.block x = some k := by
    intro x k hx
    rw [block_set hlt] at hx
    by_cases hxb : x = b
    · rw [if_pos hxb, if_pos hsz] at hx
      cases hx; exact Or.inl ⟨hxb, by simp⟩
    · rw [if_neg hxb] at hx; exact Or.inr ⟨hxb, hx⟩
  cases hfc : forCk with
  | false =>
    subst hfc
    have hin : ∀ x k inp, s.inp = some inp → inp.block x = some k → k ∈ L1 := fun x k inp h1 h2 =>
      hold1 x k (Or.inr (Or.inr ⟨inp, h1, h2⟩)) (fun hxb _ => Or.inr ⟨rfl, inp, h1, hxb ▸ h2⟩)
    have hkey : ∀ x k, Refs { s with cur := { s.cur with arr := s.cur.arr.set b ⟨off, size⟩ }, alloc := al' } x k → (x = b ∧ k = ⟨off, size⟩) ∨ (k ∈ L1 ∧ Refs s x k) := by
      rintro x k (hr | hr | ⟨inp, hr1, hr2⟩)
      · rcases hcb x k hr with h1 | ⟨h1, h2⟩
        · exact Or.inl h1
        · exact Or.inr ⟨hold1 x k (Or.inl h2) (fun he => absurd he h1), Or.inl h2⟩
      · exact Or.inr ⟨hck x k hr, Or.inr (Or.inl hr)⟩
      · exact Or.inr ⟨hin x k inp hr1 hr2, Or.inr (Or.inr ⟨inp, hr1, hr2⟩)⟩
    refine ⟨{ s with cur := { s.cur with arr := s.cur.arr.set b ⟨off, size⟩ }, alloc := al' }, off, ⟨off, size⟩ :: L1, ?_, ⟨hrun, hcur1, h.ckp, h.inp, h.ckpLen, h.inpLen, ?_, ?_⟩, rfl, rfl, rfl, by simp, ?_, ?_⟩
    · unfold Verif.Blk.realloc
      simp only [hold, Option.bind_some, f1, hz, if_true, g1, Option.map_some, Bool.false_eq_true, if_false]
    · intro x k hr
      rcases hkey x k hr with ⟨-, rfl⟩ | ⟨h1, -⟩
      · simp
      · simp [h1]
    · intro x y k hx hy
      rcases hkey x k hx with ⟨h1, rfl⟩ | ⟨h1, h1'⟩ <;> rcases hkey y _ hy with ⟨h2, h3⟩ | ⟨h2, h2'⟩
      · rw [h1, h2]
      · exact absurd h2 hnew1
      · subst h3; exact absurd h1 hnew1
      · exact h.own x y k h1' h2'
    · intro x hx; exact hnew1 (hck x _ hx)
    · intro hex hsm _ k hk
      simp only [List.mem_cons] at hk
      rcases hk with rfl | hk
      · exact ⟨b, Or.inl (by simp only; rw [block_set hlt, if_pos rfl, if_pos hsz]; simp)⟩
      · obtain ⟨x, hx⟩ := hex k (f5 k hk)
        refine ⟨x, ?_⟩
        rcases hx with hx | hx | hx
        · by_cases hxb : x = b
          · subst hxb
            rcases f6 hsm k hk hx with h1 | ⟨-, h1⟩
            · exact Or.inr (Or.inl h1)
            · exact Or.inr (Or.inr h1)
          · exact Or.inl (by simp only; rw [block_set hlt, if_neg hxb]; exact hx)
        · exact Or.inr (Or.inl hx)
        · exact Or.inr (Or.inr hx)
  | true =>
    subst hfc
    obtain ⟨inp, q, i1, i2, i3, i4⟩ := hf rfl
    have hil : b < inp.arr.length := by have := (h.inp inp i1).len; omega
    have hinp1 : ({ inp with arr := inp.arr.set b ⟨off, size⟩ } : Tr).OK := (h.inp inp i1).write i2 i3 i4 (by simp) (by simp only; omega) (by simp)
    have hkey : ∀ x k, Refs { s with cur := { s.cur with arr := s.cur.arr.set b ⟨off, size⟩ }, inp := some { inp with arr := inp.arr.set b ⟨off, size⟩ }, alloc := al' } x k → (x = b ∧ k = ⟨off, size⟩) ∨ (k ∈ L1 ∧ Refs s x k) := by
      rintro x k (hr | hr | ⟨inp', hr1, hr2⟩)
      · rcases hcb x k hr with h1 | ⟨h1, h2⟩
        · exact Or.inl h1
        · exact Or.inr ⟨hold1 x k (Or.inl h2) (fun he => absurd he h1), Or.inl h2⟩
      · exact Or.inr ⟨hck x k hr, Or.inr (Or.inl hr)⟩
      · simp only [Option.some.injEq] at hr1
        subst hr1
        rw [block_set hil] at hr2
        by_cases hxb : x = b
        · rw [if_pos hxb, if_pos hsz] at hr2
          cases hr2; exact Or.inl ⟨hxb, by simp⟩
        · rw [if_neg hxb] at hr2
          exact Or.inr ⟨hold1 x k (Or.inr (Or.inr ⟨inp, i1, hr2⟩)) (fun he => absurd he hxb), Or.inr (Or.inr ⟨inp, i1, hr2⟩)⟩
    refine ⟨{ s with cur := { s.cur with arr := s.cur.arr.set b ⟨off, size⟩ }, inp := some { inp with arr := inp.arr.set b ⟨off, size⟩ }, alloc := al' }, off, ⟨off, size⟩ :: L1, ?_, ⟨hrun, hcur1, h.ckp, ?_, h.ckpLen, ?_, ?_, ?_⟩, rfl, rfl, rfl, by simp [i1], ?_, ?_⟩
    · unfold Verif.Blk.realloc
      rw [i1] at f1
      simp only [hold, Option.bind_some, i1, f1, hz, if_true, g1, Option.map_some, hil]
    · intro inp' he; cases he; exact hinp1
    · intro inp' he; cases he; simpa using h.inpLen inp i1
    · intro x k hr
      rcases hkey x k hr with ⟨-, rfl⟩ | ⟨h1, -⟩
      · simp
      · simp [h1]
    · intro x y k hx hy
      rcases hkey x k hx with ⟨h1, rfl⟩ | ⟨h1, h1'⟩ <;> rcases hkey y _ hy with ⟨h2, h3⟩ | ⟨h2, h2'⟩
      · rw [h1, h2]
      · exact absurd h2 hnew1
      · subst h3; exact absurd h1 hnew1
      · exact h.own x y k h1' h2'
    · intro x hx; exact hnew1 (hck x _ hx)
    · intro hex hsm hpe k hk
      simp only [List.mem_cons] at hk
      rcases hk with rfl | hk
      · exact ⟨b, Or.inl (by simp only; rw [block_set hlt, if_pos rfl, if_pos hsz]; simp)⟩
      · obtain ⟨x, hx⟩ := hex k (f5 k hk)
        refine ⟨x, ?_⟩
        have hb0 : s.cur.block b = some k → s.ckp.block b = some k := by
          intro hc
          rcases f6 hsm k hk hc with h1 | ⟨h1, -⟩
          · exact h1
          · cases h1
        rcases hx with hx | hx | ⟨inp', h1, hx⟩
        · by_cases hxb : x = b
          · subst hxb; exact Or.inr (Or.inl (hb0 hx))
          · exact Or.inl (by simp only; rw [block_set hlt, if_neg hxb]; exact hx)
        · exact Or.inr (Or.inl hx)
        · rw [i1] at h1; cases h1
          by_cases hxb : x = b
          · subst hxb
            refine Or.inr (Or.inl (hb0 ?_))
            have := hpe rfl inp i1
            unfold Tr.block at hx ⊢
            rw [← this]; exact hx
          · exact Or.inr (Or.inr ⟨_, rfl, by rw [block_set hil, if_neg hxb]; exact hx⟩)

/-- Giving the checkpoint's translation a place. -/
theorem BInv.serialize {s : BT} {L : List Block} (h : BInv s L) {inp : Tr} (hi : s.inp = some inp) (hn : inp.block bnTranslation = none)
    (hr : hasRoom s.alloc (sizeOnDisk inp)) :
    ∃ (s' : BT) (off : Nat), allocTranslation s = some (s', off) ∧ BInv s' (⟨off, sizeOnDisk inp⟩ :: L) ∧ s'.ckp = s.ckp ∧ s'.cur = s.cur ∧ s'.skipped = s.skipped ∧
      s'.inp = some { inp with arr := inp.arr.set bnTranslation ⟨off, sizeOnDisk inp⟩ } ∧ (⟨off, sizeOnDisk inp⟩ : Block) ∉ L ∧ (Exact s L → Exact s' (⟨off, sizeOnDisk inp⟩ :: L)) := by
  have hz : 0 < sizeOnDisk inp := by unfold sizeOnDisk; omega
  obtain ⟨off, al', g1, g2⟩ := C28_allocation_succeeds h.run hz (h.run.room hr)
  have hrun : Run hdr algn al' (⟨off, sizeOnDisk inp⟩ :: L) := h.run.alloc (h.run.room hr) g1
  have hnew : (⟨off, sizeOnDisk inp⟩ : Block) ∉ L := (List.nodup_cons.mp hrun.nodup).1
  have hok := h.inp inp hi
  have hlt : bnTranslation < inp.smallest := by have := hok.res; unfold reservedBn at this; unfold bnTranslation; omega
  have hlt2 : bnTranslation < inp.arr.length := by have := hok.len; omega
  obtain ⟨q, hq⟩ : ∃ q, inp.arr[bnTranslation]? = some q := ⟨_, List.getElem?_eq_getElem hlt2⟩
  have hq0 := hok.low _ q (by decide) hq
  have hinp1 : ({ inp with arr := inp.arr.set bnTranslation ⟨off, sizeOnDisk inp⟩ } : Tr).OK :=
    hok.write hlt hq (by unfold sizeFree; omega) (by simp) (by simp only; omega) (by simp)
  have hkey : ∀ x k, Refs { s with inp := some { inp with arr := inp.arr.set bnTranslation ⟨off, sizeOnDisk inp⟩ }, alloc := al' } x k →
      (x = bnTranslation ∧ k = ⟨off, sizeOnDisk inp⟩) ∨ Refs s x k := by
    rintro x k (hr | hr | ⟨inp', hr1, hr2⟩)
    · exact Or.inr (Or.inl hr)
    · exact Or.inr (Or.inr (Or.inl hr))
    · simp only [Option.some.injEq] at hr1
      subst hr1
      rw [block_set hlt2] at hr2
      by_cases hxb : x = bnTranslation
      · rw [if_pos hxb, if_pos (by simp only; omega)] at hr2
        cases hr2; exact Or.inl ⟨hxb, by simp⟩
      · rw [if_neg hxb] at hr2
        exact Or.inr (Or.inr (Or.inr ⟨inp, hi, hr2⟩))
  refine ⟨{ s with inp := some { inp with arr := inp.arr.set bnTranslation ⟨off, sizeOnDisk inp⟩ }, alloc := al' }, off, ?_, ⟨hrun, h.cur, h.ckp, ?_, h.ckpLen, ?_, ?_, ?_⟩, rfl, rfl, rfl, rfl, hnew, ?_⟩
  · unfold allocTranslation
    simp only [hi, Option.bind_some, g1, hlt2, if_true]
  · intro inp' he; cases he; exact hinp1
  · intro inp' he; cases he; simpa using h.inpLen inp hi
  · intro x k hr
    rcases hkey x k hr with ⟨-, rfl⟩ | h1
    · simp
    · simp [h.live x k h1]
  · intro x y k hx hy
    rcases hkey x k hx with ⟨h1, rfl⟩ | h1 <;> rcases hkey y _ hy with ⟨h2, h3⟩ | h2
    · rw [h1, h2]
    · exact absurd (h.live _ _ h2) hnew
    · subst h3; exact absurd (h.live _ _ h1) hnew
    · exact h.own x y k h1 h2
  · intro hex k hk
    simp only [List.mem_cons] at hk
    rcases hk with rfl | hk
    · exact ⟨bnTranslation, Or.inr (Or.inr ⟨_, rfl, by rw [block_set hlt2, if_pos rfl, if_pos (by simp only; omega)]; simp⟩)⟩
    · obtain ⟨x, hx⟩ := hex k hk
      refine ⟨x, ?_⟩
      rcases hx with hx | hx | ⟨i, h1, hx⟩
      · exact Or.inl hx
      · exact Or.inr (Or.inl hx)
      · rw [hi] at h1; cases h1
        refine Or.inr (Or.inr ⟨_, rfl, ?_⟩)
        rw [block_set hlt2, if_neg]
        · exact hx
        · rintro rfl; rw [hn] at hx; cases hx

/-- Freeing a number. -/
theorem BInv.freeNumber {s : BT} {L : List Block} (h : BInv s L) {b : Nat} {forCk : Bool} (hb : s.cur.inUse b)
    (hf : forCk = true → ∃ inp, s.inp = some inp ∧ inp.inUse b) :
    ∃ s' L', freeBlocknum s b forCk = some s' ∧ BInv s' L' ∧ s'.ckp = s.ckp ∧ freeIn s.cur b = some s'.cur ∧ s'.skipped = s.skipped ∧
      (if forCk then ∃ inp inp', s.inp = some inp ∧ s'.inp = some inp' ∧ freeIn inp b = some inp' else s'.inp = s.inp) ∧
      (Exact s L → BSmall s' → (forCk = true → ∀ inp, s.inp = some inp → inp.arr[b]? = s.cur.arr[b]?) → Exact s' L') := by
  obtain ⟨b1, b2, old, b3, b4⟩ := hb
  have hlt : b < s.cur.arr.length := by have := h.cur.len; omega
  have hc : ∃ cur', freeIn s.cur b = some cur' := ⟨_, by rw [freeIn, if_pos ⟨b1, b2, hlt⟩]⟩
  obtain ⟨cur', c1⟩ := hc
  have c2 := h.cur.free c1 b3 b4
  have c3 := block_free c1
  have hi : ∃ inp', (if forCk then s.inp.bind fun inp => (freeIn inp b).map some else some s.inp) = some inp' ∧
      (∀ i, inp' = some i → i.OK ∧ i.arr.length = i.smallest) ∧
      (∀ i x k, inp' = some i → i.block x = some k → (forCk = true → x ≠ b) ∧ ∃ i0, s.inp = some i0 ∧ i0.block x = some k) ∧
      (if forCk then ∃ inp i, s.inp = some inp ∧ inp' = some i ∧ freeIn inp b = some i else inp' = s.inp) := by
    cases hfc : forCk with
    | false => exact ⟨s.inp, rfl, fun i hi => ⟨h.inp i hi, h.inpLen i hi⟩, fun i x k h1 h2 => ⟨by simp, i, h1, h2⟩, rfl⟩
    | true =>
      obtain ⟨inp, i1, i2, i3, q, i4, i5⟩ := hf hfc
      have hil : b < inp.arr.length := by have := (h.inp inp i1).len; omega
      have d1 : freeIn inp b = some { inp with arr := inp.arr.set b ⟨inp.head, sizeFree⟩, head := b } := by rw [freeIn, if_pos ⟨i2, i3, hil⟩]
      refine ⟨some { inp with arr := inp.arr.set b ⟨inp.head, sizeFree⟩, head := b }, by simp only [i1, Option.bind_some, d1, if_true]; rfl, ?_, ?_, inp, _, i1, rfl, d1⟩
      · intro i hi; cases hi
        exact ⟨(h.inp inp i1).free d1 i4 i5, by simpa using h.inpLen inp i1⟩
      · intro i x k hi hk; cases hi
        rw [block_free d1] at hk
        by_cases hx : x = b
        · rw [if_pos hx] at hk; cases hk
        · rw [if_neg hx] at hk
          exact ⟨fun _ => hx, inp, i1, hk⟩
  obtain ⟨inp', d1, d2, d3, d4⟩ := hi
  have hrefs : ∀ al x k, Refs { s with cur := cur', inp := inp', alloc := al } x k → Refs s x k := by
    rintro al x k (hr | hr | ⟨i, hr1, hr2⟩)
    · simp only [c3] at hr
      split at hr
      · cases hr
      · exact Or.inl hr
    · exact Or.inr (Or.inl hr)
    · exact Or.inr (Or.inr (d3 i x k hr1 hr2).2)
  have hexact : ∀ al k, Exact s L → (forCk = true → ∀ inp, s.inp = some inp → inp.arr[b]? = s.cur.arr[b]?) → k ∈ L →
      (s.cur.block b = some k → s.ckp.block b = some k ∨ ∃ i, inp' = some i ∧ i.block b = some k) →
      ∃ x, Refs { s with cur := cur', inp := inp', alloc := al } x k := by
    intro al k hex hpe hk hb
    obtain ⟨x, hx⟩ := hex k hk
    have hb' : x = b → s.cur.block b = some k → Refs { s with cur := cur', inp := inp', alloc := al } x k := by
      intro hxb hc
      subst hxb
      rcases hb hc with h1 | h1
      · exact Or.inr (Or.inl h1)
      · exact Or.inr (Or.inr h1)
    refine ⟨x, ?_⟩
    rcases hx with hx | hx | ⟨i0, h1, hx⟩
    · by_cases hxb : x = b
      · exact hb' hxb (hxb ▸ hx)
      · exact Or.inl (by simp only [c3]; rw [if_neg hxb]; exact hx)
    · exact Or.inr (Or.inl hx)
    · cases hfc : forCk with
      | false =>
        rw [hfc] at d4
        exact Or.inr (Or.inr ⟨i0, by simp only; rw [d4]; exact h1, hx⟩)
      | true =>
        rw [hfc] at d4
        obtain ⟨i1, i2, g1, g2, g3⟩ := d4
        rw [h1] at g1; cases g1
        by_cases hxb : x = b
        · refine hb' hxb ?_
          have := hpe hfc i0 h1
          rw [hxb] at hx
          unfold Tr.block at hx ⊢
          rw [← this]; exact hx
        · exact Or.inr (Or.inr ⟨i2, g2, by rw [block_free g3, if_neg hxb]; exact hx⟩)
  by_cases hcond : 0 < old.size ∧ (prevents inp' b old || prevents (some s.ckp) b old) = false
  · obtain ⟨hbl, hu0⟩ := h.cur.block_shape b3 hcond.1
    have hkL := h.live b _ (Or.inl hbl)
    obtain ⟨al, a1⟩ := C28_free_succeeds h.run hkL
    have hp := hcond.2
    rw [Bool.or_eq_false_iff] at hp
    refine ⟨{ s with cur := cur', inp := inp', alloc := al }, _, ?_, h.drop hkL a1 rfl c2 h.ckp (fun i hi => (d2 i hi).1) h.ckpLen (fun i hi => (d2 i hi).2) (hrefs al) ?_, rfl, c1, rfl, d4, ?_⟩
    · unfold freeBlocknum
      simp only [b3, Option.bind_some, c1, d1]
      rw [if_pos hcond]
      simp only [a1, Option.map_some]
    · rintro x (hr | hr | ⟨i, hr1, hr2⟩)
      · simp only [c3] at hr
        split at hr
        · cases hr
        · rename_i hx; exact hx (h.own x b _ (Or.inl hr) (Or.inl hbl))
      · have hx := h.own x b _ (Or.inr (Or.inl hr)) (Or.inl hbl)
        subst hx
        rw [prevents_of_block h.ckp hr hu0 rfl] at hp; simp at hp
      · simp only at hr1
        have hx := h.own x b _ (Or.inr (Or.inr (d3 i x _ hr1 hr2).2)) (Or.inl hbl)
        subst hx
        rw [hr1, prevents_of_block (d2 i hr1).1 hr2 hu0 rfl] at hp; simp at hp
    · intro hex hsm hpe k hk
      rw [List.Nodup.mem_erase_iff h.run.nodup] at hk
      exact hexact al k hex hpe hk.2 (fun hc => by rw [hbl] at hc; cases hc; exact absurd rfl hk.1)
  · refine ⟨{ s with cur := cur', inp := inp' }, L, ?_, h.keep rfl c2 h.ckp (fun i hi => (d2 i hi).1) h.ckpLen (fun i hi => (d2 i hi).2) (hrefs s.alloc), rfl, c1, rfl, d4, ?_⟩
    · unfold freeBlocknum
      simp only [b3, Option.bind_some, c1, d1]
      rw [if_neg hcond]
    · intro hex hsm hpe k hk
      refine hexact s.alloc k hex hpe hk (fun hc => ?_)
      obtain ⟨p, p1, p2, p3⟩ := block_of_some.mp hc
      rw [b3] at p1; cases p1
      have hu0 := (h.cur.shape b old b3).2.2 p2
      have hor : (prevents inp' b old || prevents (some s.ckp) b old) = true := by
        cases hv : (prevents inp' b old || prevents (some s.ckp) b old) with
        | true => rfl
        | false => exact absurd ⟨p2, hv⟩ hcond
      rw [Bool.or_eq_true] at hor
      rcases hor with hv | hv
      · right
        cases hin : inp' with
        | none => rw [hin] at hv; simp [prevents] at hv
        | some i =>
          rw [hin] at hv
          exact ⟨i, rfl, h.prevents_exact (d2 i hin).1 (hsm.2.2 i hin) (fun x k hx => h.live x k (Or.inr (Or.inr (d3 i x k hin hx).2))) hu0 hk (by rw [p3]) hv⟩
      · exact Or.inl (h.prevents_exact h.ckp hsm.2.1 (fun x k hx => h.live x k (Or.inr (Or.inl hx))) hu0 hk (by rw [p3]) hv)

theorem BInv.freeUnused {s : BT} {L : List Block} (h : BInv s L) (root : Nat) :
    ∃ s', freeUnusedBlocknums s root = some s' ∧ BInv s' L ∧ s'.ckp = s.ckp ∧ s'.inp = s.inp ∧ s'.skipped = s.skipped ∧ (∀ b, s'.cur.block b = s.cur.block b) ∧
      (∀ b, s'.cur.inUse b → s.cur.inUse b ∧ s'.cur.arr[b]? = s.cur.arr[b]?) ∧ (Exact s L → Exact s' L) := by
  have hres := h.cur.res
  obtain ⟨t, e0, e1, e2, e3, e4, e5, -⟩ := h.cur.freeUnused (root := root) (k := s.cur.smallest - reservedBn) (i := reservedBn) (by simp) (by omega)
  refine ⟨{ s with cur := t }, by rw [freeUnusedBlocknums, e0]; rfl, h.keep rfl e1 h.ckp h.inp h.ckpLen h.inpLen ?_, rfl, rfl, rfl, e3, e4, ?_⟩
  · rintro x k (hr | hr | hr)
    · exact Or.inl (by rw [← e3]; exact hr)
    · exact Or.inr (Or.inl hr)
    · exact Or.inr (Or.inr hr)
  · intro hex k hk
    obtain ⟨x, hr | hr | hr⟩ := hex k hk
    · exact ⟨x, Or.inl (by simp only [e3]; exact hr)⟩
    · exact ⟨x, Or.inr (Or.inl hr)⟩
    · exact ⟨x, Or.inr (Or.inr hr)⟩

theorem BInv.start {s : BT} {L : List Block} (h : BInv s L) (hn : s.inp = none) :
    ∃ s' inp, noteStart s = some s' ∧ BInv s' L ∧ s'.ckp = s.ckp ∧ s'.inp = some inp ∧ inp.block bnTranslation = none ∧ s'.skipped = false ∧ (∀ b, s'.cur.block b = s.cur.block b) ∧
      (∀ b, s'.cur.inUse b ↔ s.cur.inUse b) ∧ (∀ b, inp.inUse b ↔ s.cur.inUse b) ∧ (∀ b, b ≠ bnTranslation → b < s'.cur.smallest → inp.arr[b]? = s'.cur.arr[b]?) ∧
      (∀ (b : Nat) (p : Pair), p.size ≠ sizeFree → (s'.cur.arr[b]? = some p ↔ s.cur.arr[b]? = some p)) ∧ inp.smallest = s'.cur.smallest ∧ (Exact s L → Exact s' L) := by
  obtain ⟨o1, o2, o3, o4⟩ := h.cur.optimize
  obtain ⟨inp, e1, e2, e3, e4, e5, e6, e7, e8, e9⟩ := o1.copy
  refine ⟨{ s with cur := optimize s.cur, inp := some inp, skipped := false }, inp, ?_, h.keep rfl o1 h.ckp ?_ h.ckpLen ?_ ?_, rfl, rfl, e9, rfl, o4, o2, fun b => by rw [e7, o2], e6, o3, e3, ?_⟩
  · simp only [noteStart, hn, e1]; rfl
  · intro i hi; cases hi; exact e2
  · intro i hi; cases hi; exact e4
  · rintro x k (hr | hr | ⟨i, hr1, hr2⟩)
    · exact Or.inl (by rw [← o4]; exact hr)
    · exact Or.inr (Or.inl hr)
    · simp only [Option.some.injEq] at hr1
      subst hr1
      by_cases hx : x = bnTranslation
      · subst hx; rw [e9] at hr2; cases hr2
      · rw [e8 x hx, o4] at hr2; exact Or.inl hr2
  · intro hex k hk
    obtain ⟨x, hr | hr | ⟨i, hr, -⟩⟩ := hex k hk
    · exact ⟨x, Or.inl (by simp only [o4]; exact hr)⟩
    · exact ⟨x, Or.inr (Or.inl hr)⟩
    · rw [hn] at hr; cases hr

/-- The loop that ends a checkpoint. -/
theorem freeOld_run {inp cur : Tr} (hi : inp.OK) (hc : cur.OK) {ps : List Pair} {i : Nat} {al al' : Alloc} {L : List Block} (hrun : Run hdr algn al L)
    (he : freeOld inp cur i ps al = some al')
    (hlive : ∀ b k, (cur.block b = some k ∨ inp.block b = some k) → k ∈ L)
    (hps : ∀ (j : Nat) p, ps[j]? = some p → 0 < p.size → 0 ≤ p.u ∧ (⟨p.u.toNat, p.size.toNat⟩ : Block) ∈ L)
    (hown : ∀ (j : Nat) p b, ps[j]? = some p → 0 < p.size → (cur.block b = some ⟨p.u.toNat, p.size.toNat⟩ ∨ inp.block b = some ⟨p.u.toNat, p.size.toNat⟩) → b = i + j)
    (hown2 : ∀ (j j' : Nat) (p p' : Pair), ps[j]? = some p → ps[j']? = some p' → 0 < p.size → 0 < p'.size → p.u.toNat = p'.u.toNat → p.size.toNat = p'.size.toNat → j = j') :
    ∃ L', Run hdr algn al' L' ∧ (∀ b k, (cur.block b = some k ∨ inp.block b = some k) → k ∈ L') ∧
      (∀ k ∈ L', k ∈ L ∧ ∀ (j : Nat) p, ps[j]? = some p → 0 < p.size → k = ⟨p.u.toNat, p.size.toNat⟩ → prevents (some inp) (i + j) p = true) := by
  induction ps generalizing i al L with
  | nil => rw [freeOld] at he; cases he; exact ⟨L, hrun, hlive, fun k hk => ⟨hk, by simp⟩⟩
  | cons p ps ih =>
    rw [freeOld] at he
    have hshift : ∀ (L2 : List Block), (∀ (j : Nat) p, ps[j]? = some p → 0 < p.size → (⟨p.u.toNat, p.size.toNat⟩ : Block) ∈ L2) → 
        (∀ (j : Nat) p, ps[j]? = some p → 0 < p.size → 0 ≤ p.u ∧ (⟨p.u.toNat, p.size.toNat⟩ : Block) ∈ L2) ∧
        (∀ (j : Nat) p b, ps[j]? = some p → 0 < p.size → (cur.block b = some ⟨p.u.toNat, p.size.toNat⟩ ∨ inp.block b = some ⟨p.u.toNat, p.size.toNat⟩) → b = i + 1 + j) ∧
        (∀ (j j' : Nat) (p p' : Pair), ps[j]? = some p → ps[j']? = some p' → 0 < p.size → 0 < p'.size → p.u.toNat = p'.u.toNat → p.size.toNat = p'.size.toNat → j = j') := by
      intro L2 hL2
      refine ⟨fun j q hq hs => ⟨(hps (j + 1) q hq hs).1, hL2 j q hq hs⟩, fun j q b hq hs hb => ?_, fun j j' q q' hq hq' h1 h2 h3 h4 => ?_⟩
      · have := hown (j + 1) q b hq hs hb; omega
      · have := hown2 (j + 1) (j' + 1) q q' hq hq' h1 h2 h3 h4; omega
    by_cases hcond : 0 < p.size ∧ prevents (some inp) i p = false
    · rw [if_pos hcond] at he
      split at he
      · cases he
      · rename_i hcur
        obtain ⟨al1, ha1, he1⟩ := Option.bind_eq_some_iff.mp he
        obtain ⟨hu0, hkL⟩ := hps 0 p rfl hcond.1
        have hrun1 := hrun.free hkL ha1
        have hne : ∀ b k, (cur.block b = some k ∨ inp.block b = some k) → k ≠ ⟨p.u.toNat, p.size.toNat⟩ := by
          rintro b k hb rfl
          have hbi := hown 0 p b rfl hcond.1 hb
          simp only [Nat.add_zero] at hbi
          subst hbi
          rcases hb with hb | hb
          · exact hcur (prevents_of_block hc hb hu0 rfl)
          · rw [prevents_of_block hi hb hu0 rfl] at hcond; exact absurd hcond.2 (by simp)
        obtain ⟨s1, s2, s3⟩ := hshift (L.erase ⟨p.u.toNat, p.size.toNat⟩) (by
          intro j q hq hs
          rw [List.Nodup.mem_erase_iff hrun.nodup]
          refine ⟨fun heq => ?_, (hps (j + 1) q hq hs).2⟩
          have := hown2 (j + 1) 0 q p hq rfl hs hcond.1 (congrArg Block.off heq) (congrArg Block.size heq)
          omega)
        obtain ⟨L', r1, r2, r3⟩ := ih hrun1 he1 (fun b k hb => by rw [List.Nodup.mem_erase_iff hrun.nodup]; exact ⟨hne b k hb, hlive b k hb⟩) s1 s2 s3
        refine ⟨L', r1, r2, fun k hk => ?_⟩
        obtain ⟨k1, k2⟩ := r3 k hk
        rw [List.Nodup.mem_erase_iff hrun.nodup] at k1
        refine ⟨k1.2, fun j q hq hs hkq => ?_⟩
        cases j with
        | zero => simp only [List.getElem?_cons_zero, Option.some.injEq] at hq; subst hq; exact absurd hkq k1.1
        | succ j => have := k2 j q hq hs hkq; rw [Nat.add_assoc, Nat.add_comm 1] at this; exact this
    · rw [if_neg hcond] at he
      obtain ⟨s1, s2, s3⟩ := hshift L (fun j q hq hs => (hps (j + 1) q hq hs).2)
      obtain ⟨L', r1, r2, r3⟩ := ih hrun he hlive s1 s2 s3
      refine ⟨L', r1, r2, fun k hk => ?_⟩
      obtain ⟨k1, k2⟩ := r3 k hk
      refine ⟨k1, fun j q hq hs hkq => ?_⟩
      cases j with
      | zero =>
        simp only [List.getElem?_cons_zero, Option.some.injEq] at hq; subst hq
        cases hv : prevents (some inp) i p with
        | true => rfl
        | false => exact absurd ⟨hs, hv⟩ hcond
      | succ j => have := k2 j q hq hs hkq; rw [Nat.add_assoc, Nat.add_comm 1] at this; exact this

theorem BInv.endCk {s s' : BT} {L : List Block} (h : BInv s L) (he : noteEnd s = some s') :
    ∃ inp, s.inp = some inp ∧ s'.cur = s.cur ∧ s'.inp = none ∧
      (∃ L', BInv s' L' ∧ (Exact s L → BSmall s → (s.skipped = true → ∀ b k, inp.block b = some k → s.ckp.block b = some k) → Exact s' L')) ∧
      (s'.ckp = s.ckp ∧ s.skipped = true ∨ s'.ckp = inp ∧ s.skipped = false ∧ (inp.block bnTranslation).isSome) := by
  obtain ⟨inp, hi, he⟩ := Option.bind_eq_some_iff.mp he
  refine ⟨inp, hi, ?_⟩
  by_cases hsk : s.skipped
  · rw [if_pos hsk] at he
    cases he
    refine ⟨rfl, rfl, ⟨L, h.keep rfl h.cur h.ckp (by simp) h.ckpLen (by simp) ?_, ?_⟩, Or.inl ⟨rfl, hsk⟩⟩
    · rintro x k (hr | hr | ⟨i, hr1, -⟩)
      · exact Or.inl hr
      · exact Or.inr (Or.inl hr)
      · cases hr1
    · intro hex hsm hcl k hk
      obtain ⟨x, hx⟩ := hex k hk
      refine ⟨x, ?_⟩
      rcases hx with hx | hx | ⟨i, h1, hx⟩
      · exact Or.inl hx
      · exact Or.inr (Or.inl hx)
      · rw [hi] at h1; cases h1
        exact Or.inr (Or.inl (hcl hsk x k hx))
  · rw [if_neg hsk] at he
    obtain ⟨p, hp, he⟩ := Option.bind_eq_some_iff.mp he
    split at he
    · rename_i hps
      obtain ⟨al, ha, rfl⟩ := Option.map_eq_some_iff.mp he
      have hck : ∀ (j : Nat) p, s.ckp.arr[j]? = some p → 0 < p.size → s.ckp.block j = some ⟨p.u.toNat, p.size.toNat⟩ ∧ 0 ≤ p.u :=
        fun j p h1 h2 => h.ckp.block_shape h1 h2
      have href : ∀ b k, (s.cur.block b = some k ∨ inp.block b = some k) → Refs s b k := by
        rintro b k (hb | hb)
        · exact Or.inl hb
        · exact Or.inr (Or.inr ⟨inp, hi, hb⟩)
      obtain ⟨L', r1, r2, r3⟩ := freeOld_run (h.inp inp hi) h.cur h.run ha (fun b k hb => h.live b k (href b k hb))
        (fun j p h1 h2 => ⟨(hck j p h1 h2).2, h.live j _ (Or.inr (Or.inl (hck j p h1 h2).1))⟩)
        (fun j p b h1 h2 hb => by have := h.own b j _ (href b _ hb) (Or.inr (Or.inl (hck j p h1 h2).1)); omega)
        (fun j j' p p' h1 h1' h2 h2' h3 h4 => by
          have e1 := (hck j p h1 h2).1
          have e2 := (hck j' p' h1' h2').1
          rw [h3, h4] at e1
          exact h.own j j' _ (Or.inr (Or.inl e1)) (Or.inr (Or.inl e2)))
      have hsub : ∀ x k, Refs { s with ckp := inp, inp := none, alloc := al } x k → s.cur.block x = some k ∨ inp.block x = some k := by
        rintro x k (hr | hr | ⟨i, hr1, -⟩)
        · exact Or.inl hr
        · exact Or.inr hr
        · cases hr1
      refine ⟨rfl, rfl, ⟨L', ⟨r1, h.cur, h.inp inp hi, by simp, h.inpLen inp hi, by simp, fun b k hr => r2 b k (hsub b k hr),
        fun b b' k hr hr' => h.own b b' k (href b k (hsub b k hr)) (href b' k (hsub b' k hr'))⟩, ?_⟩, Or.inr ⟨rfl, by simpa using hsk, ?_⟩⟩
      · intro hex hsm _ k hk
        obtain ⟨k1, k2⟩ := r3 k hk
        obtain ⟨x, hx⟩ := hex k k1
        refine ⟨x, ?_⟩
        rcases hx with hx | hx | ⟨i, h1, hx⟩
        · exact Or.inl hx
        · obtain ⟨q, q1, q2, q3⟩ := block_of_some.mp hx
          have hv := k2 x q q1 q2 q3
          rw [Nat.zero_add] at hv
          exact Or.inr (Or.inl (h.prevents_exact (h.inp inp hi) (hsm.2.2 inp hi) (fun y k' hy => h.live y k' (href y k' (Or.inr hy))) (hck x q q1 q2).2 k1 (by rw [q3]) hv))
        · rw [hi] at h1; cases h1; exact Or.inr (Or.inl hx)
      rw [(block_of_some (t := inp)).mpr ⟨p, hp, hps.1, rfl⟩]; rfl
    · cases he

theorem usedPairs_spec {ps : List Pair} (h : ∀ (j : Nat) p, ps[j]? = some p → 0 < p.size → 0 ≤ p.u) :
    ∃ bs, usedPairs ps = some bs ∧ (∀ k, k ∈ bs ↔ ∃ (j : Nat) (p : Pair), ps[j]? = some p ∧ 0 < p.size ∧ k = ⟨p.u.toNat, p.size.toNat⟩) ∧
      ((∀ (j j' : Nat) (p p' : Pair), ps[j]? = some p → ps[j']? = some p' → 0 < p.size → 0 < p'.size → j ≠ j' →
        ¬ Block.overlap ⟨p.u.toNat, p.size.toNat⟩ ⟨p'.u.toNat, p'.size.toNat⟩) → bs.Pairwise (fun x y => ¬ x.overlap y)) := by
  induction ps with
  | nil => exact ⟨[], rfl, by simp, by simp⟩
  | cons p ps ih =>
    obtain ⟨bs, e1, e2, e3⟩ := ih (fun j q hq => h (j + 1) q hq)
    rw [usedPairs]
    by_cases hp : 0 < p.size
    · have hu := h 0 p rfl hp
      rw [if_pos hp, if_neg (by unfold diskUnused; omega), e1]
      refine ⟨⟨p.u.toNat, p.size.toNat⟩ :: bs, rfl, fun k => ?_, fun hd => ?_⟩
      · rw [List.mem_cons, e2]
        constructor
        · rintro (h1 | ⟨j, q, h1, h2, h3⟩)
          · exact ⟨0, p, rfl, hp, h1⟩
          · exact ⟨j + 1, q, h1, h2, h3⟩
        · rintro ⟨j, q, h1, h2, h3⟩
          cases j with
          | zero => simp only [List.getElem?_cons_zero, Option.some.injEq] at h1; subst h1; exact Or.inl h3
          | succ j => exact Or.inr ⟨j, q, h1, h2, h3⟩
      · rw [List.pairwise_cons]
        refine ⟨fun k hk => ?_, e3 fun j j' q q' h1 h2 h3 h4 h5 => hd (j + 1) (j' + 1) q q' h1 h2 h3 h4 (by omega)⟩
        obtain ⟨j, q, h1, h2, rfl⟩ := (e2 k).mp hk
        exact hd 0 (j + 1) p q rfl h1 hp h2 (by omega)
    · rw [if_neg hp]
      refine ⟨bs, e1, fun k => ?_, fun hd => e3 fun j j' q q' h1 h2 h3 h4 h5 => hd (j + 1) (j' + 1) q q' h1 h2 h3 h4 (by omega)⟩
      rw [e2]
      constructor
      · rintro ⟨j, q, h1, h2, h3⟩; exact ⟨j + 1, q, h1, h2, h3⟩
      · rintro ⟨j, q, h1, h2, h3⟩
        cases j with
        | zero => simp only [List.getElem?_cons_zero, Option.some.injEq] at h1; subst h1; exact absurd h2 hp
        | succ j => exact ⟨j, q, h1, h2, h3⟩

/-- Opening the dictionary from the last checkpoint. -/
theorem BInv.reopen {s : BT} {L : List Block} (h : BInv s L) {b0 : Nat} {k0 : Block} (hk0 : s.ckp.block b0 = some k0) :
    ∃ s' L', openBT s.ckp = some s' ∧ BInv s' L' ∧ s'.ckp = s.ckp ∧ s'.inp = none ∧ s'.skipped = false ∧ (∀ b, b ≠ bnTranslation → s'.cur.block b = s.ckp.block b) ∧
      (∀ b, s'.cur.inUse b ↔ s.ckp.inUse b) ∧ (∀ b, b ≠ bnTranslation → b < s.ckp.smallest → s'.cur.arr[b]? = s.ckp.arr[b]?) ∧ s'.cur.block bnTranslation = none ∧
      s'.cur.smallest = s.ckp.smallest ∧ Exact s' L' := by
  obtain ⟨cur, e1, e2, e3, e4, e5, e6, e7, e8, e9⟩ := h.ckp.copy
  have htake : s.ckp.arr.take s.ckp.smallest = s.ckp.arr := List.take_of_length_le (by rw [h.ckpLen]; exact Nat.le_refl _)
  obtain ⟨bs, u1, u2, u3⟩ := usedPairs_spec (ps := s.ckp.arr) (fun j p h1 h2 => (h.ckp.shape j p h1).2.2 h2)
  have hmem : ∀ k, k ∈ bs ↔ ∃ b, s.ckp.block b = some k := by
    intro k
    rw [u2]
    constructor
    · rintro ⟨j, p, h1, h2, h3⟩; exact ⟨j, block_of_some.mpr ⟨p, h1, h2, h3⟩⟩
    · rintro ⟨j, hj⟩
      obtain ⟨p, h1, h2, h3⟩ := block_of_some.mp hj
      exact ⟨j, p, h1, h2, h3⟩
  have hsubL : ∀ k ∈ bs, k ∈ L := by
    intro k hk
    obtain ⟨b, hb⟩ := (hmem k).mp hk
    exact h.live b k (Or.inr (Or.inl hb))
  have hd := u3 (by
    intro j j' p p' h1 h2 h3 h4 h5
    have b1 := (h.ckp.block_shape h1 h3).1
    have b2 := (h.ckp.block_shape h2 h4).1
    refine h.run.apart (h.live j _ (Or.inr (Or.inl b1))) (h.live j' _ (Or.inr (Or.inl b2))) fun heq => h5 ?_
    rw [heq] at b1
    exact h.own j j' _ (Or.inr (Or.inl b1)) (Or.inr (Or.inl b2)))
  have hok : ∀ k ∈ bs, 0 < k.size ∧ hdr ≤ k.off ∧ k.off % algn = 0 ∧ k.off + k.size < maxVal := fun k hk => h.run.ok (hsubL k hk)
  obtain ⟨al, a1⟩ := C28_open_succeeds (r := hdr) (a := algn) (L := bs) (by decide) (by decide) (by decide)
    (by intro hn; have := (hmem k0).mpr ⟨_, hk0⟩; rw [hn] at this; simp at this) hd hok
  have hsub : ∀ b k, Refs ⟨cur, none, s.ckp, al, false⟩ b k → s.ckp.block b = some k := by
    rintro b k (hr | hr | ⟨i, hr1, -⟩)
    · simp only at hr
      by_cases hb : b = bnTranslation
      · subst hb; rw [e9] at hr; cases hr
      · rw [e8 b hb] at hr; exact hr
    · exact hr
    · cases hr1
  refine ⟨⟨cur, none, s.ckp, al, false⟩, bs, ?_, ⟨.opened (by decide) (fun k hk => (hok k hk).2.2.2) a1, e2, h.ckp, by simp, h.ckpLen, by simp,
    fun b k hr => (hmem k).mpr ⟨b, hsub b k hr⟩, fun b b' k hr hr' => h.own b b' k (Or.inr (Or.inl (hsub b k hr))) (Or.inr (Or.inl (hsub b' k hr')))⟩,
    rfl, rfl, rfl, e8, e7, e6, e9, e3, fun k hk => by obtain ⟨b, hb⟩ := (hmem k).mp hk; exact ⟨b, Or.inr (Or.inl hb)⟩⟩
  rw [openBT, e1, Option.bind_some, htake, u1, Option.bind_some, a1]; rfl

theorem usedPairs_none {ps : List Pair} (h : ∀ p ∈ ps, ¬ 0 < p.size) : usedPairs ps = some [] := by
  induction ps with
  | nil => rfl
  | cons p ps ih => rw [usedPairs, if_neg (h p (by simp))]; exact ih fun q hq => h q (by simp [hq])

/-- A dictionary that was opened names a block. -/
theorem openBT_block {t : Tr} {s : BT} (h : openBT t = some s) : ∃ b k, t.block b = some k := by
  by_cases hex : ∃ b k, t.block b = some k
  · exact hex
  · exfalso
    have hz : ∀ p ∈ t.arr.take t.smallest, ¬ 0 < p.size := by
      intro p hp hs
      obtain ⟨b, hb⟩ := List.getElem?_of_mem (List.mem_of_mem_take hp)
      exact hex ⟨b, _, block_of_some.mpr ⟨p, hb, hs, rfl⟩⟩
    rw [openBT, usedPairs_none hz] at h
    obtain ⟨c, -, h⟩ := Option.bind_eq_some_iff.mp h
    simp only [Option.bind_some, createFrom] at h
    revert h
    simp

end Verif.Blk
