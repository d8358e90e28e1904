import Verif.Blk.FitLemmas
import Verif.Blk.AllocSpec

/-! The invariant of the allocator. -/
namespace Verif.Blk

/-- A byte of a block. -/
def Block.has (b : Block) (n : Nat) : Prop := b.off ≤ n ∧ n < b.off + b.size

/-- A block that may be on disk: nonempty, aligned, after the reserved area, ending below the infinite offset. -/
def Block.ok (r a : Nat) (b : Block) : Prop := 0 < b.size ∧ r ≤ b.off ∧ b.off % a = 0 ∧ b.off + b.size < maxVal

structure Inv (r a : Nat) (s : Alloc) (L : List Block) : Prop where
  reserve : s.reserve = r
  align : s.align = a
  apos : 0 < a
  rlt : r < maxVal
  good : Good a s.tree
  hs : HS s.tree.holes
  free : ∀ n, FreeAt s.tree.holes n ↔ r ≤ n ∧ ∀ b ∈ L, ¬ b.has n
  blocks : ∀ b ∈ L, b.ok r a
  disj : L.Pairwise fun x y => ¬ x.overlap y
  count : s.nBlocks % 2 ^ 64 = L.length % 2 ^ 64
  bytes : s.nBytes % 2 ^ 64 = (r + total L) % 2 ^ 64

theorem pairwise_tri {α : Type _} {R : α → α → Prop} {l : List α} (h : l.Pairwise R) {x y : α} (hx : x ∈ l) (hy : y ∈ l) : x = y ∨ R x y ∨ R y x := by
  induction h with
  | nil => cases hx
  | cons h1 h2 ih =>
    rcases List.mem_cons.mp hx with hx1 | hx1 <;> rcases List.mem_cons.mp hy with hy1 | hy1
    · exact .inl (hx1.trans hy1.symm)
    · exact .inr (.inl (hx1 ▸ h1 _ hy1))
    · exact .inr (.inr (hy1 ▸ h1 _ hx1))
    · exact ih hx1 hy1

/-- Two holes that share or touch a byte are the same hole. -/
theorem hs_touch {hs : List Hole} (h : HS hs) {x y : Hole} (hx : x ∈ hs) (hy : y ∈ hs) {n m : Nat} (h1 : x.has n) (h2 : y.has m)
    (hnm : n ≤ m + 1 ∧ m ≤ n + 1) : x = y := by
  rcases pairwise_tri h.1 hx hy with e | ⟨e1, e2⟩ | ⟨e1, e2⟩
  · exact e
  · unfold Hole.fin at e1; unfold Hole.has at h1 h2; omega
  · unfold Hole.fin at e1; unfold Hole.has at h1 h2; omega

theorem Hole.ok.first {h : Hole} (hk : h.ok) : h.has h.off := by
  obtain ⟨h1, h2, h3⟩ := hk; unfold Hole.has; omega

/-- A run of free bytes lies in one hole. -/
theorem hs_run {hs : List Hole} (h : HS hs) {y size : Nat} (hz : 0 < size) (hf : ∀ n, y ≤ n → n < y + size → FreeAt hs n) :
    ∃ x ∈ hs, ∀ n, y ≤ n → n < y + size → x.has n := by
  obtain ⟨x, hx, hxy⟩ := hf y (by omega) (by omega)
  refine ⟨x, hx, fun n hn1 hn2 => ?_⟩
  obtain ⟨k, rfl⟩ : ∃ k, n = y + k := ⟨n - y, by omega⟩
  clear hn1
  induction k with
  | zero => exact hxy
  | succ k ih =>
    obtain ⟨x', hx', hh⟩ := hf (y + (k + 1)) (by omega) hn2
    have := hs_touch h hx hx' (ih (by omega)) hh (by omega)
    subst this; exact hh

/-- Where holes begin. -/
theorem Inv.hole_off {r a : Nat} {s : Alloc} {L : List Block} (i : Inv r a s L) {h : Hole} (hh : h ∈ s.tree.holes) :
    h.off = r ∨ ∃ b ∈ L, h.off = b.off + b.size := by
  have hk := i.hs.2 h hh
  have h1 := (i.free h.off).mp ⟨h, hh, hk.first⟩
  by_cases hr : h.off = r
  · exact .inl hr
  · right
    have : ¬ FreeAt s.tree.holes (h.off - 1) := by
      rintro ⟨x, hx, hx2⟩
      have := hs_touch i.hs hh hx hk.first hx2 (by omega)
      subst this
      unfold Hole.has at hx2; omega
    rw [i.free] at this
    have hb : ∃ b ∈ L, b.has (h.off - 1) := Classical.byContradiction fun hc =>
      this ⟨by omega, fun b hb hbh => hc ⟨b, hb, hbh⟩⟩
    obtain ⟨b, hb, hb2⟩ := hb
    refine ⟨b, hb, ?_⟩
    have := h1.2 b hb
    unfold Block.has at hb2 this; omega

/-- The infinite hole. -/
theorem Inv.infinite {r a : Nat} {s : Alloc} {L : List Block} (i : Inv r a s L) : ∃ h ∈ s.tree.holes, h.size = maxVal := by
  obtain ⟨h, hh, h1⟩ := (i.free maxVal).mpr ⟨by have := i.rlt; omega, fun b hb hb2 => by
    have := (i.blocks b hb).2.2.2; unfold Block.has at hb2; omega⟩
  refine ⟨h, hh, ?_⟩
  have := (i.hs.2 h hh).2.2
  unfold Hole.has at h1; omega

theorem Inv.hole_room {r a size : Nat} {s : Alloc} {L : List Block} (i : Inv r a s L) (hr : Room r a L size) {h : Hole} (hh : h ∈ s.tree.holes) :
    h.off + a + size < maxVal := by
  rcases i.hole_off hh with e | ⟨b, hb, e⟩
  · have := hr.1; omega
  · have := hr.2 b hb; omega

theorem Inv.alloc {r a size : Nat} {s : Alloc} {L : List Block} (i : Inv r a s L) (hz : 0 < size) (hr : Room r a L size) :
    ∃ x s', allocBlock s size = some (x, s') ∧ Inv r a s' (⟨x, size⟩ :: L) ∧
      ∀ y, y % a = 0 → r ≤ y → (∀ b ∈ L, ¬ b.overlap ⟨y, size⟩) → x ≤ y := by
  have hroom := fun h hh => i.hole_room (h := h) hr hh
  have hmv : maxVal = 2 ^ 64 - 1 := rfl
  have hrm := hr.1
  have hsl : size < maxVal := by omega
  have hex : ∃ h ∈ s.tree.holes, size ≤ effSize a h := by
    obtain ⟨h, hh, hi⟩ := i.infinite
    exact ⟨h, hh, (effSize_spec i.apos (i.hs.2 h hh) (by have := hroom h hh; omega) hz hsl).mpr (.inl hi)⟩
  obtain ⟨c, h, lm, rm, l, rr, ks, e1, e2, e3, e4⟩ := searchFit_spec (ks := []) hz i.good.2.2 hex (by simp [before])
  simp only [zip] at e2
  have hh0 : s.tree.holes = before ks ++ l.holes ++ h :: (rr.holes ++ after ks) := by rw [← e2, zip_holes]; simp [T.holes]
  have hmem : h ∈ s.tree.holes := by rw [hh0]; simp
  have hw := hroom h hmem
  obtain ⟨t', f1, f2, f3, f4⟩ := removeAt_spec i.apos (e2 ▸ i.good) (e2 ▸ i.hs) hz hw e3
  rw [e2] at f4
  have hok := i.hs.2 h hmem
  have hfit := (effSize_spec i.apos hok (by omega) hz hsl).mp e3
  obtain ⟨b0, b1, b2, b3⟩ := alignUp_spec (v := h.off) i.apos (by omega)
  generalize hal : alignUp h.off a = al at *
  have hrange : ∀ n, al ≤ n → n < al + size → h.has n := fun n h1 h2 => by unfold Hole.has; omega
  have hfree : ∀ n, al ≤ n → n < al + size → r ≤ n ∧ ∀ b ∈ L, ¬ b.has n := fun n h1 h2 => (i.free n).mp ⟨h, hmem, hrange n h1 h2⟩
  have hral : r ≤ al := (hfree al (by omega) (by omega)).1
  have hrf : removeFit s.align size s.tree = some (al, t') := by
    rw [i.align, removeFit, e1, Option.bind_some]; exact f1
  refine ⟨al, _, by rw [allocBlock, if_neg (by omega), hrf, Option.map_some], ?_, ?_⟩
  · refine ⟨i.reserve, i.align, i.apos, i.rlt, f2, f3, fun n => ?_, ?_, ?_, ?_, ?_⟩
    · simp only
      rw [f4, i.free]
      simp only [List.mem_cons, forall_eq_or_imp]
      have : Block.has ⟨al, size⟩ n ↔ al ≤ n ∧ n < al + size := Iff.rfl
      rw [this]; grind
    · intro b hb
      rcases List.mem_cons.mp hb with rfl | hb
      · exact ⟨hz, hral, b0, by simp only; omega⟩
      · exact i.blocks b hb
    · rw [List.pairwise_cons]
      refine ⟨fun b hb ho => ?_, i.disj⟩
      have := (i.blocks b hb).1
      unfold Block.overlap at ho
      simp only at ho
      exact (hfree (max al b.off) (by omega) (by omega)).2 b hb ⟨by omega, by omega⟩
    · have := i.count
      simp only [List.length_cons]; omega
    · have := i.bytes
      simp only [total, List.map_cons, List.sum_cons] at this ⊢; omega
  · intro y hy1 hy2 hy3
    obtain ⟨x, hx, hxr⟩ := hs_run i.hs hz (y := y) (fun n h1 h2 => (i.free n).mpr ⟨by omega, fun b hb hbn => hy3 b hb ⟨by
      unfold Block.has at hbn; simp only; omega, by unfold Block.has at hbn; simp only; omega⟩⟩)
    have xok := i.hs.2 x hx
    have xw := hroom x hx
    have xy : x.off ≤ y := (hxr y (by omega) (by omega)).1
    obtain ⟨-, -, -, d3⟩ := alignUp_spec (v := x.off) i.apos (by omega)
    have d4 := d3 y hy1 xy
    have xe : size ≤ effSize a x := by
      rw [effSize_spec i.apos xok (by omega) hz hsl]
      have := (hxr (y + size - 1) (by omega) (by omega)).2
      omega
    rw [hh0] at hx
    have hs' := i.hs
    rw [hh0, hs_append, hs_cons] at hs'
    rcases List.mem_append.mp hx with hx | hx
    · have := e4 x hx; omega
    · rcases List.mem_cons.mp hx with rfl | hx
      · omega
      · have := hs'.2.1.2.2 x hx
        unfold Hole.fin at this
        obtain ⟨k1, k2, k3⟩ := hok
        omega

theorem total_erase {L : List Block} {b : Block} (h : b ∈ L) : total (L.erase b) + b.size = total L := by
  induction L with
  | nil => cases h
  | cons x L ih =>
    rw [List.erase_cons]
    by_cases hx : x = b
    · subst hx; simp [total]; omega
    · rw [if_neg (by simpa using hx)]
      have := ih ((List.mem_cons.mp h).resolve_left fun e => hx e.symm)
      simp only [total, List.map_cons, List.sum_cons] at this ⊢; omega

theorem Inv.freeB {r a : Nat} {s : Alloc} {L : List Block} (i : Inv r a s L) {b : Block} (hb : b ∈ L) :
    ∃ s', freeBlock s b.off b.size = some s' ∧ Inv r a s' (L.erase b) := by
  obtain ⟨k1, k2, k3, k4⟩ := i.blocks b hb
  -- no other block touches `b`
  have hnd : L.Nodup := by
    have hd := i.disj
    have hbl := i.blocks
    clear hb i
    induction L with
    | nil => exact List.nodup_nil
    | cons x L ih =>
      rw [List.pairwise_cons] at hd
      rw [List.nodup_cons]
      refine ⟨fun hx => hd.1 x hx ?_, ih hd.2 fun b hb => hbl b (List.mem_cons_of_mem _ hb)⟩
      have := (hbl x List.mem_cons_self).1
      unfold Block.overlap; omega
  have hfit : ∀ h ∈ s.tree.holes, (h.fin ∧ h.off + h.size ≤ b.off) ∨ ((⟨b.off, b.size⟩ : Hole).fin ∧ b.off + b.size ≤ h.off) := by
    intro h hh
    have hk := i.hs.2 h hh
    have n1 := ((i.free h.off).mp ⟨h, hh, hk.first⟩).2 b hb
    by_cases hc : h.off < b.off
    · left
      have n2 : ¬ h.has b.off := fun hc => ((i.free b.off).mp ⟨h, hh, hc⟩).2 b hb ⟨by omega, by omega⟩
      obtain ⟨j1, j2, j3⟩ := hk
      unfold Hole.has at n2; unfold Hole.fin; omega
    · right
      unfold Block.has at n1; unfold Hole.fin
      simp only; omega
  obtain ⟨t', e1, e2, e3, e4⟩ := insert_free (p := ⟨b.off, b.size⟩) i.good i.hs ⟨k1, by simp only; omega, .inr k4⟩ hfit
  have e0 : freeBlock s b.off b.size = some { s with nBytes := (s.nBytes + 2 ^ 64 - b.size) % 2 ^ 64, nBlocks := (s.nBlocks + 2 ^ 64 - 1) % 2 ^ 64, tree := t' } := by
    have e1' : insert s.align s.tree ⟨b.off, b.size⟩ = some t' := by rw [i.align]; exact e1
    simp only [freeBlock, e1', Option.map_some]
  refine ⟨_, e0, ⟨i.reserve, i.align, i.apos, i.rlt, e2, e3, fun n => ?_, ?_, ?_, ?_, ?_⟩⟩
  · simp only
    rw [e4, i.free]
    have hp : Hole.has ⟨b.off, b.size⟩ n ↔ b.has n := by unfold Hole.has Block.has; simp only; omega
    rw [hp]
    constructor
    · rintro (⟨h1, h2⟩ | h1)
      · exact ⟨h1, fun x hx => h2 x (List.mem_of_mem_erase hx)⟩
      · refine ⟨by unfold Block.has at h1; omega, fun x hx hxn => ?_⟩
        rw [hnd.mem_erase_iff] at hx
        rcases pairwise_tri i.disj hx.2 hb with e | e | e
        · exact hx.1 e
        · unfold Block.has at h1 hxn; exact e ⟨by omega, by omega⟩
        · unfold Block.has at h1 hxn; exact e ⟨by omega, by omega⟩
    · rintro ⟨h1, h2⟩
      by_cases hbn : b.has n
      · exact .inr hbn
      · refine .inl ⟨h1, fun x hx => ?_⟩
        by_cases hxb : x = b
        · exact hxb ▸ hbn
        · exact h2 x (hnd.mem_erase_iff.mpr ⟨hxb, hx⟩)
  · exact fun x hx => i.blocks x (List.mem_of_mem_erase hx)
  · exact i.disj.sublist List.erase_sublist
  · have := i.count
    have hl := List.length_erase_of_mem hb
    have hpos := List.length_pos_of_mem hb
    simp only; omega
  · have := i.bytes
    have := total_erase hb
    have hmv : maxVal = 2 ^ 64 - 1 := rfl
    simp only; omega

/-- Blocks in order, apart. -/
def Chain (r a : Nat) (L : List Block) : Prop := (∀ b ∈ L, b.ok r a) ∧ L.Pairwise fun x y => x.off + x.size ≤ y.off

theorem fill_chain {r a : Nat} {L : List Block} {nb nb' : Nat} {t t' : T} (hend : ∀ b ∈ L, b.off + b.size < maxVal)
    (h : fillHoles r a L nb t = some (nb', t')) : Chain r a L := by
  have hmv : maxVal = 2 ^ 64 - 1 := rfl
  induction L generalizing nb t with
  | nil => exact ⟨by simp, List.Pairwise.nil⟩
  | cons p rest ih =>
    rw [fillHoles.eq_def] at h
    simp only at h
    split at h
    · rename_i hp
      have hpe := hend p (by simp)
      have hpok : p.ok r a := ⟨hp.1, hp.2.1, hp.2.2, hpe⟩
      cases rest with
      | nil => exact ⟨by simpa using hpok, by simp⟩
      | cons q rest' =>
        simp only at h
        have hfo : (p.off + p.size) % 2 ^ 64 = p.off + p.size := Nat.mod_eq_of_lt (by omega)
        rw [hfo] at h
        split at h
        · cases h
        · split at h
          · rename_i hpq
            have key : Chain r a (q :: rest') := by
              cases hs : ouSub q.off (p.off + p.size) with
              | none => rw [hs] at h; cases h
              | some fsz =>
                rw [hs, Option.bind_some] at h
                split at h
                · exact ih (fun b hb => hend b (by simp [List.mem_cons.mp hb])) h
                · cases hi : insert a t ⟨p.off + p.size, fsz⟩ with
                  | none => rw [hi] at h; cases h
                  | some t1 => rw [hi, Option.bind_some] at h; exact ih (fun b hb => hend b (by simp [List.mem_cons.mp hb])) h
            refine ⟨fun b hb => ?_, List.pairwise_cons.mpr ⟨fun y hy => ?_, key.2⟩⟩
            · rcases List.mem_cons.mp hb with rfl | hb
              · exact hpok
              · exact key.1 b hb
            · rcases List.mem_cons.mp hy with rfl | hy
              · exact hpq
              · have := (List.pairwise_cons.mp key.2).1 y hy; omega
          · cases h
    · cases h

theorem fill_spec {r a : Nat} (ha : 0 < a) {D L : List Block} {p : Block} {nb : Nat} {t : T} (hg : Good a t) (hs : HS t.holes)
    (hc : Chain r a (D ++ p :: L)) (hf : ∀ n, FreeAt t.holes n ↔ r ≤ n ∧ n < p.off ∧ ∀ b ∈ D, ¬ b.has n) :
    ∃ nb' t', fillHoles r a (p :: L) nb t = some (nb', t') ∧ nb' % 2 ^ 64 = (nb + total (p :: L)) % 2 ^ 64 ∧ Good a t' ∧ HS t'.holes ∧
      ∀ n, FreeAt t'.holes n ↔ r ≤ n ∧ ∀ b ∈ D ++ p :: L, ¬ b.has n := by
  have hmv : maxVal = 2 ^ 64 - 1 := rfl
  induction L generalizing D p nb t with
  | nil =>
    obtain ⟨k1, k2, k3, k4⟩ := hc.1 p (by simp)
    have hfo : (p.off + p.size) % 2 ^ 64 = p.off + p.size := Nat.mod_eq_of_lt (by omega)
    have hDp : ∀ b ∈ D, b.off + b.size ≤ p.off := fun b hb => (List.pairwise_append.mp hc.2).2.2 b hb p (by simp)
    have hlt : ∀ h ∈ t.holes, h.fin ∧ h.off + h.size ≤ p.off := by
      intro h hh
      obtain ⟨j1, j2, j3⟩ := hs.2 h hh
      have e1 : h.size ≠ maxVal := fun hi => by
        have := (hf (max h.off p.off)).mp ⟨h, hh, by unfold Hole.has; omega⟩; omega
      have := (hf (h.off + h.size - 1)).mp ⟨h, hh, by unfold Hole.has; omega⟩
      unfold Hole.fin; omega
    obtain ⟨t', e1, e2, e3, e4⟩ := insert_free (p := ⟨p.off + p.size, maxVal⟩) hg hs ⟨show 0 < maxVal by decide, k4, .inl rfl⟩
      (fun h hh => .inl ⟨(hlt h hh).1, by have := (hlt h hh).2; simp only; omega⟩)
    refine ⟨(nb + p.size) % 2 ^ 64, t', ?_, by simp [total], e2, e3, fun n => ?_⟩
    · rw [fillHoles.eq_def]; simp only; rw [if_pos ⟨k1, k2, k3⟩, hfo, e1]; rfl
    · rw [e4, hf]
      simp only [List.mem_append, List.mem_singleton, or_imp, forall_and, forall_eq]
      have hDn : p.off ≤ n → ∀ b ∈ D, ¬ b.has n := fun hn b hb hbn => by have := hDp b hb; unfold Block.has at hbn; omega
      unfold Hole.has
      by_cases h1 : n < p.off
      · have : ¬ p.has n := by unfold Block.has; omega
        simp only [this, not_false_eq_true, and_true, h1, true_and]; constructor
        · rintro (h | h)
          · exact h
          · omega
        · exact .inl
      · have hD := hDn (by omega)
        have : p.has n ↔ n < p.off + p.size := by unfold Block.has; omega
        simp only [this, h1, false_and, and_false, false_or]
        constructor
        · intro h; exact ⟨by omega, hD, by omega⟩
        · intro h; exact ⟨by omega, .inl trivial⟩
  | cons q L ih =>
    obtain ⟨k1, k2, k3, k4⟩ := hc.1 p (by simp)
    have hfo : (p.off + p.size) % 2 ^ 64 = p.off + p.size := Nat.mod_eq_of_lt (by omega)
    obtain ⟨pw1, pw2, pw3⟩ := List.pairwise_append.mp hc.2
    rw [List.pairwise_cons] at pw2
    have hpq := pw2.1 q (by simp)
    obtain ⟨q1, q2, q3, q4⟩ := hc.1 q (by simp)
    have hDp : ∀ b ∈ D, b.off + b.size ≤ p.off := fun b hb => pw3 b hb p (by simp)
    have hlt : ∀ h ∈ t.holes, h.fin ∧ h.off + h.size ≤ p.off := by
      intro h hh
      obtain ⟨j1, j2, j3⟩ := hs.2 h hh
      have e1 : h.size ≠ maxVal := fun hi => by
        have := (hf (max h.off p.off)).mp ⟨h, hh, by unfold Hole.has; omega⟩; omega
      have := (hf (h.off + h.size - 1)).mp ⟨h, hh, by unfold Hole.has; omega⟩
      unfold Hole.fin; omega
    have hsub : ouSub q.off (p.off + p.size) = some (q.off - (p.off + p.size)) := by
      rw [ouSub, if_neg (by omega), if_neg (by omega), if_pos (by omega)]
    have hc' : Chain r a ((D ++ [p]) ++ q :: L) := by rw [List.append_assoc]; exact hc
    have hDn : ∀ n, p.off ≤ n → ∀ b ∈ D, ¬ b.has n := fun n hn b hb hbn => by have := hDp b hb; unfold Block.has at hbn; omega
    have step : ∀ t1 : T, Good a t1 → HS t1.holes → (∀ n, FreeAt t1.holes n ↔ FreeAt t.holes n ∨ (p.off + p.size ≤ n ∧ n < q.off)) →
        ∃ nb' t', fillHoles r a (q :: L) ((nb + p.size) % 2 ^ 64) t1 = some (nb', t') ∧ nb' % 2 ^ 64 = (nb + total (p :: q :: L)) % 2 ^ 64 ∧
          Good a t' ∧ HS t'.holes ∧ ∀ n, FreeAt t'.holes n ↔ r ≤ n ∧ ∀ b ∈ D ++ p :: q :: L, ¬ b.has n := by
      intro t1 g1 s1 f1
      obtain ⟨nb', t', e1, e2, e3, e4, e5⟩ := ih (D := D ++ [p]) (p := q) (nb := (nb + p.size) % 2 ^ 64) g1 s1 hc' (fun n => by
        rw [f1, hf]
        simp only [List.mem_append, List.mem_singleton, or_imp, forall_and, forall_eq]
        by_cases h1 : n < p.off
        · have : ¬ p.has n := by unfold Block.has; omega
          simp only [this, not_false_eq_true, and_true, h1, true_and]
          constructor
          · rintro (h | h)
            · exact ⟨h.1, by omega, h.2⟩
            · omega
          · intro h; exact .inl ⟨h.1, h.2.2⟩
        · have hD := hDn n (by omega)
          have : p.has n ↔ n < p.off + p.size := by unfold Block.has; omega
          simp only [this, h1, false_and, and_false, false_or]
          constructor
          · intro h; exact ⟨by omega, h.2, hD, by omega⟩
          · intro h; exact ⟨by omega, h.2.1⟩)
      refine ⟨nb', t', e1, ?_, e3, e4, fun n => ?_⟩
      · rw [e2]; simp only [total, List.map_cons, List.sum_cons]; omega
      · rw [e5, List.append_assoc]; rfl
    rw [fillHoles.eq_def]; simp only
    rw [if_pos ⟨k1, k2, k3⟩, hfo, if_neg (by omega), if_pos hpq, hsub, Option.bind_some]
    by_cases hz : q.off - (p.off + p.size) = 0
    · rw [if_pos hz]
      exact step t hg hs fun n => ⟨.inl, fun h => h.resolve_right (by omega)⟩
    · rw [if_neg hz]
      obtain ⟨t1, e1, e2, e3, e4⟩ := insert_free (p := ⟨p.off + p.size, q.off - (p.off + p.size)⟩) hg hs
        ⟨by simp only; omega, k4, .inr (by simp only; omega)⟩ (fun h hh => .inl ⟨(hlt h hh).1, by have := (hlt h hh).2; simp only; omega⟩)
      rw [e1, Option.bind_some]
      exact step t1 e2 e3 fun n => by rw [e4]; exact or_congr_right (by unfold Hole.has; simp only; omega)

theorem good_nil (a : Nat) : Good a .nil := ⟨⟨0, rfl⟩, rfl, trivial⟩

theorem Inv.create {r a : Nat} (hr : r < maxVal) (ha : 512 ≤ a) (ha2 : a % 512 = 0) : ∃ s, create r a = some s ∧ Inv r a s [] := by
  obtain ⟨t', e1, e2, e3, e4⟩ := insert_free (a := a) (t := .nil) (p := ⟨r, maxVal⟩) (good_nil a) (by simp [HS, T.holes])
    ⟨show 0 < maxVal by decide, hr, .inl rfl⟩ (by simp [T.holes])
  refine ⟨_, by rw [Blk.create, createInternal, if_pos ⟨ha, ha2⟩]; simp only [Option.bind_some, e1, Option.map_some]; rfl,
    ⟨rfl, rfl, by omega, hr, e2, e3, fun n => ?_, by simp, List.Pairwise.nil, rfl, by simp [total]⟩⟩
  simp only
  rw [e4]; simp [T.holes, FreeAt, Hole.has]

theorem Inv.perm {r a : Nat} {s : Alloc} {L L' : List Block} (i : Inv r a s L) (hp : L.Perm L') : Inv r a s L' := by
  refine ⟨i.reserve, i.align, i.apos, i.rlt, i.good, i.hs, fun n => ?_, fun b hb => i.blocks b (hp.mem_iff.mpr hb), ?_, ?_, ?_⟩
  · rw [i.free]; simp only [hp.mem_iff]
  · refine (hp.pairwise_iff fun h ho => h ⟨ho.2, ho.1⟩).mp i.disj
  · rw [← hp.length_eq]; exact i.count
  · rw [i.bytes, total, total, (hp.map _).sum_nat]

theorem sort_perm (bs : List Block) : (bs.mergeSort fun x y => decide (x.off ≤ y.off)).Perm bs := List.mergeSort_perm ..

theorem Inv.createFrom {r a : Nat} (hr : r < maxVal) (ha : 512 ≤ a) (ha2 : a % 512 = 0) {bs : List Block} (hne : bs ≠ [])
    (hc : Chain r a (bs.mergeSort fun x y => decide (x.off ≤ y.off))) : ∃ s, createFrom r a bs = some s ∧ Inv r a s bs := by
  have hp := sort_perm bs
  rw [Blk.createFrom, createInternal, if_pos ⟨ha, ha2⟩, Option.bind_some]
  cases hL : bs.mergeSort (fun x y => decide (x.off ≤ y.off)) with
  | nil => rw [hL] at hp; exact absurd hp.symm.eq_nil hne
  | cons p L =>
    rw [hL] at hc hp
    obtain ⟨k1, k2, k3, k4⟩ := hc.1 p (by simp)
    simp only
    have first : ∃ t, (if r < p.off then insert a .nil ⟨r, p.off - r⟩ else some .nil) = some t ∧ Good a t ∧ HS t.holes ∧
        ∀ n, FreeAt t.holes n ↔ r ≤ n ∧ n < p.off ∧ ∀ b ∈ ([] : List Block), ¬ b.has n := by
      by_cases h1 : r < p.off
      · obtain ⟨t', e1, e2, e3, e4⟩ := insert_free (a := a) (t := .nil) (p := ⟨r, p.off - r⟩) (good_nil a) (by simp [HS, T.holes])
          ⟨by simp only; omega, hr, .inr (by simp only; omega)⟩ (by simp [T.holes])
        refine ⟨t', by rw [if_pos h1, e1], e2, e3, fun n => ?_⟩
        rw [e4]; simp only [T.holes, FreeAt, Hole.has, List.not_mem_nil, false_and, exists_false, false_or, false_imp_iff, implies_true, and_true]; omega
      · refine ⟨.nil, by rw [if_neg h1], good_nil a, by simp [HS, T.holes], fun n => ?_⟩
        simp only [T.holes, FreeAt, List.not_mem_nil, false_and, exists_false, false_iff]; omega
    obtain ⟨t, e1, e2, e3, e4⟩ := first
    obtain ⟨nb', t', f1, f2, f3, f4, f5⟩ := fill_spec (nb := r) (D := []) (by omega) e2 e3 hc e4
    rw [e1, Option.bind_some, f1, Option.map_some]
    refine ⟨_, rfl, Inv.perm (L := p :: L) ⟨rfl, rfl, by omega, hr, f3, f4, f5, hc.1, ?_, ?_, f2⟩ hp⟩
    · refine hc.2.imp fun {x y} h ho => ?_
      unfold Block.overlap at ho; omega
    · rw [hp.length_eq]

theorem createFrom_chain {r a : Nat} {bs : List Block} {s : Alloc} (hend : ∀ b ∈ bs, b.off + b.size < maxVal) (h : createFrom r a bs = some s) :
    512 ≤ a ∧ a % 512 = 0 ∧ bs ≠ [] ∧ Chain r a (bs.mergeSort fun x y => decide (x.off ≤ y.off)) := by
  have hp := sort_perm bs
  rw [Blk.createFrom, createInternal] at h
  by_cases ha : 512 ≤ a ∧ a % 512 = 0
  · rw [if_pos ha, Option.bind_some] at h
    refine ⟨ha.1, ha.2, ?_⟩
    cases hL : bs.mergeSort (fun x y => decide (x.off ≤ y.off)) with
    | nil => rw [hL] at h; cases h
    | cons p L =>
      rw [hL] at h hp
      simp only at h
      refine ⟨fun hn => by subst hn; simpa using hp.length_eq, ?_⟩
      cases hi : (if r < p.off then insert a .nil ⟨r, p.off - r⟩ else some .nil) with
      | none => rw [hi] at h; cases h
      | some t =>
        rw [hi, Option.bind_some] at h
        cases hf : fillHoles r a (p :: L) r t with
        | none => rw [hf] at h; cases h
        | some x => exact fill_chain (fun b hb => hend b (hp.mem_iff.mp hb)) (by rw [hf])
  · rw [if_neg ha] at h; cases h

/-- A sorted list of separate blocks is a chain. -/
theorem chain_of {r a : Nat} {bs : List Block} (hok : ∀ b ∈ bs, b.ok r a) (hd : bs.Pairwise fun x y => ¬ x.overlap y) :
    Chain r a (bs.mergeSort fun x y => decide (x.off ≤ y.off)) := by
  have hp := sort_perm bs
  refine ⟨fun b hb => hok b (hp.mem_iff.mp hb), ?_⟩
  have h1 : (bs.mergeSort fun x y => decide (x.off ≤ y.off)).Pairwise fun x y => decide (x.off ≤ y.off) = true :=
    List.pairwise_mergeSort (fun x y z => by simp; omega) (fun x y => by simp; omega) bs
  have h2 := (hp.symm.pairwise_iff fun h ho => h ⟨ho.2, ho.1⟩).mp hd
  refine (List.Pairwise.and_mem.mp (h1.and h2)).imp fun {x y} h => ?_
  obtain ⟨hx, hy, h3, h4⟩ := h
  have k1 := (hok x (hp.mem_iff.mp hx)).1
  have k2 := (hok y (hp.mem_iff.mp hy)).1
  simp only [decide_eq_true_eq] at h3
  unfold Block.overlap at h4
  omega

end Verif.Blk
