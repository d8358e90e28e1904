import Verif.Ser.BufLemmas
import Verif.Ser.HeaderLemmas
import Verif.Ser.Table
import Verif.Blk.WorldLemmas

namespace Verif.TrDisk
open Verif.Ser Verif.Blk

def I64 (i : Int) : Prop := - 2 ^ 63 ≤ i ∧ i < 2 ^ 63

theorem ofU64_toU64 {i : Int} (h : I64 i) : ofU64 (toU64 i) = i := by
  unfold ofU64 toU64
  obtain ⟨h1, h2⟩ := h
  split <;> omega

theorem toU64_lt (i : Int) : toU64 i < 2 ^ 64 := by
  unfold toU64; omega

theorem toU64_nat {n : Nat} (h : n < 2 ^ 64) : toU64 n = n := by
  unfold toU64; omega

theorem fieldsOf_valid (t : Tr) : ∀ f ∈ fieldsOf t, BufSpec.Valid f := by
  intro f hf
  simp only [fieldsOf, List.mem_cons, List.mem_flatMap, List.not_mem_nil, or_false] at hf
  rcases hf with rfl | rfl | ⟨p, _, rfl | rfl⟩ <;> exact toU64_lt _

theorem layout_ull_length (v : Nat) : (BufSpec.bytes (.ull v)).length = 8 := by simp [BufSpec.bytes, digits_length]

theorem layout_pairs_length (ps : List Pair) : (BufSpec.layout (ps.flatMap fun p => [.ull (toU64 p.u), .ull (toU64 p.size)])).length = 16 * ps.length := by
  induction ps with
  | nil => rfl
  | cons p ps ih =>
    unfold BufSpec.layout at ih ⊢
    simp only [List.flatMap_cons, List.flatMap_append, List.flatMap_nil, List.length_append, layout_ull_length, List.length_cons, List.length_nil, ih]
    omega

theorem fieldsOf_length {t : Tr} (h : t.smallest ≤ t.arr.length) : (BufSpec.layout (fieldsOf t)).length + 4 = sizeOnDisk t := by
  have := layout_pairs_length (t.arr.take t.smallest)
  unfold fieldsOf
  unfold BufSpec.layout at this ⊢
  simp only [List.flatMap_cons, List.length_append, layout_ull_length, this, List.length_take]
  unfold sizeOnDisk
  omega

theorem ull_at' {buf pre post : List Nat} {k v : Nat} (hv : v < 2 ^ 64) (hb : buf = pre ++ (BufSpec.bytes (.ull v) ++ post)) (hk : k = pre.length) :
    Rd.ull ⟨buf, k⟩ = .ok (v, ⟨buf, k + 8⟩) :=
  Rd.ull_at hv (by rw [hb, BufSpec.bytes, List.append_assoc]) hk

theorem layout_cons (f : Field) (fs : List Field) : BufSpec.layout (f :: fs) = BufSpec.bytes f ++ BufSpec.layout fs := by
  unfold BufSpec.layout; rw [List.flatMap_cons]

theorem serialize_ok {t : Tr} (h : t.smallest ≤ t.arr.length) (hs : sizeOnDisk t + 511 < 2 ^ 32) :
    serializeTr t = .ok (BufSpec.layout (fieldsOf t) ++ BufSpec.digits 4 (memory (BufSpec.layout (fieldsOf t))) ++ List.replicate (roundup512 (sizeOnDisk t) - sizeOnDisk t) 0) := by
  have hl := fieldsOf_length h
  have hr : sizeOnDisk t ≤ roundup512 (sizeOnDisk t) ∧ roundup512 (sizeOnDisk t) < 2 ^ 32 := by unfold roundup512; omega
  have hm : m32 (roundup512 (sizeOnDisk t)) = roundup512 (sizeOnDisk t) := Nat.mod_eq_of_lt hr.2
  obtain ⟨w, e, hw, ho, hsz⟩ := W.fields_ok (W.OK.init (roundup512 (sizeOnDisk t))) (fieldsOf_valid t) (by simp only [W.init, List.length_nil]; omega)
  have ho' : w.out = BufSpec.layout (fieldsOf t) := by rw [ho]; simp [W.init]
  have hfin : w.x.finish = memory (BufSpec.layout (fieldsOf t)) := by
    rw [memory_spec (ho' ▸ hw.bytes), ← ho']
    exact finish_spec hw.st hw.n8
  obtain ⟨w2, e2, hw2, ho2, hs2⟩ := W.field_ok (f := .int w.x.finish) hw (finish_lt _) (by rw [ho', hsz]; simp only [BufSpec.bytes, digits_length, W.init]; omega)
  have e2' : w.int w.x.finish = .ok w2 := e2
  unfold serializeTr
  rw [if_neg (by omega)]
  simp only [hm]
  rw [e, R.bind_ok, e2', R.bind_ok, ho2, ho', hfin]
  rfl

theorem readPairs_ok {ps : List Pair} (hv : ∀ p ∈ ps, I64 p.u ∧ I64 p.size) (pre post : List Nat) :
    readPairs ps.length ⟨pre ++ (BufSpec.layout (ps.flatMap fun p => [.ull (toU64 p.u), .ull (toU64 p.size)]) ++ post), pre.length⟩ =
      .ok (ps, ⟨pre ++ (BufSpec.layout (ps.flatMap fun p => [.ull (toU64 p.u), .ull (toU64 p.size)]) ++ post), pre.length + 16 * ps.length⟩) := by
  induction ps generalizing pre with
  | nil => rfl
  | cons p ps ih =>
    have hp := hv p List.mem_cons_self
    have e : BufSpec.layout ((p :: ps).flatMap fun p => [.ull (toU64 p.u), .ull (toU64 p.size)]) =
        BufSpec.bytes (.ull (toU64 p.u)) ++ (BufSpec.bytes (.ull (toU64 p.size)) ++ BufSpec.layout (ps.flatMap fun p => [.ull (toU64 p.u), .ull (toU64 p.size)])) := by
      rw [List.flatMap_cons, List.cons_append, List.cons_append, List.nil_append, layout_cons, layout_cons]
    rw [e]
    simp only [List.length_cons, readPairs]
    generalize hrest : BufSpec.layout (ps.flatMap fun p => [Field.ull (toU64 p.u), Field.ull (toU64 p.size)]) = rest at ih ⊢
    generalize hb : pre ++ (BufSpec.bytes (.ull (toU64 p.u)) ++ (BufSpec.bytes (.ull (toU64 p.size)) ++ rest) ++ post) = buf
    have g1 : Rd.ull ⟨buf, pre.length⟩ = .ok (toU64 p.u, ⟨buf, pre.length + 8⟩) :=
      ull_at' (pre := pre) (post := BufSpec.bytes (.ull (toU64 p.size)) ++ rest ++ post) (toU64_lt _) (by rw [← hb]; simp [List.append_assoc]) rfl
    have g2 : Rd.ull ⟨buf, pre.length + 8⟩ = .ok (toU64 p.size, ⟨buf, pre.length + 8 + 8⟩) :=
      ull_at' (pre := pre ++ BufSpec.bytes (.ull (toU64 p.u))) (post := rest ++ post) (toU64_lt _) (by rw [← hb]; simp [List.append_assoc])
        (by rw [List.length_append, layout_ull_length])
    rw [g1, R.bind_ok]
    simp only
    rw [g2, R.bind_ok]
    simp only
    have h3 := ih (fun q hq => hv q (List.mem_cons_of_mem _ hq)) (pre ++ (BufSpec.bytes (.ull (toU64 p.u)) ++ BufSpec.bytes (.ull (toU64 p.size))))
    have hbuf : pre ++ (BufSpec.bytes (.ull (toU64 p.u)) ++ BufSpec.bytes (.ull (toU64 p.size))) ++ (rest ++ post) = buf := by rw [← hb]; simp [List.append_assoc]
    rw [hbuf] at h3
    simp only [List.length_append, layout_ull_length] at h3
    rw [← Nat.add_assoc] at h3
    rw [h3, R.bind_ok]
    simp only [ofU64_toU64 hp.1, ofU64_toU64 hp.2]
    have : pre.length + 8 + 8 + 16 * ps.length = pre.length + 16 * (ps.length + 1) := by omega
    rw [this]
    rfl

theorem readBack {t : Tr} {location : Nat} (hlen : t.smallest ≤ t.arr.length) (hres : reservedBn ≤ t.smallest) (hs : sizeOnDisk t + 511 < 2 ^ 32) (hhead : I64 t.head)
    (hv : ∀ (b : Nat) (p : Pair), b < t.smallest → t.arr[b]? = some p → I64 p.u ∧ I64 p.size) (hloc : 0 < location) (htr : t.arr[bnTranslation]? = some ⟨location, sizeOnDisk t⟩) (zeros : List Nat) :
    deserializeTr location (sizeOnDisk t) (BufSpec.layout (fieldsOf t) ++ BufSpec.digits 4 (memory (BufSpec.layout (fieldsOf t))) ++ zeros) =
      .ok (.ok ⟨t.arr.take t.smallest, t.smallest, t.head⟩) := by
  have hl := fieldsOf_length hlen
  have hsm : t.smallest < 2 ^ 28 := by unfold sizeOnDisk at hs; omega
  generalize hL : BufSpec.layout (fieldsOf t) = L at hl ⊢
  have hm4 : sizeOnDisk t - 4 = L.length := by omega
  unfold deserializeTr
  rw [if_neg (by simp only [List.length_append, digits_length]; omega), if_neg (by omega)]
  have e1 : (L ++ BufSpec.digits 4 (memory L) ++ zeros).take (sizeOnDisk t - 4) = L := by rw [hm4, List.append_assoc, List.take_left]
  have e2 : ((L ++ BufSpec.digits 4 (memory L) ++ zeros).drop (sizeOnDisk t - 4)).take 4 = BufSpec.digits 4 (memory L) := by
    rw [hm4, List.append_assoc, List.drop_left]
    have : (BufSpec.digits 4 (memory L)).length = 4 := digits_length _ _
    exact (this ▸ List.take_left : List.take 4 (BufSpec.digits 4 (memory L) ++ zeros) = _)
  have e3 : m32 (sizeOnDisk t - 4) = sizeOnDisk t - 4 := Nat.mod_eq_of_lt (by omega)
  rw [e3, e1, e2, if_neg (by rw [le_digits, Nat.mod_eq_of_lt (memory_lt L)]; simp)]
  have hps : ∀ p ∈ t.arr.take t.smallest, I64 p.u ∧ I64 p.size := by
    intro p hp
    obtain ⟨i, hi⟩ := List.getElem?_of_mem hp
    rw [List.getElem?_take] at hi
    split at hi
    · exact hv i p (by assumption) hi
    · cases hi
  have hLe : L = [] ++ (BufSpec.bytes (.ull (toU64 t.smallest)) ++ (BufSpec.bytes (.ull (toU64 t.head)) ++ BufSpec.layout ((t.arr.take t.smallest).flatMap fun p => [.ull (toU64 p.u), .ull (toU64 p.size)]))) := by
    rw [← hL, fieldsOf, layout_cons, layout_cons]; rfl
  have g1 : Rd.ull ⟨L, 0⟩ = .ok (toU64 t.smallest, ⟨L, 0 + 8⟩) := ull_at' (toU64_lt _) hLe rfl
  have g2 : Rd.ull ⟨L, 8⟩ = .ok (toU64 t.head, ⟨L, 8 + 8⟩) :=
    ull_at' (pre := BufSpec.bytes (.ull (toU64 t.smallest))) (toU64_lt _) (by rw [hLe]; rfl) (layout_ull_length _).symm
  rw [g1, R.bind_ok]
  simp only [Nat.zero_add, toU64_nat (show t.smallest < 2 ^ 64 by omega)]
  have hof : ofU64 t.smallest = t.smallest := by unfold ofU64; rw [if_pos (by omega)]
  rw [hof, if_neg (by omega), g2, R.bind_ok]
  simp only
  have g3 := readPairs_ok hps (BufSpec.bytes (.ull (toU64 t.smallest)) ++ BufSpec.bytes (.ull (toU64 t.head))) []
  have hL2 : (BufSpec.bytes (.ull (toU64 t.smallest)) ++ BufSpec.bytes (.ull (toU64 t.head))) ++ (BufSpec.layout ((t.arr.take t.smallest).flatMap fun p => [.ull (toU64 p.u), .ull (toU64 p.size)]) ++ []) = L := by
    rw [hLe]; simp [List.append_assoc]
  have hlt : (t.arr.take t.smallest).length = t.smallest := by rw [List.length_take]; omega
  rw [hL2, hlt] at g3
  simp only [List.length_append, layout_ull_length] at g3
  have g3' : readPairs t.smallest ⟨L, 8 + 8⟩ = .ok (t.arr.take t.smallest, ⟨L, 8 + 8 + 16 * t.smallest⟩) := g3
  rw [g3', R.bind_ok]
  simp only [ofU64_toU64 hhead]
  rw [if_pos]
  · rfl
  · refine ⟨rfl, ?_⟩
    rw [List.getElem?_take_of_lt (by unfold reservedBn at hres; unfold bnTranslation; omega)]
    exact htr

/-- The links of a free list lead to numbers or end. -/
theorem chain_links {arr : List Pair} : ∀ {h : Int} {fl : List Nat}, IsChain arr h fl → (h = flNull ∨ ∃ y ∈ fl, h = y) ∧ ∀ x ∈ fl, ∀ p, arr[x]? = some p → p.u = flNull ∨ ∃ y ∈ fl, p.u = y
  | h, [], hc => ⟨Or.inl hc, fun x hx => by cases hx⟩
  | h, y :: ys, hc => by
    obtain ⟨h1, q, h2, h3⟩ := hc
    obtain ⟨i1, i2⟩ := chain_links h3
    refine ⟨Or.inr ⟨y, List.mem_cons_self, h1⟩, ?_⟩
    intro x hx p hp
    rcases List.mem_cons.mp hx with rfl | hx
    · rw [h2] at hp
      cases hp
      rcases i1 with i1 | ⟨z, hz, i1⟩
      · exact Or.inl i1
      · exact Or.inr ⟨z, List.mem_cons_of_mem _ hz, i1⟩
    · rcases i2 x hx p hp with i1 | ⟨z, hz, i1⟩
      · exact Or.inl i1
      · exact Or.inr ⟨z, List.mem_cons_of_mem _ hz, i1⟩

theorem ok_range {t : Tr} (h : t.OK) (hs : t.smallest < 2 ^ 28) (hfile : ∀ b k, t.block b = some k → k.off + k.size < 2 ^ 63) :
    I64 t.head ∧ ∀ (b : Nat) (p : Pair), b < t.smallest → t.arr[b]? = some p → I64 p.u ∧ I64 p.size := by
  obtain ⟨fl, _, hc, hm⟩ := h.fl
  obtain ⟨c1, c2⟩ := chain_links hc
  have link : ∀ i : Int, (i = flNull ∨ ∃ y ∈ fl, i = y) → I64 i := by
    rintro i (rfl | ⟨y, hy, rfl⟩)
    · unfold I64 flNull; omega
    · have := ((hm y).mp hy).1
      unfold I64; omega
  refine ⟨link _ c1, ?_⟩
  intro b p hb hp
  obtain ⟨s1, s2, s3⟩ := h.shape b p hp
  by_cases hf : p.size = sizeFree
  · refine ⟨link _ (c2 b ((hm b).mpr ⟨hb, p, hp, hf⟩) p hp), ?_⟩
    rw [hf]; unfold I64 sizeFree; omega
  · unfold sizeFree at s1 hf
    by_cases h0 : p.size = 0
    · rw [s2 h0, h0]; unfold I64 diskUnused; omega
    · have hk : t.block b = some ⟨p.u.toNat, p.size.toNat⟩ := by
        unfold Tr.block
        rw [hp]
        simp only
        rw [if_pos (by omega)]
      have := hfile b _ hk
      have := s3 (by omega)
      simp only at *
      unfold I64
      omega

end Verif.TrDisk
