import Verif.Ser.BufLemmas
import Verif.Ser.HeaderSpec

namespace Verif.Ser
open HeaderSpec

/-- The bytes of a header. -/
def Header.bytes (h : Header) : List Nat := BufSpec.layout (h.fields 197 ++ [.int (memory (BufSpec.layout (h.fields 197)))])

theorem Header.layout_length (h : Header) : (BufSpec.layout (h.fields 197)).length = 193 := by
  simp [BufSpec.layout, BufSpec.bytes, Header.fields, digits_length, magic, byteOrder]

theorem Header.bytes_eq (h : Header) : h.bytes = BufSpec.layout (h.fields 197) ++ BufSpec.digits 4 (memory (BufSpec.layout (h.fields 197))) := by
  unfold Header.bytes BufSpec.layout
  rw [List.flatMap_append]
  simp [BufSpec.bytes]

theorem Header.bytes_length (h : Header) : h.bytes.length = 197 := by
  rw [h.bytes_eq, List.length_append, h.layout_length, digits_length]

theorem fold32_lt (c : Nat) : fold32 c < 2 ^ 32 := by
  unfold fold32; omega

theorem memory_lt (bs : List Nat) : memory bs < 2 ^ 32 := fold32_lt _

theorem finish_lt (x : X) : x.finish < 2 ^ 32 := fold32_lt _

theorem Header.fields_valid {h : Header} (hv : Valid h) : ∀ f ∈ h.fields 197, BufSpec.Valid f := by
  obtain ⟨⟨a1, a2, a3, a4, a5, a6, a7, a8, a9, a10, a11, a12, a13, a14, a15⟩, ⟨b1, b2, b3, b4, b5, b6, b7, b8⟩, c, ⟨d1, d2, d3, d4⟩⟩ := hv
  unfold Header.fields
  simp only [List.forall_mem_cons]
  refine ⟨⟨by decide, by decide⟩, (by decide : 29 < 2 ^ 32), b1, (by decide : 197 < 2 ^ 32), ⟨by decide, by decide⟩, a1, a2, b2, ?_, ?_, a3, b3, b4, b5, a4, a5, a6, b6, a7, a8, a9, a10, a11, b7, a12, c, a13, a14, b8, a15, by simp⟩
  · simp only [BufSpec.Valid]; omega
  · simp only [BufSpec.Valid]; omega

theorem Header.all_valid {h : Header} (hv : Valid h) : ∀ f ∈ h.fields 197 ++ [Field.int (memory (BufSpec.layout (h.fields 197)))], BufSpec.Valid f := by
  intro f hf
  rcases List.mem_append.mp hf with h1 | h1
  · exact h.fields_valid hv f h1
  · rw [List.mem_singleton.mp h1]; exact memory_lt _

theorem Header.serialize_ok {h : Header} (hv : Valid h) : h.serialize = .ok h.bytes := by
  obtain ⟨w, e, hw, ho, hs⟩ := W.fields_ok (W.OK.init 197) (h.fields_valid hv) (by rw [h.layout_length]; simp [W.init])
  have ho' : w.out = BufSpec.layout (h.fields 197) := by rw [ho]; simp [W.init]
  have hfin : w.x.finish = memory (BufSpec.layout (h.fields 197)) := by
    rw [memory_spec (ho' ▸ hw.bytes), ← ho']
    exact finish_spec hw.st hw.n8
  obtain ⟨w2, e2, hw2, ho2, hs2⟩ := W.field_ok (f := .int w.x.finish) hw (finish_lt _) (by rw [ho', h.layout_length, hs]; simp [BufSpec.bytes, digits_length, W.init])
  have hb : w2.out = h.bytes := by rw [ho2, ho', hfin, h.bytes_eq]; rfl
  unfold Header.serialize
  have : minSize layoutVersion = some 197 := by decide
  rw [this]
  simp only
  have e2' : w.int w.x.finish = .ok w2 := e2
  rw [e, R.bind_ok, e2', R.bind_ok, if_pos (by rw [hb, h.bytes_length, hs2, hs]; rfl), hb]
  rfl

/-! ### Reading at a place -/

theorem Rd.get_at {buf pre bs post : List Nat} {k n : Nat} (hb : buf = pre ++ (bs ++ post)) (hk : k = pre.length) (hn : n = bs.length) : Rd.get ⟨buf, k⟩ n = .ok (bs, ⟨buf, k + n⟩) := by
  subst hb hk hn
  exact Rd.get_ok

theorem Rd.networkInt_at {buf pre post : List Nat} {k v : Nat} (hv : v < 2 ^ 32) (hb : buf = pre ++ ((BufSpec.digits 4 v).reverse ++ post)) (hk : k = pre.length) :
    Rd.networkInt ⟨buf, k⟩ = .ok (v, ⟨buf, k + 4⟩) := by
  unfold Rd.networkInt
  rw [Rd.get_at hb hk (by simp [digits_length]), R.bind_ok]
  simp only [R.pure_ok, htonl_le hv]

theorem Rd.ull_at {buf pre post : List Nat} {k v : Nat} (hv : v < 2 ^ 64) (hb : buf = pre ++ (BufSpec.digits 4 (v / 2 ^ 32) ++ (BufSpec.digits 4 (v % 2 ^ 32) ++ post))) (hk : k = pre.length) :
    Rd.ull ⟨buf, k⟩ = .ok (v, ⟨buf, k + 8⟩) := by
  subst hb hk
  have h1 := Rd.int_ok (pre := pre) (v := v / 2 ^ 32) (post := BufSpec.digits 4 (v % 2 ^ 32) ++ post) (by omega)
  have h2 := Rd.int_ok (pre := pre ++ BufSpec.digits 4 (v / 2 ^ 32)) (v := v % 2 ^ 32) (post := post) (Nat.mod_lt _ (by omega))
  simp only [List.length_append, digits_length, List.append_assoc] at h2
  unfold Rd.ull
  rw [h1, R.bind_ok]
  simp only [h2, R.bind_ok, R.pure_ok]
  rw [← Nat.shiftLeft_add_eq_or_of_lt (Nat.mod_lt v (by omega)), Nat.shiftLeft_eq, Nat.div_add_mod']

/-- The bytes of the fields after the byte order mark and the two counters. -/
def Header.tail (h : Header) : List Nat := BufSpec.layout ((h.fields 197).drop 7)

theorem Header.layout_split (h : Header) : BufSpec.layout (h.fields 197) =
    magic ++ ((BufSpec.digits 4 29).reverse ++ ((BufSpec.digits 4 h.buildId).reverse ++ ((BufSpec.digits 4 197).reverse ++ (byteOrder ++
      ((BufSpec.digits 4 (h.count / 2 ^ 32) ++ BufSpec.digits 4 (h.count % 2 ^ 32)) ++ ((BufSpec.digits 4 (h.lsn / 2 ^ 32) ++ BufSpec.digits 4 (h.lsn % 2 ^ 32)) ++ h.tail)))))) := by
  simp only [Header.tail, BufSpec.layout, Header.fields, List.flatMap_cons, BufSpec.bytes, List.drop_succ_cons, List.drop_zero, layoutVersion]

theorem readSlot_written {h : Header} (hv : Valid h) (rest : List Nat) (hr : 315 ≤ rest.length) :
    readSlot (h.bytes ++ rest) = .ok (.ok ⟨h.count, h.lsn, 29, h.bytes⟩) := by
  have hl : (h.bytes ++ rest).length = 197 + rest.length := by rw [List.length_append, h.bytes_length]
  have e1 : ((h.bytes ++ rest).take 512).length = 512 := by rw [List.length_take]; omega
  have hsp := h.layout_split
  have e2 : (h.bytes ++ rest).take 20 = [] ++ (magic ++ ((BufSpec.digits 4 29).reverse ++ ((BufSpec.digits 4 h.buildId).reverse ++ ((BufSpec.digits 4 197).reverse ++ [])))) := by
    rw [h.bytes_eq, hsp]
    simp only [List.append_assoc, List.nil_append, List.append_nil]
    rw [← List.append_assoc magic, ← List.append_assoc (magic ++ _), ← List.append_assoc (magic ++ _ ++ _)]
    rw [List.take_append_of_le_length (by simp [digits_length, magic]), List.take_of_length_le (by simp [digits_length, magic])]
    simp only [List.append_assoc]
  have e3 : (h.bytes ++ rest).take 197 = h.bytes := by rw [List.take_append_of_le_length (by rw [h.bytes_length]; exact Nat.le_refl _), List.take_of_length_le (by rw [h.bytes_length]; exact Nat.le_refl _)]
  have hm : minSize 29 = some 197 := by decide
  have e4 : h.bytes.take 193 = BufSpec.layout (h.fields 197) := by
    rw [h.bytes_eq, List.take_append_of_le_length (by rw [h.layout_length]; exact Nat.le_refl _), List.take_of_length_le (by rw [h.layout_length]; exact Nat.le_refl _)]
  have e5 : le ((h.bytes.drop 193).take 4) = memory (BufSpec.layout (h.fields 197)) := by
    rw [h.bytes_eq, List.drop_append_of_le_length (by rw [h.layout_length]; exact Nat.le_refl _), List.drop_of_length_le (by rw [h.layout_length]; exact Nat.le_refl _), List.nil_append,
      List.take_of_length_le (by rw [digits_length]; exact Nat.le_refl _), le_digits]
    exact Nat.mod_eq_of_lt (memory_lt _)
  have hbytes : h.bytes = (magic ++ ((BufSpec.digits 4 29).reverse ++ ((BufSpec.digits 4 h.buildId).reverse ++ (BufSpec.digits 4 197).reverse))) ++ (byteOrder ++
      ((BufSpec.digits 4 (h.count / 2 ^ 32) ++ BufSpec.digits 4 (h.count % 2 ^ 32)) ++ ((BufSpec.digits 4 (h.lsn / 2 ^ 32) ++ BufSpec.digits 4 (h.lsn % 2 ^ 32)) ++ (h.tail ++ BufSpec.digits 4 (memory (BufSpec.layout (h.fields 197))))))) := by
    rw [h.bytes_eq]
    generalize memory (BufSpec.layout (h.fields 197)) = ck
    rw [hsp]
    simp only [List.append_assoc]
  unfold readSlot
  rw [if_neg (by rw [e1]; simp)]
  rw [Rd.literal, Rd.get_at (k := 0) (n := 8) e2 rfl (by decide), R.bind_ok]
  simp only
  rw [if_neg (by simp)]
  rw [Rd.networkInt_at (v := 29) (by decide) (pre := magic) (post := (BufSpec.digits 4 h.buildId).reverse ++ ((BufSpec.digits 4 197).reverse ++ [])) (by rw [e2]; simp) (by decide), R.bind_ok]
  simp only
  rw [if_neg (by decide), if_neg (by decide)]
  rw [Rd.networkInt_at (v := h.buildId) hv.u32.1 (pre := magic ++ (BufSpec.digits 4 29).reverse) (post := (BufSpec.digits 4 197).reverse ++ []) (by rw [e2]; simp) (by simp [magic, digits_length]), R.bind_ok]
  simp only [hm]
  rw [Rd.networkInt_at (v := 197) (by decide) (pre := magic ++ ((BufSpec.digits 4 29).reverse ++ (BufSpec.digits 4 h.buildId).reverse)) (post := []) (by rw [e2]; simp) (by simp [magic, digits_length]), R.bind_ok]
  simp only
  rw [if_neg (by decide), if_neg (by decide), if_neg (by rw [show roundup512 197 = 512 by decide, e1]; simp)]
  rw [e3, show 197 - 4 = 193 from rfl, e4, e5, if_neg (by simp)]
  rw [Rd.literal, Rd.get_at hbytes (by simp [magic, digits_length]) (by decide), R.bind_ok]
  simp only
  rw [if_neg (by simp)]
  rw [Rd.ull_at (v := h.count) hv.u64.1 (pre := magic ++ ((BufSpec.digits 4 29).reverse ++ ((BufSpec.digits 4 h.buildId).reverse ++ ((BufSpec.digits 4 197).reverse ++ byteOrder))))
    (post := (BufSpec.digits 4 (h.lsn / 2 ^ 32) ++ BufSpec.digits 4 (h.lsn % 2 ^ 32)) ++ (h.tail ++ BufSpec.digits 4 (memory (BufSpec.layout (h.fields 197)))))
    (by conv => lhs; rw [hbytes]
        simp only [List.append_assoc]) (by simp [magic, byteOrder, digits_length]), R.bind_ok]
  simp only
  rw [Rd.ull_at (v := h.lsn) hv.u64.2.1 (pre := magic ++ ((BufSpec.digits 4 29).reverse ++ ((BufSpec.digits 4 h.buildId).reverse ++ ((BufSpec.digits 4 197).reverse ++ (byteOrder ++ (BufSpec.digits 4 (h.count / 2 ^ 32) ++ BufSpec.digits 4 (h.count % 2 ^ 32)))))))
    (post := h.tail ++ BufSpec.digits 4 (memory (BufSpec.layout (h.fields 197))))
    (by conv => lhs; rw [hbytes]
        simp only [List.append_assoc]) (by simp [magic, byteOrder, digits_length]), R.bind_ok]
  rfl

theorem Rd.fields_ok0 {fs : List Field} (hv : ∀ f ∈ fs, BufSpec.Valid f) :
    Rd.fields ⟨BufSpec.layout fs, 0⟩ (fs.map Field.kind) = .ok (fs, ⟨BufSpec.layout fs, (BufSpec.layout fs).length⟩) := by
  have := Rd.fields_ok hv [] []
  simpa using this

theorem parse_written {h : Header} (hv : Valid h) : parseHeader 29 h.bytes = .ok (.ok h) := by
  have hr := Rd.fields_ok0 (h.all_valid hv)
  have hk : (h.fields 197 ++ [Field.int (memory (BufSpec.layout (h.fields 197)))]).map Field.kind = headerReads 29 := by
    simp [Header.fields, Field.kind, headerReads, magic, byteOrder]
  rw [hk] at hr
  have hb : BufSpec.layout (h.fields 197 ++ [Field.int (memory (BufSpec.layout (h.fields 197)))]) = h.bytes := rfl
  rw [hb] at hr
  have hp : parseHeader 29 h.bytes = ((Rd.fields ⟨h.bytes, 0⟩ (headerReads 29)) >>= fun p => match ofFields 29 h.bytes.length p.1 with
      | none => .abort
      | some h' => if p.2.ndone ≠ h.bytes.length then pure (.error .invalid) else pure (.ok h')) := rfl
  rw [hp, hr, R.bind_ok]
  have ho : ofFields 29 h.bytes.length (h.fields 197 ++ [Field.int (memory (BufSpec.layout (h.fields 197)))]) = some h := by
    rw [h.bytes_length]
    have ht : tablePlaced h.transAddr h.transSize = true := decide_eq_true hv.table
    simp only [ofFields, Header.fields, List.cons_append]
    rw [if_pos (by simp [layoutVersion]), ht, if_pos rfl]
    simp only [ofRest, Filling.upgrade, Filling.xid, Filling.basement, Filling.stats, Filling.compress, Filling.msn, Filling.fanout, Filling.rows, show ¬ (29 ≤ 13) by decide,
      show ¬ (29 ≤ 18) by decide, show (14 ≤ 29) by decide, show (15 ≤ 29) by decide, show (18 ≤ 29) by decide, show (19 ≤ 29) by decide,
      show (21 ≤ 29) by decide, show (28 ≤ 29) by decide, show (29 ≤ 29) by decide, if_true, if_false, Option.map_some]
  generalize h.bytes.length = n at ho ⊢
  simp only [ho, R.pure_ok, ne_eq, not_true_eq_false, if_false]

end Verif.Ser
