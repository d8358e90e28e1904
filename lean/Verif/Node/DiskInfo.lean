import Verif.Node.DiskLemmas
import Verif.Node.PivotSpec
/-!
Sub blocks, the common part of a node, and its header, on disk and back.
-/
set_option linter.unusedVariables false
set_option linter.unusedSimpArgs false
namespace Verif.Node
open Verif.Ser BufSpec

/-- A sub block without its checksum. -/
def subAll (body : List Nat) (un : Nat) : List Nat := digits 4 body.length ++ (digits 4 un ++ body)

theorem subAll_length (body : List Nat) (un : Nat) : (subAll body un).length = 8 + body.length := by simp [subAll, digits_length]; omega

theorem subBytes_sealed (all : List Nat) : subBytes (all, memory all) = sealed all := rfl

theorem compressSub_ok {L : Lib} (hL : L.Ok) (m : Method) {data : List Nat} (hb : Bytes data) (hl : data.length < 2 ^ 31 + 1000) :
    ∃ body, compressSub L m data = .ok (subAll body data.length, memory (subAll body data.length)) ∧ body.length ≤ 2 * data.length + 1002 ∧
      decompress L data.length body = .ok data := by
  obtain ⟨h0, body, hc, hlb, hd⟩ := compress_ok hL m hb (by omega)
  have := bound_le hL m data.length h0
  refine ⟨body, ?_, by omega, hd⟩
  rw [compressSub, if_pos h0, hc, R.bind_ok]
  rfl

theorem readSub_ok {r : Rd} {body post : List Nat} {un : Nat} (hb : body.length < 2 ^ 32) (hu : un < 2 ^ 32) (h : At r (sealed (subAll body un) ++ post)) :
    readSub r = .ok (some (body, un), Rd.adv r (12 + body.length)) := by
  have h' := h
  simp only [sealed, subAll, List.append_assoc] at h
  have a1 := h.int_adv
  have a2 := a1.int_adv
  have a3 := a2.adv rfl
  have hx : (r.buf.drop r.ndone).take (8 + body.length) = subAll body un := by
    rw [h'.drop, sealed, List.append_assoc, ← subAll_length body un, List.take_left]
  rw [readSub, h.int hb, R.bind_ok]
  simp only
  rw [a1.int hu, R.bind_ok]
  simp only
  rw [a2.literal rfl, R.bind_ok]
  simp only
  rw [hx]
  have hm := memory_lt (subAll body un)
  have e := a3.int (by simp only [subAll] at hm; exact hm)
  rw [e, R.bind_ok]
  simp only
  rw [if_pos (by rfl), R.pure_ok]
  simp only [Rd.adv]
  congr 3
  omega

/-! ### The common part -/

/-- The fields of a node of `n` partitions, with these pivots. -/
structure Fields.Has (f : Fields) (ks : List PivotSpec.Key) (n : Nat) : Prop where
  rep : f.pivots.Rep ks
  keys : ∀ k ∈ ks, PivotSpec.Ok k
  count : ks.length + 1 = n
  few : n < 2 ^ 16
  small : (ks.map List.length).sum < 2 ^ 29
  original : f.original < 2 ^ 32
  msn : f.msn < 2 ^ 64
  flags : f.flags < 2 ^ 32
  height : f.height < 2 ^ 31
  oldest : f.oldest < 2 ^ 64
  blocks : f.blocks.length = if 0 < f.height then n else 0
  range : ∀ b ∈ f.blocks, b < 2 ^ 64

def ullBytes (v : Nat) : List Nat := digits 4 (v / 2 ^ 32) ++ digits 4 (v % 2 ^ 32)

theorem ullBytes_length (v : Nat) : (ullBytes v).length = 8 := by simp [ullBytes, digits_length]

def infoBytes (f : Fields) (ks : List PivotSpec.Key) : List Nat :=
  ullBytes f.msn ++ (digits 4 0 ++ (digits 4 f.flags ++ (digits 4 f.height ++ (ullBytes f.oldest ++ (BufSpec.layout (keyFields ks) ++ f.blocks.flatMap ullBytes)))))

theorem layout_keys (ks : List (List Nat)) : (BufSpec.layout (keyFields ks)).length = (ks.map List.length).sum + ks.length * 4 := by
  induction ks with
  | nil => rfl
  | cons k ks ih =>
    simp only [keyFields, BufSpec.layout, List.map_cons, List.flatMap_cons, List.length_append, List.sum_cons, List.length_cons] at *
    rw [ih]
    simp only [BufSpec.bytes, List.length_append, digits_length]
    omega

theorem blocks_length (bs : List Nat) : (bs.flatMap ullBytes).length = bs.length * 8 := by
  induction bs with
  | nil => rfl
  | cons b bs ih => rw [List.flatMap_cons, List.length_append, ih, ullBytes_length, List.length_cons]; omega

theorem infoBytes_length {f : Fields} {ks : List PivotSpec.Key} : (infoBytes f ks).length = 28 + ((ks.map List.length).sum + ks.length * 4) + f.blocks.length * 8 := by
  simp only [infoBytes, List.length_append, ullBytes_length, digits_length, layout_keys, blocks_length]; omega

theorem writeBlocks_puts {bs : List Nat} (h : ∀ b ∈ bs, b < 2 ^ 64) : Puts (writeBlocks bs) (bs.flatMap ullBytes) := by
  induction bs with
  | nil => exact Puts.nil
  | cons b bs ih =>
    exact ((Puts.ull (h b (by simp))).seq (ih fun x hx => h x (List.mem_cons_of_mem _ hx))).congr (fun w => rfl) (by rw [List.flatMap_cons]; rfl)

theorem readBlocks_ok {bs : List Nat} (h : ∀ b ∈ bs, b < 2 ^ 64) {r : Rd} {post : List Nat} (ha : At r (bs.flatMap ullBytes ++ post)) :
    readBlocks bs.length r = .ok (bs, Rd.adv r (bs.length * 8)) := by
  induction bs generalizing r with
  | nil => rfl
  | cons b bs ih =>
    rw [List.flatMap_cons, List.append_assoc] at ha
    have hb := h b (by simp)
    rw [List.length_cons, readBlocks, At.ull ha hb, R.bind_ok]
    simp only
    rw [ih (fun x hx => h x (List.mem_cons_of_mem _ hx)) (At.ull_adv ha), R.bind_ok]
    simp only [R.pure_ok, Rd.adv]
    congr 3
    omega

theorem Fields.Has.valid {f : Fields} {ks : List PivotSpec.Key} {n : Nat} (h : f.Has ks n) : ∀ x ∈ keyFields ks, BufSpec.Valid x := by
  intro x hx
  obtain ⟨k, hm, rfl⟩ := List.mem_map.mp hx
  exact ⟨(h.keys k hm).2.1, (h.keys k hm).2.2⟩

theorem Fields.Has.infoSize {f : Fields} {ks : List PivotSpec.Key} {n : Nat} (h : f.Has ks n) : infoSize f n = (infoBytes f ks).length + 4 := by
  have h1 := h.count
  have h2 := h.few
  have h3 := h.small
  have h4 := h.blocks
  rw [infoBytes_length, Verif.Node.infoSize, h.rep.serializedSize]
  have : (if 0 < f.height then n * 8 else 0) = f.blocks.length * 8 := by rw [h4]; split <;> omega
  rw [this]
  have h5 : f.blocks.length ≤ n := by rw [h4]; split <;> omega
  unfold m32
  omega

theorem Fields.Has.infoSmall {f : Fields} {ks : List PivotSpec.Key} {n : Nat} (h : f.Has ks n) : (infoBytes f ks).length < 2 ^ 29 + 2 ^ 20 := by
  have h1 := h.count
  have h2 := h.few
  have h3 := h.small
  have h4 := h.blocks
  have h5 : f.blocks.length ≤ n := by rw [h4]; split <;> omega
  rw [infoBytes_length]; omega

theorem Fields.Has.bytes {f : Fields} {ks : List PivotSpec.Key} {n : Nat} (h : f.Has ks n) : Bytes (infoBytes f ks) := by
  have u : ∀ v, Bytes (ullBytes v) := fun v => Bytes.append.mpr ⟨digits_bytes _ _, digits_bytes _ _⟩
  refine Bytes.append.mpr ⟨u _, Bytes.append.mpr ⟨digits_bytes _ _, Bytes.append.mpr ⟨digits_bytes _ _, Bytes.append.mpr ⟨digits_bytes _ _, Bytes.append.mpr ⟨u _, Bytes.append.mpr ⟨?_, ?_⟩⟩⟩⟩⟩⟩
  · intro x hx
    obtain ⟨y, hy, hx⟩ := List.mem_flatMap.mp hx
    exact Valid.bytes (h.valid y hy) x hx
  · intro x hx
    obtain ⟨y, hy, hx⟩ := List.mem_flatMap.mp hx
    exact u y x hx

theorem Fields.Has.write {f : Fields} {ks : List PivotSpec.Key} {n : Nat} (h : f.Has ks n) :
    writeInfo f (Verif.Node.infoSize f n) = .ok (sealed (infoBytes f ks)) := by
  have hs := h.infoSize
  have hl := infoBytes_length (f := f) (ks := ks)
  have hk := layout_keys ks
  have p1 := Puts.ull h.msn
  have p2 := Puts.int 0
  have p3 := Puts.int f.flags
  have p4 := Puts.int f.height
  have p5 := Puts.ull h.oldest
  have p6 : Puts f.pivots.serialize (BufSpec.layout (keyFields ks)) := fun w hw => h.rep.serialize (fun x hx => (h.keys x hx).1) h.valid w hw
  have p7 : Puts (writeChildren f) (f.blocks.flatMap ullBytes) := by
    intro w hw
    rw [writeChildren]
    by_cases hh : 0 < f.height
    · rw [if_pos hh]; exact writeBlocks_puts h.range w hw
    · have := h.blocks
      rw [if_neg hh] at this
      rw [if_neg hh, List.length_eq_zero_iff.mp this]
      simp [push_nil]
  have all : Puts (fun w => w.ull0 f.msn >>= fun w => w.int0 0 >>= fun w => w.int0 f.flags >>= fun w => w.int0 f.height >>= fun w => w.ull0 f.oldest >>= fun w =>
      f.pivots.serialize w >>= fun w => writeChildren f w) (infoBytes f ks) :=
    p1.seq (p2.seq (p3.seq (p4.seq (p5.seq (p6.seq p7)))))
  have := all (W.init (Verif.Node.infoSize f n)) (by simp [W.init]; omega)
  simp only at this
  rw [writeInfo, if_pos (by omega)]
  have e : ∀ g : W → R (List Nat), ((W.init (Verif.Node.infoSize f n)).ull0 f.msn >>= fun w => w.int0 0 >>= fun w => w.int0 f.flags >>= fun w => w.int0 f.height >>= fun w => w.ull0 f.oldest >>= fun w =>
      f.pivots.serialize w >>= fun w => writeChildren f w >>= g) =
      (((W.init (Verif.Node.infoSize f n)).ull0 f.msn >>= fun w => w.int0 0 >>= fun w => w.int0 f.flags >>= fun w => w.int0 f.height >>= fun w => w.ull0 f.oldest >>= fun w =>
      f.pivots.serialize w >>= fun w => writeChildren f w) >>= g) := by
    intro g
    cases (W.init (Verif.Node.infoSize f n)).ull0 f.msn with
    | ok w =>
      simp only [R.bind_ok]
      cases w.int0 0 with
      | ok w =>
        simp only [R.bind_ok]
        cases w.int0 f.flags with
        | ok w =>
          simp only [R.bind_ok]
          cases w.int0 f.height with
          | ok w =>
            simp only [R.bind_ok]
            cases w.ull0 f.oldest with
            | ok w =>
              simp only [R.bind_ok]
              cases f.pivots.serialize w with
              | ok w => rfl
              | abort => rfl
              | outside => rfl
            | abort => rfl
            | outside => rfl
          | abort => rfl
          | outside => rfl
        | abort => rfl
        | outside => rfl
      | abort => rfl
      | outside => rfl
    | abort => rfl
    | outside => rfl
  rw [e, this, R.bind_ok, sealW_init (w := W.init 0) hs, R.bind_ok]
  simp [W.push, W.init, R.pure_ok]

theorem readPivots_ok {f : Fields} {ks : List PivotSpec.Key} {n : Nat} (h : f.Has ks n) {r : Rd} {post : List Nat} (ha : At r (BufSpec.layout (keyFields ks) ++ post)) :
    ∃ q, readPivots n r = .ok (q, Rd.adv r (BufSpec.layout (keyFields ks)).length) ∧ q.Rep ks := by
  have hc := h.count
  rw [readPivots]
  by_cases h1 : 1 < n
  · rw [if_pos h1]
    obtain ⟨q, hq, hr⟩ := Pk.Rep.deserialize h.valid (r.buf.take r.ndone) post
    have e : r = ⟨r.buf.take r.ndone ++ (BufSpec.layout (keyFields ks) ++ post), (r.buf.take r.ndone).length⟩ := by
      have := ha.le
      rw [← ha.drop, List.take_append_drop, List.length_take, Nat.min_eq_left this]
    rw [← e] at hq
    refine ⟨q, ?_, hr⟩
    rw [show n - 1 = ks.length by omega, hq]
    have := ha.drop
    congr 2
    rw [Rd.adv, List.length_append]
    have hle := ha.le
    rw [List.length_take, Nat.min_eq_left hle]
    conv => rhs; rw [e]
    simp only
    congr 1
    rw [List.length_take, Nat.min_eq_left hle]
  · have : ks = [] := List.length_eq_zero_iff.mp (by omega)
    subst this
    rw [if_neg h1]
    exact ⟨Pk.empty, by simp [keyFields, BufSpec.layout, Rd.adv], .dbts rfl rfl⟩

theorem Fields.Has.read {f : Fields} {ks : List PivotSpec.Key} {n : Nat} (h : f.Has ks n) (build : Nat) :
    ∃ q, readInfo f.original build n (sealed (infoBytes f ks)) = .ok (some { f with build := build, pivots := q }) ∧ q.Rep ks := by
  have a0 : At ⟨infoBytes f ks, 0⟩ (infoBytes f ks ++ []) := by rw [List.append_nil]; exact At.start _
  simp only [infoBytes, List.append_assoc] at a0
  have a1 := At.ull_adv (v := f.msn) a0
  have a2 := a1.int_adv
  have a3 := a2.int_adv
  have a4 := a3.int_adv
  have a5 := At.ull_adv (v := f.oldest) a4
  obtain ⟨q, hq, hr⟩ := readPivots_ok h a5
  have a6 := a5.adv rfl
  refine ⟨q, ?_, hr⟩
  rw [readInfo, verifySub_ok, R.bind_ok, if_pos rfl, sealed_take]
  simp only [infoBytes]
  rw [At.ull a0 h.msn, R.bind_ok]
  simp only
  rw [a1.int (by decide), R.bind_ok]
  simp only
  rw [a2.int h.flags, R.bind_ok]
  simp only
  rw [a3.int (by have := h.height; omega), R.bind_ok]
  simp only
  rw [At.ull a4 h.oldest, R.bind_ok]
  simp only
  rw [hq, R.bind_ok]
  simp only
  have hb : readChildren f.height n (Rd.adv (Rd.adv (Rd.adv (Rd.adv (Rd.adv (Rd.adv ⟨infoBytes f ks, 0⟩ 8) 4) 4) 4) 8) (BufSpec.layout (keyFields ks)).length) =
      .ok (f.blocks, Rd.adv (Rd.adv (Rd.adv (Rd.adv (Rd.adv (Rd.adv (Rd.adv ⟨infoBytes f ks, 0⟩ 8) 4) 4) 4) 8) (BufSpec.layout (keyFields ks)).length) (f.blocks.length * 8)) := by
    rw [readChildren]
    have hb := h.blocks
    by_cases hh : 0 < f.height
    · rw [if_pos hh] at hb ⊢
      rw [← hb]
      exact readBlocks_ok h.range a6
    · rw [if_neg hh] at hb ⊢
      rw [List.length_eq_zero_iff.mp hb]
      rfl
  simp only [infoBytes] at hb
  rw [hb, R.bind_ok]
  simp only [adv_ndone]
  have hl := infoBytes_length (f := f) (ks := ks)
  rw [layout_keys]
  have hz := sealed_length (infoBytes f ks)
  refine (if_pos ?_).trans rfl
  simp only [infoBytes] at hz hl
  rw [hz]
  omega

end Verif.Node
