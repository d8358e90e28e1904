import Verif.Undo.Lemmas
/-!
Pieces, their header, and the whole block.
-/
set_option linter.unusedVariables false
set_option linter.unusedSimpArgs false
namespace Verif.Undo
open Verif.Ser Verif.Log Verif.Node BufSpec

theorem drop4 (v : Nat) (x : List Nat) : (digits 4 v ++ x).drop 4 = x := List.drop_left' (digits_length 4 v)

/-! ### The sizes of the pieces -/

theorem choose_ok {total : Nat} (h0 : 0 < total) (h1 : total + 512 ≤ 2 ^ 31) :
    ∃ n s, choose total 8 = .ok (n, s) ∧ 0 < n ∧ n ≤ 8 ∧ ∀ k ∈ pieceSizes total n s, 0 < k ∧ k ≤ 2 ^ 28 + 64 := by
  rw [choose, if_neg (by omega)]
  by_cases hn : total / (512 * 1024) ≤ 1
  · rw [if_pos hn, if_pos h0]
    refine ⟨1, total, rfl, by omega, by omega, ?_⟩
    intro k hk
    simp only [pieceSizes, Nat.sub_self, List.replicate_zero, List.nil_append, true_or, if_true, Nat.mul_zero, Nat.sub_zero, List.mem_singleton] at hk
    subst hk
    omega
  · rw [if_neg hn]
    dsimp only
    obtain ⟨n, en⟩ : ∃ n, n = if 8 < total / (512 * 1024) then 8 else total / (512 * 1024) := ⟨_, rfl⟩
    rw [← en]
    have hb : 2 ≤ n ∧ n ≤ 8 ∧ 524288 * n ≤ total ∧ (n < 8 → total < 524288 * (n + 1)) := by
      split at en
      · subst en; omega
      · omega
    clear en hn
    have key : ∃ s, roundUp n total total ((total / n + 31) / 32 * 32) = .ok s ∧ 0 < s ∧ s ≤ 2 ^ 28 + 64 ∧ s * (n - 1) < total := by
      obtain ⟨t, rfl⟩ : ∃ t, total = t + 2 := ⟨total - 2, by omega⟩
      obtain ⟨hb1, hb2, hb3, hb4⟩ := hb
      have hc : n = 2 ∨ n = 3 ∨ n = 4 ∨ n = 5 ∨ n = 6 ∨ n = 7 ∨ n = 8 := by omega
      rw [roundUp]
      by_cases hlt : (((t + 2) / n + 31) / 32 * 32) * n < t + 2
      · rw [if_neg (by omega), if_pos hlt, roundUp]
        refine ⟨((t + 2) / n + 31) / 32 * 32 + 32, ?_, ?_⟩
        · rw [if_neg (by rcases hc with rfl | rfl | rfl | rfl | rfl | rfl | rfl <;> omega),
            if_neg (by rcases hc with rfl | rfl | rfl | rfl | rfl | rfl | rfl <;> omega)]
        · rcases hc with rfl | rfl | rfl | rfl | rfl | rfl | rfl <;> omega
      · refine ⟨((t + 2) / n + 31) / 32 * 32, ?_, ?_⟩
        · rw [if_neg (by rcases hc with rfl | rfl | rfl | rfl | rfl | rfl | rfl <;> omega), if_neg hlt]
        · rcases hc with rfl | rfl | rfl | rfl | rfl | rfl | rfl <;> omega
    obtain ⟨s, es, hs0, hs1, hs2⟩ := key
    rw [es, R.bind_ok, if_pos ⟨by omega, hb.2.1, hs0⟩]
    refine ⟨n, s, rfl, by omega, hb.2.1, ?_⟩
    intro k hk
    simp only [pieceSizes, List.mem_append, List.mem_replicate, List.mem_singleton] at hk
    rcases hk with ⟨_, rfl⟩ | hk
    · exact ⟨hs0, hs1⟩
    · rw [if_pos (Or.inr hs2)] at hk
      subst hk
      refine ⟨by omega, ?_⟩
      have hc : n = 2 ∨ n = 3 ∨ n = 4 ∨ n = 5 ∨ n = 6 ∨ n = 7 ∨ n = 8 := by omega
      have hr : total ≤ s * n := by
        have : ∀ k x, roundUp n total k x = .ok s → total ≤ s * n := by
          intro k
          induction k with
          | zero => intro x h; cases h
          | succ k ih =>
            intro x h
            rw [roundUp] at h
            split at h
            · cases h
            · split at h
              · exact ih _ h
              · cases h; omega
        exact this _ _ es
      rcases hc with rfl | rfl | rfl | rfl | rfl | rfl | rfl <;> omega

theorem pieceSizes_sum {total n s : Nat} (hn : 0 < n) (h : ∀ k ∈ pieceSizes total n s, 0 < k) : (pieceSizes total n s).sum = total := by
  have hl := h (if n - 1 = 0 ∨ s * (n - 1) < total then total - s * (n - 1) else 0) (by simp only [pieceSizes, List.mem_append, List.mem_singleton, or_true])
  simp only [pieceSizes, List.sum_append, List.sum_replicate_nat, List.sum_cons, List.sum_nil]
  split at hl
  · rename_i hc
    rw [if_pos hc, Nat.mul_comm (n - 1) s]
    omega
  · omega

theorem pieceSizes_length {total n s : Nat} (hn : 0 < n) : (pieceSizes total n s).length = n := by
  simp only [pieceSizes, List.length_append, List.length_replicate, List.length_singleton]; omega

/-! ### Compression of the pieces -/

/-- What is stored about a piece. -/
def subInfo (s : List Nat × Nat) : Nat × Nat × Nat := (s.1.length, s.2, memory s.1)

theorem compressAll_ok {L : Lib} (hL : L.Ok) (m : Method) : ∀ (ks : List Nat) (data : List Nat), Bytes data → ks.sum = data.length → (∀ k ∈ ks, 0 < k ∧ k ≤ 2 ^ 28 + 64) →
    ∃ subs, compressAll L m ks data = .ok subs ∧ subs.length = ks.length ∧ sizesOk (subs.map subInfo) = true ∧
      ∀ post, expandAll L (subs.map subInfo) (subs.flatMap (·.1) ++ post) = .ok (some data) := by
  intro ks
  induction ks with
  | nil =>
    intro data _ hs _
    have : data = [] := List.length_eq_zero_iff.mp (by simpa using hs.symm)
    subst this
    exact ⟨[], rfl, rfl, rfl, fun post => rfl⟩
  | cons k ks ih =>
    intro data hb hs hk
    rw [List.sum_cons] at hs
    have hk0 := hk k (by simp)
    have hlt : (data.take k).length = k := by rw [List.length_take]; omega
    obtain ⟨hp, body, e1, hlen, hback⟩ := compress_ok hL m (hb.take k) (by rw [hlt]; omega)
    rw [hlt] at hp e1 hlen hback
    obtain ⟨subs, e2, hl2, hok, hx⟩ := ih (data.drop k) (hb.drop k) (by rw [List.length_drop]; omega) (fun k hk' => hk k (by simp [hk']))
    have hbl := bound_le hL m k hp
    have hpos : 0 < body.length := by
      cases body with
      | nil => simp only [decompress] at hback; cases hback
      | cons => simp
    refine ⟨(body, k) :: subs, ?_, by simp [hl2], ?_, ?_⟩
    · rw [compressAll, if_pos (by omega), e1, R.bind_ok, e2, R.bind_ok]; rfl
    · rw [List.map_cons, sizesOk, List.all_cons]
      rw [sizesOk] at hok
      rw [hok]
      simp only [subInfo, Bool.and_true, Bool.and_eq_true]
      exact ⟨⟨⟨decide_eq_true hpos, decide_eq_true (by omega)⟩, decide_eq_true hk0.1⟩, decide_eq_true (by omega)⟩
    · intro post
      simp only [List.map_cons, List.flatMap_cons, List.append_assoc, subInfo, expandAll]
      rw [if_pos (by simp), List.take_left, expandOne, if_pos rfl, hback, List.drop_left]
      have := hx post
      rw [R.bind_ok, R.pure_ok, R.bind_ok, this, R.bind_ok]
      show R.ok (some _) = _
      rw [List.take_append_drop]

theorem readSubs_ok : ∀ (subs : List (List Nat × Nat)) (post : List Nat), (∀ s ∈ subs, s.1.length < 2 ^ 32 ∧ s.2 < 2 ^ 32) →
    readSubs subs.length ((subs.flatMap fun s => store32 s.1.length ++ store32 s.2 ++ store32 (memory s.1)) ++ post) = subs.map subInfo := by
  intro subs
  induction subs with
  | nil => intro post _; rfl
  | cons s subs ih =>
    intro post h
    have hs := h s (by simp)
    have hm := memory_lt s.1
    simp only [List.length_cons, List.flatMap_cons, List.append_assoc, readSubs, store32_digits, List.map_cons]
    have l4 : ∀ v, (digits 4 v).length = 4 := fun v => digits_length 4 v
    have t4 : ∀ v x, (digits 4 v ++ x).take 4 = digits 4 v := fun v x => by rw [List.take_append_of_le_length (by rw [l4]; omega), List.take_of_length_le (by rw [l4]; omega)]
    have d4 := drop4
    have le4 : ∀ v, v < 2 ^ 32 → le (digits 4 v) = v := fun v hv => by rw [le_digits]; exact Nat.mod_eq_of_lt (by omega)
    have d8 : ∀ v u x, (digits 4 v ++ (digits 4 u ++ x)).drop 8 = x := fun v u x => by
      rw [show 8 = 4 + 4 from rfl, ← List.drop_drop, d4, d4]
    have d12 : ∀ v u w x, (digits 4 v ++ (digits 4 u ++ (digits 4 w ++ x))).drop 12 = x := fun v u w x => by
      rw [show 12 = 4 + 8 from rfl, ← List.drop_drop, d4, d8]
    rw [t4, d4, t4, d8, t4, d12, le4 _ hs.1, le4 _ hs.2, le4 _ hm]
    have := ih post (fun s hs => h s (by simp [hs]))
    simp only [store32_digits, List.append_assoc] at this
    rw [this]
    rfl

theorem subHeader_length (subs : List (List Nat × Nat)) : (subHeader subs).length = 4 + subs.length * 12 := by
  have : ∀ subs : List (List Nat × Nat), (subs.flatMap fun s => store32 s.1.length ++ store32 s.2 ++ store32 (memory s.1)).length = subs.length * 12 := by
    intro subs
    induction subs with
    | nil => rfl
    | cons s subs ih => rw [List.flatMap_cons, List.length_append, ih]; simp only [List.length_append, store32_digits, digits_length, List.length_cons]; omega
  rw [subHeader, List.length_append, this, store32_digits, digits_length]

/-- A block: 20 bytes of header, the header of the pieces, the checksum, the pieces, anything. -/
theorem unpack_ok {L : Lib} {head data : List Nat} {subs : List (List Nat × Nat)} {pad : List Nat} (hh : head.length = 20) (hn : subs.length ≤ 8)
    (hok : sizesOk (subs.map subInfo) = true) (hx : ∀ post, expandAll L (subs.map subInfo) (subs.flatMap (·.1) ++ post) = .ok (some data)) :
    unpack L (head ++ subHeader subs ++ store32 (memory (head ++ subHeader subs)) ++ subs.flatMap (·.1) ++ pad) = .ok (some (head ++ data)) := by
  have hsl := subHeader_length subs
  have hml := memory_lt (head ++ subHeader subs)
  obtain ⟨raw, er⟩ : ∃ raw, raw = head ++ subHeader subs ++ store32 (memory (head ++ subHeader subs)) ++ subs.flatMap (·.1) ++ pad := ⟨_, rfl⟩
  rw [← er]
  have e1 : raw = head ++ (store32 subs.length ++ ((subs.flatMap fun s => store32 s.1.length ++ store32 s.2 ++ store32 (memory s.1)) ++
      (store32 (memory (head ++ subHeader subs)) ++ (subs.flatMap (·.1) ++ pad)))) := by
    rw [er]
    conv => lhs; rw [show subHeader subs = store32 subs.length ++ (subs.flatMap fun s => store32 s.1.length ++ store32 s.2 ++ store32 (memory s.1)) from rfl]
    simp only [List.append_assoc, subHeader]
  have e2 : raw = (head ++ subHeader subs) ++ (store32 (memory (head ++ subHeader subs)) ++ (subs.flatMap (·.1) ++ pad)) := by
    rw [er]; simp only [List.append_assoc]
  have hhl : (head ++ subHeader subs).length = 24 + subs.length * 12 := by rw [List.length_append, hh, hsl]; omega
  have hrl : 24 + subs.length * 12 + 4 ≤ raw.length := by
    rw [e2, List.length_append, hhl, List.length_append, store32_digits, digits_length]; omega
  have hcount : le ((raw.drop 20).take 4) = subs.length := by
    rw [e1, ← hh, List.drop_left, store32_digits, List.take_append_of_le_length (by rw [digits_length]; omega), List.take_of_length_le (by rw [digits_length]; omega), le_digits]
    exact Nat.mod_eq_of_lt (by omega)
  have htake : raw.take (24 + subs.length * 12) = head ++ subHeader subs := by rw [e2, ← hhl, List.take_left]
  have hdrop : raw.drop (24 + subs.length * 12) = store32 (memory (head ++ subHeader subs)) ++ (subs.flatMap (·.1) ++ pad) := by
    conv => lhs; rw [e2, ← hhl]
    rw [List.drop_left]
  have hsum : le ((raw.drop (24 + subs.length * 12)).take 4) = memory (head ++ subHeader subs) := by
    rw [hdrop, store32_digits, List.take_append_of_le_length (by rw [digits_length]; omega), List.take_of_length_le (by rw [digits_length]; omega), le_digits]
    exact Nat.mod_eq_of_lt (by omega)
  have hrest : raw.drop (24 + subs.length * 12 + 4) = subs.flatMap (·.1) ++ pad := by
    rw [← List.drop_drop, hdrop, store32_digits, drop4]
  have h24 : raw.drop 24 = (subs.flatMap fun s => store32 s.1.length ++ store32 s.2 ++ store32 (memory s.1)) ++
      (store32 (memory (head ++ subHeader subs)) ++ (subs.flatMap (·.1) ++ pad)) := by
    have : 24 = 20 + 4 := rfl
    rw [this, ← List.drop_drop, e1]
    conv => lhs; rw [← hh]
    rw [List.drop_left]
    rw [store32_digits, drop4]
  have hsmall : ∀ s ∈ subs, s.1.length < 2 ^ 32 ∧ s.2 < 2 ^ 32 := by
    intro s hs
    rw [sizesOk, List.all_eq_true] at hok
    have := hok (subInfo s) (List.mem_map_of_mem hs)
    simp only [subInfo, Bool.and_eq_true] at this
    have a := of_decide_eq_true this.1.1.2
    have b := of_decide_eq_true this.2
    omega
  rw [unpack, hcount]
  dsimp only
  rw [if_pos hn, if_pos (by omega), if_pos hrl, htake, hsum, if_pos rfl, h24, readSubs_ok subs _ hsmall, if_pos hok, hrest, hx, R.bind_ok]
  dsimp only
  have : raw.take 20 = head := by rw [e1, ← hh, List.take_left]
  rw [this]
  rfl

/-! ### Nodes -/

/-- What is written for a node: a block of whole sectors that begins with the first 20 bytes of the node and can be unpacked. -/
theorem toDisk_ok {L : Lib} (hL : L.Ok) (m : Method) {n : RNode} (h : Spec.Ok n) {build arena : Nat} (hb : build < 2 ^ 32) (ha : arena < 2 ^ 64) :
    ∃ block, toDisk L m n.version build arena n = .ok block ∧ block.length % 512 = 0 ∧ 24 ≤ block.length ∧ block.take 20 = (nodeBytes n build arena).take 20 ∧
      unpack L block = .ok (some (nodeBytes n build arena)) := by
  have hm := h.most
  unfold Spec.most at hm
  have hlen := nodeBytes_length h build arena
  have hns : nodeSize n = 76 + n.bytes := by simp only [nodeSize]
  obtain ⟨k, s, ec, hk0, hk8, hks⟩ := choose_ok (total := nodeSize n - 20) (by omega) (by omega)
  have hsum := pieceSizes_sum hk0 (fun k hk => (hks k hk).1)
  obtain ⟨subs, e1, hl, hok, hx⟩ := compressAll_ok hL m _ ((nodeBytes n build arena).drop 20) ((nodeBytes_bytes h hb ha).drop 20)
    (by rw [List.length_drop, hlen]; exact hsum) hks
  rw [pieceSizes_length hk0] at hl
  have h20 : ((nodeBytes n build arena).take 20).length = 20 := by rw [List.length_take]; omega
  rw [toDisk, ec, R.bind_ok]
  dsimp only
  rw [toBuf_ok h hb ha, R.bind_ok, pack, e1, R.bind_ok]
  dsimp only
  obtain ⟨all, ea⟩ : ∃ all, all = (nodeBytes n build arena).take 20 ++ subHeader subs ++ store32 (memory ((nodeBytes n build arena).take 20 ++ subHeader subs)) ++
    subs.flatMap (·.1) := ⟨_, rfl⟩
  rw [← ea]
  have hal : 24 ≤ all.length := by
    rw [ea]
    simp only [List.length_append, h20, subHeader_length]
    omega
  refine ⟨_, rfl, ?_, ?_, ?_, ?_⟩
  · rw [List.length_append, List.length_replicate]
    unfold roundup512
    omega
  · rw [List.length_append]; omega
  · rw [List.take_append_of_le_length (by omega), ea, List.append_assoc, List.append_assoc]
    exact List.take_left' h20
  · have := unpack_ok (L := L) (pad := List.replicate (roundup512 all.length - all.length) 0) h20 (by omega) hok hx
    rw [← ea, List.take_append_drop] at this
    exact this

theorem roundup_self {n : Nat} (h : n % 512 = 0) : roundup512 n = n := by unfold roundup512; omega

theorem readBlock_ok (pre block post : List Nat) (h : block.length % 512 = 0) : readBlock (pre ++ block ++ post) pre.length block.length = .ok block := by
  rw [readBlock, roundup_self h]
  have : pread (pre ++ block ++ post) pre.length block.length = block := by rw [pread, List.append_assoc, List.drop_left, List.take_left]
  rw [this, if_pos ⟨Nat.le_refl _, Nat.le_refl _⟩, List.take_length]

theorem front_take (n : RNode) (build arena : Nat) : (nodeBytes n build arena).take 8 = magicRoll ∧ (((nodeBytes n build arena).take 20).drop 8).take 4 = digits 4 n.version := by
  have e : nodeBytes n build arena = magicRoll ++ (digits 4 n.version ++ ((digits 4 n.original ++ digits 4 build) ++ (layout ((front n build arena).drop 4) ++ n.newest.flatMap recBytes))) := by
    simp only [nodeBytes, front, layout, List.flatMap_cons, List.flatMap_nil, BufSpec.bytes, List.append_assoc, List.append_nil, List.nil_append, List.drop_succ_cons, List.drop_zero]
  refine ⟨by rw [e]; exact List.take_left (l₁ := magicRoll), ?_⟩
  have e2 : (nodeBytes n build arena).take 20 = magicRoll ++ (digits 4 n.version ++ (digits 4 n.original ++ digits 4 build)) := by
    have hl : (magicRoll ++ (digits 4 n.version ++ (digits 4 n.original ++ digits 4 build))).length = 20 := by
      simp only [List.length_append, digits_length, magicRoll, List.length_cons, List.length_nil]
    have e3 : nodeBytes n build arena = (magicRoll ++ (digits 4 n.version ++ (digits 4 n.original ++ digits 4 build))) ++ (layout ((front n build arena).drop 4) ++ n.newest.flatMap recBytes) := by
      rw [e]; simp only [List.append_assoc]
    rw [e3]
    exact List.take_left' hl
  rw [e2]
  have : (magicRoll ++ (digits 4 n.version ++ (digits 4 n.original ++ digits 4 build))).drop 8 = digits 4 n.version ++ (digits 4 n.original ++ digits 4 build) :=
    List.drop_left (l₁ := magicRoll)
  rw [this, List.take_append_of_le_length (by rw [digits_length]; omega), List.take_of_length_le (by rw [digits_length]; omega)]

/-- What the read does with a block that was written: it depends on the version. -/
theorem decode_written {L : Lib} {n : RNode} (h : Spec.Ok n) {build arena : Nat} {block : List Nat} {bn : Nat} (hl : 24 ≤ block.length)
    (ht : block.take 20 = (nodeBytes n build arena).take 20) (hu : unpack L block = .ok (some (nodeBytes n build arena))) (hv : 13 ≤ n.version ∧ n.version ≤ 29) :
    decodeBlock L bn block = if unpackable n.version then if readable n.version then fromBuf bn (nodeBytes n build arena) else .abort else .abort := by
  obtain ⟨f1, f2⟩ := front_take n build arena
  have t8 : block.take 8 = magicRoll := by
    have : block.take 8 = (block.take 20).take 8 := by rw [List.take_take]; rfl
    rw [this, ht, List.take_take]
    exact f1
  have v : (block.drop 8).take 4 = digits 4 n.version := by
    rw [← f2, ← ht]
    rw [List.drop_take, List.take_take]
    rfl
  have hle : le ((block.drop 8).take 4) = n.version := by rw [v, le_digits]; exact Nat.mod_eq_of_lt (by omega)
  rw [decodeBlock, if_neg (by omega), if_neg (by rw [t8]; simp)]
  dsimp only
  rw [hle, if_neg (by unfold current; omega)]
  by_cases hup : unpackable n.version = true
  · rw [if_pos hup, if_pos hup, hu, R.bind_ok]
    dsimp only
    rw [if_pos f1]
  · rw [if_neg hup, if_neg hup]

theorem fromDisk_ok {L : Lib} {n : RNode} (h : Spec.Ok n) {build arena : Nat} {block : List Nat} {bn : Nat} (hm : block.length % 512 = 0) (hl : 24 ≤ block.length)
    (ht : block.take 20 = (nodeBytes n build arena).take 20) (hu : unpack L block = .ok (some (nodeBytes n build arena))) (hv : 13 ≤ n.version ∧ n.version ≤ 29)
    (pre post : List Nat) :
    fromDisk L bn (pre ++ block ++ post) pre.length block.length =
      if unpackable n.version then if readable n.version then fromBuf bn (nodeBytes n build arena) else .abort else .abort := by
  rw [fromDisk, if_neg (by omega), readBlock_ok pre block post hm, R.bind_ok]
  exact decode_written h hl ht hu hv

end Verif.Undo
