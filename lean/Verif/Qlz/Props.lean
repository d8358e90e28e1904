import Verif.Qlz.Enc
import Verif.Node.CompressSpec

/-!
# C94: data compressed by the library in the source comes back as it was
-/

namespace Verif.Qlz

theorem le_length : ∀ (n x : Nat), (le n x).length = n
  | 0, _ => rfl
  | n + 1, x => by simp [le, le_length n]

theorem drop1 {n h a b : Nat} {body : List Nat} : ((h :: le n a ++ le n b ++ body).drop (1 + n)) = le n b ++ body := by
  rw [Nat.add_comm, List.append_assoc, List.cons_append, List.drop_succ_cons]
  exact List.drop_left' (le_length n a)

theorem drop2 {n h a b : Nat} {body : List Nat} : ((h :: le n a ++ le n b ++ body).drop (2 * n + 1)) = body := by
  rw [List.cons_append, List.cons_append, List.drop_succ_cons]
  exact List.drop_left' (by rw [List.length_append, le_length, le_length]; omega)

theorem read_back {n b : Nat} {body : List Nat} {long : Bool} (hn : n = if long then 4 else 1) (hb : if long then b < 2 ^ 32 else b < 256) :
    rd n (le n b ++ body) = b := by
  cases long
  · subst hn
    simp only [Bool.false_eq_true, if_false] at hb ⊢
    simp only [le, rd, List.cons_append, List.nil_append, List.headD_cons]
    omega
  · subst hn
    simp only [if_true] at hb ⊢
    exact le4_rd hb

/-- Every text of 1 to 2^32 - 401 bytes comes back from `qlz_decompress` as it was given to `qlz_compress`, whatever was in the
tables and in the destination before, whether it was compressed or stored. -/
theorem C94_back {junk t s} (hb : Bytes s) (h0 : 0 < s.length) (h1 : s.length ≤ 2 ^ 32 - 1 - 400) :
    decompress (compress junk t s) = some s := by
  -- for both results of the compression and both kinds of header
  have key : ∀ (flag : Nat) (body : List Nat) (long : Bool), flag ≤ 1 →
      (if long then s.length < 2 ^ 32 else s.length < 256) →
      (flag = 1 → decode s.length (s.length + 1) 1 body [] = some s) → (flag = 0 → body = s) →
      decompress ((64 + 12 + (if long then 2 else 0) + flag) ::
        le (if long then 4 else 1) ((if long then 9 else 3) + body.length) ++ le (if long then 4 else 1) s.length ++ body) = some s := by
    intro flag body long hf hl hd hs
    unfold decompress
    have hh : ((64 + 12 + (if long then 2 else 0) + flag) ::
        le (if long then 4 else 1) ((if long then 9 else 3) + body.length) ++ le (if long then 4 else 1) s.length ++ body).headD 0 =
        64 + 12 + (if long then 2 else 0) + flag := rfl
    have hn : (if (64 + 12 + (if long then 2 else 0) + flag) / 2 % 2 = 1 then 4 else 1) = (if long then 4 else 1) := by
      cases long
      · simp only [Bool.false_eq_true, if_false]; rw [if_neg (by omega)]
      · simp only [if_true]; rw [if_pos (by omega)]
    have hm : (64 + 12 + (if long then 2 else 0) + flag) % 2 = flag := by
      cases long
      · simp only [Bool.false_eq_true, if_false]; omega
      · simp only [if_true]; omega
    simp only [hh, hn, hm]
    rw [drop1, drop2, read_back rfl hl]
    by_cases hf1 : flag = 1
    · rw [if_pos hf1]; exact hd hf1
    · rw [if_neg hf1, hs (by omega), List.take_length]
  unfold compress
  rw [if_neg (by omega)]
  have hl : if decide (216 ≤ s.length) = true then s.length < 2 ^ 32 else s.length < 256 := by
    by_cases h : 216 ≤ s.length
    · simp only [decide_eq_true h, if_true]; omega
    · simp only [decide_eq_false h, Bool.false_eq_true, if_false]; omega
  cases hc : core junk t s with
  | none => exact key 0 s _ (by omega) hl (by omega) (fun _ => rfl)
  | some r => exact key 1 r _ (by omega) hl (fun _ => core_ok hb h0 hc) (by omega)

/-! ## The length -/

theorem enc_len {off len} (h : 3 ≤ len) : (encMatch off len).length ≤ 4 ∧ (encMatch off len).length ≤ len := by
  unfold encMatch
  (repeat' split) <;> rw [le_length] <;> omega

theorem flush_size (w : W) : w.flush.size = w.size + 4 := by
  unfold W.size W.flush
  simp only [List.length_append, le_length, List.length_nil]

theorem tail_size : ∀ (l : List Nat) (w : W), (tail w l).size ≤ w.size + 5 * l.length
  | [], w => by simp [tail]
  | b :: l, w => by
    unfold tail
    have := tail_size l ((if w.cw % 2 = 1 then w.flush else w).lit b)
    have h2 : ((if w.cw % 2 = 1 then w.flush else w).lit b).size ≤ w.size + 5 := by
      have e : ∀ v : W, (v.lit b).size = v.size + 1 := by
        intro v; unfold W.size W.lit; simp only [List.length_append, List.length_cons, List.length_nil]; omega
      rw [e]
      split
      · rw [flush_size]; omega
      · omega
    simp only [List.length_cons]; omega

/-- The length of the destination in the main loop: never more than 4 bytes for every 31 tokens over the source, and after the middle
of the text at most 4 over it or far below. -/
def Short (n p k : Nat) (w : W) : Prop :=
  (∃ f, w.size ≤ p + 4 + 4 * f ∧ 31 * f + k ≤ p) ∧ (w.size ≤ p + 4 ∨ 62 * w.size ≤ 35 * n + 248 + 248 * k)

theorem loop_size {s : List Nat} (hb : Bytes s) : ∀ (fuel p : Nat) (t : Tab) (w w' : W) (k F : Nat), Wf w k F → p ≤ s.length →
    Short s.length p k w → loop s fuel p t w = some w' → w'.size ≤ s.length + 180
  | 0, _, _, _, _, _, _, _, _, _, e => by cases e
  | fuel + 1, p, t, w, w', k, F, h, hp, hs, e => by
    unfold loop at e
    have hk := h.le
    by_cases c1 : p + 11 ≤ s.length
    · rw [if_pos c1] at e
      split at e
      · cases e
      · rename_i hc
        -- the state after a full control word was written
        have hroom : ∃ k' F', k' < 31 ∧ Wf (if w.cw % 2 = 1 then w.flush else w) k' F' ∧
            Short s.length p k' (if w.cw % 2 = 1 then w.flush else w) := by
          by_cases c : w.cw % 2 = 1
          · have hk31 := (odd_iff h).1 c
            rw [if_pos c]
            refine ⟨0, 0, by omega, (flush_wf h hk31).1, ?_⟩
            obtain ⟨⟨f, f1, f2⟩, g⟩ := hs
            unfold Short
            rw [flush_size]
            refine ⟨⟨f + 1, by omega, by omega⟩, ?_⟩
            by_cases c2 : s.length / 2 < p
            · have : ¬ (p - p / 32 < w.size) := fun c3 => hc ⟨c, c2, c3⟩
              left; omega
            · right; omega
          · rw [if_neg c]
            have : k ≠ 31 := fun e => c ((odd_iff h).2 e)
            exact ⟨k, F, by omega, h, hs⟩
        obtain ⟨k1, F1, hk1, h1, hs1⟩ := hroom
        simp only at e
        generalize (if w.cw % 2 = 1 then w.flush else w) = v at e h1 hs1
        split at e
        · rename_i hm
          obtain ⟨f1, f2, f3⟩ := search_ok (t := t) (h := hash (at3 s p)) hb c1 hm.1
          obtain ⟨h2, -⟩ := mat_wf (off := p - (search s t p (hash (at3 s p))).1) (len := (search s t p (hash (at3 s p))).2) h1 hk1
          refine loop_size hb fuel _ _ _ w' _ _ h2 (by omega) ?_ e
          obtain ⟨l1, l2⟩ := enc_len (off := p - (search s t p (hash (at3 s p))).1) (len := (search s t p (hash (at3 s p))).2) (by omega)
          have hz : (v.mat (p - (search s t p (hash (at3 s p))).1) (search s t p (hash (at3 s p))).2).size =
              v.size + (encMatch (p - (search s t p (hash (at3 s p))).1) (search s t p (hash (at3 s p))).2).length := by
            unfold W.size W.mat; simp only [List.length_append]; omega
          obtain ⟨⟨f, g1, g2⟩, g⟩ := hs1
          unfold Short
          rw [hz]
          exact ⟨⟨f, by omega, by omega⟩, by omega⟩
        · obtain ⟨h2, -⟩ := lit_wf (b := at1 s p) h1 hk1
          refine loop_size hb fuel _ _ _ w' _ _ h2 (by omega) ?_ e
          have hz : (v.lit (at1 s p)).size = v.size + 1 := by
            unfold W.size W.lit; simp only [List.length_append, List.length_cons, List.length_nil]; omega
          obtain ⟨⟨f, g1, g2⟩, g⟩ := hs1
          unfold Short
          rw [hz]
          exact ⟨⟨f, by omega, by omega⟩, by omega⟩
    · rw [if_neg c1] at e
      cases e
      have := tail_size (s.drop p) w
      rw [List.length_drop] at this
      obtain ⟨-, g⟩ := hs
      omega

/-- The result is at most 400 bytes longer than the text, as the caller assumes when it allocates the destination
(ft/serialize/compress.cc:76). -/
theorem C94_fits {junk t s} (hb : Bytes s) : (compress junk t s).length ≤ s.length + 400 := by
  unfold compress
  by_cases h0 : s.length = 0 ∨ 2 ^ 32 - 1 - 400 < s.length
  · rw [if_pos h0]; simp
  · rw [if_neg h0]
    have hcore : ∀ r, core junk t s = some r → r.length ≤ s.length + 189 := by
      intro r e
      unfold core at e
      cases hl : loop s (s.length + 1) 0 { t with cnt := fun _ => 0 } ⟨[], 2 ^ 31, []⟩ with
      | none => rw [hl] at e; cases e
      | some w =>
        rw [hl] at e
        simp only [Option.some.injEq] at e
        have := loop_size hb _ _ _ _ w 0 0 ⟨by omega, by decide, rfl⟩ (by omega)
          ⟨⟨0, by simp [W.size], by omega⟩, by left; simp [W.size]⟩ hl
        have hw : (w.out ++ le 4 (shift 32 w.cw / 2 + 2 ^ 31) ++ w.grp).length = w.size := by
          unfold W.size; simp only [List.length_append, le_length]
        rw [← e, List.length_append, hw, List.length_take]
        omega
    have hn : (if decide (216 ≤ s.length) = true then 4 else 1) ≤ 4 := by split <;> omega
    cases hc : core junk t s with
    | none =>
      simp only [List.length_append, List.length_cons, le_length]
      omega
    | some r =>
      have := hcore r hc
      simp only [List.length_append, List.length_cons, le_length]
      omega

/-- A piece of a node compressed by the default method (ft/serialize/compress.cc) into a buffer of the size the caller allocates comes
back, from the empty one on; `L` is any set of libraries of which quicklz is the one modelled here. -/
theorem C94_default {junk t s} {L : Node.Lib} (he : L.enc .quicklz = compress junk t) (hd : L.dec .quicklz = decompress)
    (hb : Bytes s) (h1 : s.length ≤ 2 ^ 32 - 1 - 400) :
    ∃ c, Node.compress L .default (Node.compressBound L .default s.length) s = .ok c ∧ Node.decompress L s.length c = .ok s := by
  have hs : s.length < 2 ^ 32 := by omega
  by_cases h0 : s.length = 0
  · refine ⟨[57], ?_, ?_⟩
    · simp [Node.compress, Node.compressBound, Node.Method.normal, Node.into, h0]
    · have : s = [] := List.length_eq_zero_iff.1 h0
      subst this; rfl
  · refine ⟨57 :: compress junk t s, ?_, ?_⟩
    · have hf := C94_fits (junk := junk) (t := t) hb
      simp only [Node.compress, Node.compressBound, Node.Method.normal, Node.into, if_pos hs, if_neg h0, he]
      rw [if_pos (by simp only [List.length_cons]; omega)]
    · have hne : 0 < (compress junk t s).length := by
        unfold compress; rw [if_neg (by omega)]; simp
      simp only [Node.decompress, Node.exactly, hd, if_pos hne, C94_back hb (by omega) h1]
      rfl

/-- What the theorems on nodes and rollback nodes (C53, C76) expect of quicklz is so: replace quicklz by the one modelled here in any set
of libraries that is as expected. -/
theorem C94_library {junk t} {L : Node.Lib} (h : L.Ok) :
    Node.Lib.Ok ⟨fun m => if m = .quicklz then compress junk t else L.enc m, fun m => if m = .quicklz then decompress else L.dec m, L.bound⟩ where
  back m src hb hl hq := by
    by_cases e : m = .quicklz
    · simp only [if_pos e]
      exact C94_back hb (List.length_pos_iff.2 (hq e)) (by omega)
    · simp only [if_neg e]; exact h.back m src hb hl hq
  fits m src hb := by
    by_cases e : m = .quicklz
    · simp only [if_pos e]; exact C94_fits hb
    · have := h.fits m src hb
      simp only [if_neg e] at this ⊢; exact this
  bound := h.bound
  tag src := by simp only [reduceCtorEq, if_false]; exact h.tag src
  more m src h0 hl := by
    by_cases e : m = .quicklz
    · simp only [if_pos e]
      unfold compress
      have := List.length_pos_iff.2 h0
      rw [if_neg (by omega)]; simp
    · simp only [if_neg e]; exact h.more m src h0 hl

/-- A text that is longer, up to the 2^32 - 1 bytes that the caller asserts, is lost: the result is empty. -/
theorem C94_long_refuted {junk t s} (h : 2 ^ 32 - 1 - 400 < s.length) : compress junk t s = [] := by
  unfold compress; rw [if_pos (Or.inr h)]

/-- Nothing is checked by the decompressor: of these 11 bytes, which say that they stand for 12 bytes, it makes 255, far behind the end
of the destination, and the bytes are copied from 3 bytes before its start (offset 3, length 255, 4 bytes read, as the first thing). -/
theorem C94_damaged_refuted :
    (decompress [77, 10, 12, 1, 0, 0, 128, 3, 254, 1, 0]).map List.length = some 255 ∧
    decMatch (rd 4 [3, 254, 1, 0]) = (3, 255, 4) := by decide +kernel

/-- Non-vacuity: a text with a copy, a short one behind which junk is counted, and one that meets every hypothesis of `C94_default`. -/
example : (compress [] ⟨fun _ => 3, fun _ _ => 77⟩ ((List.range 40).map (fun i => i % 7 + 1))).length = 21 := by decide +kernel

example : compress [5, 5, 5, 5, 5] ⟨fun _ => 0, fun _ _ => 0⟩ [1, 2] = [77, 12, 2, 0, 0, 0, 128, 1, 2, 5, 5, 5] := by decide +kernel

/-- A set of libraries with the modelled quicklz. -/
example : ∃ L : Node.Lib, L.enc .quicklz = compress [] ⟨fun _ => 0, fun _ _ => 0⟩ ∧ L.dec .quicklz = decompress ∧
    ∃ c, Node.compress L .default (Node.compressBound L .default 40) ((List.range 40).map (fun i => i % 7 + 1)) = .ok c ∧
      Node.decompress L 40 c = .ok ((List.range 40).map (fun i => i % 7 + 1)) := by
  refine ⟨{ enc := fun _ => compress [] ⟨fun _ => 0, fun _ _ => 0⟩, dec := fun _ => decompress,
            bound := fun _ n => n + 400 }, rfl, rfl, ?_⟩
  exact C94_default (s := (List.range 40).map (fun i => i % 7 + 1)) (junk := []) (t := ⟨fun _ => 0, fun _ _ => 0⟩) rfl rfl
    (by unfold Bytes; decide +kernel) (by decide +kernel)

end Verif.Qlz
