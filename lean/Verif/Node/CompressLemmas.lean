import Verif.Node.CompressSpec
import Verif.Node.Wire
/-!
Compression gives bytes back.
-/
set_option linter.unusedVariables false
set_option linter.unusedSimpArgs false
namespace Verif.Node
open Verif.Ser

theorem into_ok {size : Nat} {bs : List Nat} (h : bs.length ≤ size) : into size bs = .ok bs := by rw [into, if_pos h]

theorem exactly_ok {bs : List Nat} : exactly bs.length (some bs) = .ok bs := by rw [exactly, if_pos rfl]

theorem normal_cases (m : Method) : m.normal = .none ∨ m.normal = .snappy ∨ m.normal = .zlib ∨ m.normal = .quicklz ∨ m.normal = .lzma ∨ m.normal = .zlibRaw := by
  cases m <;> simp [Method.normal]

theorem bound_le {L : Lib} (h : L.Ok) (m : Method) (n : Nat) : 0 < compressBound L m n → compressBound L m n ≤ 2 * n + 1002 := by
  intro _
  unfold compressBound
  have b1 := h.bound .lzma n
  have b2 := h.bound .zlib n
  have b3 := h.bound .zlibRaw n
  have b4 := h.bound .snappy n
  split <;> omega

theorem compress_ok {L : Lib} (h : L.Ok) (m : Method) {src : List Nat} (hb : Bytes src) (hl : src.length ≤ 2 ^ 32 - 401) :
    0 < compressBound L m src.length ∧ ∃ body, compress L m (compressBound L m src.length) src = .ok body ∧ body.length ≤ compressBound L m src.length ∧
      decompress L src.length body = .ok src := by
  have fit : ∀ m, m ≠ .quicklz → (L.enc m src).length ≤ L.bound m src.length := by
    intro m hm
    have := h.fits m src hb
    rwa [if_neg hm] at this
  have fitq : (L.enc .quicklz src).length ≤ src.length + 400 := by
    have := h.fits .quicklz src hb
    rwa [if_pos rfl] at this
  have pos : ∀ m, src.length ≠ 0 → 0 < (L.enc m src).length := by
    intro m h0
    exact List.length_pos_iff.mpr (h.more m src (by intro e; rw [e] at h0; exact h0 rfl) hl)
  unfold compress compressBound
  rw [if_pos (show src.length < 2 ^ 32 by omega)]
  rcases normal_cases m with e | e | e | e | e | e <;> simp only [e]
  · exact ⟨by omega, 0 :: src, into_ok (by simp), by simp, by simp only [decompress]; exact exactly_ok⟩
  · have := fit .snappy (by decide)
    exact ⟨by omega, 7 :: L.enc .snappy src, into_ok (by simp; omega), by simp; omega, by simp only [decompress]; rw [h.back _ _ hb hl (fun e => by cases e)]; exact exactly_ok⟩
  · obtain ⟨b, rest, ht, h8⟩ := h.tag src
    have := fit .zlib (by decide)
    have hb' := h.back .zlib src hb hl (fun e => by cases e)
    rw [ht] at this hb'
    rw [ht]
    refine ⟨by simp at this; omega, b :: rest, ?_, this, ?_⟩
    · rw [into_ok this, R.bind_ok]
      simp only [List.head?_cons, h8, if_true]
    · simp only [decompress]
      rw [h8]
      simp only
      rw [hb']; exact exactly_ok
  · by_cases h0 : src.length = 0
    · rw [if_pos h0]
      refine ⟨by omega, [9 + 3 * 16], into_ok (by simp), by simp, ?_⟩
      have : src = [] := List.length_eq_zero_iff.mp h0
      subst this
      rfl
    · rw [if_neg h0]
      refine ⟨by omega, _, into_ok (by simp; omega), by simp; omega, ?_⟩
      simp only [decompress]
      rw [if_pos (pos _ h0), h.back _ _ hb hl (fun _ e => h0 (by rw [e]; rfl))]; exact exactly_ok
  · have := fit .lzma (by decide)
    by_cases h0 : src.length = 0
    · rw [if_pos h0]
      refine ⟨by omega, [10 + 2 * 16], into_ok (by simp), by simp, ?_⟩
      have : src = [] := List.length_eq_zero_iff.mp h0
      subst this
      rfl
    · rw [if_neg h0]
      refine ⟨by omega, _, into_ok (by simp; omega), by simp; omega, ?_⟩
      simp only [decompress]
      rw [if_pos (pos _ h0), h.back _ _ hb hl (fun _ e => h0 (by rw [e]; rfl))]; exact exactly_ok
  · have := fit .zlibRaw (by decide)
    refine ⟨by omega, _, into_ok (by simp; omega), by simp; omega, ?_⟩
    simp only [decompress]
    rw [if_pos (by trivial), h.back _ _ hb hl (fun e => by cases e)]; exact exactly_ok

end Verif.Node
