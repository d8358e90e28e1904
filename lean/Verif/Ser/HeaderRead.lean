import Verif.Ser.HeaderLemmas

namespace Verif.Ser
open HeaderSpec

theorem Rd.get_fit {r : Rd} {n : Nat} (h : r.ndone + n ≤ r.buf.length) : r.get n = .ok ((r.buf.drop r.ndone).take n, { r with ndone := r.ndone + n }) := by
  unfold Rd.get m32
  rw [if_pos (Nat.le_trans (Nat.mod_le _ _) h), if_pos h]

theorem Rd.networkInt_fit {r : Rd} (h : r.ndone + 4 ≤ r.buf.length) : r.networkInt = .ok (htonl (le ((r.buf.drop r.ndone).take 4)), { r with ndone := r.ndone + 4 }) := by
  unfold Rd.networkInt; rw [Rd.get_fit h]; rfl

theorem Rd.int_fit {r : Rd} (h : r.ndone + 4 ≤ r.buf.length) : r.int = .ok (le ((r.buf.drop r.ndone).take 4), { r with ndone := r.ndone + 4 }) := by
  unfold Rd.int; rw [Rd.get_fit h]; rfl

theorem Rd.ull_fit {r : Rd} (h : r.ndone + 8 ≤ r.buf.length) : ∃ v, r.ull = .ok (v, { r with ndone := r.ndone + 8 }) := by
  unfold Rd.ull
  rw [Rd.int_fit (by omega), R.bind_ok]
  simp only
  rw [Rd.int_fit (r := { r with ndone := r.ndone + 4 }) (by simp only; omega), R.bind_ok]
  exact ⟨_, rfl⟩

theorem minSize_some {v : Nat} (h1 : 13 ≤ v) (h2 : v ≤ 29) : ∃ n, minSize v = some n ∧ 44 ≤ n := by
  have : v = 13 ∨ v = 14 ∨ v = 15 ∨ v = 16 ∨ v = 17 ∨ v = 18 ∨ v = 19 ∨ v = 20 ∨ v = 21 ∨ v = 22 ∨ v = 23 ∨ v = 24 ∨ v = 25 ∨ v = 26 ∨ v = 27 ∨ v = 28 ∨ v = 29 := by omega
  rcases this with rfl | rfl | rfl | rfl | rfl | rfl | rfl | rfl | rfl | rfl | rfl | rfl | rfl | rfl | rfl | rfl | rfl <;> exact ⟨_, rfl, by decide⟩

theorem version_known {s : List Nat} (hs : 512 ≤ s.length) (hk : KnownVersion s) : htonl (le (((s.take 20).drop 8).take 4)) ≤ 29 := by
  have e : ((s.take 20).drop 8).take 4 = [s[8]'(by omega), s[9]'(by omega), s[10]'(by omega), s[11]'(by omega)] := by
    apply List.ext_getElem?
    intro i
    by_cases h4 : i < 4
    · rw [List.getElem?_take_of_lt h4, List.getElem?_drop, List.getElem?_take_of_lt (by omega)]
      have : i = 0 ∨ i = 1 ∨ i = 2 ∨ i = 3 := by omega
      rcases this with rfl | rfl | rfl | rfl <;> simp
    · rw [List.getElem?_eq_none (by simp only [List.length_take, List.length_drop]; omega), List.getElem?_eq_none (by simp; omega)]
  have h8 := (hk 8 s[8] (List.getElem?_eq_getElem (by omega))).1 (by omega) (by omega)
  have h9 := (hk 9 s[9] (List.getElem?_eq_getElem (by omega))).1 (by omega) (by omega)
  have h10 := (hk 10 s[10] (List.getElem?_eq_getElem (by omega))).1 (by omega) (by omega)
  have h11 := (hk 11 s[11] (List.getElem?_eq_getElem (by omega))).2 rfl
  rw [e, h8, h9, h10]
  generalize s[11] = b at h11
  simp only [htonl, store32, le, List.reverse_cons, List.reverse_nil, List.nil_append, List.cons_append]
  omega

/-- Reading a place always ends, and a header whose version bytes are known is not "too new". -/
theorem readSlot_total (s : List Nat) : ∃ x, readSlot s = .ok x ∧ (KnownVersion s → errOf x ≠ some .tooNew) ∧ (∀ g, x = .ok g → g.version ≤ 29) := by
  unfold readSlot
  by_cases h512 : (s.take 512).length = 512
  · rw [if_neg (by simp [h512])]
    have hs : 512 ≤ s.length := by rw [List.length_take] at h512; omega
    have h20 : (s.take 20).length = 20 := by rw [List.length_take]; omega
    rw [Rd.literal, Rd.get_fit (by simp only; omega), R.bind_ok]
    simp only
    by_cases hm : ((s.take 20).drop 0).take 8 = magic
    · rw [if_neg (by simpa using hm)]
      rw [Rd.networkInt_fit (by simp only; omega), R.bind_ok]
      simp only [Nat.zero_add]
      by_cases hlo : htonl (le (((s.take 20).drop 8).take 4)) < minVersion
      · rw [if_pos hlo]; exact ⟨_, rfl, fun _ => by simp [errOf], by simp⟩
      · rw [if_neg hlo]
        by_cases hhi : layoutVersion < htonl (le (((s.take 20).drop 8).take 4))
        · rw [if_pos hhi]
          refine ⟨_, rfl, fun hk => ?_, by simp⟩
          have := version_known hs hk
          simp only [layoutVersion] at hhi
          omega
        · rw [if_neg hhi]
          rw [Rd.networkInt_fit (by simp only; omega), R.bind_ok]
          simp only
          generalize htonl (le (((s.take 20).drop 8).take 4)) = ver at hlo hhi ⊢
          simp only [minVersion, layoutVersion] at hlo hhi
          obtain ⟨n, hn, h36⟩ := minSize_some (v := ver) (by omega) (by omega)
          rw [hn]
          simp only
          rw [Rd.networkInt_fit (by simp only; omega), R.bind_ok]
          simp only
          generalize htonl (le (((s.take 20).drop (8 + 4 + 4)).take 4)) = size
          by_cases hsz : headerReserve < size ∨ size < n
          · rw [if_pos hsz]; exact ⟨_, rfl, fun _ => by simp [errOf], by simp⟩
          · rw [if_neg hsz, if_neg (by simp)]
            by_cases hr : (s.take (roundup512 size)).length = roundup512 size
            · rw [if_neg (by simp [hr])]
              have hle : size ≤ s.length := by
                rw [List.length_take] at hr
                unfold roundup512 at hr
                omega
              have hbl : (s.take size).length = size := by rw [List.length_take]; omega
              by_cases hck : memory ((s.take size).take (size - 4)) = le (((s.take size).drop (size - 4)).take 4)
              · rw [if_neg (by simpa using hck)]
                rw [Rd.literal, Rd.get_fit (by simp only; omega), R.bind_ok]
                simp only
                by_cases hbo : ((s.take size).drop (8 + 4 + 4 + 4)).take 8 = byteOrder
                · rw [if_neg (by simpa using hbo)]
                  obtain ⟨v1, e1⟩ := Rd.ull_fit (r := ⟨s.take size, 8 + 4 + 4 + 4 + 8⟩) (by simp only; omega)
                  rw [e1, R.bind_ok]
                  simp only
                  obtain ⟨v2, e2⟩ := Rd.ull_fit (r := ⟨s.take size, 8 + 4 + 4 + 4 + 8 + 8⟩) (by simp only; omega)
                  rw [e2, R.bind_ok]
                  refine ⟨_, rfl, fun _ => by simp [errOf], ?_⟩
                  intro g hg
                  cases hg
                  simp only
                  omega
                · rw [if_pos (by simpa using hbo)]; exact ⟨_, rfl, fun _ => by simp [errOf], by simp⟩
              · rw [if_pos (by simpa using hck)]; exact ⟨_, rfl, fun _ => by simp [errOf], by simp⟩
            · rw [if_pos hr]; exact ⟨_, rfl, fun _ => by simp [errOf], by simp⟩
    · rw [if_pos (by simpa using hm)]
      refine ⟨_, rfl, fun _ => ?_, by simp⟩
      split <;> simp [errOf]
  · rw [if_pos h512]
    refine ⟨_, rfl, fun _ => ?_, by simp⟩
    split <;> simp [errOf]

end Verif.Ser
