import Verif.Blk.BlockTableSpec

/-!
Translations: what keeps them well formed.
-/
namespace Verif.Blk

/-- The entry is free. -/
def Fr (arr : List Pair) (x : Nat) : Prop := ∃ p, arr[x]? = some p ∧ p.size = sizeFree

/-- Well formed translations. -/
structure Tr.OK (t : Tr) : Prop where
  len : t.smallest ≤ t.arr.length
  res : reservedBn ≤ t.smallest
  low : ∀ (b : Nat) (p : Pair), b < reservedBn → t.arr[b]? = some p → 0 ≤ p.size
  shape : ∀ (b : Nat) (p : Pair), t.arr[b]? = some p → sizeFree ≤ p.size ∧ (p.size = 0 → p.u = diskUnused) ∧ (0 < p.size → 0 ≤ p.u)
  high : ∀ (b : Nat) (p : Pair), t.smallest ≤ b → t.arr[b]? = some p → p.size = sizeFree
  fl : ∃ fl : List Nat, fl.Nodup ∧ IsChain t.arr t.head fl ∧ ∀ b, b ∈ fl ↔ b < t.smallest ∧ Fr t.arr b

theorem Tr.OK.exact {t : Tr} (h : t.OK) : t.FreeListExact := by
  obtain ⟨fl, h1, h2, h3⟩ := h.fl
  refine ⟨fl, h1, h2, fun b => ?_⟩
  rw [h3]
  constructor
  · rintro ⟨a1, p, a2, a3⟩
    refine ⟨?_, a1, p, a2, a3⟩
    by_cases hb : b < reservedBn
    · have := h.low b p hb a2
      unfold sizeFree at a3
      omega
    · omega
  · rintro ⟨-, a1, a2⟩; exact ⟨a1, a2⟩

theorem chain_set {arr : List Pair} {h : Int} {fl : List Nat} (hc : IsChain arr h fl) {x : Nat} (hx : x ∉ fl) (p : Pair) :
    IsChain (arr.set x p) h fl := by
  induction fl generalizing h with
  | nil => exact hc
  | cons y ys ih =>
    obtain ⟨h1, q, h2, h3⟩ := hc
    simp only [List.mem_cons, not_or] at hx
    exact ⟨h1, q, by rw [List.getElem?_set_ne (by omega)]; exact h2, ih h3 hx.2⟩

theorem chain_congr {arr arr' : List Pair} {h : Int} {fl : List Nat} (hc : IsChain arr h fl) (he : ∀ x ∈ fl, arr'[x]? = arr[x]?) :
    IsChain arr' h fl := by
  induction fl generalizing h with
  | nil => exact hc
  | cons y ys ih =>
    obtain ⟨h1, q, h2, h3⟩ := hc
    exact ⟨h1, q, by rw [he y (by simp)]; exact h2, ih h3 fun x hx => he x (by simp [hx])⟩

theorem get_set (arr : List Pair) (b : Nat) (p : Pair) (x : Nat) :
    (arr.set b p)[x]? = if x = b ∧ b < arr.length then some p else arr[x]? := by
  by_cases h : b = x
  · subst h
    by_cases hl : b < arr.length
    · rw [List.getElem?_set_self hl, if_pos ⟨rfl, hl⟩]
    · rw [if_neg (by omega), List.set_eq_of_length_le (by omega)]
  · rw [List.getElem?_set_ne h, if_neg (by omega)]

/-- Writing a number in use. -/
theorem Tr.OK.write {t : Tr} (h : t.OK) {b : Nat} {q : Pair} (hb : b < t.smallest) (hq : t.arr[b]? = some q) (hu : q.size ≠ sizeFree)
    {p : Pair} (hp0 : 0 ≤ p.size) (hp1 : p.size = 0 → p.u = diskUnused) (hp2 : 0 < p.size → 0 ≤ p.u) :
    ({ t with arr := t.arr.set b p } : Tr).OK := by
  have hlt : b < t.arr.length := by have := h.len; omega
  obtain ⟨fl, f1, f2, f3⟩ := h.fl
  have hbn : b ∉ fl := by
    rw [f3]
    rintro ⟨-, p', a1, a2⟩
    rw [hq] at a1; cases a1; exact hu a2
  constructor
  · simpa using h.len
  · exact h.res
  · intro x p' hx he
    simp only [get_set] at he
    split at he
    · cases he; exact hp0
    · exact h.low x p' hx he
  · intro x p' he
    simp only [get_set] at he
    split at he
    · cases he; exact ⟨by unfold sizeFree; omega, hp1, hp2⟩
    · exact h.shape x p' he
  · intro x p' hx he
    simp only [get_set] at he hx
    rw [if_neg (by omega)] at he
    exact h.high x p' hx he
  · refine ⟨fl, f1, chain_set f2 hbn _, fun x => ?_⟩
    rw [f3]
    simp only [Fr, get_set]
    by_cases hx : x = b
    · subst hx
      simp only [hlt, and_self, if_true, Option.some.injEq, exists_eq_left']
      constructor
      · rintro ⟨-, p', a1, a2⟩; rw [hq] at a1; cases a1; exact absurd a2 hu
      · rintro ⟨-, a2⟩; unfold sizeFree at a2; omega
    · rw [if_neg (by omega)]

theorem freeIn_some {t t' : Tr} {b : Nat} (he : freeIn t b = some t') : reservedBn ≤ b ∧ b < t.smallest ∧ b < t.arr.length ∧
    t' = { t with arr := t.arr.set b ⟨t.head, sizeFree⟩, head := b } := by
  unfold freeIn at he
  split at he
  · rename_i h; cases he; exact ⟨h.1, h.2.1, h.2.2, rfl⟩
  · cases he

/-- Freeing a number in use. -/
theorem Tr.OK.free {t t' : Tr} (h : t.OK) {b : Nat} (he : freeIn t b = some t') {q : Pair} (hq : t.arr[b]? = some q) (hu : q.size ≠ sizeFree) :
    t'.OK := by
  obtain ⟨h3, hb, hlt, rfl⟩ := freeIn_some he
  obtain ⟨fl, f1, f2, f3⟩ := h.fl
  have hbn : b ∉ fl := by
    rw [f3]
    rintro ⟨-, p', a1, a2⟩
    rw [hq] at a1; cases a1; exact hu a2
  constructor
  · simpa using h.len
  · exact h.res
  · intro x p' hx he
    simp only [get_set] at he
    rw [if_neg (by omega)] at he
    exact h.low x p' hx he
  · intro x p' he
    simp only [get_set] at he
    split at he
    · cases he; exact ⟨Int.le_refl _, fun h => absurd h (by simp [sizeFree]), fun h => absurd h (by simp [sizeFree])⟩
    · exact h.shape x p' he
  · intro x p' hx he
    simp only [get_set] at he hx
    rw [if_neg (by omega)] at he
    exact h.high x p' hx he
  · refine ⟨b :: fl, by simp [hbn, f1], ⟨rfl, ⟨t.head, sizeFree⟩, by simp [get_set, hlt], chain_set f2 hbn _⟩, fun x => ?_⟩
    simp only [List.mem_cons, f3, Fr, get_set]
    by_cases hx : x = b
    · subst hx; simp [hlt, hb]
    · rw [if_neg (by omega)]; simp [hx]

/-- Allocating a number always succeeds, and gives one that was not in use. -/
theorem Tr.OK.allocate {t : Tr} (h : t.OK) : ∃ b t', allocateBn t = some (b, t') ∧ t'.OK ∧ ¬ t.inUse b ∧ reservedBn ≤ b ∧ b < t'.smallest ∧
    t.smallest ≤ t'.smallest ∧ t'.arr[b]? = some ⟨diskUnused, 0⟩ ∧ t.block b = none ∧ (∀ x, x ≠ b → (t'.inUse x ↔ t.inUse x)) ∧
    (∀ x, x ≠ b → t'.block x = t.block x) ∧ (∀ (x : Nat) (p : Pair), x ≠ b → t.arr[x]? = some p → t'.arr[x]? = some p) ∧ (∀ x, x ≠ b → x < t.smallest → t'.arr[x]? = t.arr[x]?) := by
  have hlen := h.len
  have hres := h.res
  obtain ⟨fl, f1, f2, f3⟩ := h.fl
  by_cases hh : t.head = flNull
  · have hfl : fl = [] := by
      cases fl with
      | nil => rfl
      | cons y ys => have := f2.1; rw [hh] at this; unfold flNull at this; omega
    subst hfl
    have e1 : t.arr.length ≤ (expand t).arr.length ∧ t.smallest < (expand t).arr.length ∧ (expand t).smallest = t.smallest ∧ (expand t).head = t.head ∧
        (∀ x, x < t.arr.length → (expand t).arr[x]? = t.arr[x]?) ∧ (∀ (x : Nat) (p : Pair), t.arr.length ≤ x → (expand t).arr[x]? = some p → p = ⟨flNull, sizeFree⟩) := by
      unfold expand
      unfold reservedBn at hres
      split
      · refine ⟨by simp, by simp; omega, rfl, rfl, fun x hx => by simp [List.getElem?_append_left hx], fun x p hx he => ?_⟩
        simp only [List.getElem?_append_right hx, List.getElem?_replicate] at he
        split at he
        · cases he; rfl
        · cases he
      · refine ⟨Nat.le_refl _, by omega, rfl, rfl, fun x hx => rfl, fun x p hx he => ?_⟩
        rw [List.getElem?_eq_none hx] at he; cases he
    obtain ⟨e0, e1, e2, e3, e4, e5⟩ := e1
    have hold : ∀ (x : Nat) (p : Pair), t.arr[x]? = some p → (expand t).arr[x]? = some p := by
      intro x p hp
      rw [e4 x (by have := List.getElem?_eq_some_iff.mp hp; exact this.1)]; exact hp
    have hnew : ∀ (x : Nat) (p : Pair), (expand t).arr[x]? = some p → p = ⟨flNull, sizeFree⟩ ∧ t.arr[x]? = none ∨ t.arr[x]? = some p := by
      intro x p hp
      by_cases hx : x < t.arr.length
      · rw [e4 x hx] at hp; exact Or.inr hp
      · exact Or.inl ⟨e5 x p (by omega) hp, List.getElem?_eq_none (by omega)⟩
    have hbl : t.block t.smallest = none := by
      unfold Tr.block
      cases hg : t.arr[t.smallest]? with
      | none => rfl
      | some p => simp only; rw [if_neg]; rw [h.high _ _ (Nat.le_refl _) hg]; decide
    refine ⟨t.smallest, ⟨(expand t).arr.set t.smallest ⟨diskUnused, 0⟩, t.smallest + 1, t.head⟩, ?_, ?_, ?_, hres, by simp, by simp, by simp [get_set, e1], hbl, ?_, ?_, ?_, ?_⟩
    · simp only [allocateBn, hh, if_true, e2]
      rw [if_pos ⟨e1, hres, by omega⟩, e3, hh]
    · constructor
      · simp; omega
      · simp; omega
      · intro x p hx he
        simp only [get_set] at he
        rw [if_neg (by omega)] at he
        rcases hnew x p he with ⟨-, h2⟩ | h2
        · rw [List.getElem?_eq_none_iff] at h2; omega
        · exact h.low x p hx h2
      · intro x p he
        simp only [get_set] at he
        split at he
        · cases he; exact ⟨by decide, by simp, by decide⟩
        · rcases hnew x p he with ⟨h2, -⟩ | h2
          · subst h2; exact ⟨by decide, by decide, by decide⟩
          · exact h.shape x p h2
      · intro x p hx he
        simp only [get_set] at he hx
        rw [if_neg (by omega)] at he
        rcases hnew x p he with ⟨h2, -⟩ | h2
        · subst h2; rfl
        · exact h.high x p (by omega) h2
      · refine ⟨[], by simp, f2, fun x => ?_⟩
        simp only [List.not_mem_nil, false_iff, not_and, Fr, get_set, not_exists]
        intro hx p he hs
        by_cases hxs : x = t.smallest
        · subst hxs; simp only [e1, and_self, if_true, Option.some.injEq] at he
          subst he; revert hs; decide
        · rw [if_neg (by omega)] at he
          have hlt : x < t.smallest := by omega
          rw [e4 x (by omega)] at he
          have := (f3 x).mpr ⟨hlt, p, he, hs⟩
          simp at this
    · rintro ⟨-, h1, -⟩; omega
    · intro x hx
      unfold Tr.inUse
      simp only [get_set]
      rw [if_neg (by omega)]
      constructor
      · rintro ⟨a1, a2, p, a3, a4⟩
        refine ⟨a1, by omega, p, ?_, a4⟩
        rcases hnew x p a3 with ⟨h2, -⟩ | h2
        · subst h2; exact absurd rfl a4
        · exact h2
      · rintro ⟨a1, a2, p, a3, a4⟩; exact ⟨a1, by omega, p, hold _ _ a3, a4⟩
    · intro x hx
      unfold Tr.block
      simp only [get_set]
      rw [if_neg (by omega)]
      cases hg : t.arr[x]? with
      | some p => rw [hold _ _ hg]
      | none =>
        cases hg2 : (expand t).arr[x]? with
        | none => rfl
        | some p =>
          rcases hnew x p hg2 with ⟨h2, -⟩ | h2
          · subst h2; simp [sizeFree]
          · rw [hg] at h2; cases h2
    · intro x p hx hg
      simp only [get_set]
      rw [if_neg (by omega)]
      exact hold _ _ hg
    · intro x hx hx2
      simp only [get_set]
      rw [if_neg (by omega)]
      exact e4 x (by omega)
  · cases fl with
    | nil => exact absurd f2 hh
    | cons y ys =>
      obtain ⟨g1, q, g2, g3⟩ := f2
      obtain ⟨hy1, p, hy2, hy3⟩ := (f3 y).mp (by simp)
      rw [g2] at hy2; cases hy2
      have hy4 : reservedBn ≤ y := by
        by_cases hb : y < reservedBn
        · have := h.low y q hb g2
          unfold sizeFree at hy3
          omega
        · omega
      have hlt : y < t.arr.length := by omega
      rw [List.nodup_cons] at f1
      refine ⟨y, ⟨t.arr.set y ⟨diskUnused, 0⟩, t.smallest, q.u⟩, ?_, ?_, ?_, hy4, hy1, Nat.le_refl _, by simp [get_set, hlt], ?_, ?_, ?_, ?_, ?_⟩
      · simp only [allocateBn, hh, if_false, g1]
        have : ¬ ((y : Int) < 0) := by omega
        simp only [this, if_false, Int.toNat_natCast, g2, Option.bind_some]
        rw [g1] at hh
        rw [if_neg hh, if_pos ⟨hlt, hy4, hy1⟩]
      · constructor
        · simpa using hlen
        · exact hres
        · intro x p hx he
          simp only [get_set] at he
          rw [if_neg (by omega)] at he
          exact h.low x p hx he
        · intro x p he
          simp only [get_set] at he
          split at he
          · cases he; exact ⟨by decide, by simp, by decide⟩
          · exact h.shape x p he
        · intro x p hx he
          simp only [get_set] at he hx
          rw [if_neg (by omega)] at he
          exact h.high x p hx he
        · refine ⟨ys, f1.2, chain_set g3 f1.1 _, fun x => ?_⟩
          have hf := f3 x
          simp only [List.mem_cons] at hf
          simp only [Fr, get_set]
          by_cases hx : x = y
          · subst hx
            simp only [hlt, and_self, if_true, Option.some.injEq, exists_eq_left']
            constructor
            · intro hm; exact absurd hm f1.1
            · rintro ⟨-, a2⟩; exact absurd a2 (by decide)
          · rw [if_neg (by omega)]
            simp only [hx, false_or] at hf
            exact hf
      · rintro ⟨-, -, p, a1, a2⟩; rw [g2] at a1; cases a1; exact a2 hy3
      · unfold Tr.block
        rw [g2]; simp only; rw [if_neg]; rw [hy3]; decide
      · intro x hx
        unfold Tr.inUse
        simp only [get_set]
        rw [if_neg (by omega)]
      · intro x hx
        unfold Tr.block
        simp only [get_set]
        rw [if_neg (by omega)]
      · intro x p hx hg
        simp only [get_set]
        rw [if_neg (by omega)]
        exact hg
      · intro x hx hx2
        simp only [get_set]
        rw [if_neg (by omega)]

theorem trimTo_spec (arr : List Pair) (n : Nat) (hn : reservedBn ≤ n) :
    reservedBn ≤ trimTo arr n ∧ trimTo arr n ≤ n ∧ ∀ x, trimTo arr n ≤ x → x < n → Fr arr x := by
  induction n with
  | zero => unfold reservedBn at hn; omega
  | succ n ih =>
    unfold trimTo
    split
    · rename_i h
      obtain ⟨i1, i2, i3⟩ := ih h.1
      refine ⟨i1, by omega, fun x hx hx2 => ?_⟩
      by_cases hxn : x = n
      · subst hxn
        obtain ⟨p, hp, hp2⟩ := Option.map_eq_some_iff.mp h.2
        exact ⟨p, hp, hp2⟩
      · exact i3 x hx (by omega)
    · exact ⟨hn, Nat.le_refl _, fun x hx hx2 => by omega⟩

theorem regen_spec (k b : Nat) (arr : List Pair) (head : Int) (fl : List Nat) (h1 : fl.Nodup) (h2 : IsChain arr head fl) (h3 : ∀ x ∈ fl, x < b)
    (h4 : b + k ≤ arr.length) :
    ∃ fl', fl'.Nodup ∧ IsChain (regen k b arr head).1 (regen k b arr head).2 fl' ∧ (∀ x, x ∈ fl' ↔ x ∈ fl ∨ (b ≤ x ∧ x < b + k ∧ Fr arr x)) ∧
      (regen k b arr head).1.length = arr.length ∧ (∀ (x : Nat) (p : Pair), p.size ≠ sizeFree → ((regen k b arr head).1[x]? = some p ↔ arr[x]? = some p)) ∧
      (∀ x, Fr (regen k b arr head).1 x ↔ Fr arr x) := by
  induction k generalizing b arr head fl with
  | zero => exact ⟨fl, h1, h2, fun x => by simp; omega, rfl, fun x p _ => Iff.rfl, fun x => Iff.rfl⟩
  | succ k ih =>
    rw [regen]
    by_cases hf : (arr[b]?.map (·.size)) = some sizeFree
    · rw [if_pos hf]
      obtain ⟨q, hq, hqs⟩ := Option.map_eq_some_iff.mp hf
      have hlt : b < arr.length := by omega
      have hbn : b ∉ fl := fun hm => by have := h3 b hm; omega
      obtain ⟨fl', g1, g2, g3, g4, g5, g6⟩ := ih (b + 1) (arr.set b ⟨head, sizeFree⟩) b (b :: fl) (by simp [hbn, h1])
        ⟨rfl, ⟨head, sizeFree⟩, by simp [get_set, hlt], chain_set h2 hbn _⟩
        (by intro x hx; simp only [List.mem_cons] at hx; rcases hx with rfl | hx; omega; have := h3 x hx; omega) (by simp; omega)
      have hfr : ∀ x, Fr (arr.set b ⟨head, sizeFree⟩) x ↔ Fr arr x := by
        intro x
        unfold Fr
        simp only [get_set]
        by_cases hx : x = b
        · subst hx
          simp only [hlt, and_self, if_true, Option.some.injEq, exists_eq_left', true_iff]
          exact ⟨q, hq, hqs⟩
        · rw [if_neg (by omega)]
      refine ⟨fl', g1, g2, fun x => ?_, by rw [g4]; simp, fun x p hp => ?_, fun x => by rw [g6, hfr]⟩
      · rw [g3, hfr, List.mem_cons]
        constructor
        · rintro ((rfl | h) | h)
          · exact Or.inr ⟨Nat.le_refl _, by omega, q, hq, hqs⟩
          · exact Or.inl h
          · exact Or.inr ⟨by omega, by omega, h.2.2⟩
        · rintro (h | h)
          · exact Or.inl (Or.inr h)
          · by_cases hx : x = b
            · exact Or.inl (Or.inl hx)
            · exact Or.inr ⟨by omega, by omega, h.2.2⟩
      · rw [g5 x p hp]
        simp only [get_set]
        by_cases hx : x = b
        · subst hx
          simp only [hlt, and_self, if_true, Option.some.injEq]
          constructor
          · intro h; subst h; exact absurd rfl hp
          · intro h; rw [hq] at h; cases h; exact absurd hqs hp
        · rw [if_neg (by omega)]
    · rw [if_neg hf]
      obtain ⟨fl', g1, g2, g3, g4, g5, g6⟩ := ih (b + 1) arr head fl h1 h2 (fun x hx => by have := h3 x hx; omega) (by omega)
      refine ⟨fl', g1, g2, fun x => ?_, g4, g5, g6⟩
      rw [g3]
      constructor
      · rintro (h | h)
        · exact Or.inl h
        · exact Or.inr ⟨by omega, by omega, h.2.2⟩
      · rintro (h | h)
        · exact Or.inl h
        · by_cases hx : x = b
          · obtain ⟨-, -, p, h5, h6⟩ := h
            subst hx
            exact absurd (by rw [h5]; simp [h6]) hf
          · exact Or.inr ⟨by omega, by omega, h.2.2⟩

theorem block_of_some {t : Tr} {b : Nat} {k : Block} : t.block b = some k ↔ ∃ p, t.arr[b]? = some p ∧ 0 < p.size ∧ k = ⟨p.u.toNat, p.size.toNat⟩ := by
  unfold Tr.block
  cases t.arr[b]? with
  | none => simp
  | some p =>
    simp only [Option.some.injEq, exists_eq_left']
    by_cases h : 0 < p.size
    · rw [if_pos h]; simp [h, eq_comm]
    · rw [if_neg h]; simp [h]

theorem Tr.OK.optimize {t : Tr} (h : t.OK) : (Verif.Blk.optimize t).OK ∧ (∀ b, (Verif.Blk.optimize t).inUse b ↔ t.inUse b) ∧
    (∀ (b : Nat) (p : Pair), p.size ≠ sizeFree → ((Verif.Blk.optimize t).arr[b]? = some p ↔ t.arr[b]? = some p)) ∧ (∀ b, (Verif.Blk.optimize t).block b = t.block b) := by
  obtain ⟨n1, n2, n3⟩ := trimTo_spec t.arr t.smallest h.res
  have hlen := h.len
  unfold Verif.Blk.optimize
  by_cases hn : trimTo t.arr t.smallest < t.smallest
  · simp only [hn, if_true]
    generalize hm : trimTo t.arr t.smallest = n at *
    generalize harr : (if n < t.arr.length / 4 then t.arr.take (n * 2) else t.arr) = arr
    have ha1 : n ≤ arr.length := by
      subst harr
      split
      · simp; omega
      · omega
    have ha2 : ∀ (x : Nat) (p : Pair), arr[x]? = some p → t.arr[x]? = some p := by
      intro x p hp
      subst harr
      split at hp
      · rw [List.getElem?_take] at hp
        split at hp
        · exact hp
        · cases hp
      · exact hp
    have ha3 : ∀ x, x < n → arr[x]? = t.arr[x]? := by
      intro x hx
      subst harr
      split
      · rw [List.getElem?_take, if_pos (by omega)]
      · rfl
    obtain ⟨fl, g1, g2, g3, g4, g5, g6⟩ := regen_spec (n - reservedBn) reservedBn arr flNull [] (by simp) rfl (by simp) (by unfold reservedBn at *; omega)
    have hlt : ∀ (x : Nat) (p : Pair), t.arr[x]? = some p → p.size ≠ sizeFree → x < n := by
      intro x p hp hs
      by_cases hx : x < n
      · exact hx
      · by_cases hx2 : x < t.smallest
        · obtain ⟨q, hq, hqs⟩ := n3 x (by omega) hx2
          rw [hp] at hq; cases hq; exact absurd hqs hs
        · exact absurd (h.high x p (by omega) hp) hs
    have hkey : ∀ (b : Nat) (p : Pair), p.size ≠ sizeFree → ((regen (n - reservedBn) reservedBn arr flNull).1[b]? = some p ↔ t.arr[b]? = some p) := by
      intro b p hp
      rw [g5 b p hp]
      constructor
      · exact ha2 b p
      · intro hb; rw [ha3 b (hlt b p hb hp)]; exact hb
    refine ⟨⟨by simp only; omega, n1, ?_, ?_, ?_, fl, g1, g2, ?_⟩, ?_, hkey, ?_⟩
    · intro b p hb he
      simp only at he
      by_cases hs : p.size = sizeFree
      · obtain ⟨q, hq, hqs⟩ := (g6 b).mp ⟨p, he, hs⟩
        have := h.low b q hb (ha2 b q hq)
        unfold sizeFree at hqs; omega
      · exact h.low b p hb ((hkey b p hs).mp he)
    · intro b p he
      simp only at he
      by_cases hs : p.size = sizeFree
      · rw [hs]; exact ⟨Int.le_refl _, fun h => absurd h (by decide), fun h => absurd h (by decide)⟩
      · exact h.shape b p ((hkey b p hs).mp he)
    · intro b p hb he
      simp only at he hb
      by_cases hs : p.size = sizeFree
      · exact hs
      · have := hlt b p ((hkey b p hs).mp he) hs
        omega
    · intro b
      simp only
      rw [g3, g6]
      simp only [List.not_mem_nil, false_or]
      constructor
      · rintro ⟨a1, a2, a3⟩; exact ⟨by omega, a3⟩
      · rintro ⟨a1, q, hq, hqs⟩
        refine ⟨?_, by omega, q, hq, hqs⟩
        by_cases hb : b < reservedBn
        · have := h.low b q hb (ha2 b q hq)
          unfold sizeFree at hqs; omega
        · omega
    · intro b
      unfold Tr.inUse
      simp only
      constructor
      · rintro ⟨a1, a2, p, a3, a4⟩; exact ⟨a1, by omega, p, (hkey b p a4).mp a3, a4⟩
      · rintro ⟨a1, a2, p, a3, a4⟩; exact ⟨a1, hlt b p a3 a4, p, (hkey b p a4).mpr a3, a4⟩
    · intro b
      apply Option.ext
      intro k
      rw [block_of_some, block_of_some]
      simp only
      constructor
      · rintro ⟨p, a1, a2, a3⟩; exact ⟨p, (hkey b p (by unfold sizeFree; omega)).mp a1, a2, a3⟩
      · rintro ⟨p, a1, a2, a3⟩; exact ⟨p, (hkey b p (by unfold sizeFree; omega)).mpr a1, a2, a3⟩
  · simp only [hn, if_false]
    exact ⟨h, fun b => trivial, fun b p _ => trivial, fun b => trivial⟩

theorem Tr.OK.copy {t : Tr} (h : t.OK) : ∃ t', copyTr t = some t' ∧ t'.OK ∧ t'.smallest = t.smallest ∧ t'.arr.length = t'.smallest ∧
    t'.arr[bnTranslation]? = some ⟨diskUnused, 0⟩ ∧ (∀ b, b ≠ bnTranslation → b < t.smallest → t'.arr[b]? = t.arr[b]?) ∧
    (∀ b, t'.inUse b ↔ t.inUse b) ∧ (∀ b, b ≠ bnTranslation → t'.block b = t.block b) ∧ t'.block bnTranslation = none := by
  have hlen := h.len
  have hres := h.res
  obtain ⟨fl, f1, f2, f3⟩ := h.fl
  have h1 : bnTranslation < t.smallest := by unfold bnTranslation; unfold reservedBn at hres; omega
  have hget : ∀ b, ((t.arr.take t.smallest).set bnTranslation ⟨diskUnused, 0⟩)[b]? = if b = bnTranslation then some ⟨diskUnused, 0⟩ else if b < t.smallest then t.arr[b]? else none := by
    intro b
    rw [get_set]
    simp only [List.length_take, List.getElem?_take]
    by_cases hb : b = bnTranslation
    · rw [if_pos ⟨hb, by omega⟩, if_pos hb]
    · rw [if_neg (by omega), if_neg hb]
  refine ⟨{ t with arr := (t.arr.take t.smallest).set bnTranslation ⟨diskUnused, 0⟩ }, by rw [copyTr, if_pos hlen, if_pos h1], ?_, rfl,
    by simp; omega, by simp only; rw [hget, if_pos rfl], ?_, ?_, ?_, ?_⟩
  · constructor
    · simp; omega
    · exact hres
    · intro b p hb he
      simp only [hget] at he
      split at he
      · cases he; simp
      · split at he
        · exact h.low b p hb he
        · cases he
    · intro b p he
      simp only [hget] at he
      split at he
      · cases he; exact ⟨by decide, by simp, by decide⟩
      · split at he
        · exact h.shape b p he
        · cases he
    · intro b p hb he
      simp only [hget] at he hb
      rw [if_neg (by omega), if_neg (by omega)] at he
      cases he
    · have hnt : bnTranslation ∉ fl := by
        rw [f3]
        rintro ⟨-, p, a1, a2⟩
        have := h.low _ p (by decide) a1
        unfold sizeFree at a2; omega
      refine ⟨fl, f1, chain_congr f2 ?_, fun b => ?_⟩
      · intro x hx
        simp only [hget]
        rw [if_neg (by intro e; exact hnt (e ▸ hx)), if_pos ((f3 x).mp hx).1]
      · rw [f3]
        simp only [Fr, hget]
        by_cases hb : b = bnTranslation
        · subst hb
          simp only [if_true, Option.some.injEq, exists_eq_left']
          constructor
          · intro hx; exact absurd ((f3 _).mpr hx) hnt
          · rintro ⟨-, hx⟩; exact absurd hx (by decide)
        · rw [if_neg hb]
          by_cases hb2 : b < t.smallest
          · rw [if_pos hb2]
          · simp [hb2]
  · intro b hb hb2
    simp only [hget]; rw [if_neg hb, if_pos hb2]
  · intro b
    unfold Tr.inUse
    simp only [hget]
    by_cases hb : b = bnTranslation
    · subst hb; simp only [bnTranslation, reservedBn]; omega
    · rw [if_neg hb]
      by_cases hb2 : b < t.smallest
      · rw [if_pos hb2]
      · simp [hb2]
  · intro b hb
    unfold Tr.block
    simp only [hget]
    rw [if_neg hb]
    by_cases hb2 : b < t.smallest
    · rw [if_pos hb2]
    · rw [if_neg hb2]
      cases hg : t.arr[b]? with
      | none => rfl
      | some p => simp only; rw [if_neg]; rw [h.high b p (by omega) hg]; decide
  · unfold Tr.block
    simp only [hget, if_true]
    simp

/-- Dropping the numbers that were never written. -/
theorem Tr.OK.freeUnused {root k i : Nat} {t : Tr} (h : t.OK) (hi : reservedBn ≤ i) (hk : i + k ≤ t.smallest) :
    ∃ t', Verif.Blk.freeUnused root k i t = some t' ∧ t'.OK ∧ t'.smallest = t.smallest ∧ (∀ b, t'.block b = t.block b) ∧
      (∀ b, t'.inUse b → t.inUse b ∧ t'.arr[b]? = t.arr[b]?) ∧ (∀ b k', t.block b = some k' → t'.arr[b]? = t.arr[b]?) ∧
      (∀ (b : Nat) (p : Pair), b < i → t.arr[b]? = some p → p.size ≠ sizeFree → t'.arr[b]? = some p) := by
  induction k generalizing i t with
  | zero => exact ⟨t, rfl, h, rfl, fun _ => rfl, fun b hb => ⟨hb, rfl⟩, fun _ _ _ => rfl, fun b p _ hp _ => hp⟩
  | succ k ih =>
    rw [Verif.Blk.freeUnused]
    by_cases hr : i = root
    · rw [if_pos hr]
      obtain ⟨t', e0, e1, e2, e3, e4, e5, e6⟩ := ih h (i := i + 1) (by omega) (by omega)
      exact ⟨t', e0, e1, e2, e3, e4, e5, fun b p hb => e6 b p (by omega)⟩
    · rw [if_neg hr]
      have hlt : i < t.arr.length := by have := h.len; omega
      obtain ⟨p, hp⟩ : ∃ p, t.arr[i]? = some p := ⟨_, List.getElem?_eq_getElem hlt⟩
      rw [hp, Option.bind_some]
      by_cases hz : p.size = 0
      · rw [if_pos hz, if_pos ((h.shape i p hp).2.1 hz)]
        have hf : freeIn t i = some { t with arr := t.arr.set i ⟨t.head, sizeFree⟩, head := i } := by rw [freeIn, if_pos ⟨hi, by omega, hlt⟩]
        have hok := h.free hf hp (by rw [hz]; decide)
        rw [hf, Option.bind_some]
        obtain ⟨t', e0, e1, e2, e3, e4, e5, e6⟩ := ih hok (i := i + 1) (by omega) (by simp only; omega)
        have hbl : ∀ b, ({ t with arr := t.arr.set i ⟨t.head, sizeFree⟩, head := i } : Tr).block b = t.block b := by
          intro b
          unfold Tr.block
          simp only [get_set]
          by_cases hb : b = i
          · subst hb; rw [if_pos ⟨rfl, hlt⟩, hp]; simp [hz, sizeFree]
          · rw [if_neg (by omega)]
        refine ⟨t', e0, e1, e2, fun b => by rw [e3, hbl], ?_, ?_, ?_⟩
        · intro b hb
          obtain ⟨⟨a1, a2, q, a3, a4⟩, a5⟩ := e4 b hb
          simp only [get_set] at a3 a5
          by_cases hbi : b = i
          · rw [if_pos ⟨hbi, hlt⟩] at a3
            cases a3; exact absurd rfl a4
          · rw [if_neg (by omega)] at a3 a5
            exact ⟨⟨a1, a2, q, a3, a4⟩, a5⟩
        · intro b k' hb
          rw [e5 b k' (by rw [hbl]; exact hb)]
          simp only [get_set]
          rw [if_neg]
          rintro ⟨rfl, -⟩
          obtain ⟨q, b1, b2, -⟩ := block_of_some.mp hb
          rw [hp] at b1; cases b1; omega
        · intro b q hb hq hs
          refine e6 b q (by omega) ?_ hs
          simp only [get_set]
          rw [if_neg (by omega)]
          exact hq
      · rw [if_neg hz]
        obtain ⟨t', e0, e1, e2, e3, e4, e5, e6⟩ := ih h (i := i + 1) (by omega) (by omega)
        exact ⟨t', e0, e1, e2, e3, e4, e5, fun b p hb => e6 b p (by omega)⟩

end Verif.Blk
