import Verif.Ser.BufLemmas
import Verif.Ser.MsgBufSpec
/-!
Lemmas about message buffers.
-/
set_option linter.unusedSectionVars false
namespace Verif.Ser
open MsgBufSpec

/-! ### One entry -/

theorem store64_length (v : Nat) : (store64 v).length = 8 := rfl

theorem le_store32 {v : Nat} (h : v < 2 ^ 32) : le (store32 v) = v := by
  rw [store32_digits, le_digits, Nat.mod_eq_of_lt h]

theorem le_store64 {v : Nat} (h : v < 2 ^ 64) : le (store64 v) = v := by
  unfold store64
  rw [le_append, le_store32 (Nat.mod_lt _ (by decide)), le_store32 (by omega)]
  show v % 2 ^ 32 + 256 ^ 4 * (v / 2 ^ 32) = v
  omega

theorem le_one (v : Nat) : le [v] = v := by simp [le]

theorem xids_length (xs : List Nat) : (xs.flatMap store64).length = 8 * xs.length := by
  induction xs with
  | nil => rfl
  | cons x xs ih => simp only [List.flatMap_cons, List.length_append, store64_length, ih, List.length_cons]; omega

theorem Msg.entry_length (m : Msg) (f : Bool) : (m.entry f).length = m.memsize := by
  simp only [Msg.entry, List.length_append, xids_length, store64_length, List.length_cons, List.length_nil, Msg.memsize, store32]
  omega

theorem MB.at_ok {b : MB} {p bs q : List Nat} {off n : Nat} (h : b.mem = p ++ (bs ++ q)) (ho : off = p.length) (hn : n = bs.length) : b.at off n = .ok bs := by
  subst ho hn
  unfold MB.at
  rw [if_pos (by rw [h]; simp only [List.length_append]; omega), h, List.drop_left, List.take_left]

theorem MB.xidsAt_ok {b : MB} {xs : List Nat} {p q : List Nat} {off : Nat} (h : b.mem = p ++ (xs.flatMap store64 ++ q)) (ho : off = p.length) (hx : ∀ x ∈ xs, x < 2 ^ 64) :
    b.xidsAt off xs.length = .ok xs := by
  induction xs generalizing p off with
  | nil => rfl
  | cons x xs ih =>
    rw [List.flatMap_cons] at h
    have h1 : b.at off 8 = .ok (store64 x) := MB.at_ok (p := p) (q := xs.flatMap store64 ++ q) (by rw [h]; simp only [List.append_assoc]) ho rfl
    have h2 := ih (p := p ++ store64 x) (off := off + 8) (by rw [h]; simp only [List.append_assoc]) (by rw [List.length_append, store64_length, ho]) (fun y hy => hx y (by simp [hy]))
    rw [List.length_cons, MB.xidsAt, h1, R.bind_ok, h2, R.bind_ok, le_store64 (hx x (by simp))]
    rfl

theorem typ_lt {m : Msg} (h : Valid m) : m.typ < 16 := by
  have := h.typ
  simp only [single, every, List.mem_cons, List.not_mem_nil, or_false] at this
  omega

theorem MB.get_ok {b : MB} {p q : List Nat} {m : Msg} {f : Bool} (h : b.mem = p ++ (m.entry f ++ q)) (hv : Valid m)
    (hk : m.key.length < 2 ^ 32) (hl : m.val.length < 2 ^ 32) : b.getMessage p.length = .ok m := by
  have hx : m.xids.length % 256 = m.xids.length := Nat.mod_eq_of_lt (by have := hv.depth; omega)
  have ht : m.typ % 256 = m.typ := Nat.mod_eq_of_lt (by have := typ_lt hv; omega)
  unfold Msg.entry at h
  rw [hx, ht] at h
  simp only [List.append_assoc] at h
  have e1 : b.at p.length 4 = .ok (store32 m.key.length) := MB.at_ok (p := p) h rfl rfl
  have h := h.trans (List.append_assoc _ _ _).symm
  have e2 : b.at (p.length + 4) 4 = .ok (store32 m.val.length) := MB.at_ok h (by simp [store32]) rfl
  have h := h.trans (List.append_assoc _ _ _).symm
  have e3 : b.at (p.length + 8) 1 = .ok [m.typ] := MB.at_ok h (by simp [store32]) rfl
  have h := (h.trans (List.append_assoc _ _ _).symm).trans (List.append_assoc _ _ _).symm
  have e4 : b.at (p.length + 10) 8 = .ok (store64 m.msn) := MB.at_ok h (by simp [store32]) rfl
  have h := h.trans (List.append_assoc _ _ _).symm
  have e5 : b.at (p.length + 18) 1 = .ok [m.xids.length] := MB.at_ok h (by simp [store32, store64]) rfl
  have h := h.trans (List.append_assoc _ _ _).symm
  have e6 : b.xidsAt (p.length + 19) m.xids.length = .ok m.xids := MB.xidsAt_ok h (by simp [store32, store64]) hv.xids
  have h := h.trans (List.append_assoc _ _ _).symm
  have e7 : b.at (p.length + 19 + 8 * m.xids.length) m.key.length = .ok m.key :=
    MB.at_ok h (by simp only [List.length_append, xids_length]; simp [store32, store64]) rfl
  have h := h.trans (List.append_assoc _ _ _).symm
  have e8 : b.at (p.length + 19 + 8 * m.xids.length + m.key.length) m.val.length = .ok m.val :=
    MB.at_ok h (by simp only [List.length_append, xids_length]; simp [store32, store64]) rfl
  unfold MB.getMessage
  simp only [e1, e2, e3, e4, e5, R.bind_ok, le_one, e6, le_store32 hk, le_store32 hl, e7, e8, le_store64 hv.msn]
  rfl

theorem MB.getFreshness_ok {b : MB} {p q : List Nat} {m : Msg} {f : Bool} (h : b.mem = p ++ (m.entry f ++ q)) : b.getFreshness p.length = .ok f := by
  have e : b.at (p.length + 9) 1 = .ok [if f then 1 else 0] := by
    unfold Msg.entry at h
    simp only [List.append_assoc] at h
    have h := (h.trans (List.append_assoc _ _ _).symm).trans (List.append_assoc _ _ _).symm
    have h := h.trans (List.append_assoc _ _ _).symm
    exact MB.at_ok h (by simp [store32]) rfl
  unfold MB.getFreshness
  rw [e, R.bind_ok, le_one]
  cases f <;> rfl

theorem Msg.entry_set (m : Msg) (f g : Bool) : (m.entry f).set 9 (if g then 1 else 0) = m.entry g := by
  simp only [Msg.entry, store32, List.cons_append, List.nil_append, List.append_assoc, List.set_cons_succ, List.set_cons_zero]

theorem MB.set_ok {b : MB} {p q : List Nat} {m : Msg} {f g : Bool} (h : b.mem = p ++ (m.entry f ++ q)) :
    b.setFreshness p.length g = .ok { b with mem := p ++ (m.entry g ++ q) } := by
  have hl : 19 ≤ (m.entry f).length := by rw [Msg.entry_length, Msg.memsize]; omega
  unfold MB.setFreshness
  rw [if_pos (by rw [h]; simp only [List.length_append]; omega), h, List.set_append_right _ _ (by omega),
    show p.length + 9 - p.length = 9 by omega, List.set_append_left _ _ (by omega), Msg.entry_set]

/-! ### The whole buffer -/

/-- The bytes of the messages of a buffer. -/
def memOf (s : List (Msg × Bool)) : List Nat := s.flatMap fun x => x.1.entry x.2

/-- Where the `i`-th message starts. -/
def offAt (ms : List Msg) (i : Nat) : Nat := ((ms.take i).map Msg.memsize).sum

theorem memOf_length (s : List (Msg × Bool)) : (memOf s).length = ((s.map Prod.fst).map Msg.memsize).sum := by
  induction s with
  | nil => rfl
  | cons x s ih => simp only [memOf, List.flatMap_cons, List.length_append, Msg.entry_length, List.map_cons, List.sum_cons] at ih ⊢; rw [ih]

theorem memOf_append (s t : List (Msg × Bool)) : memOf (s ++ t) = memOf s ++ memOf t := by simp [memOf]

theorem memOf_split {s : List (Msg × Bool)} {i : Nat} {m : Msg} {f : Bool} (h : s[i]? = some (m, f)) :
    memOf s = memOf (s.take i) ++ (m.entry f ++ memOf (s.drop (i + 1))) ∧ (memOf (s.take i)).length = offAt (s.map Prod.fst) i := by
  obtain ⟨hi, he⟩ := List.getElem?_eq_some_iff.1 h
  constructor
  · have : s = s.take i ++ (s[i] :: s.drop (i + 1)) := by rw [← List.drop_eq_getElem_cons hi, List.take_append_drop]
    conv => lhs; rw [this]
    rw [memOf_append, he]
    simp [memOf]
  · rw [memOf_length, offAt, List.map_take]

theorem nextPow_ok {n : Nat} (h : n ≤ 2 ^ 30) : ∃ s, nextPow n 32 4096 = .ok s ∧ n ≤ s := by
  have go : ∀ k r fuel, r = 2 ^ 30 / 2 ^ k → k ≤ 30 → k < fuel → ∃ s, nextPow n fuel r = .ok s ∧ n ≤ s := by
    intro k
    induction k with
    | zero =>
      intro r fuel hr _ hf
      obtain ⟨f, rfl⟩ : ∃ f, fuel = f + 1 := ⟨fuel - 1, by omega⟩
      rw [nextPow, if_neg (by rw [hr]; simp; omega)]
      exact ⟨r, rfl, by rw [hr]; simp; omega⟩
    | succ k ih =>
      intro r fuel hr hk hf
      obtain ⟨f, rfl⟩ : ∃ f, fuel = f + 1 := ⟨fuel - 1, by omega⟩
      rw [nextPow]
      have e1 : r = 2 ^ (30 - (k + 1)) := by rw [hr, Nat.pow_div hk (by decide)]
      have e2 : r * 2 = 2 ^ (30 - k) := by rw [e1, ← Nat.pow_succ]; congr 1; omega
      split
      · rw [if_pos (by rw [e2]; exact Nat.pow_lt_pow_right (by decide) (by omega))]
        exact ih (r * 2) f (by rw [e2, Nat.pow_div (by omega) (by decide)]) (by omega) (by omega)
      · exact ⟨r, rfl, by omega⟩
  exact go 18 4096 32 (by decide) (by decide) (by decide)

theorem MB.enqueue_ok {b : MB} {m : Msg} {f : Bool} (h : b.mem.length + m.memsize ≤ 2 ^ 30) :
    ∃ s, b.enqueue m f = .ok (⟨b.mem ++ m.entry f, b.n + 1, s⟩, b.mem.length) ∧ b.mem.length + m.memsize ≤ s := by
  unfold MB.enqueue
  simp only
  split
  · obtain ⟨s, hs, hl⟩ := nextPow_ok h
    refine ⟨s, ?_, hl⟩
    rw [hs]; rfl
  · exact ⟨b.size, rfl, by omega⟩

/-- When the allocated size is enough, `enqueue` leaves it. -/
theorem MB.enqueue_fits {b : MB} {m : Msg} {f : Bool} (h : b.mem.length + m.memsize ≤ b.size) :
    b.enqueue m f = .ok (⟨b.mem ++ m.entry f, b.n + 1, b.size⟩, b.mem.length) := by
  unfold MB.enqueue
  simp only
  rw [if_neg (by omega)]

theorem MB.iterLoop_ok {b : MB} {pre s : List (Msg × Bool)} {fuel : Nat} (h : b.mem = memOf pre ++ memOf s) (hv : ∀ x ∈ s, Valid x.1 ∧ x.1.key.length < 2 ^ 32 ∧ x.1.val.length < 2 ^ 32)
    (hf : (memOf s).length ≤ fuel) :
    ∃ os : List Nat, b.iterLoop fuel (memOf pre).length = .ok (os.zip s) ∧ os.length = s.length ∧ ∀ i, i < s.length → os[i]? = some (offAt ((pre ++ s).map Prod.fst) (pre.length + i)) := by
  induction s generalizing pre fuel with
  | nil =>
    refine ⟨[], ?_, rfl, fun i hi => absurd hi (by simp)⟩
    cases fuel with
    | zero => rfl
    | succ n => rw [MB.iterLoop, if_neg (by rw [h]; simp [memOf])]; rfl
  | cons x s ih =>
    obtain ⟨m, f⟩ := x
    have hm : memOf ((m, f) :: s) = m.entry f ++ memOf s := rfl
    have hl : 19 ≤ (m.entry f).length := by rw [Msg.entry_length, Msg.memsize]; omega
    rw [hm] at h hf
    rw [List.length_append] at hf
    obtain ⟨n, rfl⟩ : ∃ n, fuel = n + 1 := ⟨fuel - 1, by omega⟩
    obtain ⟨h1, h2, h3⟩ := hv (m, f) (by simp)
    have hp : (memOf pre).length + m.memsize = (memOf (pre ++ [(m, f)])).length := by
      rw [memOf_append, List.length_append, show memOf [(m, f)] = m.entry f by simp [memOf], Msg.entry_length]
    obtain ⟨os, e1, e2, e3⟩ := ih (pre := pre ++ [(m, f)]) (fuel := n) (by rw [h, memOf_append, List.append_assoc]; simp [memOf]) (fun y hy => hv y (by simp [hy])) (by omega)
    refine ⟨(memOf pre).length :: os, ?_, by simp [e2], ?_⟩
    · rw [MB.iterLoop, if_pos (by rw [h]; simp only [List.length_append]; omega), MB.get_ok h h1 h2 h3, R.bind_ok, MB.getFreshness_ok h, R.bind_ok, hp, e1, R.bind_ok]
      rfl
    · intro i hi
      cases i with
      | zero =>
        rw [List.getElem?_cons_zero, memOf_length, offAt]
        simp
      | succ i =>
        rw [List.getElem?_cons_succ, e3 i (by simpa using hi)]
        simp only [List.append_assoc, List.cons_append, List.nil_append, List.length_append, List.length_cons, List.length_nil]
        congr 2
        omega

end Verif.Ser
