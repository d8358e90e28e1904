import Verif.Logger.Inv
/-!
Lemmas about the invariant of the logger that do not mention the step function.
-/
set_option linter.unusedVariables false
set_option linter.unusedSimpArgs false
namespace Verif.Logger
open Verif.Log Verif.Log.Spec Verif.Ser Verif.Logger.Spec

theorem PutBy.mono {evs evs' : List Event} (h : ∀ e ∈ evs, e ∈ evs') {t : Tid} {c : Call} {l : Nat} (hp : PutBy evs t c l) : PutBy evs' t c l := by
  cases c <;> simp only [PutBy] at hp ⊢
  · obtain ⟨bs, hb⟩ := hp
    exact ⟨bs, h _ hb⟩
  · exact hp

/-- Other threads keep what they rely on. -/
theorem PcOk.frame {v v' : View} {evs evs' : List Event} {t : Tid} {p : Pc} (h : PcOk v evs t p) (he : ∀ e ∈ evs, e ∈ evs')
    (hl : v.lsn ≤ v'.lsn) (hd : v.dur ≤ v'.dur)
    (hout : holdsOut p = true → v'.wr = v.wr ∧ v'.out = v.out ∧ (v.clean → v'.clean) ∧ (v.sealed → v'.sealed))
    (hin : holdsIn p = true → v'.inb = v.inb ∧ v'.size = v.size) : PcOk v' evs' t p := by
  have hp : ∀ {c l}, PutBy evs t c l → PutBy evs' t c l := fun h => h.mono he
  cases p <;> simp only [PcOk, holdsOut, holdsIn, forall_const, Bool.false_eq_true, false_implies, Room] at * <;>
    first
      | exact trivial
      | exact h
      | (obtain ⟨h1, h2⟩ := h; exact ⟨h1, by omega⟩)
      | (obtain ⟨h1, h2, h3⟩ := h; exact ⟨h1, by omega, by omega⟩)
      | (obtain ⟨h1, h2, h3, h4⟩ := h; exact ⟨h1, by omega, by omega, hout.2.2.2 h4⟩)
      | (obtain ⟨h1, h2, n, h3, h4⟩ := h; exact ⟨h1, by omega, n, h3, by omega⟩)
      | (obtain ⟨h1, n, h3, h4⟩ := h; exact ⟨h1, n, h3, by omega⟩)
      | (obtain ⟨h1, h2⟩ := h; exact ⟨by omega, hp h2⟩)
      | (obtain ⟨h1, h2, h3, h4⟩ := h; exact ⟨by omega, hp h2, by omega, by omega⟩)
      | (obtain ⟨h1, h2, h3, h4⟩ := h; exact ⟨by omega, hp h2, by omega, hout.2.2.2 h4⟩)
      | (obtain ⟨h1, h2, h3, h4⟩ := h; exact ⟨by omega, hp h2, by omega, h4.imp id hout.2.2.1⟩)
      | (obtain ⟨h1, h2, h3, h4⟩ := h; exact ⟨by omega, hp h2, by omega, hout.2.2.1 h4⟩)
      | omega
      | (obtain ⟨u, hu⟩ := h; exact ⟨u, he _ hu⟩)
      | (obtain ⟨⟨u, hu⟩, h2⟩ := h; exact ⟨⟨u, he _ hu⟩, by omega⟩)

/-! ### Lengths -/

theorem jobLen {j : Job} (h : JobOk j) : ∃ n, j.len = .ok n ∧ n ≤ 2 ^ 29 ∧ ∀ lsn < 2 ^ 64, ∃ bs, write j.now ⟨j.cmd, lsn, j.vals⟩ = .ok bs ∧ bs.length = n ∧
    Written (logged j.now ⟨j.cmd, lsn, j.vals⟩, bs) := by
  obtain ⟨hnow, h⟩ := h
  obtain ⟨tys, ht, _, hf⟩ := (h 0 (by decide)).1
  have hs := sizes_ok j.now hf
  have hc := fieldsOf_char ht
  have key : ∀ lsn < 2 ^ 64, ∃ bs, write j.now ⟨j.cmd, lsn, j.vals⟩ = .ok bs ∧ bs.length = m32 (4 + 1 + 8 + (BufSpec.layout (writesAll j.now tys j.vals)).length + 8) := by
    intro lsn hl
    have hb := good_small (lsn := lsn) ht hf j.now
    refine ⟨recBytes j.now j.cmd tys lsn j.vals, ?_, ?_⟩
    · simp only [write, ht]; exact writeRecord_ok hnow hc hl hf hb
    · rw [rec_length, m32, Nat.mod_eq_of_lt]
      · rw [rec_length] at hb; omega
  refine ⟨m32 (4 + 1 + 8 + (BufSpec.layout (writesAll j.now tys j.vals)).length + 8), ?_, ?_, ?_⟩
  · simp only [Job.len, ht, hs]
  · obtain ⟨bs, hb, hl⟩ := key 0 (by decide)
    rw [← hl]; exact (h 0 (by decide)).2 bs hb
  · intro lsn hl
    obtain ⟨bs, hb, hlen⟩ := key lsn hl
    exact ⟨bs, hb, hlen, j.now, ⟨j.cmd, lsn, j.vals⟩, hnow, (h lsn hl).1, hb, rfl, by have := (h lsn hl).2 bs hb; show bs.length < 2 ^ 31; omega⟩

theorem asInt_small {n : Nat} (h : n ≤ 2 ^ 29) : asInt n = n := by
  have : n % 2 ^ 32 = n := Nat.mod_eq_of_lt (by omega)
  rw [asInt, this, if_pos (by omega)]

theorem roomy_iff {cfg : Cfg} {b : Buf} {n : Nat} (h : n ≤ 2 ^ 29) : roomy cfg b n = true ↔ b.bytes.length + n ≤ cfg.minBuf := by
  simp only [roomy, asInt_small h, decide_eq_true_eq]; omega

theorem grown_ok {size n : Nat} (h : n ≤ 2 ^ 29) : ∃ z, grown size n = some z ∧ n ≤ z ∧ size ≤ z := by
  unfold grown
  rw [asInt_small h]
  by_cases h1 : (n : Int) > size
  · rw [if_pos h1, if_pos (by omega)]
    simp only [Int.toNat_natCast]
    by_cases h2 : size * 2 > n
    · rw [if_pos h2, if_pos (by omega)]; exact ⟨_, rfl, by omega, by omega⟩
    · rw [if_neg h2, if_pos (by omega)]; exact ⟨_, rfl, by omega, by omega⟩
  · rw [if_neg h1]; exact ⟨size, rfl, by omega, by omega⟩

/-! ### Locks -/

theorem goto_pc (s : St) (t u : Tid) (p : Pc) : (s.goto t p).pc u = if u = t then p else s.pc u := rfl
theorem goto_self (s : St) (t : Tid) (p : Pc) : (s.goto t p).pc t = p := by rw [goto_pc, if_pos rfl]
theorem goto_ne (s : St) {t u : Tid} (p : Pc) (h : u ≠ t) : (s.goto t p).pc u = s.pc u := by rw [goto_pc, if_neg h]

/-- How the locks change when thread `t` goes from `s.pc t` to `p`. -/
theorem Locks.step {s s' : St} (h : Locks s) {t : Tid} {p : Pc} (hpc : ∀ u, s'.pc u = if u = t then p else s.pc u)
    (hin : (s'.inLock = s.inLock ∧ holdsIn p = holdsIn (s.pc t)) ∨ (s.inLock = none ∧ s'.inLock = some t ∧ holdsIn p = true) ∨
      (holdsIn (s.pc t) = true ∧ s'.inLock = none ∧ holdsIn p = false))
    (hout : (s'.outFree = s.outFree ∧ holdsOut p = holdsOut (s.pc t)) ∨ (s.outFree = true ∧ s'.outFree = false ∧ holdsOut p = true) ∨
      (holdsOut (s.pc t) = true ∧ s'.outFree = true ∧ holdsOut p = false)) : Locks s' := by
  obtain ⟨inl, one, free⟩ := h
  refine ⟨?_, ?_, ?_⟩
  · intro u
    rw [hpc u]
    rcases hin with ⟨h1, h2⟩ | ⟨h1, h2, h3⟩ | ⟨h1, h2, h3⟩
    · rw [h1]
      by_cases hu : u = t
      · rw [if_pos hu, h2, hu]; exact inl t
      · rw [if_neg hu]; exact inl u
    · rw [h2]
      by_cases hu : u = t
      · rw [if_pos hu, h3, hu]; simp
      · rw [if_neg hu, inl u, h1]; simp; exact fun e => hu e.symm
    · rw [h2]
      by_cases hu : u = t
      · rw [if_pos hu, h3]; simp
      · rw [if_neg hu, inl u, (inl t).mp h1]; simp; exact fun e => hu e.symm
  · intro a b
    rw [hpc a, hpc b]
    rcases hout with ⟨h1, h2⟩ | ⟨h1, h2, h3⟩ | ⟨h1, h2, h3⟩
    · intro ha hb
      apply one
      · by_cases e : a = t
        · rw [if_pos e, h2] at ha; rw [e]; exact ha
        · rw [if_neg e] at ha; exact ha
      · by_cases e : b = t
        · rw [if_pos e, h2] at hb; rw [e]; exact hb
        · rw [if_neg e] at hb; exact hb
    · have := free.mp h1
      intro ha hb
      by_cases e : a = t
      · by_cases e' : b = t
        · rw [e, e']
        · rw [if_neg e', this b] at hb; cases hb
      · rw [if_neg e, this a] at ha; cases ha
    · intro ha hb
      by_cases e : a = t
      · rw [if_pos e, h3] at ha; cases ha
      · by_cases e' : b = t
        · rw [if_pos e', h3] at hb; cases hb
        · rw [if_neg e] at ha; rw [if_neg e'] at hb; exact one _ _ ha hb
  · rcases hout with ⟨h1, h2⟩ | ⟨h1, h2, h3⟩ | ⟨h1, h2, h3⟩
    · rw [h1, free]
      constructor
      · intro h u; rw [hpc u]
        by_cases e : u = t
        · rw [if_pos e, h2]; exact h t
        · rw [if_neg e]; exact h u
      · intro h u; have := h u; rw [hpc u] at this
        by_cases e : u = t
        · rw [if_pos e, h2] at this; rw [e]; exact this
        · rw [if_neg e] at this; exact this
    · rw [h2]
      constructor
      · intro h; cases h
      · intro h; have := h t; rw [hpc t, if_pos rfl, h3] at this; cases this
    · rw [h2]
      refine ⟨fun _ u => ?_, fun _ => rfl⟩
      rw [hpc u]
      by_cases e : u = t
      · rw [if_pos e, h3]
      · rw [if_neg e]
        cases hh : holdsOut (s.pc u)
        · rfl
        · exact absurd (one u t hh h1) e

/-! ### Files -/

theorem onLast_append (f : File → File) (l : List File) (a : File) : onLast f (l ++ [a]) = l ++ [f a] := by
  induction l with
  | nil => rfl
  | cons x l ih =>
    cases l with
    | nil => rfl
    | cons y l => exact congrArg (x :: ·) ih

theorem closedFiles_append (n : Nat) (a : List (List Rec)) (r : List Rec) :
    closedFiles n (a ++ [r]) = closedFiles n a ++ [⟨header logVersion ++ bytesOf r, (header logVersion ++ bytesOf r).length, n + a.flatten.length + r.length⟩] := by
  induction a generalizing n with
  | nil => simp [closedFiles]
  | cons x a ih =>
    simp only [List.cons_append, closedFiles, ih, List.flatten_cons, List.length_append]
    have : n + x.length + a.flatten.length + r.length = n + (x.length + a.flatten.length) + r.length := by omega
    rw [this]

theorem numbered_append {n : Nat} {a b : List Rec} : numbered n (a ++ b) ↔ numbered n a ∧ numbered (n + a.length) b := by
  induction a generalizing n with
  | nil => simp [numbered]
  | cons x a ih =>
    simp only [List.cons_append, numbered, ih, List.length_cons, and_assoc]
    have : n + 1 + a.length = n + (a.length + 1) := by omega
    rw [this]

theorem recs_append (a b : List Event) : recs (a ++ b) = recs a ++ recs b := by simp [recs]

theorem TrimmedAbove.mono {evs evs' : List Event} (he : ∀ e ∈ evs, e ∈ evs') {n : Nat} (h : TrimmedAbove evs n) : TrimmedAbove evs' n := by
  obtain ⟨u, l, h1, h2⟩ := h
  exact ⟨u, l, he _ h1, h2⟩

end Verif.Logger
