import Verif.Log.Spec
import Verif.Ser.BufProps
set_option linter.unusedVariables false
set_option linter.unusedSimpArgs false
/-! Lemmas about reading log records. -/
namespace Verif.Log
open Verif.Ser Verif.Ser.BufSpec

/-- The checksum after more bytes, one at a time. -/
def eat (x : X) (bs : List Nat) : X := bs.foldl (fun x b => x.add [b]) x

theorem eat_append (x : X) (a b : List Nat) : eat x (a ++ b) = eat (eat x a) b := by simp [eat, List.foldl_append]
theorem eat_nil (x : X) : eat x [] = x := rfl

theorem eat_finish (bs : List Nat) (hb : ∀ b ∈ bs, b < 256) : (eat X.init bs).finish = XSpec.checksum bs := by
  have h := C33_checksum_of_pieces (bs.map fun b => [b]) (by simpa using hb)
  rw [List.foldl_map] at h
  have h2 : (bs.map fun b => [b]).flatten = bs := by 
    clear h hb
    induction bs with
    | nil => rfl
    | cons b bs ih => simpa using ih
  rw [h2] at h; exact h

/-- The reader takes the bytes `bs` for the value `a`, and on any proper beginning of them meets the end of the file. -/
structure Reads {α : Type} (rd : In → Out (α × In)) (bs : List Nat) (a : α) : Prop where
  full : ∀ post x n, rd ⟨bs ++ post, x, n⟩ = .ok (a, ⟨post, eat x bs, n + bs.length⟩)
  cut : ∀ p q x n, bs = p ++ q → q ≠ [] → rd ⟨p, x, n⟩ = .eof

theorem Reads.pure {α : Type} (a : α) : Reads (fun i => (pure (a, i) : Out (α × In))) [] a :=
  ⟨fun _ _ _ => rfl, fun p q x n h hq => by simp at h; exact absurd h.2 hq⟩

theorem Out.bind_ok {α β : Type} (a : α) (f : α → Out β) : (Out.ok a >>= f) = f a := rfl
theorem Out.bind_eof {α β : Type} (f : α → Out β) : ((Out.eof : Out α) >>= f) = Out.eof := rfl
theorem Out.bind_bad {α β : Type} (f : α → Out β) : ((Out.bad : Out α) >>= f) = Out.bad := rfl
theorem Out.bind_smash {α β : Type} (f : α → Out β) : ((Out.smash : Out α) >>= f) = Out.smash := rfl
theorem Out.pure_ok {α : Type} (a : α) : (pure a : Out α) = Out.ok a := rfl

theorem Reads.bind {α β : Type} {rd : In → Out (α × In)} {g : α × In → Out (β × In)} {b1 b2 : List Nat} {a : α} {b : β}
    (h1 : Reads rd b1 a) (h2 : Reads (fun i => g (a, i)) b2 b) : Reads (fun i => rd i >>= g) (b1 ++ b2) b := by
  constructor
  · intro post x n
    show (rd ⟨b1 ++ b2 ++ post, x, n⟩ >>= g) = _
    rw [List.append_assoc, h1.full, Out.bind_ok]
    have := h2.full post (eat x b1) (n + b1.length)
    rw [eat_append, List.length_append, ← Nat.add_assoc]; exact this
  · intro p q x n h hq
    show (rd ⟨p, x, n⟩ >>= g) = _
    rcases List.append_eq_append_iff.mp h with ⟨u, h3, h4⟩ | ⟨u, h3, h4⟩
    · -- p = b1 ++ u, b2 = u ++ q
      subst h3
      rw [h1.full, Out.bind_ok]
      exact h2.cut u q _ _ h4 hq
    · -- b1 = p ++ u
      by_cases hu : u = []
      · subst hu
        simp only [List.append_nil] at h3; subst h3
        have := h1.full [] x n
        rw [List.append_nil] at this
        rw [this, Out.bind_ok]
        rw [List.nil_append] at h4
        exact h2.cut [] b2 _ _ rfl (h4 ▸ hq)
      · rw [h1.cut p u x n h3 hu, Out.bind_eof]

theorem Reads.ret {α : Type} {a b : α} (h : a = b) : Reads (fun i => (Pure.pure (a, i) : Out (α × In))) [] b := h ▸ Reads.pure a

theorem reads8 (b : Nat) : Reads rd8 [b] b := by
  constructor
  · intro post x n; rfl
  · intro p q x n h hq
    cases p with
    | nil => rfl
    | cons c p => simp at h; exact absurd h.2.2 hq

theorem Reads.conv {α : Type} {rd : In → Out (α × In)} {a b : List Nat} {v : α} (h : Reads rd a v) (e : a = b) : Reads rd b v := e ▸ h

theorem reads32 {v : Nat} (hv : v < 2 ^ 32) : Reads rd32 (digits 4 v) v := by
  have hle : le [v % 256, v / 256 % 256, v / 256 / 256 % 256, v / 256 / 256 / 256 % 256] = v := by
    have := le_digits 4 v
    have e : digits 4 v = [v % 256, v / 256 % 256, v / 256 / 256 % 256, v / 256 / 256 / 256 % 256] := rfl
    rw [e] at this
    rw [this]; exact Nat.mod_eq_of_lt (by simpa using hv)
  refine Reads.conv (a := [v % 256] ++ ([v / 256 % 256] ++ ([v / 256 / 256 % 256] ++ ([v / 256 / 256 / 256 % 256] ++ [])))) ?_ rfl
  refine Reads.bind (reads8 _) ?_; dsimp only
  refine Reads.bind (reads8 _) ?_; dsimp only
  refine Reads.bind (reads8 _) ?_; dsimp only
  refine Reads.bind (reads8 _) ?_; dsimp only
  exact Reads.ret hle

theorem reads64 {v : Nat} (hv : v < 2 ^ 64) : Reads rd64 (bytes (.ull v)) v := by
  have e : ((v / 2 ^ 32) <<< 32) ||| (v % 2 ^ 32) = v := by
    rw [← Nat.shiftLeft_add_eq_or_of_lt (by omega), Nat.shiftLeft_eq]; omega
  refine Reads.conv (a := digits 4 (v / 2 ^ 32) ++ (digits 4 (v % 2 ^ 32) ++ [])) ?_ (by rw [List.append_nil]; rfl)
  refine Reads.bind (reads32 (by omega)) ?_; dsimp only
  refine Reads.bind (reads32 (by omega)) ?_; dsimp only
  exact Reads.ret e

theorem readsBytes (bs : List Nat) : Reads (rdBytes bs.length) bs bs := by
  induction bs with
  | nil => exact Reads.pure _
  | cons b bs ih =>
    refine Reads.conv (a := [b] ++ (bs ++ [])) ?_ (by simp)
    refine Reads.bind (reads8 _) ?_; dsimp only
    refine Reads.bind ih ?_; dsimp only
    exact Reads.ret rfl

theorem readsNums {ns : List Nat} (hn : ∀ n ∈ ns, n < 2 ^ 32) : Reads (rdNums ns.length) (ns.flatMap (digits 4)) ns := by
  induction ns with
  | nil => exact Reads.pure _
  | cons b bs ih =>
    refine Reads.conv (a := digits 4 b ++ (bs.flatMap (digits 4) ++ [])) ?_ (by simp)
    refine Reads.bind (reads32 (hn b (by simp))) ?_; dsimp only
    refine Reads.bind (ih (fun n h => hn n (by simp [h]))) ?_; dsimp only
    exact Reads.ret rfl

theorem readsXidData (bs : List Nat) : ∀ k, k + bs.length ≤ 128 → Reads (rdXidData k bs.length) bs bs := by
  induction bs with
  | nil => intro k _; exact Reads.pure _
  | cons b bs ih =>
    intro k hk
    simp only [List.length_cons] at hk
    refine Reads.conv (a := [b] ++ (bs ++ [])) ?_ (by simp)
    refine Reads.bind (reads8 _) ?_; dsimp only
    simp only [if_pos (show k < 128 by omega)]
    refine Reads.bind (ih (k + 1) (by omega)) ?_; dsimp only
    exact Reads.ret rfl

/-- The bytes of a value. -/
def enc (now : Nat) (t : Ty) (v : Val) : List Nat := layout (writes now t v)

open Spec in
theorem readsXid {x : Xid} (h : Fits .xid (.xid x)) (now : Nat) : Reads rdXid (enc now .xid (.xid x)) x := by
  obtain ⟨⟨f0, f1⟩, ⟨g0, g1⟩, ⟨b0, b1⟩, hl, hb⟩ := h
  obtain ⟨f, g, b, d⟩ := x
  dsimp only at *
  obtain ⟨f, rfl⟩ := Int.eq_ofNat_of_zero_le f0
  obtain ⟨g, rfl⟩ := Int.eq_ofNat_of_zero_le g0
  obtain ⟨b, rfl⟩ := Int.eq_ofNat_of_zero_le b0
  have e1 : ((f : Int) % 2 ^ 32).toNat = f := by omega
  have e2 : ((g : Int) % 256).toNat = g := by omega
  have e3 : ((b : Int) % 256).toNat = b := by omega
  have e4 : d.length = g + b := by omega
  refine Reads.conv (a := digits 4 f ++ ([g] ++ ([b] ++ (d ++ [])))) ?_ (by simp only [enc, writes, layout, BufSpec.bytes, e1, e2, e3, List.flatMap_cons, List.flatMap_nil])
  refine Reads.bind (reads32 (by omega)) ?_; dsimp only
  refine Reads.bind (reads8 _) ?_; dsimp only
  refine Reads.bind (reads8 _) ?_; dsimp only
  refine Reads.bind (a := d) (by rw [← e4]; exact readsXidData d 0 (by omega)) ?_; dsimp only
  exact Reads.ret rfl

open Spec in
/-- Every field is read back from the bytes written for it. -/
theorem readsVal {t : Ty} {v : Val} (h : Fits t v) {now : Nat} (hnow : now < 2 ^ 64) :
    Reads (rdVal t) (enc now t v) (stamp now t v) := by
  cases t <;> cases v <;> try (exact h.elim)
  case stamp.num n =>
    have hn : n < 2 ^ 64 := h
    by_cases h0 : n = 0
    · subst h0
      refine Reads.conv (a := BufSpec.bytes (.ull now) ++ []) ?_ (by simp [enc, writes, layout])
      exact Reads.bind (reads64 hnow) (Reads.ret rfl)
    · refine Reads.conv (a := BufSpec.bytes (.ull n) ++ []) ?_ (by simp [enc, writes, layout, h0])
      refine Reads.bind (reads64 hn) (Reads.ret ?_)
      cases n with
      | zero => exact absurd rfl h0
      | succ n => rfl
  case pair.pair p c =>
    refine Reads.conv (a := BufSpec.bytes (.ull p) ++ (BufSpec.bytes (.ull c) ++ [])) ?_ (by simp [enc, writes, layout])
    refine Reads.bind (reads64 h.1) ?_; dsimp only
    refine Reads.bind (reads64 h.2) ?_; dsimp only
    exact Reads.ret rfl
  case xid.xid x => exact Reads.conv (Reads.bind (readsXid h now) (Reads.ret rfl)) (List.append_nil _)
  case bytes.bytes bs =>
    refine Reads.conv (a := digits 4 bs.length ++ (bs ++ [])) ?_ (by simp [enc, writes, layout, BufSpec.bytes])
    refine Reads.bind (reads32 (by have := h.1; omega)) ?_; dsimp only
    refine Reads.bind (readsBytes bs) ?_; dsimp only
    exact Reads.ret rfl
  case filenums.nums ns =>
    refine Reads.conv (a := digits 4 ns.length ++ (ns.flatMap (digits 4) ++ [])) ?_ (by simp [enc, writes, layout, BufSpec.bytes, List.flatMap_map])
    refine Reads.bind (reads32 (by have := h.1; omega)) ?_; dsimp only
    refine Reads.bind (readsNums h.2) ?_; dsimp only
    exact Reads.ret rfl
  case u8.num n => exact Reads.conv (Reads.bind (reads8 n) (Reads.ret rfl)) (by simp [enc, writes, layout, BufSpec.bytes])
  case bool.bool b =>
    refine Reads.conv (a := [if b then 1 else 0] ++ []) ?_ (by simp [enc, writes, layout, BufSpec.bytes])
    exact Reads.bind (reads8 _) (Reads.ret (by cases b <;> rfl))
  case u32.num n => exact Reads.conv (Reads.bind (reads32 h) (Reads.ret rfl)) (by simp [enc, writes, layout, BufSpec.bytes])
  case filenum.num n => exact Reads.conv (Reads.bind (reads32 h) (Reads.ret rfl)) (by simp [enc, writes, layout, BufSpec.bytes])
  case u64.num n => exact Reads.conv (Reads.bind (reads64 h) (Reads.ret rfl)) (by simp [enc, writes, layout])
  case blocknum.num n => exact Reads.conv (Reads.bind (reads64 h) (Reads.ret rfl)) (by simp [enc, writes, layout])
  case lsn.num n => exact Reads.conv (Reads.bind (reads64 h) (Reads.ret rfl)) (by simp [enc, writes, layout])
  case txnid.num n => exact Reads.conv (Reads.bind (reads64 h) (Reads.ret rfl)) (by simp [enc, writes, layout])

open Spec in
theorem readsVals {now : Nat} (hnow : now < 2 ^ 64) : ∀ {ts : List Ty} {vs : List Val}, FitsAll ts vs →
    Reads (rdVals ts) (layout (writesAll now ts vs)) (stamped now ts vs) := by
  intro ts
  induction ts with
  | nil => intro vs h; cases vs with
    | nil => exact Reads.pure _
    | cons => exact h.elim
  | cons t ts ih => intro vs h; cases vs with
    | nil => exact h.elim
    | cons v vs =>
      refine Reads.conv (a := enc now t v ++ (layout (writesAll now ts vs) ++ [])) ?_ (by simp [writesAll, layout, enc])
      refine Reads.bind (readsVal h.1 hnow) ?_; dsimp only
      refine Reads.bind (ih h.2) ?_; dsimp only
      exact Reads.ret rfl

end Verif.Log
