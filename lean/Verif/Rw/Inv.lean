import Verif.Rw.Model
/-!
The invariant of the fair lock.
-/
set_option linter.unusedVariables false
set_option linter.unusedSimpArgs false
namespace Verif.Rw

/-- How many of the first `n` threads are in a given condition. -/
def num (n : Nat) (p : Th → Bool) (f : Nat → Th) : Nat := (List.range n).countP fun u => p (f u)

theorem num_succ (n : Nat) (p : Th → Bool) (f : Nat → Th) : num (n + 1) p f = num n p f + if p (f n) then 1 else 0 := by
  simp only [num, List.range_succ, List.countP_append, List.countP_cons, List.countP_nil, Nat.zero_add]

theorem num_set_out (n : Nat) (p : Th → Bool) (f : Nat → Th) (t : Nat) (x : Th) (h : n ≤ t) : num n p (fun u => if u = t then x else f u) = num n p f := by
  induction n with
  | zero => rfl
  | succ n ih =>
    rw [num_succ, num_succ, ih (by omega), if_neg (by omega : ¬ n = t)]

theorem num_set (n : Nat) (p : Th → Bool) (f : Nat → Th) (t : Nat) (x : Th) (h : t < n) :
    num n p (fun u => if u = t then x else f u) + (if p (f t) then 1 else 0) = num n p f + (if p x then 1 else 0) := by
  induction n with
  | zero => omega
  | succ n ih =>
    rw [num_succ, num_succ]
    by_cases e : n = t
    · subst e
      rw [num_set_out n p f n x (Nat.le_refl _), if_pos rfl]
      omega
    · rw [if_neg e]
      have := ih (by omega)
      omega

theorem num_pos {n : Nat} {p : Th → Bool} {f : Nat → Th} {t : Nat} (ht : t < n) (h : p (f t) = true) : 0 < num n p f :=
  List.countP_pos_iff.mpr ⟨t, List.mem_range.mpr ht, h⟩

theorem num_exists {n : Nat} {p : Th → Bool} {f : Nat → Th} (h : 0 < num n p f) : ∃ t, t < n ∧ p (f t) = true := by
  obtain ⟨t, ht, hp⟩ := List.countP_pos_iff.mp h
  exact ⟨t, List.mem_range.mp ht, hp⟩

theorem num_congr {n : Nat} {p q : Th → Bool} {f g : Nat → Th} (h : ∀ t, p (f t) = q (g t)) : num n p f = num n q g := by
  simp only [num, h]

/-- Two different threads count twice. -/
theorem num_two {n : Nat} {p : Th → Bool} {f : Nat → Th} {t u : Nat} (ht : t < n) (hu : u < n) (hne : t ≠ u) (h1 : p (f t) = true) (h2 : p (f u) = true) : 2 ≤ num n p f := by
  by_cases hi : p .idle = true
  · induction n with
    | zero => omega
    | succ n ih =>
      rw [num_succ]
      by_cases e1 : t = n
      · subst e1
        rw [if_pos h1]
        have := num_pos (n := t) (by omega : u < t) h2
        omega
      · by_cases e2 : u = n
        · subst e2
          rw [if_pos h2]
          have := num_pos (n := u) (by omega : t < u) h1
          omega
        · have := ih (by omega) (by omega)
          omega
  · have := num_set n p f t .idle ht
    rw [if_pos h1, if_neg hi] at this
    have h3 := num_pos (p := p) (f := fun v => if v = t then .idle else f v) hu (by show p (if u = t then .idle else f u) = true; rw [if_neg (Ne.symm hne)]; exact h2)
    omega

def Th.isR : Th → Bool | .reading => true | _ => false
def Th.isW : Th → Bool | .writing _ => true | _ => false
def Th.isWR : Th → Bool | .waitR _ => true | _ => false
def Th.isWW : Th → Bool | .waitW _ _ => true | _ => false
/-- A reader that has been signalled. -/
def Th.isS : Th → Bool | .waitR true => true | _ => false
def Th.isE : Th → Bool | .waitW true _ => true | _ => false
/-- A writer that has been signalled. -/
def Th.isK : Th → Bool | .waitW _ true => true | _ => false

structure Inv (n : Nat) (s : St) : Prop where
  out : ∀ t, n ≤ t → s.thr t = .idle
  cR : s.readers = num n Th.isR s.thr
  cW : s.writers = num n Th.isW s.thr
  cWW : s.wantW = num n Th.isWW s.thr
  cWR : s.wantR = num n Th.isWR s.thr
  cS : s.signaled = num n Th.isS s.thr
  cE : s.expWant = num n Th.isE s.thr
  qw : ∀ t, .wr t ∈ s.queue ↔ ∃ e, s.thr t = .waitW e false
  qnodup : s.queue.Nodup
  qrd : .rd ∈ s.queue ↔ s.inQueue = true
  qin : s.inQueue = true ↔ ∃ t, s.thr t = .waitR false
  one : s.writers + num n Th.isK s.thr ≤ 1
  excl : 0 < s.writers + num n Th.isK s.thr → s.readers = 0 ∧ s.signaled = 0
  prog : s.queue ≠ [] → 0 < s.writers + s.readers + s.signaled + num n Th.isK s.thr
  head : s.writers = 0 → num n Th.isK s.thr = 0 → ∀ q, s.queue ≠ .rd :: q
  cur : s.curExp = true ↔ ∃ t, s.thr t = .writing true
  rexp : s.inQueue = false → s.readExp = false

variable {n : Nat} {s : St}

theorem num_idle (n : Nat) (p : Th → Bool) (h : p .idle = false) : num n p (fun _ => .idle) = 0 := by
  induction n with
  | zero => rfl
  | succ n ih => rw [num_succ, ih, h]; rfl

theorem inv_init (n : Nat) : Inv n St.init := by
  refine ⟨fun _ _ => rfl, (num_idle n _ rfl).symm, (num_idle n _ rfl).symm, (num_idle n _ rfl).symm, (num_idle n _ rfl).symm, (num_idle n _ rfl).symm, (num_idle n _ rfl).symm, ?_, ?_, ?_, ?_, ?_, ?_, ?_, ?_, ?_, ?_⟩
  · intro t; simp [St.init]
  · simp [St.init]
  · simp [St.init]
  · simp [St.init]
  · show 0 + num n Th.isK (fun _ => .idle) ≤ 1; rw [num_idle n _ rfl]; omega
  · intro _; exact ⟨rfl, rfl⟩
  · intro h; exact absurd rfl h
  · intro _ _ q h; cases h
  · simp [St.init]
  · intro _; rfl

/-- A writer that waits has been signalled or is in the queue. -/
theorem Inv.writer_waits (h : Inv n s) (hw : 0 < s.wantW) : 0 < num n Th.isK s.thr ∨ s.queue ≠ [] := by
  rw [h.cWW] at hw
  obtain ⟨t, ht, hp⟩ := num_exists hw
  cases e : s.thr t with
  | waitW x w =>
    cases w with
    | true => left; exact num_pos ht (by rw [e]; rfl)
    | false => right; intro hq; have := (h.qw t).mpr ⟨x, e⟩; rw [hq] at this; cases this
  | _ => rw [e] at hp; cases hp

theorem mem_append_one {α : Type} {a b : α} {l : List α} : a ∈ l ++ [b] ↔ a ∈ l ∨ a = b := by simp

end Verif.Rw
