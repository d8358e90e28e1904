import Verif.Rw.Step
/-!
What a step does to the threads and to the queue of the fair lock: the facts behind the theorems on order and on draining.
-/
namespace Verif.Rw

set_option linter.unusedVariables false
set_option linter.unusedSimpArgs false

variable {n : Nat} {s s' : St}

/-- The conditions of the threads after a step: what became of each thread. -/
inductive Eff (s : St) : Act → St → Prop
  | gotW {t e a s'} : a = .writeLock t e ∨ a = .tryWrite t e → s'.thr = (s.set t (.writing e)).thr → s'.queue = s.queue → s.readers = 0 → s.writers = 0 → s.signaled = 0 → s.wantW = 0 → Eff s a s'
  | waitW {t e s'} : s'.thr = (s.set t (.waitW e false)).thr → s'.queue = s.queue ++ [.wr t] → (0 < s.readers ∨ 0 < s.writers ∨ 0 < s.signaled ∨ 0 < s.wantW) → Eff s (.writeLock t e) s'
  | same {a s'} : (∃ t e, a = .tryWrite t e) ∨ (∃ t, a = .tryRead t) → s' = s → Eff s a s'
  | gotR {t a s'} : a = .readLock t ∨ a = .tryRead t → s'.thr = (s.set t .reading).thr → s'.queue = s.queue → s.writers = 0 → s.wantW = 0 → Eff s a s'
  | waitR {t s'} : s'.thr = (s.set t (.waitR false)).thr → (s.inQueue = true ∧ s'.queue = s.queue ∨ s.inQueue = false ∧ s'.queue = s.queue ++ [.rd]) → (0 < s.writers ∨ 0 < s.wantW) → Eff s (.readLock t) s'
  | resumeW {t e s'} : s'.thr = (s.set t (.writing e)).thr → s'.queue = s.queue → Eff s (.resumeW t e) s'
  | resumeR {t s'} : s'.thr = (s.set t .reading).thr → s'.queue = s.queue → Eff s (.resumeR t) s'
  | quiet {a t s'} : a = .writeUnlock t ∨ a = .readUnlock t → s'.thr = (s.set t .idle).thr → s'.queue = s.queue → Eff s a s'
  | writer {a t u e s'} : a = .writeUnlock t ∨ a = .readUnlock t → s.thr u = .waitW e false → s'.thr = ((s.set t .idle).set u (.waitW e true)).thr → s.queue = .wr u :: s'.queue → Eff s a s'
  | readers {a t s'} : a = .writeUnlock t → s'.thr = (fun u => wake ((s.set t .idle).thr u)) → s.queue = .rd :: s'.queue → Eff s a s'

theorem signal_thr {s1 : St} {u : Nat} {e b : Bool} (h : s1.thr u = .waitW e b) : s1.signal u = s1.set u (.waitW e true) := by
  simp only [St.signal, h]

theorem broadcast_thr (s1 : St) : s1.broadcast.thr = fun u => wake (s1.thr u) := by
  simp only [St.broadcast]
  rfl

theorem step_eff (h : Inv n s) {a : Act} (ha : a.tid < n) (hc : can s a) {pd : Bool} (hs : step pd s a = some s') : Eff s a s' := by
  cases a with
  | writeLock t e =>
    rcases tryWrite_ok (t := t) h ha hc pd e with ⟨s1, h1, h2, h3⟩ | ⟨h1, h2⟩
    · simp only [step, St.writeLock, h1, bind, Option.bind, if_true, pure] at hs
      cases hs
      simp only [St.tryWrite] at h1
      split at h1
      · cases h1
      · rename_i hb
        simp only [Bool.or_eq_true, decide_eq_true_eq, gt_iff_lt] at hb
        simp only [inv, bind, Option.bind, pure] at h1
        split at h1 <;> try cases h1
        split at h1 <;> try cases h1
        exact .gotW (.inl rfl) rfl rfl (by omega) (by omega) (by omega) (by omega)
    · simp only [step, St.writeLock, h1, bind, Option.bind, Bool.false_eq_true, if_false, pure] at hs
      cases hs
      exact .waitW rfl rfl h2
  | tryWrite t e =>
    rcases tryWrite_ok (t := t) h ha hc pd e with ⟨s1, h1, h2, h3⟩ | ⟨h1, h2⟩
    · simp only [step, h1, Option.map_some] at hs
      cases hs
      simp only [St.tryWrite] at h1
      split at h1
      · cases h1
      · rename_i hb
        simp only [Bool.or_eq_true, decide_eq_true_eq, gt_iff_lt] at hb
        simp only [inv, bind, Option.bind, pure] at h1
        split at h1 <;> try cases h1
        split at h1 <;> try cases h1
        exact .gotW (.inr rfl) rfl rfl (by omega) (by omega) (by omega) (by omega)
    · simp only [step, h1, Option.map_some] at hs
      cases hs
      exact .same (.inl ⟨t, e, rfl⟩) rfl
  | resumeW t e =>
    simp only [step, St.resumeW, inv, bind, Option.bind, pure] at hs
    split at hs <;> try cases hs
    split at hs <;> try cases hs
    split at hs <;> try cases hs
    split at hs <;> try cases hs
    exact .resumeW rfl rfl
  | resumeR t =>
    simp only [step, St.resumeR, inv, bind, Option.bind, pure] at hs
    split at hs <;> try cases hs
    split at hs <;> try cases hs
    split at hs <;> try cases hs
    exact .resumeR rfl rfl
  | readLock t =>
    simp only [step, St.readLock] at hs
    split at hs
    · rename_i hb
      simp only [Bool.or_eq_true, decide_eq_true_eq, gt_iff_lt] at hb
      cases hq : s.inQueue with
      | true =>
        simp only [hq, Bool.not_true, Bool.false_eq_true, if_false, bind, Option.bind, pure] at hs
        cases hs
        exact .waitR rfl (.inl ⟨hq, rfl⟩) hb
      | false =>
        simp only [hq, Bool.not_false, if_true, decide_eq_true (h.no_unsignaled hq), h.rexp hq, St.enq, inv, Bool.not_true, Bool.and_false, Bool.false_eq_true, if_false, bind, Option.bind, pure] at hs
        cases hs
        exact .waitR rfl (.inr ⟨hq, rfl⟩) hb
    · rename_i hb
      simp only [Bool.or_eq_true, decide_eq_true_eq, gt_iff_lt] at hb
      simp only [pure] at hs
      cases hs
      exact .gotR (.inl rfl) rfl rfl (by omega) (by omega)
  | tryRead t =>
    simp only [step, St.tryRead] at hs
    split at hs
    · cases hs; exact .same (.inr ⟨t, rfl⟩) rfl
    · rename_i hb
      simp only [Bool.or_eq_true, decide_eq_true_eq, gt_iff_lt] at hb
      cases hs
      exact .gotR (.inr rfl) rfl rfl (by omega) (by omega)
  | writeUnlock t =>
    simp only [step, St.writeUnlock, St.signalNext, inv, bind, Option.bind, pure] at hs
    split at hs <;> try cases hs
    split at hs <;> try cases hs
    cases hq : s.queue with
    | nil =>
      simp only [St.set, hq, List.isEmpty_nil, if_true] at hs
      split at hs <;> try cases hs
      split at hs <;> try cases hs
      exact .quiet (.inl rfl) rfl hq.symm
    | cons i q =>
      cases i with
      | rd =>
        simp only [St.set, hq, List.isEmpty_cons, Bool.false_eq_true, if_false, St.deq] at hs
        split at hs <;> try cases hs
        split at hs <;> try cases hs
        exact .readers rfl (broadcast_thr _) hq
      | wr u =>
        obtain ⟨e, he⟩ := (h.qw u).mp (by rw [hq]; simp)
        obtain ⟨e', he'⟩ := hc
        have hut : u ≠ t := by rintro rfl; rw [he] at he'; cases he'
        simp only [St.set, hq, List.isEmpty_cons, Bool.false_eq_true, if_false, St.deq] at hs
        split at hs <;> try cases hs
        rw [signal_thr (e := e) (b := false) (by simp only [if_neg hut]; exact he)]
        exact .writer (.inl rfl) he rfl hq
  | readUnlock t =>
    simp only [step, St.readUnlock, inv, bind, Option.bind, pure] at hs
    split at hs <;> try cases hs
    split at hs <;> try cases hs
    simp only [St.signalWriter] at hs
    split at hs
    · cases hq : s.queue with
      | nil => simp only [St.set, hq, St.deq] at hs; cases hs
      | cons i q =>
        cases i with
        | rd =>
          exfalso
          have hR : 0 < num n Th.isR s.thr := num_pos (t := t) ha (by rw [show s.thr t = .reading from hc]; rfl)
          have hcr := h.cR
          have hk : s.writers + num n Th.isK s.thr = 0 := by
            rcases Nat.eq_zero_or_pos (s.writers + num n Th.isK s.thr) with h' | h'
            · exact h'
            · have := (h.excl h').1; omega
          exact h.head (by omega) (by omega) q hq
        | wr u =>
          obtain ⟨e, he⟩ := (h.qw u).mp (by rw [hq]; simp)
          have hut : u ≠ t := by rintro rfl; rw [show s.thr u = .reading from hc] at he; cases he
          simp only [St.set, hq, St.deq] at hs
          cases hs
          rw [signal_thr (e := e) (b := false) (by simp only [if_neg hut]; exact he)]
          exact .writer (.inr rfl) he rfl hq
    · cases hs
      exact .quiet (.inr rfl) rfl rfl

/-! ### The place in the queue -/

/-- The item that stands for a thread which waits and has not been signalled. -/
def item? (s : St) (t : Nat) : Option Item :=
  match s.thr t with
  | .waitR false => some .rd
  | .waitW _ false => some (.wr t)
  | _ => none

/-- How many turns come before that of the thread `t`: the items in front of its own. -/
def place (s : St) (t : Nat) : Option Nat := (item? s t).map (fun i => s.queue.idxOf i)

theorem item_mem (h : Inv n s) {t : Nat} {i : Item} (hi : item? s t = some i) : i ∈ s.queue := by
  simp only [item?] at hi
  split at hi <;> cases hi
  · rename_i hx; exact h.qrd.mpr (h.qin.mpr ⟨t, hx⟩)
  · rename_i e hx; exact (h.qw t).mpr ⟨e, hx⟩

theorem idx_append {l : List Item} {i j : Item} (h : i ∈ l) : (l ++ [j]).idxOf i = l.idxOf i := by
  rw [List.idxOf_append, if_pos h]

theorem idx_tail {l : List Item} {i j : Item} (h : i ≠ j) : (j :: l).idxOf i = l.idxOf i + 1 := by
  rw [List.idxOf_cons]
  simp [show (j == i) = false from by simpa using fun e => h e.symm]

theorem length_le_of_lt {l : List Nat} {m : Nat} (hd : l.Nodup) (h : ∀ x ∈ l, x < m) : l.length ≤ m := by
  induction m generalizing l with
  | zero =>
    cases l with
    | nil => simp
    | cons a l => have := h a (by simp); omega
  | succ m ih =>
    by_cases hm : m ∈ l
    · have h1 := List.length_erase_of_mem hm
      have h2 := ih (hd.erase m) (by
        intro x hx
        have := h x (List.mem_of_mem_erase hx)
        have : x ≠ m := by rintro rfl; exact (List.Nodup.not_mem_erase hd) hx
        omega)
      have := List.length_pos_of_mem hm
      omega
    · have := ih hd (by
        intro x hx
        have := h x hx
        have : x ≠ m := by rintro rfl; exact hm hx
        omega)
      omega

def Item.num (n : Nat) : Item → Nat
  | .rd => n
  | .wr t => t

/-- There are at most as many turns as threads, and one. -/
theorem queue_length (h : Inv n s) : s.queue.length ≤ n + 1 := by
  have hlt : ∀ u, .wr u ∈ s.queue → u < n := by
    intro u hu
    obtain ⟨e, he⟩ := (h.qw u).mp hu
    exact lt_of_busy h (by rw [he]; simp)
  have h1 : (s.queue.map (Item.num n)).Nodup := by
    have key : ∀ l : List Item, l.Nodup → (∀ u, .wr u ∈ l → u < n) → (l.map (Item.num n)).Nodup := by
      intro l
      induction l with
      | nil => intro _ _; simp
      | cons a l ih =>
        intro hd hl
        obtain ⟨h1, h2⟩ := List.nodup_cons.mp hd
        rw [List.map_cons]
        refine List.nodup_cons.mpr ⟨?_, ih h2 (fun u hu => hl u (by simp [hu]))⟩
        rw [List.mem_map]
        rintro ⟨b, hb, e⟩
        have : b = a := by
          cases a with
          | rd => cases b with
            | rd => rfl
            | wr u => have := hl u (by simp [hb]); simp only [Item.num] at e; omega
          | wr v => cases b with
            | rd => have := hl v (by simp); simp only [Item.num] at e; omega
            | wr u => simp only [Item.num] at e; rw [e]
        subst this
        exact h1 hb
    exact key _ h.qnodup hlt
  have := length_le_of_lt (m := n + 1) h1 (by
    intro x hx
    obtain ⟨b, hb, e⟩ := List.mem_map.mp hx
    cases b with
    | rd => simp only [Item.num] at e; omega
    | wr u => have := hlt u hb; simp only [Item.num] at e; omega)
  simpa using this

/-! ### What is left to do -/

/-- The weight of a thread: how many steps it can still make without asking for the lock again. -/
def Th.weight : Th → Nat
  | .idle => 0
  | .reading | .writing _ => 1
  | .waitR true | .waitW _ true => 2
  | .waitR false | .waitW _ false => 3

def sum : Nat → (Nat → Th) → Nat
  | 0, _ => 0
  | n + 1, f => sum n f + (f n).weight

theorem sum_le {f g : Nat → Th} (h : ∀ u, (f u).weight ≤ (g u).weight) : sum n f ≤ sum n g := by
  induction n with
  | zero => exact Nat.le_refl _
  | succ n ih => have := h n; simp only [sum]; omega

theorem sum_lt {f g : Nat → Th} (h : ∀ u, (f u).weight ≤ (g u).weight) {t : Nat} (ht : t < n) (hl : (f t).weight < (g t).weight) : sum n f < sum n g := by
  induction n with
  | zero => omega
  | succ n ih =>
    simp only [sum]
    by_cases e : t = n
    · subst e; have := sum_le (n := t) h; omega
    · have := ih (by omega); have := h n; omega

theorem sum_bound (n : Nat) (f : Nat → Th) : sum n f ≤ 3 * n := by
  induction n with
  | zero => simp [sum]
  | succ n ih =>
    have : (f n).weight ≤ 3 := by cases f n <;> simp [Th.weight] <;> split <;> omega
    simp only [sum]; omega

theorem weight_wake (x : Th) : (wake x).weight ≤ x.weight := by
  cases x with
  | waitR b => cases b <;> decide
  | _ => exact Nat.le_refl _

end Verif.Rw
