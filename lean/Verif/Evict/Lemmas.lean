import Verif.Evict.Spec
/-! Invariants of flow control. -/
namespace Verif.Evict

def heldN : Pc → Nat
  | .asleep | .woken => 1
  | _ => 0

def Ev.inRun : Ev → Bool
  | .waiting _ | .top | .done => false
  | _ => true

theorem sum_set (f : Pc → Nat) : ∀ (l : List Pc) (t : Nat) (p q : Pc), l[t]? = some p → ((l.set t q).map f).sum + f p = (l.map f).sum + f q
  | [], t, p, q, h => by simp at h
  | x :: l, 0, p, q, h => by
    simp only [List.getElem?_cons_zero, Option.some.injEq] at h
    subst h
    simp only [List.set_cons_zero, List.map_cons, List.sum_cons]
    omega
  | x :: l, t + 1, p, q, h => by
    simp only [List.getElem?_cons_succ] at h
    have := sum_set f l t p q h
    simp only [List.set_cons_succ, List.map_cons, List.sum_cons]
    omega

theorem sum_ge (f : Pc → Nat) : ∀ (l : List Pc) (t : Nat) (p : Pc), l[t]? = some p → f p ≤ (l.map f).sum
  | [], t, p, h => by simp at h
  | x :: l, 0, p, h => by
    simp only [List.getElem?_cons_zero, Option.some.injEq] at h
    subst h
    simp only [List.map_cons, List.sum_cons]
    omega
  | x :: l, t + 1, p, h => by
    simp only [List.getElem?_cons_succ] at h
    have := sum_ge f l t p h
    simp only [List.map_cons, List.sum_cons]
    omega

theorem sum_broadcast (f : Pc → Nat) (h : f .asleep = f .woken) : ∀ l : List Pc, ((l.map fun p => if p = .asleep then Pc.woken else p).map f).sum = (l.map f).sum
  | [] => rfl
  | x :: l => by
    have := sum_broadcast f h l
    simp only [List.map_cons, List.sum_cons]
    split
    · rename_i hx
      subst hx
      omega
    · omega

theorem not_asleep_broadcast (s : St) : ¬ Asleep s.broadcast := by
  intro ⟨t, h⟩
  simp only [St.broadcast, List.getElem?_map] at h
  cases hx : s.thr[t]? with
  | none => simp [hx] at h
  | some p =>
    simp only [hx, Option.map_some, Option.some.injEq] at h
    split at h <;> simp_all

/-- A thread that is set to something else than `asleep` puts nobody to sleep. -/
theorem asleep_of_set {s : St} {t : Nat} {p : Pc} (hp : p ≠ .asleep) (h : Asleep (s.set t p)) : Asleep s := by
  obtain ⟨u, hu⟩ := h
  simp only [St.set, List.getElem?_set] at hu
  split at hu
  · split at hu
    · simp only [Option.some.injEq] at hu
      exact absurd hu hp
    · exact absurd hu (by simp)
  · exact ⟨u, hu⟩

structure Inv (s : St) : Prop where
  ev : s.evicting = promised s
  sl : s.sleepers = (s.thr.map heldN).sum
  rn : s.running = s.ev.inRun
  st : s.run = false → s.ev ≠ .waiting false
  dn : s.ev = .done → s.run = false

structure Safe (c : Cfg) (s : St) : Prop where
  ex : s.ev = .exit false → s.current - s.evicting ≤ c.low
  wt : s.ev = .waiting false → Asleep s → c.highH - c.low < s.evicting

theorem signal_ev (s : St) : s.signal.ev = (match s.ev with | .waiting _ => .waiting true | e => e) := by
  unfold St.signal
  split <;> simp_all

theorem signal_rest (s : St) : s.signal.current = s.current ∧ s.signal.evicting = s.evicting ∧ s.signal.sleepers = s.sleepers ∧ s.signal.running = s.running
    ∧ s.signal.run = s.run ∧ s.signal.queue = s.queue ∧ s.signal.thr = s.thr ∧ s.signal.pairs = s.pairs := by
  unfold St.signal
  split <;> simp

theorem signal_waits (s : St) : s.signal.ev ≠ .waiting false := by
  rw [signal_ev]
  split
  · simp
  · rename_i h
    intro hh
    exact h _ hh

theorem signal_handing (s : St) : handing s.signal.ev = handing s.ev := by
  rw [signal_ev]
  split <;> simp_all [handing]

theorem signal_inRun (s : St) : s.signal.ev.inRun = s.ev.inRun := by
  rw [signal_ev]
  split <;> simp_all [Ev.inRun]

theorem signal_exit (s : St) (b : Bool) : s.signal.ev = .exit b ↔ s.ev = .exit b := by
  rw [signal_ev]
  split <;> simp_all

theorem signal_done (s : St) : s.signal.ev = .done ↔ s.ev = .done := by
  rw [signal_ev]
  split <;> simp_all

theorem Inv.signal {s : St} (h : Inv s) : Inv s.signal := by
  obtain ⟨a1, a2, a3, a4, a5, a6, a7, _⟩ := signal_rest s
  constructor
  · have := signal_handing s
    have := h.ev
    simp only [promised] at this ⊢
    rw [a2, a6, a7]
    omega
  · rw [a3, a7]
    exact h.sl
  · rw [a4, signal_inRun]
    exact h.rn
  · intro _
    exact signal_waits s
  · rw [signal_done, a5]
    exact h.dn

theorem Safe.signal {c : Cfg} {s : St} (h : Safe c s) : Safe c s.signal := by
  obtain ⟨a1, a2, a3, a4, a5, a6, a7, _⟩ := signal_rest s
  constructor
  · rw [signal_exit, a1, a2]
    exact h.ex
  · intro hw
    exact absurd hw (signal_waits s)

theorem Inv.broadcast {s : St} (h : Inv s) : Inv s.broadcast := by
  constructor
  · have := h.ev
    simp only [promised, St.broadcast] at this ⊢
    rw [sum_broadcast promise rfl]
    exact this
  · simp only [St.broadcast]
    rw [sum_broadcast heldN rfl]
    exact h.sl
  · exact h.rn
  · exact h.st
  · exact h.dn

/-- Setting a thread to something that weighs as much as before. -/
theorem Inv.set {s : St} (h : Inv s) {t : Nat} {p q : Pc} (ht : s.thr[t]? = some p) (h1 : promise p = promise q) (h2 : heldN p = heldN q) :
    Inv (s.set t q) := by
  have e1 := sum_set promise s.thr t p q ht
  have e2 := sum_set heldN s.thr t p q ht
  constructor
  · have := h.ev
    simp only [promised, St.set] at this ⊢
    omega
  · have := h.sl
    simp only [St.set]
    omega
  · exact h.rn
  · exact h.st
  · exact h.dn

theorem Safe.set {c : Cfg} {s : St} (h : Safe c s) {t : Nat} {q : Pc} (hq : q ≠ .asleep) : Safe c (s.set t q) :=
  ⟨h.ex, fun hw ha => h.wt hw (asleep_of_set hq ha)⟩

theorem free_iff (s : St) (t : Nat) (p : Pc) : s.free t p = true ↔ s.thr[t]? = some p ∧ s.ev.holds = false := by
  simp [St.free]

theorem sleepers_pos {s : St} (h : Inv s) (ha : Asleep s) : 0 < s.sleepers := by
  obtain ⟨t, ht⟩ := ha
  have := sum_ge heldN s.thr t _ ht
  have := h.sl
  simp only [heldN] at *
  omega

end Verif.Evict
