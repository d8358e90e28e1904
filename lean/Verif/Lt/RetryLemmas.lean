import Verif.Lt.Retry

/-! Invariants of the group retry protocol. -/
namespace Verif.Lt.Retry
variable {R : Type} [DecidableEq R] {meets : R → R → Bool}

omit [DecidableEq R] in
@[simp] theorem at_phase (s : State R) (t u : Txn) (p : Phase R) : (s.at t p).phase u = if u = t then p else s.phase u := rfl
omit [DecidableEq R] in
@[simp] theorem at_held (s : State R) (t : Txn) (p : Phase R) : (s.at t p).held = s.held := rfl
omit [DecidableEq R] in
@[simp] theorem at_pending (s : State R) (t : Txn) (p : Phase R) : (s.at t p).pending = s.pending := rfl
omit [DecidableEq R] in
@[simp] theorem at_flag (s : State R) (t : Txn) (p : Phase R) : (s.at t p).flag = s.flag := rfl
omit [DecidableEq R] in
@[simp] theorem at_mutex (s : State R) (t : Txn) (p : Phase R) : (s.at t p).mutex = s.mutex := rfl
omit [DecidableEq R] in
@[simp] theorem at_want (s : State R) (t : Txn) (p : Phase R) : (s.at t p).want = s.want := rfl
omit [DecidableEq R] in
@[simp] theorem at_done (s : State R) (t : Txn) (p : Phase R) : (s.at t p).done = s.done := rfl
omit [DecidableEq R] in
@[simp] theorem at_running (s : State R) (t : Txn) (p : Phase R) : (s.at t p).running = s.running := rfl

omit [DecidableEq R] in
@[simp] theorem remove_phase (s : State R) (t : Txn) : (s.remove t).phase = s.phase := rfl
omit [DecidableEq R] in
@[simp] theorem remove_held (s : State R) (t : Txn) : (s.remove t).held = s.held := rfl
omit [DecidableEq R] in
@[simp] theorem remove_pending (s : State R) (t : Txn) : (s.remove t).pending = s.pending.filter (·.1 ≠ t) := rfl
omit [DecidableEq R] in
@[simp] theorem remove_mutex (s : State R) (t : Txn) : (s.remove t).mutex = s.mutex := rfl
omit [DecidableEq R] in
@[simp] theorem remove_want (s : State R) (t : Txn) : (s.remove t).want = s.want := rfl
omit [DecidableEq R] in
@[simp] theorem remove_done (s : State R) (t : Txn) : (s.remove t).done = s.done := rfl
omit [DecidableEq R] in
@[simp] theorem remove_running (s : State R) (t : Txn) : (s.remove t).running = s.running := rfl

omit [DecidableEq R] in
theorem mem_insertAt {q x : Txn × R} {l : List (Txn × R)} : x ∈ insertAt q l ↔ x = q ∨ x ∈ l := by
  induction l with
  | nil => simp [insertAt]
  | cons a l ih => unfold insertAt; split <;> simp [ih]; grind

omit [DecidableEq R] in
theorem nodup_insertAt {q : Txn × R} {l : List (Txn × R)} (h : (l.map (·.1)).Nodup) (hq : q.1 ∉ l.map (·.1)) :
    ((insertAt q l).map (·.1)).Nodup := by
  induction l with
  | nil => simp [insertAt]
  | cons a l ih =>
    simp only [List.map_cons, List.nodup_cons, List.mem_cons, not_or] at h hq
    unfold insertAt
    split
    · simp only [List.map_cons, List.nodup_cons]
      refine ⟨fun hm => ?_, ih h.2 hq.2⟩
      obtain ⟨y, hy, hya⟩ := List.mem_map.mp hm
      rcases mem_insertAt.mp hy with rfl | hy
      · exact hq.1 hya
      · exact h.1 (List.mem_map.mpr ⟨y, hy, hya⟩)
    · simp only [List.map_cons, List.nodup_cons, List.mem_cons, not_or]
      exact ⟨hq, h⟩

omit [DecidableEq R] in
theorem lookup_isSome {t : Txn} {l : List (Txn × R)} : (lookup t l).isSome = true ↔ t ∈ l.map (·.1) := by
  induction l with
  | nil => simp [lookup]
  | cons a l ih => unfold lookup; split <;> grind

theorem blocked_cons {held : List (Txn × R)} {x : Txn × R} {t : Txn} {r : R} (h : blocked meets (x :: held) t r = false) :
    blocked meets held t r = false := by
  simp only [blocked, List.any_cons, Bool.or_eq_false_iff] at h; exact h.2

/-- A thread that is retrying requests on behalf of everyone. -/
def leads : Phase R → Bool
  | .passStart | .passAt _ | .finishing => true
  | _ => false

/-- The thread has released locks and will still make sure the request of `w` is retried. -/
def Obliged (s : State R) (t w : Txn) : Prop :=
  match s.phase t with
  | .releasing | .readEmpty | .takeNumber | .passStart => True
  | .passAt i => ∃ j r, i ≤ j ∧ s.pending[j]? = some (w, r)
  | _ => False

structure RInv (meets : R → R → Bool) (s : State R) : Prop where
  nodup : (s.pending.map (·.1)).Nodup
  pend : ∀ t r, (t, r) ∈ s.pending → s.phase t = .inserting r ∨ s.phase t = .queued r ∨ s.phase t = .asleep r
  flag : s.flag = true → ∀ t r, (t, r) ∈ s.pending → s.phase t = .inserting r
  ins : ∀ t r, s.phase t = .inserting r → s.mutex = some t
  pass : ∀ t i, s.phase t = .passAt i → s.mutex = some t
  owner : ∀ t, s.mutex = some t → (∃ r, s.phase t = .inserting r) ∨ ∃ i, s.phase t = .passAt i
  runs : ∀ t, leads (s.phase t) = true → s.running = true
  one : ∀ t u, leads (s.phase t) = true → leads (s.phase u) = true → t = u
  leader : s.running = true → ∃ t, leads (s.phase t) = true
  le : s.done ≤ s.want
  cand : s.done < s.want → ∃ t, s.phase t = .numbered (s.done + 1) ∨ s.phase t = .standBy (s.done + 1)
  key : ∀ w r, s.phase w = .asleep r → (w, r) ∈ s.pending → blocked meets s.held w r = false →
    s.done < s.want ∨ ∃ t, Obliged s t w

theorem rinv_init : RInv meets (State.init : State R) := by
  constructor <;> simp [State.init, leads]

/-- Only the locks change, and only by growing. -/
theorem RInv.grow {s : State R} (h : RInv meets s) (x : Txn × R) : RInv meets { s with held := x :: s.held } := by
  refine ⟨h.nodup, h.pend, h.flag, h.ins, h.pass, h.owner, h.runs, h.one, h.leader, h.le, h.cand, ?_⟩
  intro w r h1 h2 h3
  exact h.key w r h1 h2 (blocked_cons h3)

/-- Phases outside the protocol: moving between them changes nothing. -/
def plain : Phase R → Bool
  | .idle | .refused _ => true
  | _ => false

theorem mem_keys {l : List (Txn × R)} {t : Txn} {r : R} (h : (t, r) ∈ l) : t ∈ l.map (·.1) := List.mem_map.mpr ⟨_, h, rfl⟩

/-- A thread changes phase without leaving an obligation or the pending list. -/
theorem RInv.move {s : State R} (h : RInv meets s) {t : Txn} {p : Phase R}
    (h1 : ∀ r, p ≠ .inserting r) (h2 : ∀ i, p ≠ .passAt i) (h3 : leads p = false)
    (h4 : leads (s.phase t) = false) (h5 : ∀ r, s.phase t ≠ .inserting r)
    (h6 : ∀ r, (t, r) ∈ s.pending → (s.phase t = .queued r → p = .queued r ∨ p = .asleep r) ∧ (s.phase t = .asleep r → p = .asleep r))
    (h7 : s.done < s.want → s.phase t ≠ .numbered (s.done + 1) ∧ s.phase t ≠ .standBy (s.done + 1) ∨
      p = .numbered (s.done + 1) ∨ p = .standBy (s.done + 1))
    (h8 : ∀ w, Obliged s t w → Obliged (s.at t p) t w ∨ ∀ r, (w, r) ∈ s.pending → s.phase w ≠ .asleep r)
    (h9 : ∀ r, p = .asleep r → blocked meets s.held t r = true ∨ s.phase t = .asleep r) : RInv meets (s.at t p) := by
  refine ⟨h.nodup, ?_, ?_, ?_, ?_, ?_, ?_, ?_, ?_, h.le, ?_, ?_⟩
  · intro u r hm
    simp only [at_phase]
    by_cases hu : u = t
    · subst hu
      rw [if_pos rfl]
      rcases h.pend u r hm with h' | h' | h'
      · exact absurd h' (h5 r)
      · exact .inr ((h6 r hm).1 h')
      · exact .inr (.inr ((h6 r hm).2 h'))
    · rw [if_neg hu]; exact h.pend u r hm
  · intro hf u r hm
    simp only [at_phase]
    have := h.flag hf u r hm
    by_cases hu : u = t
    · subst hu; exact absurd this (h5 r)
    · rw [if_neg hu]; exact this
  · intro u r hu
    simp only [at_phase] at hu
    split at hu
    · exact absurd hu (h1 r)
    · exact h.ins u r hu
  · intro u r hu
    simp only [at_phase] at hu
    split at hu
    · exact absurd hu (h2 r)
    · exact h.pass u r hu
  · intro u hu
    simp only [at_phase]
    have := h.owner u hu
    by_cases hut : u = t
    · subst hut
      rcases this with ⟨r, h'⟩ | ⟨i, h'⟩
      · exact absurd h' (h5 r)
      · rw [h'] at h4; cases h4
    · simpa [hut] using this
  · intro u hu
    simp only [at_phase] at hu
    split at hu
    · rw [h3] at hu; cases hu
    · exact h.runs u hu
  · intro u v hu hv
    simp only [at_phase] at hu hv
    split at hu
    · rw [h3] at hu; cases hu
    · split at hv
      · rw [h3] at hv; cases hv
      · exact h.one u v hu hv
  · intro hr
    obtain ⟨u, hu⟩ := h.leader hr
    refine ⟨u, ?_⟩
    simp only [at_phase]
    by_cases hut : u = t
    · subst hut; rw [h4] at hu; cases hu
    · rw [if_neg hut]; exact hu
  · intro hlt
    obtain ⟨u, hu⟩ := h.cand hlt
    by_cases hut : u = t
    · subst hut
      rcases h7 hlt with h' | h'
      · exact absurd hu (by grind)
      · exact ⟨u, by simpa using h'⟩
    · exact ⟨u, by simpa [hut] using hu⟩
  · intro w r hw hm hb
    simp only [at_phase] at hw
    have hw' : s.phase w = .asleep r := by
      split at hw
      · rename_i hwt
        subst hwt
        rcases h9 r hw with h' | h'
        · rw [at_held] at hb; rw [h'] at hb; cases hb
        · exact h'
      · exact hw
    rcases h.key w r hw' hm hb with h' | ⟨u, hu⟩
    · exact .inl h'
    · refine .inr ?_
      by_cases hut : u = t
      · subst hut
        rcases h8 w hu with h' | h'
        · exact ⟨u, h'⟩
        · exact absurd hw' (h' r hm)
      · refine ⟨u, ?_⟩
        unfold Obliged at *
        simpa [hut] using hu

theorem getElem?_filter_lt {l : List (Txn × R)} {w t : Txn} {r : R} {j : Nat} (h : l[j]? = some (w, r)) (hwt : w ≠ t) :
    ∃ j', (l.filter (·.1 ≠ t))[j']? = some (w, r) ∧ (∀ i, (∀ k, k < i → ∀ q, l[k]? = some q → q.1 ≠ t) → i ≤ j → i ≤ j') := by
  induction l generalizing j with
  | nil => simp at h
  | cons a l ih =>
    cases j with
    | zero =>
      simp only [List.getElem?_cons_zero, Option.some.injEq] at h
      subst h
      refine ⟨0, by simp [List.filter_cons, hwt], fun i _ hi => hi⟩
    | succ j =>
      simp only [List.getElem?_cons_succ] at h
      obtain ⟨j', e1, e2⟩ := ih h
      by_cases ha : a.1 = t
      · refine ⟨j', by simpa [List.filter_cons, ha] using e1, ?_⟩
        intro i hi hij
        cases i with
        | zero => omega
        | succ i => exact absurd ha (hi 0 (by omega) a rfl)
      · refine ⟨j' + 1, by simpa [List.filter_cons, ha] using e1, ?_⟩
        intro i hi hij
        cases i with
        | zero => omega
        | succ i =>
          have := e2 i (fun k hk q hq => hi (k + 1) (by omega) q (by simpa using hq)) (by omega)
          omega

/-- Remove a request while no thread is at a position of the list before which it stands. -/
theorem RInv.remove {s : State R} (h : RInv meets s) (t : Txn)
    (hpos : ∀ u i, s.phase u = .passAt i → ∀ k, k < i → ∀ q, s.pending[k]? = some q → q.1 ≠ t) :
    RInv meets (s.remove t) := by
  have hsub : ∀ x, x ∈ (s.remove t).pending → x ∈ s.pending ∧ x.1 ≠ t := by
    intro x hx; simpa [List.mem_filter] using hx
  refine ⟨?_, ?_, ?_, h.ins, h.pass, h.owner, h.runs, h.one, h.leader, h.le, h.cand, ?_⟩
  · exact h.nodup.sublist (List.filter_sublist.map _)
  · intro u r hm; exact h.pend u r (hsub _ hm).1
  · intro hf u r hm
    unfold State.remove at hf
    simp only at hf
    split at hf
    · rename_i he
      have := hm
      simp only [remove_pending] at this
      rw [List.isEmpty_iff.mp he] at this
      cases this
    · exact h.flag hf u r (hsub _ hm).1
  · intro w r hw hm hb
    rcases h.key w r hw (hsub _ hm).1 hb with h' | ⟨u, hu⟩
    · exact .inl h'
    · refine .inr ⟨u, ?_⟩
      unfold Obliged at *
      simp only [remove_phase, remove_pending]
      cases hp : s.phase u with
      | passAt i =>
        rw [hp] at hu
        simp only at hu ⊢
        obtain ⟨j, r', hij, hj⟩ := hu
        obtain ⟨j', e1, e2⟩ := getElem?_filter_lt hj (hsub _ hm).2
        exact ⟨j', r', e2 i (hpos u i hp) hij, e1⟩
      | _ => rw [hp] at hu; simpa using hu

/-- `retry` of a request. -/
theorem RInv.retry {s : State R} (h : RInv meets s) (t : Txn) (r : R)
    (hpos : ∀ u i, s.phase u = .passAt i → ∀ k, k < i → ∀ q, s.pending[k]? = some q → q.1 ≠ t) :
    RInv meets (s.retry meets t r).1 := by
  unfold State.retry
  split
  · exact h
  · exact (h.remove t hpos).grow (t, r)

theorem RInv.noPass {s : State R} (h : RInv meets s) (hm : s.mutex = none) (u : Txn) (i : Nat) : s.phase u ≠ .passAt i :=
  fun hu => by have := h.pass u i hu; rw [hm] at this; cases this

theorem RInv.noIns {s : State R} (h : RInv meets s) (hm : s.mutex = none) (u : Txn) (r : R) : s.phase u ≠ .inserting r :=
  fun hu => by have := h.ins u r hu; rw [hm] at this; cases this

/-- A thread in one of these phases has no pending request. -/
theorem RInv.notPending {s : State R} (h : RInv meets s) {t : Txn} (h1 : ∀ r, s.phase t ≠ .inserting r)
    (h2 : ∀ r, s.phase t ≠ .queued r) (h3 : ∀ r, s.phase t ≠ .asleep r) (r : R) : (t, r) ∉ s.pending := by
  intro hm
  rcases h.pend t r hm with h' | h' | h'
  · exact h1 r h'
  · exact h2 r h'
  · exact h3 r h'

/-- Moving to `idle`, when nothing depends on it. -/
theorem RInv.toIdle {s : State R} (h : RInv meets s) {t : Txn} (h4 : leads (s.phase t) = false)
    (h5 : ∀ r, s.phase t ≠ .inserting r) (h6 : ∀ r, (t, r) ∉ s.pending)
    (h7 : s.done < s.want → s.phase t ≠ .numbered (s.done + 1) ∧ s.phase t ≠ .standBy (s.done + 1))
    (h8 : ∀ w, Obliged s t w → ∀ r, (w, r) ∈ s.pending → s.phase w ≠ .asleep r) : RInv meets (s.at t .idle) :=
  h.move (fun _ h => nomatch h) (fun _ h => nomatch h) rfl h4 h5 (fun r hr => absurd hr (h6 r)) (fun hl => .inl (h7 hl))
    (fun w hw => .inr (h8 w hw)) (fun _ h => nomatch h)

theorem lead_inv {s : State R} (h : RInv meets s) {t : Txn} {m : Nat} (hp : s.phase t = .numbered m ∨ s.phase t = .standBy m)
    (hm : s.phase t = .numbered m → m - 1 = s.done ∧ 0 < m) : RInv meets (s.lead t m) := by
  have h5 : ∀ r, s.phase t ≠ .inserting r := by intro r; rcases hp with h | h <;> rw [h] <;> simp
  have h5q : ∀ r, s.phase t ≠ .queued r := by intro r; rcases hp with h | h <;> rw [h] <;> simp
  have h5a : ∀ r, s.phase t ≠ .asleep r := by intro r; rcases hp with h | h <;> rw [h] <;> simp
  have h5p : ∀ i, s.phase t ≠ .passAt i := by intro r; rcases hp with h | h <;> rw [h] <;> simp
  have h4 : leads (s.phase t) = false := by rcases hp with h | h <;> rw [h] <;> rfl
  have h6 := h.notPending h5 h5q h5a
  have hno : ∀ w, ¬ Obliged s t w := by intro w hw; unfold Obliged at hw; rcases hp with h | h <;> rw [h] at hw <;> exact hw
  unfold State.lead
  split
  · rename_i hr
    refine h.move (fun _ h => nomatch h) (fun _ h => nomatch h) rfl h4 h5 (fun r hr => absurd hr (h6 r)) ?_
      (fun w hw => absurd hw (hno w)) (fun _ h => nomatch h)
    intro hlt
    by_cases hmd : m = s.done + 1
    · exact .inr (.inr (by rw [hmd]))
    · refine .inl ?_
      rcases hp with h' | h' <;> rw [h'] <;> simp [hmd]
  · rename_i hr
    simp only [Bool.not_eq_true] at hr
    have hnl : ∀ u, leads (s.phase u) = false := by
      intro u
      cases hu : leads (s.phase u) with
      | false => rfl
      | true => have := h.runs u hu; rw [hr] at this; cases this
    refine ⟨h.nodup, ?_, ?_, ?_, ?_, ?_, ?_, ?_, ?_, Nat.le_refl _, ?_, ?_⟩
    · intro u r hm
      have : u ≠ t := fun e => h6 r (e ▸ hm)
      simp only [at_phase, if_neg this]; exact h.pend u r hm
    · intro hf u r hm
      have : u ≠ t := fun e => h6 r (e ▸ hm)
      simp only [at_phase, if_neg this]; exact h.flag hf u r hm
    · intro u r hu
      simp only [at_phase] at hu
      split at hu
      · cases hu
      · exact h.ins u r hu
    · intro u r hu
      simp only [at_phase] at hu
      split at hu
      · cases hu
      · exact h.pass u r hu
    · intro u hu
      have := h.owner u hu
      by_cases hut : u = t
      · subst hut
        rcases this with ⟨r, h'⟩ | ⟨i, h'⟩
        · exact absurd h' (h5 r)
        · exact absurd h' (h5p i)
      · simpa [hut] using this
    · intro u _; rfl
    · intro u v hu hv
      simp only [at_phase] at hu hv
      split at hu
      · split at hv
        · rename_i h1 h2; exact h1.trans h2.symm
        · rw [hnl] at hv; cases hv
      · rw [hnl] at hu; cases hu
    · intro _; exact ⟨t, by simp [leads]⟩
    · intro hlt; simp at hlt
    · intro w r hw hm hb
      exact .inr ⟨t, by unfold Obliged; simp⟩

theorem blocked_erase {held : List (Txn × R)} {x : Txn × R} {t : Txn} {r : R} (h : blocked meets held t r = false) :
    blocked meets (held.erase x) t r = false := by
  simp only [blocked, List.any_eq_false] at *
  intro y hy
  exact h y (List.erase_subset hy)

theorem step_inv {s s' : State R} (h : RInv meets s) (hn : ∀ t m, s.phase t = .numbered m → 0 < m) {e : Ev R}
    (hs : step meets s e = some s') : RInv meets s' := by
  cases e with
  | request t r =>
    simp only [step] at hs
    split at hs
    · rename_i hp
      simp only [Option.some.injEq] at hs
      split at hs <;> subst hs
      · refine h.move (fun _ h => nomatch h) (fun _ h => nomatch h) rfl (by rw [hp]; rfl) (by simp [hp]) ?_ (fun _ => .inl (by simp [hp]))
          ?_ (fun _ h => nomatch h)
        · intro r hr; simp [hp]
        · intro w hw; unfold Obliged at hw; rw [hp] at hw; exact hw.elim
      · exact h.grow _
    · cases hs
  | insert t =>
    simp only [step] at hs
    split at hs
    · rename_i r hp hm
      simp only [Option.some.injEq] at hs
      subst hs
      have h6 := h.notPending (t := t) (by simp [hp]) (by simp [hp]) (by simp [hp])
      have h6' : t ∉ s.pending.map (·.1) := by
        intro hk
        obtain ⟨⟨u, r'⟩, hx, hxt⟩ := List.mem_map.mp hk
        exact h6 r' (by simp only at hxt; exact hxt ▸ hx)
      refine ⟨nodup_insertAt h.nodup h6', ?_, ?_, ?_, ?_, ?_, ?_, ?_, ?_, h.le, ?_, ?_⟩
      · intro u r' hu
        rcases mem_insertAt.mp hu with h' | h'
        · simp only [Prod.mk.injEq] at h'
          obtain ⟨rfl, rfl⟩ := h'
          exact .inl (by simp)
        · have : u ≠ t := fun e => h6 r' (e ▸ h')
          simp only [at_phase, if_neg this]; exact h.pend u r' h'
      · intro hf u r' hu
        rcases mem_insertAt.mp hu with h' | h'
        · simp only [Prod.mk.injEq] at h'
          obtain ⟨rfl, rfl⟩ := h'
          simp
        · have : u ≠ t := fun e => h6 r' (e ▸ h')
          simp only [at_phase, if_neg this]; exact h.flag hf u r' h'
      · intro u r' hu
        simp only [at_phase] at hu
        split at hu
        · rename_i e; rw [e]; rfl
        · exact absurd hu (h.noIns hm u r')
      · intro u i hu
        simp only [at_phase] at hu
        split at hu
        · cases hu
        · exact absurd hu (h.noPass hm u i)
      · intro u hu
        simp only [at_mutex, Option.some.injEq] at hu
        subst hu
        exact .inl ⟨r, by simp⟩
      · intro u hu
        simp only [at_phase] at hu
        split at hu
        · cases hu
        · exact h.runs u hu
      · intro u v hu hv
        simp only [at_phase] at hu hv
        split at hu
        · cases hu
        · split at hv
          · cases hv
          · exact h.one u v hu hv
      · intro hr
        obtain ⟨u, hu⟩ := h.leader hr
        have : u ≠ t := by rintro rfl; rw [hp] at hu; cases hu
        exact ⟨u, by simpa [this] using hu⟩
      · intro hlt
        obtain ⟨u, hu⟩ := h.cand hlt
        have : u ≠ t := by rintro rfl; simp [hp] at hu
        exact ⟨u, by simpa [this] using hu⟩
      · intro w r' hw hmem hb
        simp only [at_phase] at hw
        split at hw
        · cases hw
        · rename_i hwt
          have hmem' : (w, r') ∈ s.pending := by
            rcases mem_insertAt.mp hmem with h' | h'
            · simp only [Prod.mk.injEq] at h'; exact absurd h'.1 hwt
            · exact h'
          rcases h.key w r' hw hmem' hb with h' | ⟨u, hu⟩
          · exact .inl h'
          · refine .inr ⟨u, ?_⟩
            have hut : u ≠ t := by rintro rfl; unfold Obliged at hu; rw [hp] at hu; exact hu
            unfold Obliged at *
            simp only [at_phase, if_neg hut]
            cases hpu : s.phase u with
            | passAt i => exact absurd hpu (h.noPass hm u i)
            | _ => rw [hpu] at hu; simpa using hu
    · cases hs
  | inserted t d =>
    simp only [step] at hs
    split at hs
    · rename_i r hp
      simp only [Option.some.injEq] at hs
      have hmt := h.ins t r hp
      have hnp : ∀ u i, s.phase u ≠ .passAt i := by
        intro u i hu
        have := h.pass u i hu
        rw [hmt] at this; cases this; rw [hp] at hu; cases hu
      have hni : ∀ u r', s.phase u = .inserting r' → u = t := by
        intro u r' hu
        have := h.ins u r' hu
        rw [hmt] at this; cases this; rfl
      -- the state with the flag cleared and the mutex free, the request still there
      have base : RInv meets ({ s with flag := false, mutex := none }.at t (.queued r)) := by
        refine ⟨h.nodup, ?_, ?_, ?_, ?_, ?_, ?_, ?_, ?_, h.le, ?_, ?_⟩
        · intro u r' hu
          simp only [at_phase]
          by_cases hut : u = t
          · subst hut
            rw [if_pos rfl]
            rcases h.pend u r' hu with h' | h' | h'
            · rw [hp] at h'; cases h'; exact .inr (.inl rfl)
            · rw [hp] at h'; cases h'
            · rw [hp] at h'; cases h'
          · rw [if_neg hut]; exact h.pend u r' hu
        · intro hf; cases hf
        · intro u r' hu
          simp only [at_phase] at hu
          split at hu
          · cases hu
          · rename_i hut; exact absurd (hni u r' hu) hut
        · intro u i hu
          simp only [at_phase] at hu
          split at hu
          · cases hu
          · exact absurd hu (hnp u i)
        · intro u hu; cases hu
        · intro u hu
          simp only [at_phase] at hu
          split at hu
          · cases hu
          · exact h.runs u hu
        · intro u v hu hv
          simp only [at_phase] at hu hv
          split at hu
          · cases hu
          · split at hv
            · cases hv
            · exact h.one u v hu hv
        · intro hr
          obtain ⟨u, hu⟩ := h.leader hr
          have : u ≠ t := by rintro rfl; rw [hp] at hu; cases hu
          exact ⟨u, by simpa [this] using hu⟩
        · intro hlt
          obtain ⟨u, hu⟩ := h.cand hlt
          have : u ≠ t := by rintro rfl; simp [hp] at hu
          exact ⟨u, by simpa [this] using hu⟩
        · intro w r' hw hmem hb
          simp only [at_phase] at hw
          split at hw
          · cases hw
          · rcases h.key w r' hw hmem hb with h' | ⟨u, hu⟩
            · exact .inl h'
            · refine .inr ⟨u, ?_⟩
              have hut : u ≠ t := by rintro rfl; unfold Obliged at hu; rw [hp] at hu; exact hu
              unfold Obliged at *
              simpa [hut] using hu
      split at hs
      · subst hs
        have hb := base.remove t (fun u i hu => by
          simp only [at_phase] at hu
          split at hu
          · cases hu
          · exact absurd hu (hnp u i))
        have := hb.toIdle (t := t) (by simp [leads]) (by simp) (by intro r'; simp) (by simp) (by
          intro w hw; unfold Obliged at hw; simp at hw)
        have he : ({ s with flag := false, mutex := none }.remove t).at t .idle =
            (({ s with flag := false, mutex := none }.at t (.queued r)).remove t).at t .idle := by
          simp only [State.at, State.remove, State.mk.injEq, true_and]
          funext u
          split <;> rfl
        rw [he]; exact this
      · subst hs; exact base
    · cases hs
  | enterWait t =>
    simp only [step] at hs
    split at hs
    · rename_i r hp hm
      have hnp : ∀ u i, s.phase u ≠ .passAt i := h.noPass hm
      split at hs
      · rename_i r' hl
        simp only [Option.some.injEq] at hs
        subst hs
        simp only [State.retry]
        split
        · rename_i hb
          simp only [Bool.false_eq_true, if_false]
          refine h.move (fun _ h => nomatch h) (fun _ h => nomatch h) rfl (by rw [hp]; rfl) (by simp [hp]) ?_ (by simp [hp]) ?_ ?_
          · intro r'' hr
            rw [hp]
            exact ⟨fun e => .inr (by cases e; rfl), fun e => nomatch e⟩
          · intro w hw; unfold Obliged at hw; rw [hp] at hw; exact hw.elim
          · intro r'' hr; cases hr; exact .inl hb
        · simp only [if_true]
          refine RInv.toIdle ((h.remove t (fun u i hu => absurd hu (hnp u i))).grow (t, r)) ?_ ?_ ?_ ?_ ?_
          · show leads (s.phase t) = false; rw [hp]; rfl
          · intro r'; show s.phase t ≠ _; simp [hp]
          · intro r'; simp
          · intro _; show s.phase t ≠ _ ∧ s.phase t ≠ _; simp [hp]
          · intro w hw; unfold Obliged at hw; simp only [remove_phase, hp] at hw
      · rename_i hl
        simp only [Option.some.injEq] at hs
        subst hs
        refine h.toIdle (by rw [hp]; rfl) (by simp [hp]) ?_ (by simp [hp]) ?_
        · intro r' hr
          have := lookup_isSome.mpr (mem_keys hr)
          rw [hl] at this; cases this
        · intro w hw; unfold Obliged at hw; rw [hp] at hw; exact hw.elim
    · cases hs
  | wake t =>
    simp only [step] at hs
    split at hs
    · rename_i r hp hm
      split at hs
      · cases hs
      · rename_i hl
        simp only [Option.some.injEq] at hs
        subst hs
        refine h.toIdle (by rw [hp]; rfl) (by simp [hp]) ?_ (by simp [hp]) ?_
        · intro r' hr
          exact hl (lookup_isSome.mpr (mem_keys hr))
        · intro w hw; unfold Obliged at hw; rw [hp] at hw; exact hw.elim
    · cases hs
  | giveUp t =>
    simp only [step] at hs
    split at hs
    · rename_i r hp hm
      split at hs
      · simp only [Option.some.injEq] at hs
        subst hs
        refine RInv.toIdle (h.remove t (fun u i hu => absurd hu (h.noPass hm u i))) ?_ ?_ ?_ ?_ ?_
        · rw [remove_phase, hp]; rfl
        · simp [hp]
        · intro r'; simp
        · simp [hp]
        · intro w hw; unfold Obliged at hw; simp only [remove_phase, hp] at hw
      · cases hs
    · cases hs
  | kill t =>
    simp only [step] at hs
    split at hs
    · rename_i hm
      split at hs
      · simp only [Option.some.injEq] at hs
        subst hs
        exact h.remove t (fun u i hu => absurd hu (h.noPass hm u i))
      · cases hs
    · cases hs
  | escalate u r =>
    simp only [step] at hs
    split at hs
    · simp only [Option.some.injEq] at hs
      subst hs; exact h.grow _
    · cases hs
  | release t =>
    simp only [step] at hs
    split at hs
    · rename_i hp
      simp only [Option.some.injEq] at hs
      subst hs
      refine h.move (fun _ h => nomatch h) (fun _ h => nomatch h) rfl (by rw [hp]; rfl) (by simp [hp]) ?_ (fun _ => .inl (by simp [hp]))
          ?_ (fun _ h => nomatch h)
      · intro r hr; simp [hp]
      · intro w hw; unfold Obliged at hw; rw [hp] at hw; exact hw.elim
    · cases hs
  | drop t r =>
    simp only [step] at hs
    split at hs
    · rename_i hp
      simp only [Option.some.injEq] at hs
      subst hs
      refine ⟨h.nodup, h.pend, h.flag, h.ins, h.pass, h.owner, h.runs, h.one, h.leader, h.le, h.cand, ?_⟩
      intro w r' _ _ _
      exact .inr ⟨t, by unfold Obliged; simp [hp]⟩
    · cases hs
  | released t =>
    simp only [step] at hs
    split at hs
    · rename_i hp
      split at hs
      · cases hs
      · simp only [Option.some.injEq] at hs
        subst hs
        refine h.move (fun _ h => nomatch h) (fun _ h => nomatch h) rfl (by rw [hp]; rfl) (by simp [hp]) ?_ (fun _ => .inl (by simp [hp]))
          ?_ (fun _ h => nomatch h)
        · intro r hr; simp [hp]
        · intro w hw; exact .inl (by unfold Obliged; simp)
    · cases hs
  | readEmpty t =>
    simp only [step] at hs
    split at hs
    · rename_i hp
      simp only [Option.some.injEq] at hs
      split at hs <;> subst hs
      · rename_i hf
        refine h.toIdle (by rw [hp]; rfl) (by simp [hp]) ?_ (by simp [hp]) ?_
        · exact h.notPending (by simp [hp]) (by simp [hp]) (by simp [hp])
        · intro w _ r hr hc
          have := h.flag hf w r hr
          rw [hc] at this; cases this
      · refine h.move (fun _ h => nomatch h) (fun _ h => nomatch h) rfl (by rw [hp]; rfl) (by simp [hp]) ?_ (fun _ => .inl (by simp [hp]))
          ?_ (fun _ h => nomatch h)
        · intro r hr; simp [hp]
        · intro w hw; exact .inl (by unfold Obliged; simp)
    · cases hs
  | takeNumber t =>
    simp only [step] at hs
    split at hs
    · rename_i hp
      simp only [Option.some.injEq] at hs
      subst hs
      have h6 := h.notPending (t := t) (by simp [hp]) (by simp [hp]) (by simp [hp])
      refine ⟨h.nodup, ?_, ?_, ?_, ?_, ?_, ?_, ?_, ?_, Nat.le_succ_of_le h.le, ?_, ?_⟩
      · intro u r hu
        have : u ≠ t := fun e => h6 r (e ▸ hu)
        simp only [at_phase, if_neg this]; exact h.pend u r hu
      · intro hf u r hu
        have : u ≠ t := fun e => h6 r (e ▸ hu)
        simp only [at_phase, if_neg this]; exact h.flag hf u r hu
      · intro u r hu
        simp only [at_phase] at hu
        split at hu
        · cases hu
        · exact h.ins u r hu
      · intro u r hu
        simp only [at_phase] at hu
        split at hu
        · cases hu
        · exact h.pass u r hu
      · intro u hu
        have := h.owner u hu
        by_cases hut : u = t
        · subst hut; simp [hp] at this
        · simpa [hut] using this
      · intro u hu
        simp only [at_phase] at hu
        split at hu
        · cases hu
        · exact h.runs u hu
      · intro u v hu hv
        simp only [at_phase] at hu hv
        split at hu
        · cases hu
        · split at hv
          · cases hv
          · exact h.one u v hu hv
      · intro hr
        obtain ⟨u, hu⟩ := h.leader hr
        have : u ≠ t := by rintro rfl; rw [hp] at hu; cases hu
        exact ⟨u, by simpa [this] using hu⟩
      · intro _
        by_cases hd : s.done < s.want
        · obtain ⟨u, hu⟩ := h.cand hd
          have : u ≠ t := by rintro rfl; simp [hp] at hu
          exact ⟨u, by simpa [this] using hu⟩
        · have : s.done = s.want := Nat.le_antisymm h.le (Nat.le_of_not_lt hd)
          exact ⟨t, .inl (by simp [this])⟩
      · intro w r hw hm hb
        exact .inl (Nat.lt_succ_of_le h.le)
    · cases hs
  | compare t =>
    simp only [step] at hs
    split at hs
    · rename_i m hp
      simp only [Option.some.injEq] at hs
      split at hs <;> subst hs
      · rename_i hmd
        exact lead_inv h (.inl hp) (fun _ => ⟨hmd, hn t m hp⟩)
      · rename_i hmd
        refine h.toIdle (by rw [hp]; rfl) (by simp [hp]) ?_ ?_ ?_
        · exact h.notPending (by simp [hp]) (by simp [hp]) (by simp [hp])
        · intro _
          rw [hp]
          simp only [ne_eq, Phase.numbered.injEq, reduceCtorEq, not_false_eq_true, and_true]
          intro e; exact hmd (by omega)
        · intro w hw; unfold Obliged at hw; rw [hp] at hw; exact hw.elim
    · cases hs
  | standBy t =>
    simp only [step] at hs
    split at hs
    · rename_i m hp
      simp only [Option.some.injEq] at hs
      subst hs
      exact lead_inv h (.inr hp) (fun h' => by rw [hp] at h'; cases h')
    · cases hs
  | passStart t =>
    simp only [step] at hs
    split at hs
    · rename_i hp hm
      simp only [Option.some.injEq] at hs
      subst hs
      have h6 := h.notPending (t := t) (by simp [hp]) (by simp [hp]) (by simp [hp])
      refine ⟨h.nodup, ?_, ?_, ?_, ?_, ?_, ?_, ?_, ?_, h.le, ?_, ?_⟩
      · intro u r hu
        have : u ≠ t := fun e => h6 r (e ▸ hu)
        simp only [at_phase, if_neg this]; exact h.pend u r hu
      · intro hf u r hu
        have : u ≠ t := fun e => h6 r (e ▸ hu)
        simp only [at_phase, if_neg this]; exact h.flag hf u r hu
      · intro u r hu
        simp only [at_phase] at hu
        split at hu
        · cases hu
        · exact absurd hu (h.noIns hm u r)
      · intro u i hu
        simp only [at_phase] at hu
        split at hu
        · rename_i e; rw [e]; rfl
        · exact absurd hu (h.noPass hm u i)
      · intro u hu
        simp only [at_mutex, Option.some.injEq] at hu
        subst hu
        exact .inr ⟨0, by simp⟩
      · intro u hu
        simp only [at_phase] at hu
        split at hu
        · exact h.runs t (by rw [hp]; rfl)
        · exact h.runs u hu
      · intro u v hu hv
        have ht : leads (s.phase t) = true := by rw [hp]; rfl
        simp only [at_phase] at hu hv
        split at hu
        · split at hv
          · rename_i a b; exact a.trans b.symm
          · rename_i a _; rw [a]; exact h.one t v ht hv
        · split at hv
          · rename_i b; rw [b]; exact h.one u t hu ht
          · exact h.one u v hu hv
      · intro _; exact ⟨t, by simp [leads]⟩
      · intro hlt
        obtain ⟨u, hu⟩ := h.cand hlt
        have : u ≠ t := by rintro rfl; simp [hp] at hu
        exact ⟨u, by simpa [this] using hu⟩
      · intro w r hw hmem hb
        obtain ⟨j, hj⟩ := List.getElem?_of_mem hmem
        exact .inr ⟨t, by unfold Obliged; simp only [at_phase, if_true]; exact ⟨j, r, Nat.zero_le _, hj⟩⟩
    · cases hs
  | passStep t =>
    simp only [step] at hs
    split at hs
    · rename_i i hp
      have hmt := h.pass t i hp
      have hni : ∀ u r, s.phase u ≠ .inserting r := by
        intro u r hu
        have := h.ins u r hu
        rw [hmt] at this; cases this; rw [hp] at hu; cases hu
      have honly : ∀ u k, s.phase u = .passAt k → u = t ∧ k = i := by
        intro u k hu
        have := h.pass u k hu
        rw [hmt] at this; cases this; rw [hp] at hu; cases hu; exact ⟨rfl, rfl⟩
      have h6 := h.notPending (t := t) (by simp [hp]) (by simp [hp]) (by simp [hp])
      -- the leader moves on from position i to position k, of a state with the invariant
      have go : ∀ (s1 : State R) (k : Nat), RInv meets s1 → s1.phase = s.phase → s1.mutex = s.mutex → (∀ r, (t, r) ∉ s1.pending) →
          (∀ w r, s1.phase w = .asleep r → (w, r) ∈ s1.pending → blocked meets s1.held w r = false →
            (∃ j r, i ≤ j ∧ s1.pending[j]? = some (w, r)) → ∃ j r, k ≤ j ∧ s1.pending[j]? = some (w, r)) →
          RInv meets (s1.at t (.passAt k)) := by
        intro s1 k h1 hph hmx hnt hk
        have hp1 : s1.phase t = .passAt i := by rw [hph]; exact hp
        refine ⟨h1.nodup, ?_, ?_, ?_, ?_, ?_, ?_, ?_, ?_, h1.le, ?_, ?_⟩
        · intro u r hu
          have : u ≠ t := fun e => hnt r (e ▸ hu)
          simp only [at_phase, if_neg this]; exact h1.pend u r hu
        · intro hf u r hu
          have : u ≠ t := fun e => hnt r (e ▸ hu)
          simp only [at_phase, if_neg this]; exact h1.flag hf u r hu
        · intro u r hu
          simp only [at_phase] at hu
          split at hu
          · cases hu
          · exact h1.ins u r hu
        · intro u k' hu
          simp only [at_phase] at hu
          split at hu
          · rename_i e; rw [e]; exact h1.pass t i hp1
          · exact h1.pass u k' hu
        · intro u hu
          have := h1.owner u hu
          by_cases hut : u = t
          · subst hut; exact .inr ⟨k, by simp⟩
          · simpa [hut] using this
        · intro u hu
          simp only [at_phase] at hu
          split at hu
          · exact h1.runs t (by rw [hp1]; rfl)
          · exact h1.runs u hu
        · intro u v hu hv
          have ht : leads (s1.phase t) = true := by rw [hp1]; rfl
          simp only [at_phase] at hu hv
          split at hu
          · split at hv
            · rename_i a b; exact a.trans b.symm
            · rename_i a _; rw [a]; exact h1.one t v ht hv
          · split at hv
            · rename_i b; rw [b]; exact h1.one u t hu ht
            · exact h1.one u v hu hv
        · intro _; exact ⟨t, by simp [leads]⟩
        · intro hlt
          obtain ⟨u, hu⟩ := h1.cand hlt
          have : u ≠ t := by rintro rfl; simp [hp1] at hu
          exact ⟨u, by simpa [this] using hu⟩
        · intro w r hw hmem hb
          simp only [at_phase] at hw
          split at hw
          · cases hw
          · rcases h1.key w r hw hmem hb with h' | ⟨u, hu⟩
            · exact .inl h'
            · refine .inr ⟨u, ?_⟩
              unfold Obliged at *
              by_cases hut : u = t
              · subst hut
                rw [hp1] at hu
                simp only [at_phase, if_true, at_pending]
                exact hk w r hw hmem hb hu
              · simpa [hut] using hu
      split at hs
      · rename_i q hq
        have hqm : q ∈ s.pending := List.mem_of_getElem? hq
        simp only [Option.some.injEq] at hs
        subst hs
        simp only [State.retry]
        split
        · rename_i hb
          simp only [Bool.false_eq_true, if_false]
          refine go s (i + 1) h rfl rfl h6 ?_
          rintro w r hw hmem hnb ⟨j, r', hij, hj⟩
          refine ⟨j, r', ?_, hj⟩
          rcases Nat.lt_or_eq_of_le hij with hlt | rfl
          · exact hlt
          · rw [hq] at hj
            cases hj
            have : r' = r := by
              rcases h.pend w r' hqm with h' | h' | h' <;> rw [hw] at h' <;> cases h'
              rfl
            subst this
            rw [hb] at hnb; cases hnb
        · rename_i hb
          simp only [if_true]
          have hpos : ∀ u i', s.phase u = .passAt i' → ∀ k, k < i' → ∀ q', s.pending[k]? = some q' → q'.1 ≠ q.1 := by
            intro u i' hu k hk q' hq' he
            obtain ⟨-, rfl⟩ := honly u i' hu
            have hnd := h.nodup
            have e1 : (s.pending.map (·.1))[k]? = some q'.1 := by rw [List.getElem?_map, hq']; rfl
            have e2 : (s.pending.map (·.1))[i']? = some q.1 := by rw [List.getElem?_map, hq]; rfl
            obtain ⟨l1, g1⟩ := List.getElem?_eq_some_iff.mp e1
            obtain ⟨l2, g2⟩ := List.getElem?_eq_some_iff.mp e2
            exact List.pairwise_iff_getElem.mp hnd k i' l1 l2 hk (by rw [g1, g2, he])
          refine go _ i ((h.remove q.1 hpos).grow q) rfl rfl ?_ (fun _ _ _ _ _ h => h)
          intro r hr
          simp only [remove_pending, List.mem_filter] at hr
          exact h6 r hr.1
      · rename_i hnone
        simp only [Option.some.injEq] at hs
        subst hs
        refine ⟨h.nodup, ?_, ?_, ?_, ?_, ?_, ?_, ?_, ?_, h.le, ?_, ?_⟩
        · intro u r hu
          have : u ≠ t := fun e => h6 r (e ▸ hu)
          simp only [at_phase, if_neg this]; exact h.pend u r hu
        · intro hf u r hu
          have : u ≠ t := fun e => h6 r (e ▸ hu)
          simp only [at_phase, if_neg this]; exact h.flag hf u r hu
        · intro u r hu
          simp only [at_phase] at hu
          split at hu
          · cases hu
          · exact absurd hu (hni u r)
        · intro u k hu
          simp only [at_phase] at hu
          split at hu
          · cases hu
          · rename_i hut; exact absurd (honly u k hu).1 hut
        · intro u hu; cases hu
        · intro u hu
          simp only [at_phase] at hu
          split at hu
          · exact h.runs t (by rw [hp]; rfl)
          · exact h.runs u hu
        · intro u v hu hv
          have ht : leads (s.phase t) = true := by rw [hp]; rfl
          simp only [at_phase] at hu hv
          split at hu
          · split at hv
            · rename_i a b; exact a.trans b.symm
            · rename_i a _; rw [a]; exact h.one t v ht hv
          · split at hv
            · rename_i b; rw [b]; exact h.one u t hu ht
            · exact h.one u v hu hv
        · intro _; exact ⟨t, by simp [leads]⟩
        · intro hlt
          obtain ⟨u, hu⟩ := h.cand hlt
          have : u ≠ t := by rintro rfl; simp [hp] at hu
          exact ⟨u, by simpa [this] using hu⟩
        · intro w r hw hmem hb
          simp only [at_phase] at hw
          split at hw
          · cases hw
          · rcases h.key w r hw hmem hb with h' | ⟨u, hu⟩
            · exact .inl h'
            · refine .inr ⟨u, ?_⟩
              by_cases hut : u = t
              · subst hut
                unfold Obliged at hu
                rw [hp] at hu
                obtain ⟨j, r', hij, hj⟩ := hu
                rw [List.getElem?_eq_none_iff] at hnone
                rw [List.getElem?_eq_none (by omega)] at hj
                cases hj
              · unfold Obliged at *
                simpa [hut] using hu
    · cases hs
  | finish t =>
    simp only [step] at hs
    split at hs
    · rename_i hp
      simp only [Option.some.injEq] at hs
      subst hs
      have ht : leads (s.phase t) = true := by rw [hp]; rfl
      have hother : ∀ u, u ≠ t → leads (s.phase u) = false := by
        intro u hut
        cases hu : leads (s.phase u) with
        | false => rfl
        | true => exact absurd (h.one u t hu ht) hut
      have h6 := h.notPending (t := t) (by simp [hp]) (by simp [hp]) (by simp [hp])
      refine ⟨h.nodup, ?_, ?_, ?_, ?_, ?_, ?_, ?_, ?_, h.le, ?_, ?_⟩
      · intro u r hu
        have : u ≠ t := fun e => h6 r (e ▸ hu)
        simp only [at_phase, if_neg this]; exact h.pend u r hu
      · intro hf u r hu
        have : u ≠ t := fun e => h6 r (e ▸ hu)
        simp only [at_phase, if_neg this]; exact h.flag hf u r hu
      · intro u r hu
        simp only [at_phase] at hu
        split at hu
        · cases hu
        · exact h.ins u r hu
      · intro u r hu
        simp only [at_phase] at hu
        split at hu
        · cases hu
        · exact h.pass u r hu
      · intro u hu
        have := h.owner u hu
        by_cases hut : u = t
        · subst hut; simp [hp] at this
        · simpa [hut] using this
      · intro u hu
        simp only [at_phase] at hu
        split at hu
        · cases hu
        · rename_i hut; rw [hother u hut] at hu; cases hu
      · intro u v hu hv
        simp only [at_phase] at hu
        split at hu
        · cases hu
        · rename_i hut; rw [hother u hut] at hu; cases hu
      · intro hr; cases hr
      · intro hlt
        obtain ⟨u, hu⟩ := h.cand hlt
        have : u ≠ t := by rintro rfl; simp [hp] at hu
        exact ⟨u, by simpa [this] using hu⟩
      · intro w r hw hmem hb
        simp only [at_phase] at hw
        split at hw
        · cases hw
        · rcases h.key w r hw hmem hb with h' | ⟨u, hu⟩
          · exact .inl h'
          · refine .inr ⟨u, ?_⟩
            have hut : u ≠ t := by rintro rfl; unfold Obliged at hu; rw [hp] at hu; exact hu
            unfold Obliged at *
            simpa [hut] using hu
    · cases hs

end Verif.Lt.Retry
