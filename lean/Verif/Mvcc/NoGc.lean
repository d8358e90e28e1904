import Verif.Mvcc.Run

/-! The same schedule without garbage collection. -/
namespace Verif.Mvcc
open Verif.Ule Verif.Ule.Spec
open Verif.Txn

/-- An event as it would be in an engine that never collects garbage and never promotes a provisional
version implicitly: no collection events, no full collection on delivery, and 0 in place of every bound. -/
def noGcEv : MEv → Option MEv
  | .collect => none
  | .capture => none
  | .deliver _ _ => some (.deliver 0 false)
  | .learn _ => some (.learn 0)
  | .txn e => some (.txn e)
  | .row e => some (.row e)

/-- A schedule without garbage collection. -/
def noGc (es : List MEv) : List MEv := es.filterMap noGcEv

def noGcItem (it : Item) : Item := match it.act with
  | .known _ => ⟨it.chain, .known 0⟩
  | .ev e => ⟨it.chain, .ev e⟩

structure Sim (m m' : M) : Prop where
  sys : m'.sys = m.sys
  now : m'.now = m.now
  done : m'.done = m.done
  queue : m'.queue = m.queue.map noGcItem

theorem deliver_parts {init} {m m1 : M} {o : Txnid} {gc : Bool} (h : m.deliver init o gc = .ok m1) :
    ∃ it q, m.queue = it :: q ∧ m1.sys = m.sys ∧ m1.now = m.now ∧ m1.queue = q ∧
      m1.done = match it.act with | .known _ => m.done | .ev e => (m.done.step init e).getD m.done := by
  simp only [M.deliver] at h
  split at h
  · cases h
  · rename_i hq
    simp only [Outcome.ok.injEq] at h; subst h; exact ⟨_, _, hq, rfl, rfl, rfl, rfl⟩
  · rename_i c e q hq
    split at h
    · simp only [Outcome.ok.injEq] at h; subst h; exact ⟨_, _, hq, rfl, rfl, rfl, rfl⟩
    · split at h
      · rename_i xs op _ _
        cases hu : msgModifyU m.leaf xs op with
        | none => rw [hu] at h; cases h
        | some u =>
          rw [hu] at h
          simp only [Outcome.ofCode, Outcome.bind] at h
          cases hv : m.settle o gc u with
          | crash => rw [hv] at h; cases h
          | impossible => rw [hv] at h; cases h
          | ok v =>
            rw [hv] at h
            simp only [Outcome.ok.injEq] at h; subst h; exact ⟨_, _, hq, rfl, rfl, rfl, rfl⟩
      · cases h

theorem deliver_possible {init} {m : M} (h : MInv init m) (hq : m.queue ≠ []) :
    ∃ m1, m.deliver init 0 false = .ok m1 := by
  have hnc := (minv_deliver h 0 false).1
  cases hd : m.deliver init 0 false with
  | crash => exact absurd hd hnc
  | ok m1 => exact ⟨m1, rfl⟩
  | impossible =>
    exfalso
    simp only [M.deliver] at hd
    split at hd
    · rename_i hn; exact hq hn
    · cases hd
    · split at hd
      · cases hd
      · rw [if_pos (Nat.zero_le _)] at hd
        rename_i xs op _
        cases hu : msgModifyU m.leaf xs op with
        | none => rw [hu] at hd; cases hd
        | some u =>
          rw [hu] at hd
          simp only [Outcome.ofCode, Outcome.bind, M.settle] at hd
          cases hp : tryPromoteOutermost u m.known with
          | none => rw [hp] at hd; cases hd
          | some u1 => rw [hp] at hd; simp at hd

theorem collect_parts {init} {m m1 : M} (h : m.step init .collect = .ok m1) :
    m1.sys = m.sys ∧ m1.now = m.now ∧ m1.done = m.done ∧ m1.queue = m.queue := by
  simp only [M.step] at h
  cases hu : tryPromoteOutermost m.leaf m.known with
  | none => rw [hu] at h; cases h
  | some u =>
    rw [hu] at h
    simp only [Outcome.ofCode, Outcome.bind] at h
    cases hv : m.collectFull u with
    | crash => rw [hv] at h; cases h
    | impossible => rw [hv] at h; cases h
    | ok v =>
      rw [hv] at h
      simp only [Outcome.ok.injEq] at h; subst h; exact ⟨rfl, rfl, rfl, rfl⟩

theorem sim_step {init} {m m' m1 : M} {e : MEv} (hI' : MInv init m') (hs : Sim m m')
    (h : m.step init e = .ok m1) :
    match noGcEv e with
    | none => Sim m1 m'
    | some e' => ∃ m1', m'.step init e' = .ok m1' ∧ Sim m1 m1' := by
  obtain ⟨a, b, c, d⟩ := hs
  cases e with
  | collect =>
    simp only [M.step] at h
    cases hu : tryPromoteOutermost m.leaf m.known with
    | none => rw [hu] at h; cases h
    | some u =>
      rw [hu] at h
      simp only [Outcome.ofCode, Outcome.bind] at h
      cases hv : m.collectFull u with
      | crash => rw [hv] at h; cases h
      | impossible => rw [hv] at h; cases h
      | ok v =>
        rw [hv] at h
        simp only [Outcome.ok.injEq] at h; subst h; exact ⟨a, b, c, d⟩
  | capture =>
    simp only [M.step, Outcome.ok.injEq] at h; subst h; exact ⟨a, b, c, d⟩
  | learn o =>
    simp only [M.step] at h
    split at h
    · simp only [Outcome.ok.injEq] at h; subst h
      simp only [noGcEv, M.step, if_pos (Nat.zero_le m'.sys.mgr.oldest)]
      refine ⟨_, rfl, a, b, c, ?_⟩
      simp [d, b, noGcItem]
    · cases h
  | deliver o gc =>
    obtain ⟨it, q, hq, h1, h2, h3, h4⟩ := deliver_parts h
    have hq' : m'.queue = noGcItem it :: q.map noGcItem := by rw [d, hq]; rfl
    obtain ⟨m1', hm1⟩ := deliver_possible hI' (by rw [hq']; simp)
    obtain ⟨it', q', hq2, h1', h2', h3', h4'⟩ := deliver_parts hm1
    rw [hq'] at hq2
    cases hq2
    refine ⟨m1', hm1, by rw [h1', h1, a], by rw [h2', h2, b], ?_, by rw [h3', h3]⟩
    rw [h4', h4, c]
    unfold noGcItem
    cases it.act <;> rfl
  | txn e =>
    simp only [noGcEv, M.step, M.txnStep] at h ⊢
    rw [a, b]
    have hgen : ∀ e, (m.sys.step e).bind (fun s => Outcome.ok { m with sys := s }) = .ok m1 →
        ∃ m1', (m.sys.step e).bind (fun s => Outcome.ok { m' with sys := s, now := m.now }) = .ok m1' ∧
          Sim m1 m1' := by
      intro e h
      cases hS : m.sys.step e with
      | crash => rw [hS] at h; cases h
      | impossible => rw [hS] at h; cases h
      | ok S' =>
        rw [hS] at h
        simp only [Outcome.bind, Outcome.ok.injEq] at h
        subst h
        exact ⟨_, rfl, rfl, rfl, c, d⟩
    cases e with
    | finish x =>
      simp only at h ⊢
      split at h
      · rename_i hx
        rw [if_pos hx]
        split at h
        · rename_i r' hr
          split at h
          · rename_i hl
            cases hS : m.sys.step (.finish x) with
            | crash => rw [hS] at h; cases h
            | impossible => rw [hS] at h; cases h
            | ok S' =>
              rw [hS] at h
              simp only [Outcome.bind, Outcome.ok.injEq] at h
              subst h
              simp only [if_pos hl]
              refine ⟨_, rfl, rfl, rfl, c, ?_⟩
              simp [d, noGcItem]
          · cases h
        · cases h
      · rename_i hx
        rw [if_neg hx]
        exact hgen _ h
    | recover x => exact hgen _ h
    | begin r ro => exact hgen _ h
    | write x => exact hgen _ h
    | childSnap x => exact hgen _ h
    | endChildSnap x s => exact hgen _ h
  | row e =>
    simp only [noGcEv, M.step, M.rowStep] at h ⊢
    rw [a, b]
    cases hs : m.now.step init e with
    | none => rw [hs] at h; cases h
    | some r' =>
      rw [hs] at h
      simp only at h ⊢
      split at h
      · cases h
      · rename_i hf
        rw [if_neg hf]
        split at h
        · rename_i x _
          cases hS : m.sys.step (.write x) with
          | crash => rw [hS] at h; cases h
          | impossible => rw [hS] at h; cases h
          | ok S' =>
            rw [hS] at h
            simp only [Outcome.bind, Outcome.ok.injEq] at h ⊢
            subst h
            refine ⟨_, rfl, rfl, rfl, c, ?_⟩
            simp [d, noGcItem]
        · simp only [Outcome.bind, Outcome.ok.injEq] at h ⊢
          subst h
          refine ⟨_, rfl, rfl, rfl, c, ?_⟩
          simp [d, noGcItem]

theorem sim_run {init} {m m' m1 : M} (es : List MEv) (hI : MInv init m) (hI' : MInv init m') (hs : Sim m m')
    (h : m.run init es = .ok m1) :
    MInv init m1 ∧ ∃ m1', m'.run init (noGc es) = .ok m1' ∧ Sim m1 m1' ∧ MInv init m1' := by
  induction es generalizing m m' with
  | nil =>
    simp only [M.run, Outcome.ok.injEq] at h; subst h
    exact ⟨hI, m', rfl, hs, hI'⟩
  | cons e es ih =>
    simp only [M.run] at h
    cases hc : m.step init e with
    | crash => rw [hc] at h; cases h
    | impossible => rw [hc] at h; cases h
    | ok m2 =>
      rw [hc] at h
      have hI2 := (minv_step hI e).2 m2 hc
      have hst := sim_step hI' hs hc
      unfold noGc
      rw [List.filterMap_cons]
      cases hn : noGcEv e with
      | none =>
        rw [hn] at hst
        exact ih hI2 hI' hst h
      | some e' =>
        rw [hn] at hst
        obtain ⟨m2', hm2, hsim⟩ := hst
        obtain ⟨k0, m1', k1, k2, k3⟩ := ih hI2 ((minv_step hI' e').2 m2' hm2) hsim h
        refine ⟨k0, m1', ?_, k2, k3⟩
        simp only [M.run, hm2, Outcome.bind]
        exact k1

end Verif.Mvcc
