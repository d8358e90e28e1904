import Verif.Mvcc.Inv2
import Verif.Txn.Props

/-! Facts about runs of the row machine used by the property theorems. -/
namespace Verif.Mvcc
open Verif.Ule Verif.Ule.Spec
open Verif.Txn

/-- One event moves the transaction system and the row's history by at most one step each. -/
theorem mstep_parts {init} {m m' : M} {e : MEv} (h : m.step init e = .ok m') :
    (m'.sys = m.sys ∨ ∃ t, m.sys.step t = .ok m'.sys) ∧
    (m'.now = m.now ∨ ∃ t, m.now.step init t = some m'.now) := by
  cases e with
  | txn e =>
    simp only [M.step, M.txnStep] at h
    have hgen : ∀ e, (m.sys.step e).bind (fun s => Outcome.ok { m with sys := s }) = .ok m' →
        (m'.sys = m.sys ∨ ∃ t, m.sys.step t = .ok m'.sys) ∧
        (m'.now = m.now ∨ ∃ t, m.now.step init t = some m'.now) := by
      intro e h
      cases hS : m.sys.step e with
      | crash => rw [hS] at h; cases h
      | impossible => rw [hS] at h; cases h
      | ok S' =>
        rw [hS] at h
        simp only [Outcome.bind, Outcome.ok.injEq] at h
        subst h
        exact ⟨Or.inr ⟨_, hS⟩, Or.inl rfl⟩
    split at h
    · split at h
      · split at h
        · rename_i r' hr
          split at h
          · rename_i x _ _ _
            cases hS : m.sys.step (.finish x) with
            | crash => rw [hS] at h; cases h
            | impossible => rw [hS] at h; cases h
            | ok S' =>
              rw [hS] at h
              simp only [Outcome.bind, Outcome.ok.injEq] at h
              subst h
              exact ⟨Or.inr ⟨_, hS⟩, Or.inr ⟨_, hr⟩⟩
          · cases h
        · cases h
      · exact hgen _ h
    · exact hgen _ h
  | row e =>
    simp only [M.step, M.rowStep] at h
    cases hs : m.now.step init e with
    | none => rw [hs] at h; cases h
    | some r' =>
      rw [hs] at h
      simp only at h
      split at h
      · cases h
      · split at h
        · rename_i x _ _
          cases hS : m.sys.step (.write x) with
          | crash => rw [hS] at h; cases h
          | impossible => rw [hS] at h; cases h
          | ok S' =>
            rw [hS] at h
            simp only [Outcome.bind, Outcome.ok.injEq] at h
            subst h
            exact ⟨Or.inr ⟨_, hS⟩, Or.inr ⟨_, hs⟩⟩
        · simp only [Outcome.bind, Outcome.ok.injEq] at h
          subst h
          exact ⟨Or.inl rfl, Or.inr ⟨_, hs⟩⟩
  | learn o =>
    simp only [M.step] at h
    split at h
    · simp only [Outcome.ok.injEq] at h; subst h; exact ⟨Or.inl rfl, Or.inl rfl⟩
    · cases h
  | deliver o gc =>
    simp only [M.step, M.deliver] at h
    split at h
    · cases h
    · simp only [Outcome.ok.injEq] at h; subst h; exact ⟨Or.inl rfl, Or.inl rfl⟩
    · split at h
      · simp only [Outcome.ok.injEq] at h; subst h; exact ⟨Or.inl rfl, Or.inl rfl⟩
      · split at h
        · rename_i xs op _ _
          cases hu : msgModifyU m.leaf xs op with
          | none => rw [hu] at h; cases h
          | some u =>
            rw [hu] at h
            simp only [Outcome.ofCode, Outcome.bind] at h
            cases hv : m.settle o gc u with
            | crash => rw [hv] at h; cases h
            | impossible => rw [hv] at h; cases h
            | ok v =>
              rw [hv] at h
              simp only [Outcome.ok.injEq] at h; subst h; exact ⟨Or.inl rfl, Or.inl rfl⟩
        · cases h
  | collect =>
    simp only [M.step] at h
    cases hu : tryPromoteOutermost m.leaf m.known with
    | none => rw [hu] at h; cases h
    | some u =>
      rw [hu] at h
      simp only [Outcome.ofCode, Outcome.bind] at h
      cases hv : m.collectFull u with
      | crash => rw [hv] at h; cases h
      | impossible => rw [hv] at h; cases h
      | ok v =>
        rw [hv] at h
        simp only [Outcome.ok.injEq] at h; subst h; exact ⟨Or.inl rfl, Or.inl rfl⟩
  | capture =>
    simp only [M.step, Outcome.ok.injEq] at h
    subst h; exact ⟨Or.inl rfl, Or.inl rfl⟩

/-- Transactions ended since `S0`. -/
structure After (S0 S : Sys) : Prop where
  ended : ∃ pre, S.ended = pre ++ S0.ended ∧ ∀ d ∈ pre, S0.mgr.lastXid ≤ d.stamp
  last : S0.mgr.lastXid ≤ S.mgr.lastXid

theorem After.refl (S : Sys) : After S S := ⟨⟨[], rfl, by simp⟩, Nat.le_refl _⟩

theorem After.step {S0 S S' : Sys} {e : TEv} (h : After S0 S) (hI : Inv S) (hS : S.step e = .ok S') :
    After S0 S' := by
  obtain ⟨h1, _, _⟩ := step_facts hI hS
  obtain ⟨pre, hp, hst⟩ := h.ended
  have hle := ((inv_step hI e).2 S' hS).2.2
  refine ⟨?_, Nat.le_trans h.last hle⟩
  rcases h1 with h1 | ⟨r, _, _, _, h1⟩
  · exact ⟨pre, by rw [h1, hp], hst⟩
  · refine ⟨_ :: pre, by rw [h1, hp]; rfl, ?_⟩
    intro d hd
    rcases List.mem_cons.mp hd with rfl | hd
    · exact h.last
    · exact hst d hd

/-- Is the write by a root transaction that had ended in `S`? -/
def byEnded (S : Sys) (w : Write) : Bool := S.ended.any fun d => w.chain.head? = some d.xid

theorem byEnded_iff {S : Sys} {w : Write} : byEnded S w = true ↔ ∃ d ∈ S.ended, w.chain.head? = some d.xid := by
  simp [byEnded]

theorem head_prefix {p c : List Txnid} (hp : p ≠ []) (h : p <+: c) : c.head? = p.head? := by
  obtain ⟨t, rfl⟩ := h
  cases p with
  | nil => exact absurd rfl hp
  | cons a p => rfl

/-- A row event never touches writes by roots other than the current one. -/
theorem step_writes {init} {s s' : Row} {e : Ev} (hs : s.step init e = some s') (P : Write → Bool)
    (hP : ∀ w, w.chain.head? = s.chain.head? → s.chain ≠ [] → P w = false) :
    s'.writes.filter P = s.writes.filter P := by
  have hcons : s.chain ≠ [] → ∀ v, (⟨s.chain, v⟩ :: s.writes : List Write).filter P = s.writes.filter P := by
    intro hne v
    rw [List.filter_cons_of_neg]
    rw [hP _ rfl hne]; simp
  cases e <;> simp only [Row.step] at hs <;> (repeat' split at hs) <;> cases hs
  · rfl
  · rename_i h; exact hcons h.2.1 _
  · rfl
  · rename_i h _; exact hcons h.2.1 _
  · rename_i h; exact hcons h.2 _
  · rfl
  · rename_i h
    simp only [Spec.undo, List.filter_filter]
    apply List.filter_congr
    intro w _
    cases hp : s.chain.isPrefixOf w.chain with
    | false => simp
    | true =>
      rw [List.isPrefixOf_iff_prefix] at hp
      rw [hP w (head_prefix h.2 hp) h.2]; simp
  · rfl

structure Since (m0 m : M) : Prop where
  after : After m0.sys m.sys
  writes : m.now.writes.filter (byEnded m0.sys) = m0.now.writes.filter (byEnded m0.sys)

theorem Since.step {init} {m0 m m' : M} {e : MEv} (h : Since m0 m) (hI : MInv init m)
    (hs : m.step init e = .ok m') : Since m0 m' := by
  obtain ⟨h1, h2⟩ := mstep_parts hs
  refine ⟨?_, ?_⟩
  · rcases h1 with h1 | ⟨t, h1⟩
    · rw [h1]; exact h.after
    · exact h.after.step hI.txn h1
  · rw [← h.writes]
    rcases h2 with h2 | ⟨t, h2⟩
    · rw [h2]
    · apply step_writes h2
      intro w hw hne
      rw [← Bool.not_eq_true, byEnded_iff]
      rintro ⟨d, hd, hx⟩
      rw [hw] at hx
      obtain ⟨r, hr, hrx, _⟩ := hI.openHead _ hx
      obtain ⟨pre, hp, _⟩ := h.after.ended
      exact hI.txn.endedNe d (by rw [hp]; exact List.mem_append_right _ hd) r hr hrx.symm

theorem Since.run {init} {m0 m m' : M} (es : List MEv) (h : Since m0 m) (hI : MInv init m)
    (hs : m.run init es = .ok m') : Since m0 m' ∧ MInv init m' := by
  induction es generalizing m with
  | nil => simp only [M.run, Outcome.ok.injEq] at hs; subst hs; exact ⟨h, hI⟩
  | cons e es ih =>
    simp only [M.run] at hs
    cases hc : m.step init e with
    | crash => rw [hc] at hs; cases hs
    | impossible => rw [hc] at hs; cases hs
    | ok m1 =>
      rw [hc] at hs
      exact ih (h.step hI hc) ((minv_step hI e).2 m1 hc) hs

/-- A reader's decision agrees with the specification on everything on the leaf. -/
theorem readAs_eq {init} {m : M} (h : MInv init m) (s : Snap) (hs : s ∈ m.sys.mgr.snaps) :
    m.readAs s = valueOf init (m.done.writes.filter (accW (sees m.sys s))) := by
  rw [← (h.rel.ra _ (Or.inl ⟨s, hs, rfl⟩)).val]
  unfold M.readAs
  apply snapshotRead_congr _ _ _ h.rel.wf.cne
  intro x hx
  have hx2 : x ∈ rootIds m.done.used := h.ord.1.subset hx
  have hx3 : x ∈ rootIds m.now.used := by
    rw [mem_rootIds] at hx2 ⊢
    exact h.queue.used.subset hx2
  obtain ⟨r, hr, hsub⟩ := h.nowRoots
  rw [hr] at hx3
  have hI := h.txn
  rw [Bool.eq_iff_iff, sees_iff]
  rcases List.mem_append.mp hx3 with hx3 | hx3
  · cases hh : m.now.chain.head? with
    | none => simp [hh] at hx3
    | some y =>
      simp [hh] at hx3; subst hx3
      obtain ⟨q, hq, rfl, hw⟩ := h.openHead x hh
      rw [readsTxnid_spec hI s hs q.xid (hI.rootsLe q hq).1 (hI.snapNeR s hs q hq)]
      apply or_congr_right
      constructor
      · rintro ⟨hlt, hnl⟩
        exact absurd ((hI.snapLive s hs q.xid).mpr ⟨hlt, Or.inl (h.headLive hh)⟩) hnl
      · rintro ⟨d, hd, hdx, _⟩
        exact absurd hdx (hI.endedNe d hd q hq)
  · obtain ⟨d, hd, rfl⟩ := List.mem_map.mp (hsub.subset hx3)
    rw [readsTxnid_spec hI s hs d.xid (hI.endedLe d hd).1 (hI.snapNeE s hs d hd)]
    apply or_congr_right
    constructor
    · rintro ⟨hlt, hnl⟩
      refine ⟨d, hd, rfl, ?_⟩
      apply Classical.byContradiction
      intro hge
      exact hnl ((hI.snapLive s hs d.xid).mpr ⟨hlt, Or.inr ⟨d, hd, rfl, by omega⟩⟩)
    · rintro ⟨d', hd', hx', hlt⟩
      rw [inj_of_nodup_map hI.endedNodup d' hd' d hd hx'] at hlt
      have := (hI.endedLe d hd).2.1
      refine ⟨by omega, ?_⟩
      intro hc
      rcases ((hI.snapLive s hs d.xid).mp hc).2 with h1 | ⟨d', hd', hx', hge⟩
      · obtain ⟨q, hq, _, hqx⟩ := (mem_live hI).mp h1
        exact hI.endedNe d hd q hq hqx.symm
      · rw [inj_of_nodup_map hI.endedNodup d' hd' d hd hx'] at hge
        omega

theorem readLatest_eq {init} {m : M} (h : MInv init m) : m.readLatest = m.done.value init := by
  have := (h.rel.toR (Obs.true _)).val
  exact this

end Verif.Mvcc
