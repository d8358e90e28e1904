import Verif.Mvcc.Inv

/-! The machine's invariant is kept by every event, and no event crashes. -/
namespace Verif.Mvcc
open Verif.Ule Verif.Ule.Spec
open Verif.Txn

/-! ### Facts about transaction steps -/

/-- `S0` was an earlier state. -/
structure Later (S0 S : Sys) : Prop where
  ended : ∃ pre, S.ended = pre ++ S0.ended
  snaps : ∀ s ∈ S.mgr.snaps, s ∈ S0.mgr.snaps ∨ S0.mgr.lastXid < s.id
  last : S0.mgr.lastXid ≤ S.mgr.lastXid

theorem Later.refl (S : Sys) : Later S S := ⟨⟨[], rfl⟩, fun _ h => Or.inl h, Nat.le_refl _⟩

theorem Later.step {S0 S S' : Sys} {e : TEv} (h : Later S0 S) (hI : Inv S) (hS : S.step e = .ok S') :
    Later S0 S' := by
  obtain ⟨h1, h2, _⟩ := step_facts hI hS
  obtain ⟨pre, hp⟩ := h.ended
  have hle := ((inv_step hI e).2 S' hS).2.2
  refine ⟨?_, ?_, Nat.le_trans h.last hle⟩
  · rcases h1 with h1 | ⟨r, _, _, _, h1⟩
    · exact ⟨pre, by rw [h1, hp]⟩
    · exact ⟨_ :: pre, by rw [h1, hp]; rfl⟩
  · intro s hs
    rcases h2 s hs with h3 | h3
    · exact h.snaps s h3
    · have := h.last; exact Or.inr (by omega)

theorem Obs_mono {S S' : Sys} {e : TEv} (hI : Inv S) (hS : S.step e = .ok S') (acc : Txnid → Bool)
    (h : Obs S' acc) : Obs S acc := by
  obtain ⟨h1, h2, _⟩ := step_facts hI hS
  rcases h with ⟨s, hs, rfl⟩ | h
  · rcases h2 s hs with h3 | ⟨h3, h4⟩
    · refine Or.inl ⟨s, h3, ?_⟩
      funext x
      rw [Bool.eq_iff_iff, sees_iff, sees_iff]
      rcases h1 with h1 | ⟨r, _, _, _, h1⟩
      · rw [h1]
      · rw [h1]
        have := hI.snapsLe s h3
        constructor
        · rintro (h | ⟨d, hd, hx, hlt⟩)
          · exact Or.inl h
          · rcases List.mem_cons.mp hd with rfl | hd
            · simp only at hlt; omega
            · exact Or.inr ⟨d, hd, hx, hlt⟩
        · rintro (h | ⟨d, hd, hx, hlt⟩)
          · exact Or.inl h
          · exact Or.inr ⟨d, List.mem_cons_of_mem _ hd, hx, hlt⟩
    · refine Or.inr fun d hd => ?_
      rw [sees_iff]
      have := hI.endedLe d hd
      exact Or.inr ⟨d, by rw [h4]; exact hd, rfl, by omega⟩
  · refine Or.inr fun d hd => ?_
    apply h
    rcases h1 with h1 | ⟨r, _, _, _, h1⟩
    · rw [h1]; exact hd
    · rw [h1]; exact List.mem_cons_of_mem _ hd

theorem mem_insertRoot {r q : Root} {l : List Root} (h : q ∈ l) : q ∈ insertRoot r l := by
  induction l with
  | nil => cases h
  | cons a l ih =>
    simp only [insertRoot]
    split
    · exact List.mem_cons_of_mem _ h
    · rcases List.mem_cons.mp h with rfl | h
      · exact List.mem_cons_self ..
      · exact List.mem_cons_of_mem _ (ih h)

theorem roots_step {S S' : Sys} {e : TEv} (hS : S.step e = .ok S') (r : Root) (hr : r ∈ S.roots)
    (hne : ∀ x, e = .finish x → x ≠ r.xid) :
    ∃ r' ∈ S'.roots, r'.xid = r.xid ∧ (r.wrote = true → r'.wrote = true) := by
  cases e with
  | recover x =>
    simp only [Sys.step, Sys.recover] at hS
    split at hS
    · simp only [Outcome.ok.injEq] at hS; subst hS
      exact ⟨r, mem_insertRoot hr, rfl, id⟩
    · cases hS
  | begin records ro =>
    simp only [Sys.step, Outcome.ok.injEq] at hS; subst hS
    exact ⟨r, List.mem_append_left _ hr, rfl, id⟩
  | write x =>
    simp only [Sys.step] at hS
    split at hS
    · split at hS
      · cases hS
      · simp only [Outcome.ok.injEq] at hS; subst hS
        refine ⟨_, List.mem_map.mpr ⟨r, hr, rfl⟩, ?_, ?_⟩
        · split <;> rfl
        · intro h; split
          · rfl
          · exact h
    · cases hS
  | childSnap x =>
    simp only [Sys.step] at hS
    split at hS
    · simp only [Outcome.ok.injEq] at hS; subst hS
      exact ⟨r, hr, rfl, id⟩
    · cases hS
  | endChildSnap x s =>
    simp only [Sys.step] at hS
    split at hS
    · split at hS
      · cases hm : S.mgr.removeSnap s with
        | none => rw [hm] at hS; cases hS
        | some m =>
          rw [hm] at hS
          simp only [Outcome.ofCode, Outcome.bind, Outcome.ok.injEq] at hS
          subst hS; exact ⟨r, hr, rfl, id⟩
      · cases hS
    · cases hS
  | finish x =>
    simp only [Sys.step] at hS
    split at hS
    · rename_i q _
      split at hS
      · cases hm : S.mgr.finish x q.snap q.readOnly q.wrote with
        | none => rw [hm] at hS; cases hS
        | some m =>
          rw [hm] at hS
          simp only [Outcome.ofCode, Outcome.bind, Outcome.ok.injEq] at hS
          subst hS
          refine ⟨r, List.mem_filter.mpr ⟨hr, ?_⟩, rfl, id⟩
          have := hne x rfl
          simp; exact fun h => this h.symm
      · cases hS
    · cases hS

theorem write_root {S S' : Sys} {x : Txnid} (hS : S.step (.write x) = .ok S') :
    ∃ r' ∈ S'.roots, r'.xid = x ∧ r'.wrote = true := by
  simp only [Sys.step] at hS
  split at hS
  · rename_i r hr
    split at hS
    · cases hS
    · simp only [Outcome.ok.injEq] at hS; subst hS
      obtain ⟨h1, h2⟩ := root?_some hr
      refine ⟨{ r with wrote := true }, List.mem_map.mpr ⟨r, h1, by rw [if_pos h2]⟩, h2, rfl⟩
  · cases hS

/-! ### The queue -/

/-- The items of the queue are what leads from the delivered history to the present one. -/
def QOk (init : Option Bytes) : Row → List Item → Row → Prop
  | d, [], n => d = n
  | d, it :: q, n => it.chain = d.chain ∧ match it.act with
    | .known _ => QOk init d q n
    | .ev e => ∃ d', d.step init e = some d' ∧ QOk init d' q n

theorem QOk.snoc_ev {init d q n n' e} (h : QOk init d q n) (hs : n.step init e = some n') :
    QOk init d (q ++ [⟨n.chain, .ev e⟩]) n' := by
  induction q generalizing d with
  | nil =>
    have : d = n := h
    subst this
    exact ⟨rfl, n', hs, rfl⟩
  | cons it q ih =>
    obtain ⟨h1, h2⟩ := h
    refine ⟨h1, ?_⟩
    split
    · rename_i o ho; rw [ho] at h2; exact ih h2
    · rename_i e' he
      rw [he] at h2
      obtain ⟨d', hd, hq⟩ := h2
      exact ⟨d', hd, ih hq⟩

theorem QOk.snoc_known {init d q n} (o : Txnid) (h : QOk init d q n) :
    QOk init d (q ++ [⟨n.chain, .known o⟩]) n := by
  induction q generalizing d with
  | nil =>
    have : d = n := h
    subst this
    exact ⟨rfl, rfl⟩
  | cons it q ih =>
    obtain ⟨h1, h2⟩ := h
    refine ⟨h1, ?_⟩
    split
    · rename_i o ho; rw [ho] at h2; exact ih h2
    · rename_i e' he
      rw [he] at h2
      obtain ⟨d', hd, hq⟩ := h2
      exact ⟨d', hd, ih hq⟩

theorem QOk.used {init d q n} (h : QOk init d q n) : d.used <:+ n.used := by
  induction q generalizing d with
  | nil => have : d = n := h; subst this; exact List.suffix_refl _
  | cons it q ih =>
    obtain ⟨h1, h2⟩ := h
    split at h2
    · exact ih h2
    · obtain ⟨d', hd, hq⟩ := h2
      exact (step_used hd).trans (ih hq)

/-- The item comes from a transaction whose root id is at least `o`. -/
def ItemGe (o : Txnid) (it : Item) : Prop :=
  (∀ h, it.chain.head? = some h → o ≤ h) ∧ (it.chain = [] → ∀ x, it.act = .ev (.begin x) → o ≤ x)

/-! ### The writer's own writes are on top -/

/-- All writes by the current root are newer than all others. -/
def OwnTop (s : Row) : Prop :=
  ∀ h, s.chain.head? = some h → ∃ a b, s.writes = a ++ b ∧
    (∀ w ∈ a, w.chain.head? = some h) ∧ (∀ w ∈ b, w.chain.head? ≠ some h)

theorem OwnTop_step {init} {s s' : Row} {e : Ev} (hi : SpecInv s) (h : OwnTop s)
    (hs : s.step init e = some s') : OwnTop s' := by
  have hroot := step_root hs
  intro x hx
  rcases hroot with ⟨h1, h2, _⟩ | ⟨y, he, h1, h2, h3, h4⟩ | ⟨y, _, _, h2, _⟩
  · rw [h1] at hx
    obtain ⟨a, b, hab, ha, hb⟩ := h x hx
    have hw : ∀ v, ∃ a b, (⟨s.chain, v⟩ :: s.writes : List Write) = a ++ b ∧
        (∀ w ∈ a, w.chain.head? = some x) ∧ (∀ w ∈ b, w.chain.head? ≠ some x) := by
      intro v
      refine ⟨⟨s.chain, v⟩ :: a, b, by rw [hab]; rfl, ?_, hb⟩
      intro w hw
      rcases List.mem_cons.mp hw with rfl | hw
      · exact hx
      · exact ha w hw
    cases e <;> simp only [Row.step] at hs <;> (repeat' split at hs) <;> cases hs
    · exact ⟨a, b, hab, ha, hb⟩
    · exact hw _
    · exact ⟨a, b, hab, ha, hb⟩
    · exact hw _
    · exact hw _
    · exact ⟨a, b, hab, ha, hb⟩
    · refine ⟨undo s.chain a, undo s.chain b, ?_, fun w hw => ha w (mem_undo hw), fun w hw => hb w (mem_undo hw)⟩
      simp only [hab, Spec.undo, List.filter_append]
    · exact ⟨a, b, hab, ha, hb⟩
  · rw [h2] at hx
    simp at hx; subst hx
    subst he
    refine ⟨[], s'.writes, rfl, by simp, ?_⟩
    have hww : s'.writes = s.writes := by
      simp only [Row.step] at hs
      split at hs <;> cases hs
      rfl
    rw [hww]
    intro w hw hh
    apply h4
    rw [mem_rootIds]
    apply hi.wsub w hw [y] (by simp)
    cases hc : w.chain with
    | nil => simp [hc] at hh
    | cons a c => simp [hc] at hh; subst hh; exact ⟨c, rfl⟩
  · rw [h2] at hx; simp at hx

/-! ### The invariant -/

structure MInv (init : Option Bytes) (m : M) : Prop where
  txn : Inv m.sys
  endedDesc : m.sys.ended.Pairwise (fun a b => b.stamp ≤ a.stamp)
  nowRoots : ∃ r, rootIds m.now.used = m.now.chain.head?.toList ++ r ∧ r.Sublist (m.sys.ended.map (·.xid))
  openHead : ∀ x, m.now.chain.head? = some x → ∃ r ∈ m.sys.roots, r.xid = x ∧ r.wrote = true
  endedWrote : ∀ x ∈ rootIds m.now.used, ∀ d ∈ m.sys.ended, d.xid = x → d.wrote = true
  nowInv : SpecInv m.now
  ownTop : OwnTop m.now
  queue : QOk init m.done m.queue m.now
  doneRoots : ∃ r, rootIds m.done.used = m.done.chain.head?.toList ++ r
  knownHead : ∀ x, m.done.chain.head? = some x → m.known ≤ x
  knownLe : m.known ≤ m.sys.mgr.oldest
  items : ∀ it ∈ m.queue, ItemGe m.known it ∧
    ∀ o, it.act = .known o → o ≤ m.sys.mgr.oldest ∧ ∀ x, it.chain.head? = some x → o ≤ x
  itemsPw : m.queue.Pairwise (fun a b => ∀ o, a.act = .known o → ItemGe o b)
  rel : RO (Obs m.sys) init m.leaf m.done
  ord : Ord m.leaf m.done
  clone : ∀ S0, m.clone = some S0 → Inv S0 ∧ Later S0 m.sys

theorem MInv.headLive {init m} (h : MInv init m) {x : Txnid} (hx : m.now.chain.head? = some x) :
    x ∈ m.sys.mgr.live := by
  obtain ⟨r, hr, rfl, hw⟩ := h.openHead x hx
  exact (mem_live h.txn).mpr ⟨r, hr, h.txn.rw r hr hw, rfl⟩

/-- Who is on the leaf. -/
theorem MInv.leafRoots {init m} (h : MInv init m) :
    (upper m.leaf.cux).Sublist (m.now.chain.head?.toList ++ m.sys.ended.map (·.xid)) := by
  obtain ⟨r, hr, hs⟩ := h.nowRoots
  have h1 : (upper m.leaf.cux).Sublist (leafIds m.leaf) := List.sublist_append_right ..
  have h2 := h.ord.1
  have h3 : (rootIds m.done.used).Sublist (rootIds m.now.used) := by
    obtain ⟨t, ht⟩ := h.queue.used
    unfold rootIds
    rw [← ht, List.filterMap_append]
    exact List.sublist_append_right ..
  rw [hr] at h3
  exact (h1.trans (h2.trans h3)).trans ((List.Sublist.refl _).append hs)

theorem minv_init (last : Txnid) (v : Option Bytes) : MInv v (M.init last v) := by
  have hwf : Wf (M.init last v).leaf := by
    constructor <;> simp [M.init, Uxr.isPlaceholder]
    cases v <;> rfl
  have hread : ∀ acc, snapshotRead acc (M.init last v).leaf = v := by
    intro acc
    cases v <;> rfl
  refine ⟨Inv.init last, by simp [M.init, Sys.init], ⟨[], by simp [M.init, Row.fresh, rootIds], by simp⟩, ?_, ?_, ?_,
    ?_, rfl, ⟨[], by simp [M.init, Row.fresh, rootIds]⟩, ?_, ?_, ?_, ?_, ?_, ?_, ?_⟩
  · simp [M.init, Row.fresh]
  · simp [M.init, Row.fresh, rootIds]
  · refine ⟨?_, ?_, ?_, ?_, ?_⟩ <;> simp [M.init, Row.fresh, PathsIn]
  · intro x hx; simp [M.init, Row.fresh] at hx
  · simp [M.init, Row.fresh]
  · simp [M.init]
  · simp [M.init]
  · simp [M.init]
  · refine ⟨hwf, ?_, ?_, ?_⟩
    · refine ⟨?_, ?_, ?_, ?_, ?_⟩ <;> simp [M.init, Row.fresh, PathsIn]
    · intro q hq hp; simp [M.init] at hp; exact absurd hp hq
    · intro acc _
      refine ⟨by rw [hread]; rfl, ?_⟩
      intro p hp hpre
      simp [M.init, Row.fresh] at hpre
      exact absurd hpre hp
  · refine ⟨by simp [M.init, leafIds, upper], ?_⟩
    intro _ x hx; simp [M.init, Row.fresh] at hx
  · simp [M.init]

/-- A transaction-manager step that does not end the row's current root. -/
theorem minv_sys {init m} (h : MInv init m) {e : TEv} {S' : Sys} (hS : m.sys.step e = .ok S')
    (hne : ∀ x, e = .finish x → m.now.chain.head? ≠ some x) : MInv init { m with sys := S' } := by
  obtain ⟨hI', ho, _⟩ := (inv_step h.txn e).2 S' hS
  obtain ⟨h1, h2, _⟩ := step_facts h.txn hS
  obtain ⟨r, hr, hsub⟩ := h.nowRoots
  constructor
  · exact hI'
  · show S'.ended.Pairwise _
    rcases h1 with h1 | ⟨q, _, _, _, h1⟩
    · rw [h1]; exact h.endedDesc
    · rw [h1, List.pairwise_cons]
      exact ⟨fun d hd => (h.txn.endedLe d hd).2.2, h.endedDesc⟩
  · refine ⟨r, hr, ?_⟩
    show r.Sublist (S'.ended.map _)
    rcases h1 with h1 | ⟨q, _, _, _, h1⟩
    · rw [h1]; exact hsub
    · rw [h1]; exact hsub.cons _
  · intro x hx
    obtain ⟨q, hq, hqx, hw⟩ := h.openHead x hx
    obtain ⟨q', hq', hx', hw'⟩ := roots_step hS q hq (fun y hy => by
      intro hc; exact hne y hy (by rw [hc, hqx]; exact hx))
    exact ⟨q', hq', by rw [hx', hqx], hw' hw⟩
  · intro x hx d hd hdx
    have hd : d ∈ S'.ended := hd
    rcases h1 with h1 | ⟨q, hq, _, hqe, h1⟩
    · rw [h1] at hd; exact h.endedWrote x hx d hd hdx
    · rw [h1] at hd
      rcases List.mem_cons.mp hd with rfl | hd
      · exfalso
        simp only at hdx
        have hx : x ∈ rootIds m.now.used := hx
        rw [hr] at hx
        rcases List.mem_append.mp hx with hx | hx
        · cases hh : m.now.chain.head? with
          | none => simp [hh] at hx
          | some y =>
            simp [hh] at hx
            exact hne _ hqe (by rw [hh, hdx, hx])
        · obtain ⟨d', hd', hdx'⟩ := List.mem_map.mp (hsub.subset hx)
          exact h.txn.endedNe d' hd' q hq (by rw [hdx', hdx])
      · exact h.endedWrote x hx d hd hdx
  · exact h.nowInv
  · exact h.ownTop
  · exact h.queue
  · exact h.doneRoots
  · exact h.knownHead
  · exact Nat.le_trans h.knownLe ho
  · intro it hit
    obtain ⟨i1, i2⟩ := h.items it hit
    exact ⟨i1, fun o ho' => ⟨Nat.le_trans (i2 o ho').1 ho, (i2 o ho').2⟩⟩
  · exact h.itemsPw
  · exact ⟨h.rel.wf, h.rel.inv, h.rel.ids, fun acc ha => h.rel.ra acc (Obs_mono h.txn hS acc ha)⟩
  · exact h.ord
  · intro S0 hc
    obtain ⟨c1, c2⟩ := h.clone S0 hc
    exact ⟨c1, c2.step h.txn hS⟩

theorem items_snoc {init m} (h : MInv init m) (it : Item) (hge : ∀ o, o ≤ m.sys.mgr.oldest → ItemGe o it)
    (hk : ∀ o, it.act = .known o → o ≤ m.sys.mgr.oldest ∧ ∀ x, it.chain.head? = some x → o ≤ x) :
    (∀ i ∈ m.queue ++ [it], ItemGe m.known i ∧
      ∀ o, i.act = .known o → o ≤ m.sys.mgr.oldest ∧ ∀ x, i.chain.head? = some x → o ≤ x) ∧
    (m.queue ++ [it]).Pairwise (fun a b => ∀ o, a.act = .known o → ItemGe o b) := by
  refine ⟨?_, ?_⟩
  · intro i hi
    rcases List.mem_append.mp hi with hi | hi
    · exact h.items i hi
    · simp only [List.mem_singleton] at hi; subst hi
      exact ⟨hge _ h.knownLe, hk⟩
  · rw [List.pairwise_append]
    refine ⟨h.itemsPw, by simp, ?_⟩
    intro a ha b hb o hao
    simp only [List.mem_singleton] at hb; subst hb
    exact hge o ((h.items a ha).2 o hao).1

/-- A row event that does not begin or end a root transaction, or that begins one already marked as a
writer. -/
theorem minv_row {init m} (h : MInv init m) {e : Ev} {r' : Row} (hs : m.now.step init e = some r')
    (hfin : ¬ (e = .finish ∧ m.now.chain.length ≤ 1))
    (hbeg : ∀ x, e = .begin x → m.now.chain = [] → ∃ q ∈ m.sys.roots, q.xid = x ∧ q.wrote = true) :
    MInv init { m with now := r', queue := m.queue ++ [⟨m.now.chain, .ev e⟩] } := by
  have hroot := step_root hs
  obtain ⟨r, hr, hsub⟩ := h.nowRoots
  have hge : ∀ o, o ≤ m.sys.mgr.oldest → ItemGe o ⟨m.now.chain, .ev e⟩ := by
    intro o ho
    refine ⟨fun x hx => ?_, fun hnil x hx => ?_⟩
    · have := h.txn.oldestLive x (h.headLive hx); omega
    · simp only [Act.ev.injEq] at hx
      obtain ⟨q, hq, rfl, hw⟩ := hbeg x hx hnil
      have := h.txn.oldestLive q.xid ((mem_live h.txn).mpr ⟨q, hq, h.txn.rw q hq hw, rfl⟩)
      omega
  have hit := items_snoc h ⟨m.now.chain, .ev e⟩ hge (by simp)
  have hopen : ∀ x, r'.chain.head? = some x → ∃ r ∈ m.sys.roots, r.xid = x ∧ r.wrote = true := by
    intro x hx
    rcases hroot with ⟨h1, _⟩ | ⟨y, he, h1, h2, h3, h4⟩ | ⟨y, _, _, h2, _⟩
    · exact h.openHead x (by rw [← h1]; exact hx)
    · rw [h2] at hx
      simp at hx; subst hx
      exact hbeg y he h1
    · rw [h2] at hx; simp at hx
  have hnr : ∃ r, rootIds r'.used = r'.chain.head?.toList ++ r ∧ r.Sublist (m.sys.ended.map (·.xid)) := by
    rcases hroot with ⟨h1, h2, _⟩ | ⟨y, he, h1, h2, h3, h4⟩ | ⟨y, he, h1, h2, _⟩
    · exact ⟨r, by rw [h2, h1]; exact hr, hsub⟩
    · rw [h1] at hr
      exact ⟨r, by rw [h3, h2, hr]; rfl, hsub⟩
    · exact absurd ⟨he, by rw [h1]; simp⟩ hfin
  have hew : ∀ x ∈ rootIds r'.used, ∀ d ∈ m.sys.ended, d.xid = x → d.wrote = true := by
    intro x hx d hd hdx
    rcases hroot with ⟨_, h2, _⟩ | ⟨y, he, h1, h2, h3, h4⟩ | ⟨y, he, h1, h2, h3⟩
    · rw [h2] at hx; exact h.endedWrote x hx d hd hdx
    · rw [h3] at hx
      rcases List.mem_cons.mp hx with rfl | hx
      · obtain ⟨q, hq, hqx, _⟩ := hbeg x he h1
        exact absurd (by rw [hqx, hdx]) (h.txn.endedNe d hd q hq)
      · exact h.endedWrote x hx d hd hdx
    · rw [h3] at hx; exact h.endedWrote x hx d hd hdx
  exact ⟨h.txn, h.endedDesc, hnr, hopen, hew, h.nowInv.step hs, OwnTop_step h.nowInv h.ownTop hs,
    h.queue.snoc_ev hs, h.doneRoots, h.knownHead, h.knownLe, hit.1, hit.2, h.rel, h.ord, h.clone⟩

/-- The end of the root transaction that holds the row. -/
theorem minv_finish {init m} (h : MInv init m) {x : Txnid} {S' : Sys} {r' : Row}
    (hc : m.now.chain = [x]) (hS : m.sys.step (.finish x) = .ok S')
    (hs : m.now.step init .finish = some r') :
    MInv init { m with sys := S', now := r', queue := m.queue ++ [⟨m.now.chain, .ev .finish⟩] } := by
  obtain ⟨hI', ho, _⟩ := (inv_step h.txn _).2 S' hS
  obtain ⟨h1, h2, _⟩ := step_facts h.txn hS
  obtain ⟨r, hr, hsub⟩ := h.nowRoots
  have hx : m.now.chain.head? = some x := by rw [hc]; rfl
  have hxl := h.headLive hx
  obtain ⟨q, hq, hqx, hqw⟩ := h.openHead x hx
  have hge : ∀ o, o ≤ m.sys.mgr.oldest → ItemGe o ⟨m.now.chain, .ev .finish⟩ := by
    intro o ho
    refine ⟨fun x hx => ?_, fun _ y hy => by simp at hy⟩
    have := h.txn.oldestLive x (h.headLive hx); omega
  have hit := items_snoc h ⟨m.now.chain, .ev .finish⟩ hge (by simp)
  have hroot := step_root hs
  have hshape : r'.chain = [] ∧ rootIds r'.used = rootIds m.now.used := by
    rcases hroot with ⟨_, _, _, h4⟩ | ⟨y, he, _⟩ | ⟨y, _, _, h2, h3⟩
    · have := h4 rfl; rw [hc] at this; simp at this
    · cases he
    · exact ⟨h2, h3⟩
  -- the root was read-write, so it is recorded as ended
  have hended : S'.ended = ⟨x, m.sys.mgr.lastXid, true⟩ :: m.sys.ended := by
    have hroot? := root?_of_mem h.txn hq
    rw [hqx] at hroot?
    simp only [Sys.step, hroot?] at hS
    split at hS
    · cases hm : m.sys.mgr.finish x q.snap q.readOnly q.wrote with
      | none => rw [hm] at hS; cases hS
      | some m' =>
        rw [hm] at hS
        simp only [Outcome.ofCode, Outcome.bind, Outcome.ok.injEq] at hS
        rw [← hS, hqw, h.txn.rw q hq hqw]
        simp
    · cases hS
  constructor
  · exact hI'
  · show S'.ended.Pairwise _
    rw [hended, List.pairwise_cons]
    exact ⟨fun d hd => (h.txn.endedLe d hd).2.2, h.endedDesc⟩
  · refine ⟨rootIds m.now.used, by simp [hshape], ?_⟩
    show (rootIds m.now.used).Sublist (S'.ended.map _)
    rw [hr, hended, hx]
    exact hsub.cons_cons x
  · intro y hy; simp [hshape] at hy
  · intro y hy d hd hdx
    have hy : y ∈ rootIds m.now.used := by rw [← hshape.2]; exact hy
    have hd : d ∈ S'.ended := hd
    rw [hended] at hd
    rcases List.mem_cons.mp hd with rfl | hd
    · rfl
    · exact h.endedWrote y hy d hd hdx
  · exact h.nowInv.step hs
  · exact OwnTop_step h.nowInv h.ownTop hs
  · exact h.queue.snoc_ev hs
  · exact h.doneRoots
  · exact h.knownHead
  · exact Nat.le_trans h.knownLe ho
  · intro it hi
    obtain ⟨i1, i2⟩ := hit.1 it hi
    exact ⟨i1, fun o ho' => ⟨Nat.le_trans (i2 o ho').1 ho, (i2 o ho').2⟩⟩
  · exact hit.2
  · exact ⟨h.rel.wf, h.rel.inv, h.rel.ids, fun acc ha => h.rel.ra acc (Obs_mono h.txn hS acc ha)⟩
  · exact h.ord
  · intro S0 hc'
    obtain ⟨c1, c2⟩ := h.clone S0 hc'
    exact ⟨c1, c2.step h.txn hS⟩

/-! ### Collection -/

/-- finish stamp of an ended transaction -/
def finOf (S : Sys) (x : Txnid) : Option Txnid := (S.ended.find? fun d => d.xid = x).map (·.stamp)

theorem finOf_iff {S : Sys} (hn : (S.ended.map (·.xid)).Nodup) {x f : Txnid} :
    finOf S x = some f ↔ ∃ d ∈ S.ended, d.xid = x ∧ d.stamp = f := by
  unfold finOf
  constructor
  · intro h
    rw [Option.map_eq_some_iff] at h
    obtain ⟨d, hd, hf⟩ := h
    exact ⟨d, List.mem_of_find?_eq_some hd, by simpa using List.find?_some hd, hf⟩
  · rintro ⟨d, hd, hx, hf⟩
    cases hfind : S.ended.find? (fun d => decide (d.xid = x)) with
    | none => have := List.find?_eq_none.mp hfind d hd; simp [hx] at this
    | some d' =>
      have hd' := List.mem_of_find?_eq_some hfind
      have hx' : d'.xid = x := by simpa using List.find?_some hfind
      rw [inj_of_nodup_map hn d' hd' d hd (by rw [hx, hx'])]
      simp [hf]

/-- Which ids may be dropped below by simple collection. -/
theorem simple_ok {init m} (h : MInv init m) (o : Txnid) (ho : o ≤ m.sys.mgr.oldest) (l : List Txnid)
    (hl : l.Sublist (m.now.chain.head?.toList ++ m.sys.ended.map (·.xid)))
    (hw : ∀ x ∈ l, ∀ d ∈ m.sys.ended, d.xid = x → d.wrote = true) :
    ∀ acc, Obs m.sys acc → ∀ x ∈ l, x < o → acc x = true := by
  intro acc hacc x hx hlt
  rcases List.mem_append.mp (hl.subset hx) with hx' | hx'
  · exfalso
    cases hh : m.now.chain.head? with
    | none => simp [hh] at hx'
    | some y =>
      simp [hh] at hx'
      subst hx'
      have := h.txn.oldestLive x (h.headLive hh); omega
  · obtain ⟨d, hd, rfl⟩ := List.mem_map.mp hx'
    rcases hacc with ⟨s, hs, rfl⟩ | hacc
    · rw [sees_iff]
      right
      refine ⟨d, hd, rfl, ?_⟩
      apply Classical.byContradiction
      intro hge
      have hos := h.txn.oldestSnap s hs
      have hlive : d.xid ∈ s.live :=
        (h.txn.snapLive s hs d.xid).mpr ⟨by omega, Or.inr ⟨d, hd, rfl, by omega⟩⟩
      obtain ⟨t, ht, hb⟩ := h.txn.refsHas d hd (hw d.xid hx d hd rfl) s hs hlive
      have := h.txn.oldestRef t ht
      omega
    · exact hacc d hd

theorem over_all {init m} (h : MInv init m) (S0 : Sys) (hI0 : Inv S0) (hL : Later S0 m.sys) (l : List Txnid)
    (hl : l.Sublist (m.now.chain.head?.toList ++ m.sys.ended.map (·.xid)))
    (hg : ∀ x ∈ l, x ∈ S0.mgr.live ∨ x ∈ S0.ended.map (·.xid)) :
    l.Pairwise (Over S0.mgr.gcState (finOf m.sys)) := by
  obtain ⟨pre, hpre⟩ := hL.ended
  have hnd := h.txn.endedNodup
  have hdisj : ∀ d ∈ S0.ended, d.xid ∉ S0.mgr.live := by
    intro d hd hm
    obtain ⟨r, hr, _, hrx⟩ := (mem_live hI0).mp hm
    exact hI0.endedNe d hd r hr hrx.symm
  have key : (m.now.chain.head?.toList ++ m.sys.ended.map (·.xid)).Pairwise (fun a b =>
      (a ∈ S0.mgr.live ∨ a ∈ S0.ended.map (·.xid)) → Over S0.mgr.gcState (finOf m.sys) a b) := by
    rw [List.pairwise_append]
    refine ⟨?_, ?_, ?_⟩
    · cases m.now.chain.head? <;> simp
    · rw [hpre, List.map_append, List.pairwise_append]
      have hpreLive : ∀ a ∈ pre.map (·.xid), a ∉ S0.ended.map (·.xid) := by
        intro a ha hb
        rw [hpre, List.map_append, List.nodup_append] at hnd
        exact hnd.2.2 a ha a hb rfl
      refine ⟨?_, ?_, ?_⟩
      · rw [List.pairwise_iff_forall_sublist]
        intro a b hab hga
        have ha : a ∈ pre.map (·.xid) := hab.subset (List.mem_cons_self ..)
        have hal : a ∈ S0.mgr.live := hga.resolve_right (hpreLive a ha)
        exact ⟨fun _ => hal, fun fa fb h1 => absurd hal h1⟩
      · have hdesc := h.endedDesc
        rw [hpre, List.pairwise_append] at hdesc
        rw [List.pairwise_map]
        apply (hdesc.2.1).imp_of_mem
        intro a b ha hb hab _
        refine ⟨fun hbl => absurd hbl (hdisj b hb), ?_⟩
        intro fa fb _ _ hfa hfb
        obtain ⟨a', ha', hax, hfa⟩ := (finOf_iff hnd).mp hfa
        obtain ⟨b', hb', hbx, hfb⟩ := (finOf_iff hnd).mp hfb
        have ha2 : a ∈ m.sys.ended := by rw [hpre]; exact List.mem_append_right _ ha
        have hb2 : b ∈ m.sys.ended := by rw [hpre]; exact List.mem_append_right _ hb
        rw [inj_of_nodup_map hnd a' ha' a ha2 hax] at hfa
        rw [inj_of_nodup_map hnd b' hb' b hb2 hbx] at hfb
        omega
      · intro a ha b _ hga
        have hal : a ∈ S0.mgr.live := hga.resolve_right (hpreLive a ha)
        exact ⟨fun _ => hal, fun fa fb h1 => absurd hal h1⟩
    · intro a ha b _ hga
      cases hh : m.now.chain.head? with
      | none => simp [hh] at ha
      | some y =>
        simp [hh] at ha; subst ha
        have hal : a ∈ S0.mgr.live := by
          apply hga.resolve_right
          intro hm
          obtain ⟨d, hd, hdx⟩ := List.mem_map.mp hm
          obtain ⟨q, hq, hqx, _⟩ := h.openHead a hh
          exact h.txn.endedNe d (by rw [hpre]; exact List.mem_append_right _ hd) q hq (by rw [hdx, hqx])
        exact ⟨fun _ => hal, fun fa fb h1 => absurd hal h1⟩
  exact (key.sublist hl).imp_of_mem (fun {a b} ha _ hab => hab (hg a ha))

theorem known_all {init m} (h : MInv init m) (S0 : Sys) (hI0 : Inv S0) (hL : Later S0 m.sys) (x : Txnid)
    (hg : x ∈ S0.mgr.live ∨ x ∈ S0.ended.map (·.xid))
    (hw : ∀ d ∈ m.sys.ended, d.xid = x → d.wrote = true) :
    Known S0.mgr.gcState S0.mgr.lastXid (finOf m.sys) x := by
  by_cases hlive : x ∈ S0.mgr.live
  · exact Or.inl hlive
  · obtain ⟨d, hd, rfl⟩ := List.mem_map.mp (hg.resolve_left hlive)
    obtain ⟨pre, hpre⟩ := hL.ended
    have hd2 : d ∈ m.sys.ended := by rw [hpre]; exact List.mem_append_right _ hd
    have hle := hI0.endedLe d hd
    right
    refine ⟨hlive, ?_, d.stamp, (finOf_iff h.txn.endedNodup).mpr ⟨d, hd2, rfl, rfl⟩, hle.2.1, hle.2.2, ?_, ?_⟩
    · intro hm
      obtain ⟨s, hs, hid⟩ := List.mem_map.mp hm
      exact hI0.snapNeE s hs d hd hid
    · intro t ht hb
      obtain ⟨d', hd', _, hx', he⟩ := hI0.refsOf t ht
      rw [inj_of_nodup_map hI0.endedNodup d' hd' d hd (by rw [hx', hb])] at he
      exact he
    · by_cases hex : ∃ t ∈ S0.mgr.gcState.refs, t.beginId = d.xid
      · exact Or.inl hex
      · right
        rintro sid hsid ⟨h1, h2⟩
        obtain ⟨s, hs, rfl⟩ := List.mem_map.mp hsid
        apply hex
        exact hI0.refsHas d hd (hw d hd2 rfl) s hs
          ((hI0.snapLive s hs d.xid).mpr ⟨h1, Or.inr ⟨d, hd, rfl, h2⟩⟩)

theorem reader_all {init m} (h : MInv init m) (S0 : Sys) (hL : Later S0 m.sys)
    (acc : Txnid → Bool) (ha : Obs m.sys acc) :
    Reader S0.mgr.gcState S0.mgr.lastXid (finOf m.sys) acc := by
  have hnd := h.txn.endedNodup
  rcases ha with ⟨s, hs, rfl⟩ | ha
  · have hval : ∀ x f, finOf m.sys x = some f → sees m.sys s x = decide (f < s.id) := by
      intro x f hf
      obtain ⟨d, hd, rfl, rfl⟩ := (finOf_iff hnd).mp hf
      rw [Bool.eq_iff_iff, sees_iff, decide_eq_true_eq]
      constructor
      · rintro (h1 | ⟨d', hd', hx', hlt⟩)
        · obtain ⟨r, hr, hrx, _⟩ := h.txn.snapRoot s hs
          exact absurd (by rw [h1, hrx]) (h.txn.endedNe d hd r hr)
        · rw [inj_of_nodup_map hnd d' hd' d hd hx'] at hlt; exact hlt
      · intro hlt; exact Or.inr ⟨d, hd, rfl, hlt⟩
    rcases hL.snaps s hs with h1 | h1
    · exact Or.inl ⟨s.id, List.mem_map.mpr ⟨s, h1, rfl⟩, fun x f _ hf _ => hval x f hf⟩
    · refine Or.inr fun x f _ hf hle => ?_
      rw [hval x f hf]; simp; omega
  · refine Or.inr fun x f _ hf _ => ?_
    obtain ⟨d, hd, rfl, _⟩ := (finOf_iff hnd).mp hf
    exact ha d hd

/-- What the leaf steps need to know about the ids on a stack. -/
theorem ids_ok {init m} (h : MInv init m) {u : Ule} {d : Row} (ho : Ord u d) (hd : d.used <:+ m.now.used) :
    (upper u.cux).Sublist (m.now.chain.head?.toList ++ m.sys.ended.map (·.xid)) ∧
    ∀ x ∈ upper u.cux, ∀ e ∈ m.sys.ended, e.xid = x → e.wrote = true := by
  obtain ⟨r, hr, hs⟩ := h.nowRoots
  have h1 : (upper u.cux).Sublist (leafIds u) := List.sublist_append_right ..
  have h3 : (rootIds d.used).Sublist (rootIds m.now.used) := by
    obtain ⟨t, ht⟩ := hd
    unfold rootIds
    rw [← ht, List.filterMap_append]
    exact List.sublist_append_right ..
  have h4 := h1.trans (ho.1.trans h3)
  refine ⟨?_, fun x hx e he hex => h.endedWrote x (h4.subset hx) e he hex⟩
  rw [hr] at h4
  exact h4.trans ((List.Sublist.refl _).append hs)

theorem collect_ok {init m} (h : MInv init m) {u : Ule} {d : Row} (hR : RO (Obs m.sys) init u d) (ho : Ord u d)
    (hd : d.used <:+ m.now.used) :
    m.collectFull u ≠ .crash ∧ ∀ u', m.collectFull u = .ok u' → RO (Obs m.sys) init u' d ∧ Ord u' d := by
  unfold M.collectFull
  cases hc : m.clone with
  | none => simp
  | some S0 =>
    simp only
    split
    · rename_i hg
      obtain ⟨hI0, hL⟩ := h.clone S0 hc
      obtain ⟨hids, hwr⟩ := ids_ok h ho hd
      have hg' : ∀ x ∈ upper u.cux, x ∈ S0.mgr.live ∨ x ∈ S0.ended.map (·.xid) := by
        intro x hx
        obtain ⟨q, hq, rfl⟩ := List.mem_map.mp hx
        exact hg q hq
      have hsn : S0.mgr.gcState.snapIds.Pairwise (· < ·) := by
        show (S0.mgr.snaps.map (·.id)).Pairwise _
        rw [List.pairwise_map]; exact hI0.snapsAsc
      obtain ⟨u', h1, h2, h3⟩ := RO_full S0.mgr.gcState S0.mgr.lastXid (finOf m.sys) hR ho hsn
        (fun x hx => known_all h S0 hI0 hL x (hg' x hx) (hwr x hx))
        (over_all h S0 hI0 hL _ hids hg')
        (fun acc ha => reader_all h S0 hL acc ha)
      rw [h1]
      refine ⟨by simp [Outcome.ofCode], ?_⟩
      intro v hv
      simp only [Outcome.ofCode, Outcome.ok.injEq] at hv
      subst hv; exact ⟨h2, h3⟩
    · simp

theorem settle_ok {init m} (h : MInv init m) {u : Ule} {d : Row} (hR : RO (Obs m.sys) init u d) (ho : Ord u d)
    (hd : d.used <:+ m.now.used) (hk : ∀ x, d.chain.head? = some x → m.known ≤ x)
    (o : Txnid) (hol : o ≤ m.sys.mgr.oldest) (gc : Bool) :
    m.settle o gc u ≠ .crash ∧ ∀ u', m.settle o gc u = .ok u' → RO (Obs m.sys) init u' d ∧ Ord u' d := by
  obtain ⟨u1, h1, h2, h3⟩ := RO_promote m.known hR ho hk
  unfold M.settle
  rw [h1]
  simp only [Outcome.ofCode, Outcome.bind]
  obtain ⟨hids, hwr⟩ := ids_ok h h3 hd
  obtain ⟨h4, h5⟩ := RO_simple o h2 h3 (simple_ok h o hol _ hids hwr)
  cases gc with
  | false =>
    simp only [Bool.false_eq_true, if_false]
    refine ⟨by simp, ?_⟩
    intro u' hu
    simp only [Outcome.ok.injEq] at hu
    subst hu
    exact RO_drop h4 h5
  | true =>
    simp only [if_true]
    obtain ⟨c1, c2⟩ := collect_ok h h4 h5 hd
    cases hcf : m.collectFull (simpleGc o u1) with
    | crash => exact absurd hcf c1
    | impossible => simp
    | ok v =>
      obtain ⟨c3, c4⟩ := c2 v hcf
      refine ⟨by simp, ?_⟩
      intro u' hu
      simp only [Outcome.ok.injEq] at hu
      subst hu
      exact RO_drop c3 c4

theorem minv_deliver {init m} (h : MInv init m) (o : Txnid) (gc : Bool) :
    m.deliver init o gc ≠ .crash ∧ ∀ m', m.deliver init o gc = .ok m' → MInv init m' := by
  unfold M.deliver
  cases hq : m.queue with
  | nil => simp
  | cons it q =>
    obtain ⟨c, act⟩ := it
    have hqok := h.queue
    rw [hq] at hqok
    obtain ⟨hc, hqok⟩ := hqok
    simp only at hc
    have hitems := h.items
    have hpw := h.itemsPw
    rw [hq] at hitems hpw
    rw [List.pairwise_cons] at hpw
    have hit := hitems ⟨c, act⟩ (List.mem_cons_self ..)
    have hrest : ∀ i ∈ q, ItemGe m.known i ∧
        ∀ o, i.act = .known o → o ≤ m.sys.mgr.oldest ∧ ∀ x, i.chain.head? = some x → o ≤ x :=
      fun i hi => hitems i (List.mem_cons_of_mem _ hi)
    cases act with
    | known k =>
      simp only at hqok ⊢
      refine ⟨by simp, ?_⟩
      intro m' hm
      simp only [Outcome.ok.injEq] at hm
      subst hm
      have hk := hit.2 k rfl
      refine ⟨h.txn, h.endedDesc, h.nowRoots, h.openHead, h.endedWrote, h.nowInv, h.ownTop, hqok, h.doneRoots,
        ?_, hk.1, ?_, hpw.2, h.rel, h.ord, h.clone⟩
      · intro x hx; exact hk.2 x (by rw [hc]; exact hx)
      · intro i hi; exact ⟨hpw.1 i hi k rfl, (hrest i hi).2⟩
    | ev e =>
      simp only at hqok
      obtain ⟨d', hd, hqok⟩ := hqok
      have hR := h.rel.toR (Obs.true _)
      obtain ⟨u1, hu1, hR1⟩ := R_step hR hd
      have hRO1 : RO (Obs m.sys) init u1 d' :=
        ⟨hR1.wf, hR1.inv, hR1.ids, fun acc ha => RA_step hR (h.rel.ra acc ha) hd hu1⟩
      have hO1 := Ord_step hR h.ord h.doneRoots hd hu1
      have hroot := step_root hd
      have hdr : ∃ r, rootIds d'.used = d'.chain.head?.toList ++ r := by
        obtain ⟨r, hr⟩ := h.doneRoots
        rcases hroot with ⟨h1, h2, _⟩ | ⟨y, he, h1, h2, h3, h4⟩ | ⟨y, he, h1, h2, h3⟩
        · exact ⟨r, by rw [h2, h1]; exact hr⟩
        · rw [h1] at hr
          exact ⟨r, by rw [h3, h2, hr]; rfl⟩
        · exact ⟨rootIds d'.used, by rw [h2]; rfl⟩
      have hkh : ∀ x, d'.chain.head? = some x → m.known ≤ x := by
        intro x hx
        rcases hroot with ⟨h1, h2, _⟩ | ⟨y, he, h1, h2, h3, h4⟩ | ⟨y, he, h1, h2, h3⟩
        · exact h.knownHead x (by rw [← h1]; exact hx)
        · rw [h2] at hx; simp at hx; subst hx
          exact hit.1.2 (by rw [hc]; exact h1) y (by rw [he])
        · rw [h2] at hx; simp at hx
      simp only [hd, Option.getD_some]
      cases hmsg : e.msg c with
      | none =>
        simp only
        refine ⟨by simp, ?_⟩
        intro m' hm
        simp only [Outcome.ok.injEq] at hm
        subst hm
        have hu : u1 = m.leaf := by
          unfold stepMsg at hu1
          rw [← hc, hmsg] at hu1
          simp only [Option.some.injEq] at hu1
          exact hu1.symm
        subst hu
        exact ⟨h.txn, h.endedDesc, h.nowRoots, h.openHead, h.endedWrote, h.nowInv, h.ownTop, hqok, hdr,
          hkh, h.knownLe, hrest, hpw.2, hRO1, hO1, h.clone⟩
      | some msg =>
        obtain ⟨xs, op⟩ := msg
        simp only
        split
        · rename_i hol
          have hu : msgModifyU m.leaf xs op = some u1 := by
            unfold stepMsg at hu1
            rw [← hc, hmsg] at hu1
            exact hu1
          rw [hu]
          simp only [Outcome.ofCode, Outcome.bind]
          obtain ⟨s1, s2⟩ := settle_ok h hRO1 hO1 hqok.used hkh o hol gc
          cases hst : m.settle o gc u1 with
          | crash => exact absurd hst s1
          | impossible => simp
          | ok v =>
            obtain ⟨s3, s4⟩ := s2 v hst
            refine ⟨by simp, ?_⟩
            intro m' hm
            simp only [Outcome.ok.injEq] at hm
            subst hm
            exact ⟨h.txn, h.endedDesc, h.nowRoots, h.openHead, h.endedWrote, h.nowInv, h.ownTop, hqok, hdr,
              hkh, h.knownLe, hrest, hpw.2, s3, s4, h.clone⟩
        · simp

theorem minv_step {init m} (h : MInv init m) (e : MEv) :
    m.step init e ≠ .crash ∧ ∀ m', m.step init e = .ok m' → MInv init m' := by
  cases e with
  | txn e =>
    simp only [M.step, M.txnStep]
    have hgen : (∀ x, e = .finish x → m.now.chain.head? ≠ some x) →
        (m.sys.step e).bind (fun s => .ok { m with sys := s }) ≠ .crash ∧
        ∀ m', (m.sys.step e).bind (fun s => .ok { m with sys := s }) = .ok m' → MInv init m' := by
      intro hne
      cases hS : m.sys.step e with
      | crash => exact absurd hS (inv_step h.txn e).1
      | impossible => simp [Outcome.bind]
      | ok S' =>
        simp only [Outcome.bind]
        refine ⟨by simp, ?_⟩
        intro m' hm
        simp only [Outcome.ok.injEq] at hm
        subst hm
        exact minv_sys h hS hne
    split
    · rename_i x
      split
      · rename_i hx
        split
        · rename_i r' hr
          split
          · rename_i hlen
            have hch : m.now.chain = [x] := by
              cases hcc : m.now.chain with
              | nil => simp [hcc] at hx
              | cons a c =>
                rw [hcc] at hlen hx
                simp at hlen hx
                subst hx; subst hlen; rfl
            cases hS : m.sys.step (.finish x) with
            | crash => exact absurd hS (inv_step h.txn _).1
            | impossible => simp [Outcome.bind]
            | ok S' =>
              simp only [Outcome.bind]
              refine ⟨by simp, ?_⟩
              intro m' hm
              simp only [Outcome.ok.injEq] at hm
              subst hm
              exact minv_finish h hch hS hr
          · simp
        · simp
      · rename_i hx
        exact hgen (fun y hy => by cases hy; exact hx)
    · rename_i hnf
      exact hgen (fun y hy => absurd hy (hnf y))
  | row e =>
    simp only [M.step, M.rowStep]
    cases hs : m.now.step init e with
    | none => simp
    | some r' =>
      simp only
      split
      · simp
      · rename_i hfin
        split
        · rename_i x hch
          cases hS : m.sys.step (.write x) with
          | crash => exact absurd hS (inv_step h.txn _).1
          | impossible => simp [Outcome.bind]
          | ok S' =>
            simp only [Outcome.bind]
            refine ⟨by simp, ?_⟩
            intro m' hm
            simp only [Outcome.ok.injEq] at hm
            subst hm
            have h1 := minv_sys h hS (by simp)
            exact minv_row h1 hs hfin (fun y hy _ => by cases hy; exact write_root hS)
        · rename_i hnb
          simp only [Outcome.bind]
          refine ⟨by simp, ?_⟩
          intro m' hm
          simp only [Outcome.ok.injEq] at hm
          subst hm
          exact minv_row h hs hfin (fun y hy hnil => absurd hnil (fun hc => hnb y hy hc))
  | learn o =>
    simp only [M.step]
    split
    · rename_i ho
      refine ⟨by simp, ?_⟩
      intro m' hm
      simp only [Outcome.ok.injEq] at hm
      subst hm
      have hhead : ∀ x, m.now.chain.head? = some x → ∀ k, k ≤ m.sys.mgr.oldest → k ≤ x := by
        intro x hx k hk
        have := h.txn.oldestLive x (h.headLive hx); omega
      have hit := items_snoc h ⟨m.now.chain, .known o⟩
        (fun k hk => ⟨fun x hx => hhead x hx k hk, fun _ x hx => by simp at hx⟩)
        (fun k hk => by
          simp only [Act.known.injEq] at hk; subst hk
          exact ⟨ho, fun x hx => hhead x hx o ho⟩)
      exact ⟨h.txn, h.endedDesc, h.nowRoots, h.openHead, h.endedWrote, h.nowInv, h.ownTop,
        h.queue.snoc_known o, h.doneRoots, h.knownHead, h.knownLe, hit.1, hit.2, h.rel, h.ord, h.clone⟩
    · simp
  | deliver o gc => exact minv_deliver h o gc
  | collect =>
    simp only [M.step]
    obtain ⟨u1, h1, h2, h3⟩ := RO_promote m.known h.rel h.ord h.knownHead
    rw [h1]
    simp only [Outcome.ofCode, Outcome.bind]
    obtain ⟨c1, c2⟩ := collect_ok h h2 h3 h.queue.used
    cases hcf : m.collectFull u1 with
    | crash => exact absurd hcf c1
    | impossible => simp
    | ok v =>
      obtain ⟨c3, c4⟩ := c2 v hcf
      obtain ⟨c5, c6⟩ := RO_drop c3 c4
      refine ⟨by simp, ?_⟩
      intro m' hm
      simp only [Outcome.ok.injEq] at hm
      subst hm
      exact ⟨h.txn, h.endedDesc, h.nowRoots, h.openHead, h.endedWrote, h.nowInv, h.ownTop, h.queue, h.doneRoots,
        h.knownHead, h.knownLe, h.items, h.itemsPw, c5, c6, h.clone⟩
  | capture =>
    simp only [M.step]
    refine ⟨by simp, ?_⟩
    intro m' hm
    simp only [Outcome.ok.injEq] at hm
    subst hm
    refine ⟨h.txn, h.endedDesc, h.nowRoots, h.openHead, h.endedWrote, h.nowInv, h.ownTop, h.queue, h.doneRoots,
        h.knownHead, h.knownLe, h.items, h.itemsPw, h.rel, h.ord, ?_⟩
    intro S0 hc
    simp only [Option.some.injEq] at hc
    subst hc
    exact ⟨h.txn, Later.refl _⟩

theorem minv_run {init m} (h : MInv init m) (es : List MEv) :
    m.run init es ≠ .crash ∧ ∀ m', m.run init es = .ok m' → MInv init m' := by
  induction es generalizing m with
  | nil =>
    refine ⟨by simp [M.run], ?_⟩
    intro m' hm; simp only [M.run, Outcome.ok.injEq] at hm; subst hm; exact h
  | cons e es ih =>
    have hs := minv_step h e
    simp only [M.run]
    cases hc : m.step init e with
    | ok m1 => exact ih (hs.2 m1 hc)
    | impossible => simp [Outcome.bind]
    | crash => exact absurd hc hs.1

end Verif.Mvcc
