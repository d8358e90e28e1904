import Verif.Txn.Sys
import Verif.Util

/-! The inductive invariant of the transaction system and its preservation by every call. -/
namespace Verif.Txn

/-! ### Dropping references -/

/-- Closed form of both ways of dropping a snapshot's references. -/
def decAll (refs : List RefTuple) (live : List Txnid) : List RefTuple :=
  refs.filterMap fun t =>
    if t.beginId ∈ live then (if t.refs - 1 = 0 then none else some { t with refs := t.refs - 1 })
    else some t

theorem decAll_nil_live (refs : List RefTuple) : decAll refs [] = refs := by
  simp [decAll]

theorem noteEndByLiveList_eq (refs : List RefTuple) (live : List Txnid)
    (h : ∀ t ∈ refs, 0 < t.refs) : noteEndByLiveList refs live = some (decAll refs live) := by
  induction refs with
  | nil => simp [noteEndByLiveList, decAll]
  | cons t ts ih =>
    have ih := ih (fun t ht => h t (List.mem_cons_of_mem _ ht))
    have ht := h t (List.mem_cons_self ..)
    unfold noteEndByLiveList
    rw [ih]
    by_cases hc : t.beginId ∈ live
    · simp only [List.contains_iff_mem, hc, if_true, decAll, List.filterMap_cons,
        if_neg (show ¬ t.refs = 0 by omega), Option.map_some]
      by_cases h1 : t.refs - 1 = 0 <;> simp [h1]
    · simp [hc, decAll, List.filterMap_cons]

theorem decAll_single_notin (refs : List RefTuple) (x : Txnid) (h : ∀ t ∈ refs, t.beginId ≠ x) :
    decAll refs [x] = refs := by
  induction refs with
  | nil => rfl
  | cons t ts ih =>
    have := h t (List.mem_cons_self ..)
    have ih := ih (fun t ht => h t (List.mem_cons_of_mem _ ht))
    rw [show decAll (t :: ts) [x] = t :: decAll ts [x] by simp [decAll, this], ih]

theorem decRef_eq (refs : List RefTuple) (x : Txnid) (h : ∀ t ∈ refs, 0 < t.refs)
    (hn : refs.Pairwise (fun a b => a.beginId < b.beginId)) :
    decRef refs x = some (decAll refs [x]) := by
  induction refs with
  | nil => rfl
  | cons t ts ih =>
    have ht := h t (List.mem_cons_self ..)
    have hn' := List.pairwise_cons.mp hn
    unfold decRef
    by_cases hx : t.beginId = x
    · have htail : decAll ts [x] = ts := decAll_single_notin ts x (fun t' ht' => by
        have := hn'.1 t' ht'; omega)
      have hc : decAll (t :: ts) [x] =
          (if t.refs - 1 = 0 then decAll ts [x] else { t with refs := t.refs - 1 } :: decAll ts [x]) := by
        simp only [decAll, List.filterMap_cons, hx, List.mem_singleton, if_true]
        by_cases h1 : t.refs - 1 = 0 <;> simp [h1]
      rw [hc, htail, if_pos hx, if_neg (show ¬ t.refs = 0 by omega)]
      by_cases h1 : t.refs - 1 = 0 <;> simp [h1]
    · rw [if_neg hx, ih (fun t ht => h t (List.mem_cons_of_mem _ ht)) hn'.2]
      simp [decAll, List.filterMap_cons, hx]

theorem mem_decAll {refs : List RefTuple} {live : List Txnid} {t : RefTuple} :
    t ∈ decAll refs live ↔ (t ∈ refs ∧ t.beginId ∉ live) ∨
      ∃ t0 ∈ refs, t0.beginId ∈ live ∧ t0.refs - 1 ≠ 0 ∧ t = { t0 with refs := t0.refs - 1 } := by
  simp only [decAll, List.mem_filterMap]
  constructor
  · rintro ⟨t0, h0, h⟩
    by_cases hl : t0.beginId ∈ live
    · by_cases h1 : t0.refs - 1 = 0
      · simp [hl, h1] at h
      · simp [hl, h1] at h; exact Or.inr ⟨t0, h0, hl, h1, h.symm⟩
    · simp [hl] at h; subst h; exact Or.inl ⟨h0, hl⟩
  · rintro (⟨h, hl⟩ | ⟨t0, h0, hl, h1, rfl⟩)
    · exact ⟨t, h, by simp [hl]⟩
    · exact ⟨t0, h0, by simp [hl, h1]⟩

theorem decAll_pos {refs : List RefTuple} {live : List Txnid} (h : ∀ t ∈ refs, 0 < t.refs) :
    ∀ t ∈ decAll refs live, 0 < t.refs := by
  intro t ht
  rcases mem_decAll.mp ht with ⟨h1, _⟩ | ⟨t0, _, _, h1, rfl⟩
  · exact h t h1
  · show 0 < t0.refs - 1; omega

theorem decAll_asc {refs : List RefTuple} {live : List Txnid}
    (h : refs.Pairwise (fun a b => a.beginId < b.beginId)) :
    (decAll refs live).Pairwise (fun a b => a.beginId < b.beginId) := by
  unfold decAll
  rw [List.pairwise_filterMap]
  refine h.imp ?_
  intro a b hab a' ha b' hb
  have e : ∀ t t' : RefTuple, (if t.beginId ∈ live then
      (if t.refs - 1 = 0 then none else some { t with refs := t.refs - 1 }) else some t) = some t' →
      t'.beginId = t.beginId := by
    intro t t' h
    split at h
    · split at h
      · cases h
      · cases h; rfl
    · cases h; rfl
  have := e _ _ ha
  have := e _ _ hb
  omega

theorem decAll_cons (refs : List RefTuple) (x : Txnid) (xs : List Txnid) (hx : x ∉ xs) :
    decAll refs (x :: xs) = decAll (decAll refs [x]) xs := by
  unfold decAll
  rw [List.filterMap_filterMap]
  congr 1
  funext t
  by_cases h1 : t.beginId = x
  · by_cases h2 : t.refs - 1 = 0
    · simp [h1, h2]
    · simp [h1, h2, hx]
  · simp [h1]

theorem noteEndByRefXids_eq (live : List Txnid) (refs : List RefTuple)
    (h : ∀ t ∈ refs, 0 < t.refs) (hn : refs.Pairwise (fun a b => a.beginId < b.beginId))
    (hl : live.Nodup) : noteEndByRefXids refs live = some (decAll refs live) := by
  induction live generalizing refs with
  | nil => simp [noteEndByRefXids, decAll_nil_live]
  | cons x xs ih =>
    have hl' := List.nodup_cons.mp hl
    simp only [noteEndByRefXids, List.foldlM_cons, decRef_eq refs x h hn]
    rw [decAll_cons _ _ _ hl'.1]
    exact ih _ (decAll_pos h) (decAll_asc hn) hl'.2

theorem removeSnap_eq (m : Mgr) (s : Snap) (h : ∀ t ∈ m.refs, 0 < t.refs)
    (hn : m.refs.Pairwise (fun a b => a.beginId < b.beginId)) (hl : s.live.Nodup) :
    m.removeSnap s = some { m with snaps := m.snaps.erase s, refs := decAll m.refs s.live } := by
  unfold Mgr.removeSnap
  by_cases h1 : m.refs.length > 0 ∧ s.live.length > 0
  · simp only [h1, and_self, if_true]
    split
    · rw [noteEndByLiveList_eq _ _ h]; rfl
    · rw [noteEndByRefXids_eq _ _ h hn hl]; rfl
  · simp only [h1, if_false]
    have : decAll m.refs s.live = m.refs := by
      rcases Nat.eq_zero_or_pos m.refs.length with h0 | h0
      · rw [List.length_eq_zero_iff] at h0; rw [h0]; rfl
      · have : s.live.length = 0 := by omega
        rw [List.length_eq_zero_iff] at this; rw [this, decAll_nil_live]
    rw [this]

/-! ### The invariant -/

structure Inv (S : Sys) : Prop where
  liveEq : S.mgr.live = (S.roots.filter fun r => !r.readOnly).map (·.xid)
  rootsAsc : S.roots.Pairwise (fun a b => a.xid < b.xid)
  rootsLe : ∀ r ∈ S.roots, 0 < r.xid ∧ r.xid ≤ S.mgr.lastXid
  rw : ∀ r ∈ S.roots, r.wrote = true → r.readOnly = false
  rootSnap : ∀ r ∈ S.roots, ∀ s, r.snap = some s → s ∈ S.mgr.snaps ∧ s.root = r.xid
  snapsAsc : S.mgr.snaps.Pairwise (fun a b => a.id < b.id)
  snapsLe : ∀ s ∈ S.mgr.snaps, s.id ≤ S.mgr.lastXid
  snapRoot : ∀ s ∈ S.mgr.snaps, ∃ r ∈ S.roots, r.xid = s.root ∧ r.xid < s.id
  snapNeR : ∀ s ∈ S.mgr.snaps, ∀ r ∈ S.roots, s.id ≠ r.xid
  snapNeE : ∀ s ∈ S.mgr.snaps, ∀ e ∈ S.ended, s.id ≠ e.xid
  snapLive : ∀ s ∈ S.mgr.snaps, ∀ x, x ∈ s.live ↔
    x < s.id ∧ (x ∈ S.mgr.live ∨ ∃ e ∈ S.ended, e.xid = x ∧ s.id ≤ e.stamp)
  snapLiveAsc : ∀ s ∈ S.mgr.snaps, s.live.Pairwise (· < ·)
  endedNodup : (S.ended.map (·.xid)).Nodup
  endedNe : ∀ e ∈ S.ended, ∀ r ∈ S.roots, e.xid ≠ r.xid
  endedLe : ∀ e ∈ S.ended, 0 < e.xid ∧ e.xid ≤ e.stamp ∧ e.stamp ≤ S.mgr.lastXid
  refsAsc : S.mgr.refs.Pairwise (fun a b => a.beginId < b.beginId)
  refsOf : ∀ t ∈ S.mgr.refs, ∃ e ∈ S.ended, e.wrote = true ∧ e.xid = t.beginId ∧ t.endId = e.stamp + 1
  refsCount : ∀ t ∈ S.mgr.refs,
    t.refs = S.mgr.snaps.countP (fun s => decide (t.beginId ∈ s.live)) ∧ 0 < t.refs
  refsHas : ∀ e ∈ S.ended, e.wrote = true → ∀ s ∈ S.mgr.snaps, e.xid ∈ s.live →
    ∃ t ∈ S.mgr.refs, t.beginId = e.xid
  oldestLive : ∀ x ∈ S.mgr.live, S.mgr.oldest ≤ x
  oldestSnap : ∀ s ∈ S.mgr.snaps, S.mgr.oldest ≤ s.id
  oldestRef : ∀ t ∈ S.mgr.refs, S.mgr.oldest ≤ t.beginId
  oldestLe : S.mgr.oldest ≤ S.mgr.lastXid
  issuedAsc : S.issued.Pairwise (· > ·)
  issuedLe : ∀ x ∈ S.issued, x ≤ S.mgr.lastXid

theorem Inv.init (last : Txnid) : Inv (Sys.init last) := by
  constructor <;> simp [Sys.init, Mgr.init]

theorem mem_live {S : Sys} (h : Inv S) {x : Txnid} :
    x ∈ S.mgr.live ↔ ∃ r ∈ S.roots, r.readOnly = false ∧ r.xid = x := by
  rw [h.liveEq]; simp [and_assoc]

theorem live_asc {S : Sys} (h : Inv S) : S.mgr.live.Pairwise (· < ·) := by
  rw [h.liveEq, List.pairwise_map]
  exact h.rootsAsc.filter _

/-! ### The oldest referenced id -/

theorem calcOldest_spec (m : Mgr) (hl : m.live.Pairwise (· < ·))
    (hr : m.refs.Pairwise (fun a b => a.beginId < b.beginId))
    (hs : m.snaps.Pairwise (fun a b => a.id < b.id)) :
    (∀ x ∈ m.live, m.calcOldest ≤ x) ∧ (∀ t ∈ m.refs, m.calcOldest ≤ t.beginId) ∧
    (∀ s ∈ m.snaps, m.calcOldest ≤ s.id) ∧ m.calcOldest ≤ m.lastXid := by
  have key : m.calcOldest ≤ m.lastXid ∧
      (∀ x xs, m.live = x :: xs → m.calcOldest ≤ x) ∧
      (∀ t ts, m.refs = t :: ts → m.calcOldest ≤ t.beginId) ∧
      (∀ s ss, m.snaps = s :: ss → m.calcOldest ≤ s.id) := by
    unfold Mgr.calcOldest
    cases m.live <;> cases m.refs <;> cases m.snaps <;> simp <;> grind
  refine ⟨?_, ?_, ?_, key.1⟩
  · intro x hx
    cases hlv : m.live with
    | nil => simp [hlv] at hx
    | cons y ys =>
      have := key.2.1 _ _ hlv
      rw [hlv] at hx hl
      rcases List.mem_cons.mp hx with rfl | hx
      · exact this
      · have := (List.pairwise_cons.mp hl).1 x hx; omega
  · intro x hx
    cases hlv : m.refs with
    | nil => simp [hlv] at hx
    | cons y ys =>
      have := key.2.2.1 _ _ hlv
      rw [hlv] at hx hr
      rcases List.mem_cons.mp hx with rfl | hx
      · exact this
      · have := (List.pairwise_cons.mp hr).1 x hx; omega
  · intro x hx
    cases hlv : m.snaps with
    | nil => simp [hlv] at hx
    | cons y ys =>
      have := key.2.2.2 _ _ hlv
      rw [hlv] at hx hs
      rcases List.mem_cons.mp hx with rfl | hx
      · exact this
      · have := (List.pairwise_cons.mp hs).1 x hx; omega

theorem le_calcOldest (m : Mgr) (o : Txnid) (h1 : ∀ x ∈ m.live, o ≤ x)
    (h2 : ∀ t ∈ m.refs, o ≤ t.beginId) (h3 : ∀ s ∈ m.snaps, o ≤ s.id) (h4 : o ≤ m.lastXid) :
    o ≤ m.calcOldest := by
  unfold Mgr.calcOldest
  cases hl : m.live <;> cases hr : m.refs <;> cases hs : m.snaps <;> simp_all <;> grind

/-! ### Preservation -/

theorem pairwise_append_single {α : Type} {R : α → α → Prop} {l : List α} {a : α}
    (h : l.Pairwise R) (ha : ∀ b ∈ l, R b a) : (l ++ [a]).Pairwise R := by
  rw [List.pairwise_append]
  exact ⟨h, by simp, by simpa using ha⟩

/-- The two halves of starting a transaction: taking an id, then (maybe) a snapshot. -/
theorem inv_begin {S : Sys} (h : Inv S) (ro : Bool) (m1 : Mgr)
    (hm : m1 = { S.mgr with lastXid := S.mgr.lastXid + 1, live := if ro then S.mgr.live else S.mgr.live ++ [S.mgr.lastXid + 1] })
    : Inv { S with
      mgr := { m1 with oldest := m1.calcOldest }
      roots := S.roots ++ [⟨S.mgr.lastXid + 1, ro, false, none⟩]
      issued := (S.mgr.lastXid + 1) :: S.issued } := by
  have hasc : m1.live.Pairwise (· < ·) := by
    subst hm
    show (if ro then _ else _ : List Txnid).Pairwise _
    split
    · exact live_asc h
    · refine pairwise_append_single (live_asc h) ?_
      intro x hx
      obtain ⟨r, hr, _, rfl⟩ := (mem_live h).mp hx
      have := (h.rootsLe r hr).2; omega
  have hcalc := calcOldest_spec m1 hasc (by subst hm; exact h.refsAsc) (by subst hm; exact h.snapsAsc)
  have hmem : ∀ x, x ∈ m1.live ↔ x ∈ S.mgr.live ∨ (ro = false ∧ x = S.mgr.lastXid + 1) := by
    intro x; subst hm; cases ro <;> simp
  have e1 : m1.lastXid = S.mgr.lastXid + 1 := by subst hm; rfl
  have e2 : m1.snaps = S.mgr.snaps := by subst hm; rfl
  have e3 : m1.refs = S.mgr.refs := by subst hm; rfl
  constructor
  · subst hm; show (if ro then _ else _ : List Txnid) = _
    cases ro <;> simp [h.liveEq]
  · exact pairwise_append_single h.rootsAsc (fun r hr => by
      have := (h.rootsLe r hr).2; show _ < S.mgr.lastXid + 1; omega)
  · intro r hr
    show _ ∧ _ ≤ m1.lastXid
    rcases List.mem_append.mp hr with hr | hr
    · have := h.rootsLe r hr; omega
    · simp only [List.mem_singleton] at hr; subst hr
      show 0 < S.mgr.lastXid + 1 ∧ S.mgr.lastXid + 1 ≤ _; omega
  · intro r hr
    rcases List.mem_append.mp hr with hr | hr
    · exact h.rw r hr
    · simp only [List.mem_singleton] at hr; subst hr; simp
  · intro r hr s hs
    show s ∈ m1.snaps ∧ _
    rw [e2]
    rcases List.mem_append.mp hr with hr | hr
    · exact h.rootSnap r hr s hs
    · simp only [List.mem_singleton] at hr; subst hr; simp at hs
  · show m1.snaps.Pairwise _; rw [e2]; exact h.snapsAsc
  · show ∀ s ∈ m1.snaps, _ ≤ m1.lastXid; rw [e2, e1]
    intro s hs; have := h.snapsLe s hs; omega
  · show ∀ s ∈ m1.snaps, _; rw [e2]
    intro s hs; obtain ⟨r, hr, h1⟩ := h.snapRoot s hs
    exact ⟨r, List.mem_append_left _ hr, h1⟩
  · show ∀ s ∈ m1.snaps, _; rw [e2]
    intro s hs r hr
    rcases List.mem_append.mp hr with hr | hr
    · exact h.snapNeR s hs r hr
    · simp only [List.mem_singleton] at hr; subst hr
      have := h.snapsLe s hs; show _ ≠ S.mgr.lastXid + 1; omega
  · show ∀ s ∈ m1.snaps, _; rw [e2]; exact h.snapNeE
  · show ∀ s ∈ m1.snaps, ∀ x, _ ↔ _ ∧ (x ∈ m1.live ∨ _); rw [e2]
    intro s hs x
    rw [h.snapLive s hs x, hmem]
    have := h.snapsLe s hs
    constructor
    · rintro ⟨a, b | b⟩
      · exact ⟨a, Or.inl (Or.inl b)⟩
      · exact ⟨a, Or.inr b⟩
    · rintro ⟨a, (b | b) | b⟩
      · exact ⟨a, Or.inl b⟩
      · omega
      · exact ⟨a, Or.inr b⟩
  · show ∀ s ∈ m1.snaps, _; rw [e2]; exact h.snapLiveAsc
  · exact h.endedNodup
  · intro e he r hr
    rcases List.mem_append.mp hr with hr | hr
    · exact h.endedNe e he r hr
    · simp only [List.mem_singleton] at hr; subst hr
      have := h.endedLe e he; show _ ≠ S.mgr.lastXid + 1; omega
  · show ∀ e ∈ S.ended, _ ∧ _ ∧ _ ≤ m1.lastXid
    intro e he; have := h.endedLe e he; omega
  · show m1.refs.Pairwise _; rw [e3]; exact h.refsAsc
  · show ∀ t ∈ m1.refs, _; rw [e3]; exact h.refsOf
  · show ∀ t ∈ m1.refs, _ = m1.snaps.countP _ ∧ _; rw [e3, e2]; exact h.refsCount
  · show ∀ e ∈ S.ended, _ → ∀ s ∈ m1.snaps, _ → ∃ t ∈ m1.refs, _; rw [e3, e2]; exact h.refsHas
  · exact hcalc.1
  · exact hcalc.2.2.1
  · exact hcalc.2.1
  · exact hcalc.2.2.2
  · exact List.pairwise_cons.mpr ⟨fun x hx => by have := h.issuedLe x hx; omega, h.issuedAsc⟩
  · intro x hx
    show x ≤ m1.lastXid
    rcases List.mem_cons.mp hx with rfl | hx
    · omega
    · have := h.issuedLe x hx; omega

/-- Recording a snapshot for an open root. -/
theorem inv_snapshot {S : Sys} (h : Inv S) (x : Txnid) (hx : ∃ r ∈ S.roots, r.xid = x) :
    Inv { S with
      mgr := { S.mgr with lastXid := S.mgr.lastXid + 1, snaps := S.mgr.snaps ++ [⟨S.mgr.lastXid + 1, x, S.mgr.live⟩] }
      issued := (S.mgr.lastXid + 1) :: S.issued } := by
  have hs' : ∀ s, s ∈ S.mgr.snaps ++ [(⟨S.mgr.lastXid + 1, x, S.mgr.live⟩ : Snap)] ↔
      s ∈ S.mgr.snaps ∨ s = ⟨S.mgr.lastXid + 1, x, S.mgr.live⟩ := by simp
  obtain ⟨rx, hrx, rfl⟩ := hx
  have hrl := h.rootsLe rx hrx
  constructor
  · exact h.liveEq
  · exact h.rootsAsc
  · intro r hr; have := h.rootsLe r hr; show _ ∧ _ ≤ S.mgr.lastXid + 1; omega
  · exact h.rw
  · intro r hr s hs; have := h.rootSnap r hr s hs; exact ⟨List.mem_append_left _ this.1, this.2⟩
  · exact pairwise_append_single h.snapsAsc (fun s hs => by
      have := h.snapsLe s hs; show _ < S.mgr.lastXid + 1; omega)
  · intro s hs; show _ ≤ S.mgr.lastXid + 1
    rcases (hs' s).mp hs with hs | rfl
    · have := h.snapsLe s hs; omega
    · exact Nat.le_refl _
  · intro s hs
    rcases (hs' s).mp hs with hs | rfl
    · exact h.snapRoot s hs
    · exact ⟨rx, hrx, rfl, by show _ < S.mgr.lastXid + 1; omega⟩
  · intro s hs r hr
    rcases (hs' s).mp hs with hs | rfl
    · exact h.snapNeR s hs r hr
    · have := h.rootsLe r hr; show S.mgr.lastXid + 1 ≠ _; omega
  · intro s hs e he
    rcases (hs' s).mp hs with hs | rfl
    · exact h.snapNeE s hs e he
    · have := h.endedLe e he; show S.mgr.lastXid + 1 ≠ _; omega
  · intro s hs y
    rcases (hs' s).mp hs with hs | rfl
    · exact h.snapLive s hs y
    · show y ∈ S.mgr.live ↔ y < S.mgr.lastXid + 1 ∧ (y ∈ S.mgr.live ∨ _)
      constructor
      · intro hy
        obtain ⟨r, hr, _, rfl⟩ := (mem_live h).mp hy
        have := h.rootsLe r hr
        exact ⟨by omega, Or.inl hy⟩
      · rintro ⟨_, hy | ⟨e, he, _, hle⟩⟩
        · exact hy
        · have := h.endedLe e he; simp only at hle; omega
  · intro s hs
    rcases (hs' s).mp hs with hs | rfl
    · exact h.snapLiveAsc s hs
    · exact live_asc h
  · exact h.endedNodup
  · exact h.endedNe
  · intro e he; have := h.endedLe e he; show _ ∧ _ ∧ _ ≤ S.mgr.lastXid + 1; omega
  · exact h.refsAsc
  · exact h.refsOf
  · intro t ht
    obtain ⟨e, he, _, hxe, _⟩ := h.refsOf t ht
    have hnl : t.beginId ∉ S.mgr.live := by
      intro hl
      obtain ⟨r, hr, _, hrx⟩ := (mem_live h).mp hl
      exact h.endedNe e he r hr (by omega)
    have := h.refsCount t ht
    refine ⟨?_, this.2⟩
    simp only [List.countP_append, List.countP_singleton]
    rw [if_neg (by simpa using hnl)]
    exact this.1
  · intro e he hw s hs hes
    rcases (hs' s).mp hs with hs | rfl
    · exact h.refsHas e he hw s hs hes
    · obtain ⟨r, hr, _, hrx⟩ := (mem_live h).mp hes
      exact absurd hrx.symm (h.endedNe e he r hr)
  · exact h.oldestLive
  · intro s hs
    rcases (hs' s).mp hs with hs | rfl
    · exact h.oldestSnap s hs
    · have := h.oldestLe; show S.mgr.oldest ≤ S.mgr.lastXid + 1; omega
  · exact h.oldestRef
  · have := h.oldestLe; show S.mgr.oldest ≤ S.mgr.lastXid + 1; omega
  · exact List.pairwise_cons.mpr ⟨fun x hx => by have := h.issuedLe x hx; omega, h.issuedAsc⟩
  · intro x hx
    show x ≤ S.mgr.lastXid + 1
    rcases List.mem_cons.mp hx with rfl | hx
    · omega
    · have := h.issuedLe x hx; omega

theorem snaps_nodup {S : Sys} (h : Inv S) : S.mgr.snaps.Nodup := by
  have := h.snapsAsc
  refine this.imp ?_
  intro a b hab heq
  subst heq; omega

theorem countP_erase_of_mem {α : Type} [DecidableEq α] (p : α → Bool) (l : List α) (a : α) (h : a ∈ l) :
    l.countP p = (l.erase a).countP p + (if p a then 1 else 0) := by
  induction l with
  | nil => simp at h
  | cons b l ih =>
    by_cases hb : b = a
    · subst hb; simp [List.countP_cons]
    · have hm : a ∈ l := by
        rcases List.mem_cons.mp h with h | h
        · exact absurd h.symm hb
        · exact h
      rw [List.erase_cons_tail (by simpa using hb), List.countP_cons, List.countP_cons, ih hm]
      omega

/-- Dropping a recorded snapshot; the transactions owning it are told to forget it. -/
theorem inv_removeSnap {S : Sys} (h : Inv S) (s : Snap) (hs : s ∈ S.mgr.snaps) (roots' : List Root)
    (hf : ∃ f : Root → Root, roots' = S.roots.map f ∧
      ∀ r ∈ S.roots, (f r).xid = r.xid ∧ (f r).readOnly = r.readOnly ∧ (f r).wrote = r.wrote ∧
        ((f r).snap = none ∨ ((f r).snap = r.snap ∧ r.snap ≠ some s))) :
    Inv { S with
      mgr := { S.mgr with snaps := S.mgr.snaps.erase s, refs := decAll S.mgr.refs s.live }
      roots := roots' } := by
  obtain ⟨f, rfl, hf⟩ := hf
  have hsub : ∀ t, t ∈ S.mgr.snaps.erase s → t ∈ S.mgr.snaps := fun t ht => List.mem_of_mem_erase ht
  have hr' : ∀ r', r' ∈ S.roots.map f → ∃ r ∈ S.roots, f r = r' := by
    intro r' h'; simpa using h'
  have hxid : (S.roots.map f).Pairwise (fun a b => a.xid < b.xid) := by
    rw [List.pairwise_map]
    refine List.Pairwise.imp_of_mem ?_ h.rootsAsc
    intro a b ha hb hab
    rw [(hf a ha).1, (hf b hb).1]; exact hab
  constructor
  · show S.mgr.live = _
    rw [h.liveEq, List.filter_map, List.map_map]
    have : S.roots.filter ((fun r => !r.readOnly) ∘ f) = S.roots.filter (fun r => !r.readOnly) :=
      List.filter_congr (fun r hr => by simp [(hf r hr).2.1])
    rw [this]
    exact List.map_congr_left (fun r hr => by simp [(hf r (List.mem_filter.mp hr).1).1])
  · exact hxid
  · intro r' hq; obtain ⟨r, hr, rfl⟩ := hr' _ hq; rw [(hf r hr).1]; exact h.rootsLe r hr
  · intro r' hq; obtain ⟨r, hr, rfl⟩ := hr' _ hq; rw [(hf r hr).2.1, (hf r hr).2.2.1]; exact h.rw r hr
  · intro r' hq t ht; obtain ⟨r, hr, rfl⟩ := hr' _ hq
    rcases (hf r hr).2.2.2 with hn | ⟨he, hne⟩
    · rw [hn] at ht; cases ht
    · rw [he] at ht
      have := h.rootSnap r hr t ht
      rw [(hf r hr).1]
      refine ⟨?_, this.2⟩
      show t ∈ S.mgr.snaps.erase s
      rw [List.mem_erase_of_ne]
      · exact this.1
      · rintro rfl; exact hne ht
  · exact h.snapsAsc.sublist List.erase_sublist
  · intro t ht; exact h.snapsLe t (hsub t ht)
  · intro t ht
    obtain ⟨r, hr, h1, h2⟩ := h.snapRoot t (hsub t ht)
    exact ⟨f r, List.mem_map_of_mem hr, by rw [(hf r hr).1]; exact h1, by rw [(hf r hr).1]; exact h2⟩
  · intro t ht r' hq; obtain ⟨r, hr, rfl⟩ := hr' _ hq; rw [(hf r hr).1]
    exact h.snapNeR t (hsub t ht) r hr
  · intro t ht; exact h.snapNeE t (hsub t ht)
  · intro t ht; exact h.snapLive t (hsub t ht)
  · intro t ht; exact h.snapLiveAsc t (hsub t ht)
  · exact h.endedNodup
  · intro e he r' hq; obtain ⟨r, hr, rfl⟩ := hr' _ hq; rw [(hf r hr).1]; exact h.endedNe e he r hr
  · exact h.endedLe
  · exact decAll_asc h.refsAsc
  · intro t ht
    rcases mem_decAll.mp ht with ⟨h1, _⟩ | ⟨t0, h0, _, _, rfl⟩
    · exact h.refsOf t h1
    · exact h.refsOf t0 h0
  · intro t ht
    have hcnt := countP_erase_of_mem (fun s : Snap => decide (t.beginId ∈ s.live)) S.mgr.snaps s hs
    rcases mem_decAll.mp ht with ⟨h1, h2⟩ | ⟨t0, h0, h1, h2, rfl⟩
    · have := h.refsCount t h1
      refine ⟨?_, this.2⟩
      show t.refs = (S.mgr.snaps.erase s).countP _
      simp only [h2, decide_false, Bool.false_eq_true, if_false] at hcnt
      omega
    · have := h.refsCount t0 h0
      have hcnt := countP_erase_of_mem (fun s : Snap => decide (t0.beginId ∈ s.live)) S.mgr.snaps s hs
      simp only [h1, decide_true, if_true] at hcnt
      refine ⟨?_, by show 0 < t0.refs - 1; omega⟩
      show t0.refs - 1 = (S.mgr.snaps.erase s).countP (fun s : Snap => decide (t0.beginId ∈ s.live))
      omega
  · intro e he hw t ht het
    obtain ⟨t0, h0, hb⟩ := h.refsHas e he hw t (hsub t ht) het
    by_cases hin : t0.beginId ∈ s.live
    · have hc := (h.refsCount t0 h0).1
      have hcnt := countP_erase_of_mem (fun s : Snap => decide (t0.beginId ∈ s.live)) S.mgr.snaps s hs
      simp only [hin, decide_true, if_true] at hcnt
      have hpos : 0 < (S.mgr.snaps.erase s).countP (fun s : Snap => decide (t0.beginId ∈ s.live)) :=
        List.countP_pos_iff.mpr ⟨t, ht, by simp [hb, het]⟩
      exact ⟨_, mem_decAll.mpr (Or.inr ⟨t0, h0, hin, by omega, rfl⟩), hb⟩
    · exact ⟨t0, mem_decAll.mpr (Or.inl ⟨h0, hin⟩), hb⟩
  · exact h.oldestLive
  · intro t ht; exact h.oldestSnap t (hsub t ht)
  · intro t ht
    rcases mem_decAll.mp ht with ⟨h1, _⟩ | ⟨t0, h0, _, _, rfl⟩
    · exact h.oldestRef t h1
    · exact h.oldestRef t0 h0
  · exact h.oldestLe
  · exact h.issuedAsc
  · exact h.issuedLe

/-! ### Finishing -/

theorem takeWhile_reverse_length (l : List Snap) (x : Txnid) (h : l.Pairwise (fun a b => a.id < b.id)) :
    (l.reverse.takeWhile fun s => decide (x < s.id)).length = l.countP (fun s => decide (x < s.id)) := by
  induction l with
  | nil => rfl
  | cons s l ih =>
    have h' := List.pairwise_cons.mp h
    rw [List.reverse_cons, List.countP_cons]
    by_cases hx : x < s.id
    · have hall : ∀ t ∈ l.reverse, decide (x < t.id) = true := by
        intro t ht
        have := h'.1 t (List.mem_reverse.mp ht)
        simp; omega
      rw [List.takeWhile_append_of_pos hall]
      have hc : l.countP (fun s => decide (x < s.id)) = l.length :=
        List.countP_eq_length.mpr (fun t ht => hall t (List.mem_reverse.mpr ht))
      simp [List.takeWhile_cons, hx, hc]
    · have : (l.reverse ++ [s]).takeWhile (fun s => decide (x < s.id)) =
          l.reverse.takeWhile (fun s => decide (x < s.id)) := by
        rw [List.takeWhile_append]
        split
        · rename_i hl
          rw [List.takeWhile_cons]
          simp only [hx, decide_false, Bool.false_eq_true, if_false, List.append_nil]
          exact ((List.takeWhile_sublist _).eq_of_length hl).symm
        · rfl
      rw [this, ih h'.2]
      simp [hx]

theorem insertRef_spec (refs : List RefTuple) (t : RefTuple) (hn : ∀ a ∈ refs, a.beginId ≠ t.beginId)
    (h : refs.Pairwise (fun a b => a.beginId < b.beginId)) :
    ∃ r, insertRef refs t = some r ∧ (∀ a, a ∈ r ↔ a = t ∨ a ∈ refs) ∧
      r.Pairwise (fun a b => a.beginId < b.beginId) := by
  induction refs with
  | nil => exact ⟨[t], rfl, by simp, by simp⟩
  | cons a as ih =>
    have h' := List.pairwise_cons.mp h
    have ha := hn a (List.mem_cons_self ..)
    unfold insertRef
    by_cases h1 : t.beginId < a.beginId
    · rw [if_pos h1]
      refine ⟨_, rfl, by simp, ?_⟩
      refine List.pairwise_cons.mpr ⟨?_, h⟩
      intro b hb
      rcases List.mem_cons.mp hb with rfl | hb
      · exact h1
      · have := h'.1 b hb; omega
    · rw [if_neg h1, if_neg (fun e => ha e.symm)]
      obtain ⟨r, hr, hm, hp⟩ := ih (fun b hb => hn b (List.mem_cons_of_mem _ hb)) h'.2
      rw [hr]
      refine ⟨_, rfl, ?_, ?_⟩
      · intro b; simp [hm]; grind
      · refine List.pairwise_cons.mpr ⟨?_, hp⟩
        intro b hb
        rcases (hm b).mp hb with rfl | hb
        · omega
        · exact h'.1 b hb


/-- Taking a read-write root off the live list, without the reference tuple. -/
theorem inv_end {S : Sys} (h : Inv S) (r : Root) (hr : r ∈ S.roots) (hro : r.readOnly = false)
    (hns : ∀ s ∈ S.mgr.snaps, s.root ≠ r.xid)
    (refs' : List RefTuple) (last' : Txnid) (iss' : List Txnid)
    (hcase : (refs' = S.mgr.refs ∧ last' = S.mgr.lastXid ∧ iss' = S.issued ∧
        (r.wrote = true → ∀ s ∈ S.mgr.snaps, r.xid ∉ s.live)) ∨
      (r.wrote = true ∧ last' = S.mgr.lastXid + 1 ∧ iss' = (S.mgr.lastXid + 1) :: S.issued ∧
        insertRef S.mgr.refs ⟨r.xid, S.mgr.lastXid + 1,
          S.mgr.snaps.countP (fun s => decide (r.xid ∈ s.live))⟩ = some refs' ∧
        0 < S.mgr.snaps.countP (fun s => decide (r.xid ∈ s.live)))) :
    Inv ⟨{ S.mgr with live := S.mgr.live.erase r.xid, refs := refs', lastXid := last' },
      S.roots.filter (fun q => q.xid ≠ r.xid), ⟨r.xid, S.mgr.lastXid, r.wrote⟩ :: S.ended, iss'⟩ := by
  have hlast : S.mgr.lastXid ≤ last' := by rcases hcase with ⟨_, h, _⟩ | ⟨_, h, _⟩ <;> omega
  have hlive : r.xid ∈ S.mgr.live := (mem_live h).mpr ⟨r, hr, hro, rfl⟩
  have hndl : S.mgr.live.Nodup := (live_asc h).imp (fun h => Nat.ne_of_lt h)
  have hmem : ∀ x, x ∈ S.mgr.live.erase r.xid ↔ x ≠ r.xid ∧ x ∈ S.mgr.live := by
    intro x; exact hndl.mem_erase_iff
  have hmr : ∀ q, q ∈ S.roots.filter (fun q => decide (q.xid ≠ r.xid)) ↔ q ∈ S.roots ∧ q.xid ≠ r.xid := by
    intro q; simp
  have hrefs : refs'.Pairwise (fun a b => a.beginId < b.beginId) ∧
      (∀ t, t ∈ refs' → t ∈ S.mgr.refs ∨ (r.wrote = true ∧ t = ⟨r.xid, S.mgr.lastXid + 1,
          S.mgr.snaps.countP (fun s => decide (r.xid ∈ s.live))⟩ ∧
          0 < S.mgr.snaps.countP (fun s => decide (r.xid ∈ s.live)))) ∧
      (∀ t, t ∈ S.mgr.refs → t ∈ refs') ∧
      (r.wrote = true → (∃ s ∈ S.mgr.snaps, r.xid ∈ s.live) → ∃ t ∈ refs', t.beginId = r.xid) := by
    rcases hcase with ⟨rfl, _, _, hno⟩ | ⟨hw, _, _, hins, hpos⟩
    · exact ⟨h.refsAsc, fun t ht => Or.inl ht, fun t ht => ht,
        fun hw ⟨s, hs, hx⟩ => absurd hx (hno hw s hs)⟩
    · obtain ⟨r', hr', hm, hp⟩ := insertRef_spec S.mgr.refs ⟨r.xid, S.mgr.lastXid + 1,
          S.mgr.snaps.countP (fun s : Snap => decide (r.xid ∈ s.live))⟩ (by
            intro t ht
            obtain ⟨e, he, _, hx, _⟩ := h.refsOf t ht
            have := h.endedNe e he r hr
            show t.beginId ≠ r.xid
            omega) h.refsAsc
      rw [hins] at hr'; cases hr'
      refine ⟨hp, ?_, fun t ht => (hm t).mpr (Or.inr ht), fun _ _ => ⟨_, (hm _).mpr (Or.inl rfl), rfl⟩⟩
      intro t ht
      rcases (hm t).mp ht with rfl | ht
      · exact Or.inr ⟨hw, rfl, hpos⟩
      · exact Or.inl ht
  have hrl := h.rootsLe r hr
  constructor
  · show S.mgr.live.erase r.xid = _
    rw [hndl.erase_eq_filter, h.liveEq, List.filter_map, List.filter_filter, List.filter_filter]
    congr 1
    apply List.filter_congr
    intro q hq
    by_cases hx : q.xid = r.xid <;> simp [hx]
  · exact h.rootsAsc.filter _
  · intro q hq; have := h.rootsLe q ((hmr q).mp hq).1; exact ⟨this.1, Nat.le_trans this.2 hlast⟩
  · intro q hq; exact h.rw q ((hmr q).mp hq).1
  · intro q hq; exact h.rootSnap q ((hmr q).mp hq).1
  · exact h.snapsAsc
  · intro s hs; exact Nat.le_trans (h.snapsLe s hs) hlast
  · intro s hs
    obtain ⟨q, hq, h1, h2⟩ := h.snapRoot s hs
    exact ⟨q, (hmr q).mpr ⟨hq, by rw [h1]; exact hns s hs⟩, h1, h2⟩
  · intro s hs q hq; exact h.snapNeR s hs q ((hmr q).mp hq).1
  · intro s hs e he
    rcases List.mem_cons.mp he with rfl | he
    · exact h.snapNeR s hs r hr
    · exact h.snapNeE s hs e he
  · intro s hs x
    have hsl := h.snapsLe s hs
    rw [h.snapLive s hs x]
    show _ ↔ x < s.id ∧ (x ∈ S.mgr.live.erase r.xid ∨ _)
    rw [hmem]
    by_cases hx : x = r.xid
    · subst hx
      constructor
      · rintro ⟨a, _⟩
        exact ⟨a, Or.inr ⟨_, List.mem_cons_self .., rfl, hsl⟩⟩
      · rintro ⟨a, _⟩
        exact ⟨a, Or.inl hlive⟩
    · constructor
      · rintro ⟨a, b | ⟨e, he, b⟩⟩
        · exact ⟨a, Or.inl ⟨hx, b⟩⟩
        · exact ⟨a, Or.inr ⟨e, List.mem_cons_of_mem _ he, b⟩⟩
      · rintro ⟨a, b | ⟨e, he, b⟩⟩
        · exact ⟨a, Or.inl b.2⟩
        · rcases List.mem_cons.mp he with rfl | he
          · exact absurd b.1.symm hx
          · exact ⟨a, Or.inr ⟨e, he, b⟩⟩
  · exact h.snapLiveAsc
  · simp only [List.map_cons, List.nodup_cons]
    refine ⟨?_, h.endedNodup⟩
    intro hc
    obtain ⟨e, he, hx⟩ := List.mem_map.mp hc
    exact h.endedNe e he r hr hx
  · intro e he q hq
    obtain ⟨hq1, hq2⟩ := (hmr q).mp hq
    rcases List.mem_cons.mp he with rfl | he
    · exact fun h => hq2 h.symm
    · exact h.endedNe e he q hq1
  · intro e he
    rcases List.mem_cons.mp he with rfl | he
    · exact ⟨hrl.1, hrl.2, hlast⟩
    · have := h.endedLe e he; exact ⟨this.1, this.2.1, Nat.le_trans this.2.2 hlast⟩
  · exact hrefs.1
  · intro t ht
    rcases hrefs.2.1 t ht with ht | ⟨hw, rfl, _⟩
    · obtain ⟨e, he, b⟩ := h.refsOf t ht
      exact ⟨e, List.mem_cons_of_mem _ he, b⟩
    · exact ⟨_, List.mem_cons_self .., hw, rfl, rfl⟩
  · intro t ht
    rcases hrefs.2.1 t ht with ht | ⟨hw, rfl, hp⟩
    · exact h.refsCount t ht
    · exact ⟨rfl, hp⟩
  · intro e he hw s hs hx
    rcases List.mem_cons.mp he with rfl | he
    · exact hrefs.2.2.2 hw ⟨s, hs, hx⟩
    · obtain ⟨t, ht, hb⟩ := h.refsHas e he hw s hs hx
      exact ⟨t, hrefs.2.2.1 t ht, hb⟩
  · intro x hx; exact h.oldestLive x ((hmem x).mp hx).2
  · exact h.oldestSnap
  · intro t ht
    rcases hrefs.2.1 t ht with ht | ⟨_, rfl, _⟩
    · exact h.oldestRef t ht
    · exact h.oldestLive _ hlive
  · exact Nat.le_trans h.oldestLe hlast
  · rcases hcase with ⟨_, _, rfl, _⟩ | ⟨_, _, rfl, _⟩
    · exact h.issuedAsc
    · exact List.pairwise_cons.mpr ⟨fun x hx => by have := h.issuedLe x hx; omega, h.issuedAsc⟩
  · intro x hx
    show x ≤ last'
    rcases hcase with ⟨_, _, rfl, _⟩ | ⟨_, h2, rfl, _⟩
    · exact Nat.le_trans (h.issuedLe x hx) hlast
    · rcases List.mem_cons.mp hx with rfl | hx
      · omega
      · exact Nat.le_trans (h.issuedLe x hx) hlast

/-- Finishing a read-only root. -/
theorem inv_end_ro {S : Sys} (h : Inv S) (r : Root) (hr : r ∈ S.roots) (hro : r.readOnly = true)
    (hns : ∀ s ∈ S.mgr.snaps, s.root ≠ r.xid) :
    Inv { S with roots := S.roots.filter (fun q => q.xid ≠ r.xid) } := by
  have hmr : ∀ q, q ∈ S.roots.filter (fun q => decide (q.xid ≠ r.xid)) ↔ q ∈ S.roots ∧ q.xid ≠ r.xid := by
    intro q; simp
  constructor
  · show S.mgr.live = _
    rw [h.liveEq, List.filter_filter]
    congr 1
    apply List.filter_congr
    intro q hq
    by_cases hx : q.xid = r.xid
    · have : q = r := by
        have hp := h.rootsAsc
        rcases List.mem_iff_getElem.mp hq with ⟨i, hi, rfl⟩
        rcases List.mem_iff_getElem.mp hr with ⟨j, hj, rfl⟩
        rw [List.pairwise_iff_getElem] at hp
        rcases Nat.lt_trichotomy i j with hij | hij | hij
        · have := hp i j hi hj hij; omega
        · subst hij; rfl
        · have := hp j i hj hi hij; omega
      subst this; simp [hro]
    · simp [hx]
  · exact h.rootsAsc.filter _
  · intro q hq; exact h.rootsLe q ((hmr q).mp hq).1
  · intro q hq; exact h.rw q ((hmr q).mp hq).1
  · intro q hq; exact h.rootSnap q ((hmr q).mp hq).1
  · exact h.snapsAsc
  · exact h.snapsLe
  · intro s hs
    obtain ⟨q, hq, h1, h2⟩ := h.snapRoot s hs
    exact ⟨q, (hmr q).mpr ⟨hq, by rw [h1]; exact hns s hs⟩, h1, h2⟩
  · intro s hs q hq; exact h.snapNeR s hs q ((hmr q).mp hq).1
  · exact h.snapNeE
  · exact h.snapLive
  · exact h.snapLiveAsc
  · exact h.endedNodup
  · intro e he q hq; exact h.endedNe e he q ((hmr q).mp hq).1
  · exact h.endedLe
  · exact h.refsAsc
  · exact h.refsOf
  · exact h.refsCount
  · exact h.refsHas
  · exact h.oldestLive
  · exact h.oldestSnap
  · exact h.oldestRef
  · exact h.oldestLe
  · exact h.issuedAsc
  · exact h.issuedLe

theorem root_unique {S : Sys} (h : Inv S) {q r : Root} (hq : q ∈ S.roots) (hr : r ∈ S.roots)
    (hx : q.xid = r.xid) : q = r := by
  have hp := h.rootsAsc
  rcases List.mem_iff_getElem.mp hq with ⟨i, hi, rfl⟩
  rcases List.mem_iff_getElem.mp hr with ⟨j, hj, rfl⟩
  rw [List.pairwise_iff_getElem] at hp
  rcases Nat.lt_trichotomy i j with hij | hij | hij
  · have := hp i j hi hj hij; omega
  · subst hij; rfl
  · have := hp j i hj hi hij; omega

theorem root?_some {S : Sys} {x : Txnid} {r : Root} (h : S.root? x = some r) :
    r ∈ S.roots ∧ r.xid = x := by
  unfold Sys.root? at h
  exact ⟨List.mem_of_find?_eq_some h, by simpa using List.find?_some h⟩

theorem root?_of_mem {S : Sys} (h : Inv S) {r : Root} (hr : r ∈ S.roots) : S.root? r.xid = some r := by
  unfold Sys.root?
  cases hf : S.roots.find? (fun q => decide (q.xid = r.xid)) with
  | none =>
    have := List.find?_eq_none.mp hf r hr
    simp at this
  | some q =>
    have h1 := root?_some (S := S) (x := r.xid) (r := q) hf
    rw [root_unique h h1.1 hr h1.2]

theorem snap_live_nodup {S : Sys} (h : Inv S) {s : Snap} (hs : s ∈ S.mgr.snaps) : s.live.Nodup :=
  (h.snapLiveAsc s hs).imp (fun h => Nat.ne_of_lt h)

/-- Changing only the `wrote` and `snap` fields of open roots. -/
theorem inv_mapRoots {S : Sys} (h : Inv S) (f : Root → Root)
    (hf : ∀ q ∈ S.roots, (f q).xid = q.xid ∧ (f q).readOnly = q.readOnly ∧
      ((f q).wrote = true → q.readOnly = false) ∧
      ∀ s, (f q).snap = some s → s ∈ S.mgr.snaps ∧ s.root = q.xid) :
    Inv { S with roots := S.roots.map f } := by
  have hr' : ∀ q', q' ∈ S.roots.map f → ∃ q ∈ S.roots, f q = q' := by
    intro r' h'; simpa using h'
  constructor
  · show S.mgr.live = _
    rw [h.liveEq, List.filter_map, List.map_map]
    have : S.roots.filter ((fun r => !r.readOnly) ∘ f) = S.roots.filter (fun r => !r.readOnly) :=
      List.filter_congr (fun r hr => by simp [(hf r hr).2.1])
    rw [this]
    exact List.map_congr_left (fun r hr => by simp [(hf r (List.mem_filter.mp hr).1).1])
  · show (S.roots.map f).Pairwise _
    rw [List.pairwise_map]
    refine List.Pairwise.imp_of_mem ?_ h.rootsAsc
    intro a b ha hb hab
    rw [(hf a ha).1, (hf b hb).1]; exact hab
  · intro r' hq; obtain ⟨r, hr, rfl⟩ := hr' _ hq; rw [(hf r hr).1]; exact h.rootsLe r hr
  · intro r' hq; obtain ⟨q, hqm, rfl⟩ := hr' _ hq
    intro hw
    rw [(hf q hqm).2.1]
    exact (hf q hqm).2.2.1 hw
  · intro r' hq s hs; obtain ⟨q, hqm, rfl⟩ := hr' _ hq
    rw [(hf q hqm).1]; exact (hf q hqm).2.2.2 s hs
  · exact h.snapsAsc
  · exact h.snapsLe
  · intro s hs
    obtain ⟨q, hq, h1, h2⟩ := h.snapRoot s hs
    exact ⟨f q, List.mem_map_of_mem hq, by rw [(hf q hq).1]; exact h1, by rw [(hf q hq).1]; exact h2⟩
  · intro s hs r' hq; obtain ⟨q, hqm, rfl⟩ := hr' _ hq; rw [(hf q hqm).1]; exact h.snapNeR s hs q hqm
  · exact h.snapNeE
  · exact h.snapLive
  · exact h.snapLiveAsc
  · exact h.endedNodup
  · intro e he r' hq; obtain ⟨q, hqm, rfl⟩ := hr' _ hq; rw [(hf q hqm).1]; exact h.endedNe e he q hqm
  · exact h.endedLe
  · exact h.refsAsc
  · exact h.refsOf
  · exact h.refsCount
  · exact h.refsHas
  · exact h.oldestLive
  · exact h.oldestSnap
  · exact h.oldestRef
  · exact h.oldestLe
  · exact h.issuedAsc
  · exact h.issuedLe

theorem inv_write {S : Sys} (h : Inv S) (x : Txnid) (r : Root) (hr : S.root? x = some r)
    (hro : r.readOnly = false) : Inv (S.setRoot x fun r => { r with wrote := true }) := by
  obtain ⟨hrm, hrx⟩ := root?_some hr
  refine inv_mapRoots h (fun q => if q.xid = x then { q with wrote := true } else q) ?_
  intro q hq
  by_cases hx : q.xid = x
  · have : q = r := root_unique h hq hrm (by omega)
    subst this
    simp only [hx, if_true]
    exact ⟨trivial, trivial, fun _ => hro, fun s hs => by rw [← hx]; exact h.rootSnap q hq s hs⟩
  · simp only [hx, if_false]
    exact ⟨trivial, trivial, h.rw q hq, h.rootSnap q hq⟩

/-- Everything the root `x` recorded is gone from the list once its own snapshot is dropped. -/
theorem finish_core {S : Sys} (h : Inv S) (r : Root) (hr : r ∈ S.roots)
    (hns : ∀ s ∈ S.mgr.snaps, s.root ≠ r.xid) (hsn : r.snap = none) :
    ∃ m, S.mgr.finish r.xid none r.readOnly r.wrote = some m ∧
      S.mgr.lastXid ≤ m.lastXid ∧ m.oldest = S.mgr.oldest ∧
      Inv ⟨m, S.roots.filter (fun q => q.xid ≠ r.xid),
        if r.readOnly then S.ended else ⟨r.xid, S.mgr.lastXid, r.wrote⟩ :: S.ended,
        if m.lastXid > S.mgr.lastXid then m.lastXid :: S.issued else S.issued⟩ := by
  unfold Mgr.finish
  simp only [Option.bind_some]
  cases hro : r.readOnly with
  | true => exact ⟨S.mgr, by simp, Nat.le_refl _, rfl, by simpa using inv_end_ro h r hr hro hns⟩
  | false =>
    have hlive : r.xid ∈ S.mgr.live := (mem_live h).mpr ⟨r, hr, hro, rfl⟩
    have hcnt : (S.mgr.snaps.reverse.takeWhile fun s => decide (r.xid < s.id)).length =
        S.mgr.snaps.countP (fun s => decide (r.xid ∈ s.live)) := by
      rw [takeWhile_reverse_length _ _ h.snapsAsc]
      apply List.countP_congr
      intro s hs
      simp only [decide_eq_true_eq]
      rw [h.snapLive s hs]
      exact ⟨fun a => ⟨a, Or.inl hlive⟩, fun a => a.1⟩
    have hc : S.mgr.live.contains r.xid = true := by simpa using hlive
    simp only [Bool.false_eq_true, if_false, hc, if_true, hcnt]
    cases hw : r.wrote with
    | false =>
      refine ⟨_, rfl, Nat.le_refl _, rfl, ?_⟩
      have := inv_end h r hr hro hns S.mgr.refs S.mgr.lastXid S.issued
        (Or.inl ⟨rfl, rfl, rfl, by simp [hw]⟩)
      simpa [hw] using this
    | true =>
      simp only [if_true]
      by_cases hp : 0 < S.mgr.snaps.countP (fun s => decide (r.xid ∈ s.live))
      · obtain ⟨r', hr', _⟩ := insertRef_spec S.mgr.refs ⟨r.xid, S.mgr.lastXid + 1,
          S.mgr.snaps.countP (fun s : Snap => decide (r.xid ∈ s.live))⟩ (by
            intro t ht
            obtain ⟨e, he, _, hx, _⟩ := h.refsOf t ht
            have := h.endedNe e he r hr
            show t.beginId ≠ r.xid
            omega) h.refsAsc
        have := inv_end h r hr hro hns r' (S.mgr.lastXid + 1) ((S.mgr.lastXid + 1) :: S.issued)
          (Or.inr ⟨hw, rfl, rfl, hr', hp⟩)
        rw [if_pos hp, hr']
        refine ⟨_, rfl, by show S.mgr.lastXid ≤ S.mgr.lastXid + 1; omega, rfl, ?_⟩
        simpa [hw] using this
      · rw [if_neg hp]
        refine ⟨_, rfl, Nat.le_refl _, rfl, ?_⟩
        have h0 : ∀ s ∈ S.mgr.snaps, r.xid ∉ s.live := by
          intro s hs hx
          exact hp (List.countP_pos_iff.mpr ⟨s, hs, by simpa using hx⟩)
        have := inv_end h r hr hro hns S.mgr.refs S.mgr.lastXid S.issued
          (Or.inl ⟨rfl, rfl, rfl, fun _ => h0⟩)
        simpa [hw] using this

theorem finish_ok {S : Sys} (h : Inv S) (r : Root) (hr : r ∈ S.roots)
    (hk : ∀ s ∈ S.mgr.snaps, s.root = r.xid → r.snap = some s) :
    ∃ m, S.mgr.finish r.xid r.snap r.readOnly r.wrote = some m ∧
      S.mgr.lastXid ≤ m.lastXid ∧ m.oldest = S.mgr.oldest ∧
      Inv ⟨m, S.roots.filter (fun q => q.xid ≠ r.xid),
        if r.readOnly then S.ended else ⟨r.xid, S.mgr.lastXid, r.wrote⟩ :: S.ended,
        if m.lastXid > S.mgr.lastXid then m.lastXid :: S.issued else S.issued⟩ := by
  cases hsn : r.snap with
  | none =>
    exact finish_core h r hr (fun s hs hx => by have := hk s hs hx; simp [hsn] at this) hsn
  | some s =>
    have hsm := h.rootSnap r hr s hsn
    have hrem := removeSnap_eq S.mgr s (fun t ht => (h.refsCount t ht).2) h.refsAsc
      (snap_live_nodup h hsm.1)
    let f : Root → Root := fun q => if q.xid = r.xid then { q with snap := none } else q
    have hI := inv_removeSnap h s hsm.1 (S.roots.map f) ⟨f, rfl, by
      intro q hq
      simp only [f]
      by_cases hx : q.xid = r.xid
      · simp [hx]
      · simp only [hx, if_false, and_self, true_and]
        refine Or.inr fun he => ?_
        exact hx (by rw [← (h.rootSnap q hq s he).2, hsm.2])⟩
    have hr2 : ({ r with snap := none } : Root) ∈ S.roots.map f :=
      List.mem_map.mpr ⟨r, hr, by simp [f]⟩
    obtain ⟨m, hm, hle, ho, hinv⟩ := finish_core hI { r with snap := none } hr2 (by
      intro t ht
      have ht : t ∈ S.mgr.snaps.erase s := ht
      intro hx
      have h1 := hk t (List.mem_of_mem_erase ht) hx
      rw [hsn] at h1
      cases h1
      exact (List.Nodup.not_mem_erase (snaps_nodup h)) ht) rfl
    refine ⟨m, ?_, hle, ho, ?_⟩
    · unfold Mgr.finish at hm ⊢
      simp only [hrem, Option.bind_some] at hm ⊢
      exact hm
    · have hroots : (S.roots.map f).filter (fun q => decide (q.xid ≠ r.xid)) =
          S.roots.filter (fun q => decide (q.xid ≠ r.xid)) := by
        induction S.roots with
        | nil => rfl
        | cons q qs ih =>
          simp only [List.map_cons, List.filter_cons, ih]
          by_cases hx : q.xid = r.xid <;> simp [f, hx]
      simp only at hinv
      rw [hroots] at hinv
      exact hinv

theorem mem_insertRoot (r q : Root) (l : List Root) : q ∈ insertRoot r l ↔ q = r ∨ q ∈ l := by
  induction l with
  | nil => simp [insertRoot]
  | cons a as ih =>
    unfold insertRoot
    split
    · simp
    · simp [ih]; grind

theorem insertRoot_asc (r : Root) (l : List Root) (h : l.Pairwise (fun a b => a.xid < b.xid))
    (hn : ∀ q ∈ l, q.xid ≠ r.xid) : (insertRoot r l).Pairwise (fun a b => a.xid < b.xid) := by
  induction l with
  | nil => simp [insertRoot]
  | cons a as ih =>
    have h' := List.pairwise_cons.mp h
    have ha := hn a (List.mem_cons_self ..)
    unfold insertRoot
    split
    · rename_i hlt
      refine List.pairwise_cons.mpr ⟨?_, h⟩
      intro b hb
      rcases List.mem_cons.mp hb with rfl | hb
      · exact hlt
      · have := h'.1 b hb; omega
    · refine List.pairwise_cons.mpr ⟨?_, ih h'.2 (fun q hq => hn q (List.mem_cons_of_mem _ hq))⟩
      intro b hb
      rcases (mem_insertRoot r b as).mp hb with rfl | hb
      · omega
      · exact h'.1 b hb

theorem inv_recover {S S' : Sys} (h : Inv S) (x : Txnid) (hS : S.recover x = .ok S') :
    Inv S' ∧ S.mgr.oldest ≤ S'.mgr.oldest ∧ S.mgr.lastXid ≤ S'.mgr.lastXid := by
  unfold Sys.recover at hS
  split at hS
  · rename_i hc
    obtain ⟨hsn, hold, hx0, hxe, hxr⟩ := hc
    simp only [Outcome.ok.injEq] at hS
    subst hS
    have hrefs : S.mgr.refs = [] := by
      cases hr : S.mgr.refs with
      | nil => rfl
      | cons t ts =>
        have := h.refsCount t (by rw [hr]; exact List.mem_cons_self ..)
        rw [hsn] at this
        simp at this
        omega
    have hmem := fun q => mem_insertRoot ⟨x, false, false, none⟩ q S.roots
    have hle : S.mgr.lastXid ≤ max S.mgr.lastXid x := Nat.le_max_left ..
    refine ⟨?_, Nat.le_refl _, hle⟩
    constructor
    · show (insertRoot _ _).map _ = _
      rw [List.filter_eq_self.mpr]
      intro q hq
      rcases (hmem q).mp hq with rfl | hq
      · rfl
      · simp [(hxr q hq).2]
    · exact insertRoot_asc _ _ h.rootsAsc (fun q hq => (hxr q hq).1)
    · intro q hq
      show _ ∧ _ ≤ max S.mgr.lastXid x
      rcases (hmem q).mp hq with rfl | hq
      · exact ⟨by show 0 < x; omega, Nat.le_max_right ..⟩
      · have := h.rootsLe q hq; exact ⟨this.1, Nat.le_trans this.2 hle⟩
    · intro q hq
      rcases (hmem q).mp hq with rfl | hq
      · simp
      · exact h.rw q hq
    · intro q hq s hs
      rcases (hmem q).mp hq with rfl | hq
      · simp at hs
      · exact h.rootSnap q hq s hs
    · exact h.snapsAsc
    · intro s hs; exact Nat.le_trans (h.snapsLe s hs) hle
    · intro s hs; rw [show s ∈ S.mgr.snaps ↔ False by simp [hsn]] at hs; exact hs.elim
    · intro s hs; rw [show s ∈ S.mgr.snaps ↔ False by simp [hsn]] at hs; exact hs.elim
    · exact h.snapNeE
    · intro s hs; rw [show s ∈ S.mgr.snaps ↔ False by simp [hsn]] at hs; exact hs.elim
    · exact h.snapLiveAsc
    · exact h.endedNodup
    · intro e he q hq
      rcases (hmem q).mp hq with rfl | hq
      · exact hxe e he
      · exact h.endedNe e he q hq
    · intro e he; have := h.endedLe e he; exact ⟨this.1, this.2.1, Nat.le_trans this.2.2 hle⟩
    · exact h.refsAsc
    · exact h.refsOf
    · exact h.refsCount
    · exact h.refsHas
    · intro y _; show S.mgr.oldest ≤ y; rw [hold]; exact Nat.zero_le _
    · exact h.oldestSnap
    · exact h.oldestRef
    · exact Nat.le_trans h.oldestLe hle
    · exact h.issuedAsc
    · intro y hy; exact Nat.le_trans (h.issuedLe y hy) hle
  · cases hS

/-- No call into the manager trips an assertion, and each preserves the invariant. -/
theorem inv_step {S : Sys} (h : Inv S) (e : TEv) :
    S.step e ≠ .crash ∧ ∀ S', S.step e = .ok S' →
      Inv S' ∧ S.mgr.oldest ≤ S'.mgr.oldest ∧ S.mgr.lastXid ≤ S'.mgr.lastXid := by
  cases e with
  | recover x =>
    refine ⟨?_, fun S' hS => inv_recover h x hS⟩
    simp only [Sys.step, Sys.recover]
    split <;> simp
  | begin records ro =>
    refine ⟨by simp [Sys.step], ?_⟩
    intro S' hS
    have h1 := inv_begin h ro _ rfl
    have hmono : S.mgr.oldest ≤ Mgr.calcOldest { S.mgr with lastXid := S.mgr.lastXid + 1, live := if ro then S.mgr.live else S.mgr.live ++ [S.mgr.lastXid + 1] } := by
      have hl := h.oldestLe
      apply le_calcOldest
      · intro x hx
        have hx : x ∈ (if ro then S.mgr.live else S.mgr.live ++ [S.mgr.lastXid + 1]) := hx
        have : x ∈ S.mgr.live ∨ x = S.mgr.lastXid + 1 := by cases ro <;> simp_all
        rcases this with hx | rfl
        · exact h.oldestLive x hx
        · omega
      · exact h.oldestRef
      · exact h.oldestSnap
      · show _ ≤ S.mgr.lastXid + 1; omega
    cases records with
    | false =>
      simp only [Sys.step, Mgr.start, Outcome.ok.injEq] at hS
      subst hS
      exact ⟨h1, hmono, by show _ ≤ S.mgr.lastXid + 1; omega⟩
    | true =>
      have h2 := inv_snapshot h1 (S.mgr.lastXid + 1) ⟨_, List.mem_append_right _ (List.mem_singleton.mpr rfl), rfl⟩
      simp only [Sys.step, Mgr.start, Outcome.ok.injEq, if_true] at hS
      subst hS
      refine ⟨?_, hmono, by show _ ≤ S.mgr.lastXid + 1 + 1; omega⟩
      -- attach the snapshot to the new root
      have h3 := inv_mapRoots h2 (fun q => if q.xid = S.mgr.lastXid + 1 then
        { q with snap := some ⟨S.mgr.lastXid + 1 + 1, S.mgr.lastXid + 1,
            if ro then S.mgr.live else S.mgr.live ++ [S.mgr.lastXid + 1]⟩ } else q) (by
        intro q hq
        by_cases hx : q.xid = S.mgr.lastXid + 1
        · simp only [hx, if_true]
          refine ⟨trivial, trivial, h2.rw q hq, ?_⟩
          rintro s hs
          simp only [Option.some.injEq] at hs
          subst hs
          exact ⟨List.mem_append_right _ (List.mem_singleton.mpr rfl), rfl⟩
        · simp only [hx, if_false]
          exact ⟨trivial, trivial, h2.rw q hq, h2.rootSnap q hq⟩)
      have hid : S.roots.map (fun q => if q.xid = S.mgr.lastXid + 1 then
        { q with snap := some ⟨S.mgr.lastXid + 1 + 1, S.mgr.lastXid + 1,
            if ro then S.mgr.live else S.mgr.live ++ [S.mgr.lastXid + 1]⟩ } else q) = S.roots := by
        conv => rhs; rw [← List.map_id S.roots]
        apply List.map_congr_left
        intro q hq
        have := h.rootsLe q hq
        rw [if_neg (by omega)]; rfl
      simp only [List.map_append, hid, List.map_cons, List.map_nil, if_true] at h3
      exact h3
  | write x =>
    simp only [Sys.step]
    split
    · rename_i r hr
      cases hro : r.readOnly with
      | true => simp
      | false =>
        simp only [Bool.false_eq_true, if_false, ne_eq, reduceCtorEq, not_false_eq_true,
          Outcome.ok.injEq, true_and]
        rintro S' rfl
        exact ⟨inv_write h x r hr hro, Nat.le_refl _, Nat.le_refl _⟩
    · simp
  | childSnap x =>
    simp only [Sys.step]
    split
    · rename_i r hr
      simp only [Mgr.startChildSnap, ne_eq, reduceCtorEq, not_false_eq_true, Outcome.ok.injEq, true_and]
      rintro S' rfl
      obtain ⟨h1, h2⟩ := root?_some hr
      exact ⟨inv_snapshot h x ⟨r, h1, h2⟩, Nat.le_refl _, Nat.le_succ _⟩
    · simp
  | endChildSnap x s =>
    simp only [Sys.step]
    split
    · rename_i r hr
      split
      · rename_i hc
        have hrem := removeSnap_eq S.mgr s (fun t ht => (h.refsCount t ht).2) h.refsAsc
          (snap_live_nodup h hc.1)
        rw [hrem]
        simp only [Outcome.ofCode, Outcome.bind, ne_eq, reduceCtorEq, not_false_eq_true,
          Outcome.ok.injEq, true_and]
        rintro S' rfl
        obtain ⟨h1, h2⟩ := root?_some hr
        have := inv_removeSnap h s hc.1 S.roots ⟨id, by simp, by
          intro q hq
          refine ⟨rfl, rfl, rfl, Or.inr ⟨rfl, ?_⟩⟩
          intro he
          have h3 := h.rootSnap q hq s he
          have : q = r := root_unique h hq h1 (by rw [← h3.2, hc.2.1, h2])
          subst this
          exact hc.2.2 he⟩
        exact ⟨this, Nat.le_refl _, Nat.le_refl _⟩
      · simp
    · simp
  | finish x =>
    simp only [Sys.step]
    split
    · rename_i r hr
      obtain ⟨h1, h2⟩ := root?_some hr
      subst h2
      split
      · rename_i hk
        obtain ⟨m, hm, hle, ho, hinv⟩ := finish_ok h r h1 hk
        rw [hm]
        simp only [Outcome.ofCode, Outcome.bind, ne_eq, reduceCtorEq, not_false_eq_true,
          Outcome.ok.injEq, true_and]
        rintro S' rfl
        exact ⟨hinv, by rw [ho]; exact Nat.le_refl _, hle⟩
      · simp
    · simp

theorem inv_run {S : Sys} (h : Inv S) (es : List TEv) :
    S.run es ≠ .crash ∧ ∀ S', S.run es = .ok S' →
      Inv S' ∧ S.mgr.oldest ≤ S'.mgr.oldest ∧ S.mgr.lastXid ≤ S'.mgr.lastXid := by
  induction es generalizing S with
  | nil =>
    refine ⟨by simp [Sys.run], ?_⟩
    intro S' hS; simp only [Sys.run, Outcome.ok.injEq] at hS; subst hS
    exact ⟨h, Nat.le_refl _, Nat.le_refl _⟩
  | cons e es ih =>
    have hs := inv_step h e
    simp only [Sys.run]
    cases hc : S.step e with
    | ok S1 =>
      obtain ⟨h1, h2, h3⟩ := hs.2 S1 hc
      have := ih h1
      refine ⟨this.1, fun S' hS => ?_⟩
      obtain ⟨a, b, c⟩ := this.2 S' hS
      exact ⟨a, Nat.le_trans h2 b, Nat.le_trans h3 c⟩
    | impossible => simp [Outcome.bind]
    | crash => exact absurd hc hs.1


theorem finish_snaps {S : Sys} (h : Inv S) {r : Root} (hr : r ∈ S.roots) {y : Txnid} {m : Mgr}
    (hm : S.mgr.finish y r.snap r.readOnly r.wrote = some m) : ∀ t ∈ m.snaps, t ∈ S.mgr.snaps := by
  intro t ht
  unfold Mgr.finish at hm
  rw [Option.bind_eq_some_iff] at hm
  obtain ⟨m1, hm1, hm⟩ := hm
  have hsub : ∀ t ∈ m1.snaps, t ∈ S.mgr.snaps := by
    cases hsn : r.snap with
    | none => rw [hsn] at hm1; cases hm1; exact fun t h => h
    | some q =>
      rw [hsn] at hm1
      have hq := h.rootSnap r hr q hsn
      simp only at hm1
      rw [removeSnap_eq S.mgr q (fun t ht => (h.refsCount t ht).2) h.refsAsc
        (snap_live_nodup h hq.1)] at hm1
      cases hm1
      exact fun t h => List.mem_of_mem_erase h
  apply hsub
  split at hm
  · cases hm; exact ht
  · split at hm
    · split at hm
      · simp only at hm
        split at hm
        · cases hi : insertRef m1.refs ⟨y, m1.lastXid + 1,
              (m1.snaps.reverse.takeWhile fun s : Snap => decide (y < s.id)).length⟩ with
          | none => simp [hi] at hm
          | some r' => simp [hi] at hm; subst hm; exact ht
        · cases hm; exact ht
      · cases hm; exact ht
    · cases hm

/-- What a step can do to the history of finished transactions and to the recorded snapshots. -/
theorem step_facts {S S' : Sys} (h : Inv S) {e : TEv} (hS : S.step e = .ok S') :
    (S'.ended = S.ended ∨ ∃ r ∈ S.roots, r.readOnly = false ∧ e = .finish r.xid ∧
      S'.ended = ⟨r.xid, S.mgr.lastXid, r.wrote⟩ :: S.ended) ∧
    (∀ s ∈ S'.mgr.snaps, s ∈ S.mgr.snaps ∨
      (S.mgr.lastXid < s.id ∧ S'.ended = S.ended)) ∧
    (∃ new, S'.issued = new ++ S.issued ∧ ∀ y ∈ new, S.mgr.lastXid < y) := by
  cases e with
  | recover x =>
    simp only [Sys.step, Sys.recover] at hS
    split at hS
    · simp only [Outcome.ok.injEq] at hS; subst hS
      exact ⟨Or.inl rfl, fun s hs => Or.inl hs, [], rfl, by simp⟩
    · cases hS
  | begin records ro =>
    cases records <;> simp only [Sys.step, Mgr.start, Outcome.ok.injEq, if_true, Bool.false_eq_true,
      if_false] at hS <;> subst hS
    · exact ⟨Or.inl rfl, fun s hs => Or.inl hs, [S.mgr.lastXid + 1], rfl, by simp⟩
    · refine ⟨Or.inl rfl, fun s hs => ?_, [S.mgr.lastXid + 1 + 1, S.mgr.lastXid + 1], rfl, by simp; omega⟩
      simp only [List.mem_append, List.mem_singleton] at hs
      rcases hs with hs | rfl
      · exact Or.inl hs
      · exact Or.inr ⟨by show _ < S.mgr.lastXid + 1 + 1; omega, rfl⟩
  | write x =>
    simp only [Sys.step] at hS
    split at hS
    · split at hS
      · cases hS
      · simp only [Outcome.ok.injEq] at hS; subst hS
        exact ⟨Or.inl rfl, fun s hs => Or.inl hs, [], rfl, by simp⟩
    · cases hS
  | childSnap x =>
    simp only [Sys.step, Mgr.startChildSnap] at hS
    split at hS
    · simp only [Outcome.ok.injEq] at hS; subst hS
      refine ⟨Or.inl rfl, fun s hs => ?_, [S.mgr.lastXid + 1], rfl, by simp⟩
      simp only [List.mem_append, List.mem_singleton] at hs
      rcases hs with hs | rfl
      · exact Or.inl hs
      · exact Or.inr ⟨by show _ < S.mgr.lastXid + 1; omega, rfl⟩
    · cases hS
  | endChildSnap x s =>
    simp only [Sys.step] at hS
    split at hS
    · split at hS
      · rename_i hc
        rw [removeSnap_eq S.mgr s (fun t ht => (h.refsCount t ht).2) h.refsAsc
          (snap_live_nodup h hc.1)] at hS
        simp only [Outcome.ofCode, Outcome.bind, Outcome.ok.injEq] at hS
        subst hS
        exact ⟨Or.inl rfl, fun s hs => Or.inl (List.mem_of_mem_erase hs), [], rfl, by simp⟩
      · cases hS
    · cases hS
  | finish x =>
    simp only [Sys.step] at hS
    split at hS
    · rename_i r hr
      split at hS
      · cases hm : S.mgr.finish x r.snap r.readOnly r.wrote with
        | none => simp [hm, Outcome.ofCode, Outcome.bind] at hS
        | some m =>
          simp only [hm, Outcome.ofCode, Outcome.bind, Outcome.ok.injEq] at hS
          subst hS
          obtain ⟨h1, h2⟩ := root?_some hr
          refine ⟨?_, fun s hs => Or.inl (finish_snaps h h1 hm s hs), ?_⟩
          · cases hro : r.readOnly with
            | true => exact Or.inl (by simp)
            | false => exact Or.inr ⟨r, h1, hro, by rw [h2], by simp [h2]⟩
          · by_cases hgt : m.lastXid > S.mgr.lastXid
            · exact ⟨[m.lastXid], by simp [hgt], by simpa using hgt⟩
            · exact ⟨[], by simp [hgt], by simp⟩
      · cases hS
    · cases hS

/-- Over a run: finished transactions stay recorded, and those finished later carry later stamps. -/
theorem run_ended {S S' : Sys} (h : Inv S) {es : List TEv} (hS : S.run es = .ok S') :
    (∀ d ∈ S.ended, d ∈ S'.ended) ∧ (∀ d ∈ S'.ended, d ∈ S.ended ∨ S.mgr.lastXid ≤ d.stamp) := by
  induction es generalizing S with
  | nil =>
    simp only [Sys.run, Outcome.ok.injEq] at hS; subst hS
    exact ⟨fun d h => h, fun d h => Or.inl h⟩
  | cons e es ih =>
    simp only [Sys.run] at hS
    cases hst : S.step e with
    | impossible => rw [hst] at hS; simp [Outcome.bind] at hS
    | crash => rw [hst] at hS; simp [Outcome.bind] at hS
    | ok S1 =>
      rw [hst] at hS
      obtain ⟨hI1, _, hle⟩ := (inv_step h e).2 S1 hst
      obtain ⟨i1, i2⟩ := ih hI1 hS
      rcases (step_facts h hst).1 with he | ⟨r, _, _, _, he⟩
      · rw [he] at i1 i2
        exact ⟨i1, fun d hd => (i2 d hd).imp_right (Nat.le_trans hle)⟩
      · rw [he] at i1 i2
        refine ⟨fun d hd => i1 d (List.mem_cons_of_mem _ hd), fun d hd => ?_⟩
        rcases i2 d hd with h | h
        · rcases List.mem_cons.mp h with rfl | h
          · exact Or.inr (Nat.le_refl _)
          · exact Or.inl h
        · exact Or.inr (Nat.le_trans hle h)

end Verif.Txn
