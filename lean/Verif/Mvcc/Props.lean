import Verif.Mvcc.NoGc

/-!
Property theorems about multi-version reads: C03, C04, C06 (and C05 for values rather than ids).

All of them speak of `M.init last v`, then any schedule of transaction begins and ends, row operations,
message deliveries, bound updates and garbage collections (`Mvcc.Sys`).  A read is taken when every
message for the row has reached the leaf (`queue = []`); the query path applies the messages still in
ancestors first (C35).
-/
namespace Verif.Mvcc
set_option synthInstance.maxSize 2000
set_option synthInstance.maxHeartbeats 200000
open Verif.Ule Verif.Ule.Spec
open Verif.Txn

/-- No schedule trips an assertion of the version-stack code, the transaction manager or the collector. -/
theorem C04_no_assertion (last : Txnid) (v : Option Bytes) (es : List MEv) :
    (M.init last v).run v es ≠ .crash :=
  (minv_run (minv_init last v) es).1

/-- C03: let `s` be a snapshot recorded by the step `e` out of state `m0` and still live in a later state
`m2`.  Then in `m2` the snapshot's transaction reads its own root transaction's newest surviving write if
there is one, and otherwise exactly the value that was the last committed one in `m0`. -/
theorem C03_snapshot_read (last : Txnid) (v : Option Bytes) (es0 es : List MEv) (e : MEv)
    (m0 m1 m2 : M) (s : Snap)
    (h0 : (M.init last v).run v es0 = .ok m0) (h1 : m0.step v e = .ok m1)
    (hnew : s ∈ m1.sys.mgr.snaps ∧ s ∉ m0.sys.mgr.snaps)
    (h2 : m1.run v es = .ok m2) (hs : s ∈ m2.sys.mgr.snaps) (hq : m2.queue = []) :
    m2.readAs s = match m2.own s.root with
      | w :: _ => w.val
      | [] => m0.committed v := by
  have hI0 := (minv_run (minv_init last v) es0).2 m0 h0
  have hI1 := (minv_step hI0 e).2 m1 h1
  obtain ⟨hS2, hI2⟩ := Since.run es (m0 := m0)
    (Since.step ⟨After.refl _, rfl⟩ hI0 h1) hI1 h2
  obtain ⟨hS2', _⟩ := Since.run es (m0 := m1) ⟨After.refl _, rfl⟩ hI1 h2
  -- the step that recorded the snapshot
  have hcr : m0.sys.mgr.lastXid < s.id ∧ m1.sys.ended = m0.sys.ended := by
    rcases (mstep_parts h1).1 with hc | ⟨t, hc⟩
    · exact absurd (by rw [← hc]; exact hnew.1) hnew.2
    · exact ((step_facts hI0.txn hc).2.1 s hnew.1).resolve_left hnew.2
  have hid := hI1.txn.snapsLe s hnew.1
  rw [readAs_eq hI2 s hs]
  have hdone : m2.done = m2.now := by
    have := hI2.queue; rw [hq] at this; exact this
  rw [hdone]
  -- which roots are seen
  obtain ⟨pre, hp, hst⟩ := hS2'.after.ended
  rw [hcr.2] at hp
  obtain ⟨rt, hrt, hrtx, _⟩ := hI2.txn.snapRoot s hs
  have hacc : ∀ w : Write, accW (sees m2.sys s) w = true ↔
      w.chain.head? = some s.root ∨ byEnded m0.sys w = true := by
    intro w
    rw [byEnded_iff]
    unfold accW
    rw [sees_iff]
    cases hw : w.chain.head? with
    | none =>
      simp only [Option.getD_none, reduceCtorEq, and_false, exists_false, or_self, iff_false]
      rintro (h | ⟨d, hd, hx, _⟩)
      · have := (hI2.txn.rootsLe rt hrt).1; omega
      · have := (hI2.txn.endedLe d hd).1; omega
    | some x =>
      simp only [Option.getD_some, Option.some.injEq]
      apply or_congr_right
      constructor
      · rintro ⟨d, hd, hx, hlt⟩
        rw [hp] at hd
        rcases List.mem_append.mp hd with hd | hd
        · have := hst d hd; omega
        · exact ⟨d, hd, hx.symm⟩
      · rintro ⟨d, hd, hx⟩
        have := hI0.txn.endedLe d hd
        exact ⟨d, by rw [hp]; exact List.mem_append_right _ hd, hx.symm, by omega⟩
  have hold : m2.now.writes.filter (byEnded m0.sys) = m0.now.writes.filter (byEnded m0.sys) := hS2.writes
  unfold M.own M.committed
  change _ = match List.filter (fun w => decide (w.chain.head? = some s.root)) m2.now.writes with
    | w :: _ => w.val
    | [] => valueOf v (m0.now.writes.filter (byEnded m0.sys))
  rw [← hold]
  -- does the reader's root hold the row?
  by_cases hh : m2.now.chain.head? = some s.root
  · obtain ⟨a, b, hab, ha, hb⟩ := hI2.ownTop s.root hh
    have hfa : a.filter (fun w => decide (w.chain.head? = some s.root)) = a := by
      rw [List.filter_eq_self]; intro w hw; simpa using ha w hw
    have hfb : b.filter (fun w => decide (w.chain.head? = some s.root)) = [] := by
      rw [List.filter_eq_nil_iff]; intro w hw; simpa using hb w hw
    have hga : a.filter (accW (sees m2.sys s)) = a := by
      rw [List.filter_eq_self]; intro w hw; exact (hacc w).mpr (Or.inl (ha w hw))
    have hgb : b.filter (accW (sees m2.sys s)) = b.filter (byEnded m0.sys) := by
      apply List.filter_congr
      intro w hw
      rw [Bool.eq_iff_iff, hacc w]
      exact ⟨fun h => h.resolve_left (hb w hw), Or.inr⟩
    have hda : a.filter (byEnded m0.sys) = [] := by
      rw [List.filter_eq_nil_iff]
      intro w hw hc
      obtain ⟨d, hd, hx⟩ := byEnded_iff.mp hc
      rw [ha w hw] at hx
      simp only [Option.some.injEq] at hx
      exact hI2.txn.endedNe d (by rw [hp]; exact List.mem_append_right _ hd) rt hrt (by rw [hrtx, hx])
    rw [hab, List.filter_append, List.filter_append, List.filter_append, hfa, hfb, hga, hgb, hda]
    cases a <;> rfl
  · have hnone : m2.now.writes.filter (fun w => decide (w.chain.head? = some s.root)) = [] := by
      rw [List.filter_eq_nil_iff]
      intro w hw hc
      simp only [decide_eq_true_eq] at hc
      have hmem : s.root ∈ rootIds m2.now.used := by
        rw [mem_rootIds]
        apply hI2.nowInv.wsub w hw [s.root] (by simp)
        cases hc2 : w.chain with
        | nil => simp [hc2] at hc
        | cons x c => simp [hc2] at hc; subst hc; exact ⟨c, rfl⟩
      obtain ⟨r, hr, hsub⟩ := hI2.nowRoots
      rw [hr] at hmem
      rcases List.mem_append.mp hmem with hm | hm
      · cases hx : m2.now.chain.head? with
        | none => simp [hx] at hm
        | some y => simp [hx] at hm; exact hh (by rw [hx, hm])
      · obtain ⟨d, hd, hdx⟩ := List.mem_map.mp (hsub.subset hm)
        exact hI2.txn.endedNe d hd rt hrt (by rw [hrtx, hdx])
    rw [hnone]
    congr 1
    apply List.filter_congr
    intro w hw
    rw [Bool.eq_iff_iff, hacc w]
    refine ⟨fun h => h.resolve_left fun hc => ?_, Or.inr⟩
    have : w ∈ m2.now.writes.filter (fun w => decide (w.chain.head? = some s.root)) :=
      List.mem_filter.mpr ⟨hw, by simpa using hc⟩
    rw [hnone] at this
    cases this

/-- C03, repeatable read: two reads under one snapshot return the same value whatever happened in between,
provided the reader's own root transaction has the same surviving writes (for instance none). -/
theorem C03_repeatable_read (last : Txnid) (v : Option Bytes) (es0 es es' : List MEv)
    (m0 m1 m2 m3 : M) (e : MEv) (s : Snap)
    (h0 : (M.init last v).run v es0 = .ok m0) (h1 : m0.step v e = .ok m1)
    (hnew : s ∈ m1.sys.mgr.snaps ∧ s ∉ m0.sys.mgr.snaps)
    (h2 : m1.run v es = .ok m2) (hs2 : s ∈ m2.sys.mgr.snaps) (hq2 : m2.queue = [])
    (h3 : m1.run v es' = .ok m3) (hs3 : s ∈ m3.sys.mgr.snaps) (hq3 : m3.queue = [])
    (hown : m2.own s.root = m3.own s.root) :
    m2.readAs s = m3.readAs s := by
  rw [C03_snapshot_read last v es0 es e m0 m1 m2 s h0 h1 hnew h2 hs2 hq2,
    C03_snapshot_read last v es0 es' e m0 m1 m3 s h0 h1 hnew h3 hs3 hq3, hown]

/-- C05 for values: right after the snapshot is recorded, a transaction that has not written the row reads
the last committed value. -/
theorem C05_snapshot_starts_with_committed (last : Txnid) (v : Option Bytes) (es0 : List MEv) (e : MEv)
    (m0 m1 : M) (s : Snap)
    (h0 : (M.init last v).run v es0 = .ok m0) (h1 : m0.step v e = .ok m1)
    (hnew : s ∈ m1.sys.mgr.snaps ∧ s ∉ m0.sys.mgr.snaps) (hq : m1.queue = [])
    (hown : m1.own s.root = []) : m1.readAs s = m0.committed v := by
  rw [C03_snapshot_read last v es0 [] e m0 m1 m1 s h0 h1 hnew rfl hnew.1 hq, hown]

/-- C06: read-committed isolation takes a fresh snapshot for each statement (a nested transaction that
records a snapshot).  Whatever happens while the statement runs, it reads its own root transaction's newest
surviving write, or else the value last committed when the statement began: never an uncommitted value
of another transaction, and never an older committed value. -/
theorem C06_statement_reads_committed (last : Txnid) (v : Option Bytes) (es0 es : List MEv) (x : Txnid)
    (m0 m1 m2 : M) (s : Snap)
    (h0 : (M.init last v).run v es0 = .ok m0) (h1 : m0.step v (.txn (.childSnap x)) = .ok m1)
    (hnew : s ∈ m1.sys.mgr.snaps ∧ s ∉ m0.sys.mgr.snaps)
    (h2 : m1.run v es = .ok m2) (hs : s ∈ m2.sys.mgr.snaps) (hq : m2.queue = []) :
    m2.readAs s = match m2.own s.root with
      | w :: _ => w.val
      | [] => m0.committed v :=
  C03_snapshot_read last v es0 es _ m0 m1 m2 s h0 h1 hnew h2 hs hq

/-- C04: run any schedule, and run the same schedule in an engine that never collects garbage and never
promotes a provisional version implicitly.  The second run is possible too, and at its end every snapshot
and every reader without a snapshot reads the same value in both. -/
theorem C04_collection_is_invisible (last : Txnid) (v : Option Bytes) (es : List MEv) (m : M)
    (h : (M.init last v).run v es = .ok m) :
    ∃ m', (M.init last v).run v (noGc es) = .ok m' ∧ m'.sys = m.sys ∧
      (∀ s ∈ m.sys.mgr.snaps, m.readAs s = m'.readAs s) ∧ m.readLatest = m'.readLatest := by
  have hI := minv_init last v
  obtain ⟨k0, m', k1, k2, k3⟩ := sim_run es hI hI ⟨rfl, rfl, rfl, rfl⟩ h
  refine ⟨m', k1, k2.sys, ?_, ?_⟩
  · intro s hs
    rw [readAs_eq k0 s hs, readAs_eq k3 s (by rw [k2.sys]; exact hs), k2.sys, k2.done]
  · rw [readLatest_eq k0, readLatest_eq k3, k2.done]

/-- C04: a single garbage collection changes no read. -/
theorem C04_collect_changes_no_read (last : Txnid) (v : Option Bytes) (es : List MEv) (m m' : M)
    (h : (M.init last v).run v es = .ok m) (hc : m.step v .collect = .ok m') :
    (∀ s ∈ m.sys.mgr.snaps, m'.readAs s = m.readAs s) ∧ m'.readLatest = m.readLatest := by
  have hI := (minv_run (minv_init last v) es).2 m h
  have hI' := (minv_step hI .collect).2 m' hc
  obtain ⟨a, _, c, _⟩ := collect_parts hc
  refine ⟨?_, ?_⟩
  · intro s hs
    rw [readAs_eq hI s hs, readAs_eq hI' s (by rw [a]; exact hs), a, c]
  · rw [readLatest_eq hI, readLatest_eq hI', c]

/-- C04: the bound and the collection decision used when a message is applied change no read. -/
theorem C04_delivery_choices_change_no_read (last : Txnid) (v : Option Bytes) (es : List MEv) (m m1 m2 : M)
    (o1 o2 : Txnid) (g1 g2 : Bool) (h : (M.init last v).run v es = .ok m)
    (h1 : m.step v (.deliver o1 g1) = .ok m1) (h2 : m.step v (.deliver o2 g2) = .ok m2) :
    (∀ s ∈ m.sys.mgr.snaps, m1.readAs s = m2.readAs s) ∧ m1.readLatest = m2.readLatest := by
  have hI := (minv_run (minv_init last v) es).2 m h
  have hI1 := (minv_step hI _).2 m1 h1
  have hI2 := (minv_step hI _).2 m2 h2
  obtain ⟨it, q, hq, a1, _, _, d1⟩ := deliver_parts h1
  obtain ⟨it', q', hq', a2, _, _, d2⟩ := deliver_parts h2
  rw [hq] at hq'
  cases hq'
  refine ⟨?_, ?_⟩
  · intro s hs
    rw [readAs_eq hI1 s (by rw [a1]; exact hs), readAs_eq hI2 s (by rw [a2]; exact hs), a1, a2, d1, d2]
  · rw [readLatest_eq hI1, readLatest_eq hI2, d1, d2]

/-- Readers without a snapshot (serializable, read-uncommitted) read the newest surviving write, committed
or not. -/
theorem C06_latest_read (last : Txnid) (v : Option Bytes) (es : List MEv) (m : M)
    (h : (M.init last v).run v es = .ok m) (hq : m.queue = []) : m.readLatest = m.now.value v := by
  have hI := (minv_run (minv_init last v) es).2 m h
  have : m.done = m.now := by have := hI.queue; rw [hq] at this; exact this
  rw [readLatest_eq hI, this]

/-! ### Non-trivial cases -/

/-- Writer 1 commits `[1]` before reader 2 (snapshot 3) starts; writer 4 commits `[5]` after; writer 5
deletes, uncommitted.  All messages reach the leaf, some with full collection, and the leaf is collected
once more at the end. -/
def demoBefore : List MEv :=
  [.txn (.begin false false), .row (.begin 1), .row (.put [1]), .row .commitMsg, .txn (.finish 1)]
def demoAfter : List MEv :=
  [.txn (.begin false false), .row (.begin 4), .row (.put [5]), .txn (.finish 4),
   .txn (.begin false false), .row (.begin 5), .row .del, .learn 3,
   .deliver 0 false, .deliver 1 false, .deliver 2 false, .deliver 2 false,
   .deliver 2 false, .capture, .deliver 2 true, .deliver 2 false, .deliver 0 false, .deliver 2 true,
   .deliver 0 false, .collect]

/-- The hypotheses of C03 and C04 are met: the reader with snapshot 3 still reads `[1]`, although `[5]` was
committed since and the row is now deleted by an open transaction. -/
example : ∃ m0, (M.init 0 (some [9])).run (some [9]) demoBefore = .ok m0 ∧ ∃ m1,
    m0.step (some [9]) (.txn (.begin true true)) = .ok m1 ∧
    (⟨3, 2, []⟩ ∈ m1.sys.mgr.snaps ∧ ⟨3, 2, []⟩ ∉ m0.sys.mgr.snaps) ∧ ∃ m2,
    m1.run (some [9]) demoAfter = .ok m2 ∧ ⟨3, 2, []⟩ ∈ m2.sys.mgr.snaps ∧ m2.queue = [] ∧
    m0.committed (some [9]) = some [1] ∧ m2.readAs ⟨3, 2, []⟩ = some [1] ∧ m2.readLatest = none ∧
    m2.committed (some [9]) = some [5] ∧ m2.leaf.cux.length = 2 := by decide

/-- In the last example the collector had work to do: without it the stack is longer. -/
example : ∃ m2, (M.init 0 (some [9])).run (some [9])
    (noGc (demoBefore ++ .txn (.begin true true) :: demoAfter)) = .ok m2 ∧ m2.leaf.cux.length = 3 ∧
    m2.readAs ⟨3, 2, []⟩ = some [1] := by decide

/-- The hypotheses of C06 are met: two statements of one read-committed transaction (2), with a commit in
between, see the old and the new value. -/
example : ∃ m0, (M.init 0 (some [9])).run (some [9])
      [.txn (.begin false false), .txn (.begin false false), .row (.begin 1), .row (.put [1]),
       .deliver 0 false, .deliver 1 false] = .ok m0 ∧ ∃ m1,
    m0.step (some [9]) (.txn (.childSnap 2)) = .ok m1 ∧
    (⟨3, 2, [1, 2]⟩ ∈ m1.sys.mgr.snaps ∧ ⟨3, 2, [1, 2]⟩ ∉ m0.sys.mgr.snaps) ∧ ∃ m2,
    m1.run (some [9]) [.txn (.finish 1), .deliver 1 false] = .ok m2 ∧ ⟨3, 2, [1, 2]⟩ ∈ m2.sys.mgr.snaps ∧
    m2.queue = [] ∧ m2.readAs ⟨3, 2, [1, 2]⟩ = some [9] ∧ ∃ m3,
    m2.run (some [9]) [.txn (.endChildSnap 2 ⟨3, 2, [1, 2]⟩)] = .ok m3 ∧ ∃ m4,
    m3.step (some [9]) (.txn (.childSnap 2)) = .ok m4 ∧
    (⟨5, 2, [2]⟩ ∈ m4.sys.mgr.snaps ∧ ⟨5, 2, [2]⟩ ∉ m3.sys.mgr.snaps) ∧
    m4.readAs ⟨5, 2, [2]⟩ = some [1] := by decide

/-! ### A disagreement: DB_READ_COMMITTED_ALWAYS -/

/-- A read with `DB_READ_COMMITTED_ALWAYS`: the transaction copies the list of live roots when it starts
but takes no snapshot (`snapshot_txnid64` stays 0; ft/txn/txn_manager.cc:58-75, 659-668); the top
version, if provisional, is put to `toku_txn_reads_txnid`, every other version is accepted
(`le_iterate_read_committed_callback`, ft/ule.cc:2240-2249). -/
def M.readAlways (m : M) (root : Txnid) (live : List Txnid) : Option Bytes :=
  match m.leaf.pux with
  | o :: _ => if readsTxnid root 0 live o.xid then latest m.leaf else (m.leaf.cux.head?.bind fun r => r.val.read)
  | [] => m.leaf.cux.head?.bind fun r => r.val.read

/-- Read-committed-always does not always read the last committed value: root 1 is open and idle, root 2
writes and commits, root 3 begins with DB_READ_COMMITTED_ALWAYS and reads the value from before 2's
commit, although 2 had committed before 3 began.  (Commits of inserts send no commit message,
`TOKU_DO_COMMIT_CMD_INSERT` is 0, so the version stays provisional until promoted implicitly.) -/
theorem C06_read_committed_always_is_stale :
    ∃ m, (M.init 0 (some [9])).run (some [9])
      [.txn (.begin false false), .txn (.begin false false), .row (.begin 2), .row (.put [2]), .txn (.finish 2),
       .deliver 0 false, .deliver 1 false, .deliver 1 false, .txn (.begin false false)] = .ok m ∧
      m.queue = [] ∧ m.committed (some [9]) = some [2] ∧
      m.readAlways 3 m.sys.mgr.live = some [9] := by decide

end Verif.Mvcc
