import Verif.Txn.Inv

/-! Property theorems about the transaction manager: C05, C15, C16, C17. -/
namespace Verif.Txn

theorem run_append (S : Sys) (a b : List TEv) : S.run (a ++ b) = (S.run a).bind fun S' => S'.run b := by
  induction a generalizing S with
  | nil => rfl
  | cons e es ih =>
    simp only [List.cons_append, Sys.run]
    cases S.step e with
    | ok S' => exact ih S'
    | impossible => rfl
    | crash => rfl

/-- No schedule of calls trips an assertion of the transaction manager. -/
theorem C16_manager_never_asserts (last : Txnid) (es : List TEv) : (Sys.init last).run es ≠ .crash :=
  (inv_run (Inv.init last) es).1

/-- C15: the ids handed out (transaction, snapshot and end ids) form a strictly increasing sequence,
and each is larger than the id of every transaction known at that moment, including those recovered
from the log. -/
theorem C15_ids_increase (last : Txnid) (es : List TEv) (S : Sys)
    (h : (Sys.init last).run es = .ok S) :
    S.issued.Pairwise (· > ·) ∧
    ∀ e S', S.step e = .ok S' → ∃ new, S'.issued = new ++ S.issued ∧
      ∀ y ∈ new, (∀ r ∈ S.roots, r.xid < y) ∧ (∀ z ∈ S.issued, z < y) ∧ (∀ d ∈ S.ended, d.xid < y) ∧
        (∀ s ∈ S.mgr.snaps, s.id < y) := by
  have hI := ((inv_run (Inv.init last) es).2 S h).1
  refine ⟨hI.issuedAsc, ?_⟩
  intro e S' hS
  have key := (step_facts hI hS).2.2
  obtain ⟨new, h1, h2⟩ := key
  refine ⟨new, h1, fun y hy => ?_⟩
  have := h2 y hy
  refine ⟨fun r hr => ?_, fun z hz => ?_, fun d hd => ?_, fun s hs => ?_⟩
  · have := hI.rootsLe r hr; omega
  · have := hI.issuedLe z hz; omega
  · have := hI.endedLe d hd; omega
  · have := hI.snapsLe s hs; omega

/-- A schedule with a recovered transaction, a reader with a snapshot, a writer that finishes while the
snapshot lives, a statement-level snapshot, and a read-only transaction. -/
def demoSchedule : List TEv :=
  [.recover 5, .begin false false, .begin true true, .write 11, .write 5, .finish 11, .begin false false,
   .childSnap 15, .finish 5]

example : ∃ S, (Sys.init 10).run demoSchedule = .ok S ∧ S.issued = [17, 16, 15, 14, 13, 12, 11] ∧
    S.mgr.refs = [⟨5, 17, 2⟩, ⟨11, 14, 1⟩] ∧ S.mgr.oldest = 5 := ⟨_, rfl, by decide, by decide, by decide⟩

/-- What the decision function says, in a reachable state, about a transaction that is open
(read-write) or finished. -/
theorem readsTxnid_spec {S : Sys} (h : Inv S) (s : Snap) (hs : s ∈ S.mgr.snaps) (x : Txnid) (hx : 0 < x)
    (hne : s.id ≠ x) :
    readsTxnid s.root s.id s.live x = true ↔ x = s.root ∨ (x < s.id ∧ x ∉ s.live) := by
  unfold readsTxnid
  have hl : ∀ y ∈ s.live, y < s.id := fun y hy => ((h.snapLive s hs y).mp hy).1
  have hasc := h.snapLiveAsc s hs
  have hcon : s.live.contains x = true ↔ x ∈ s.live := by simp
  cases hlv : s.live with
  | nil =>
    simp only [List.head?_nil, Option.getD_none, List.contains_nil]
    by_cases h1 : x < s.id <;> by_cases h2 : x = s.root <;> simp [h1, h2] <;> omega
  | cons y ys =>
    have hpos : 0 < y := by
      have hy := (h.snapLive s hs y).mp (by rw [hlv]; exact List.mem_cons_self ..)
      rcases hy.2 with hy | ⟨e, he, rfl, _⟩
      · obtain ⟨r, hr, _, rfl⟩ := (mem_live h).mp hy
        exact (h.rootsLe r hr).1
      · exact (h.endedLe e he).1
    have hys : y < s.id := hl y (by rw [hlv]; exact List.mem_cons_self ..)
    have hlow : x < y → x ∉ y :: ys := by
      intro hlt hm
      rw [hlv] at hasc
      rcases List.mem_cons.mp hm with rfl | hm
      · omega
      · have := (List.pairwise_cons.mp hasc).1 x hm; omega
    have hc2 : (y :: ys).contains x = true ↔ x ∈ y :: ys := by simp
    show (if y = 0 ∧ x < s.id then true else if x < y ∨ x = s.root then true else
      if x > s.id ∨ (y :: ys).contains x = true then false else true) = true ↔ _
    rw [if_neg (show ¬ (y = 0 ∧ x < s.id) by omega)]
    by_cases h2 : x = s.root
    · simp [h2]
    · by_cases h3 : x < y
      · rw [if_pos (Or.inl h3)]
        exact ⟨fun _ => Or.inr ⟨by omega, hlow h3⟩, fun _ => rfl⟩
      · rw [if_neg (show ¬ (x < y ∨ x = s.root) by omega)]
        by_cases h4 : x > s.id
        · rw [if_pos (Or.inl h4)]
          exact ⟨fun h => by simp at h, fun h => by omega⟩
        · by_cases h5 : x ∈ y :: ys
          · rw [if_pos (Or.inr (hc2.mpr h5))]
            exact ⟨fun h => by simp at h, fun h => (h.elim (absurd · h2) (absurd h5 ·.2))⟩
          · rw [if_neg (show ¬ (x > s.id ∨ (y :: ys).contains x = true) by rw [hc2]; exact fun h => h.elim h4 h5)]
            exact ⟨fun _ => Or.inr ⟨by omega, h5⟩, fun _ => rfl⟩

/-- C05: take any reachable state `S0`, a step that records a snapshot `s` (a root or nested
transaction beginning), and any later state in which it is still recorded.  The reader accepts the
version of a read-write transaction `x` known in that later state (open or finished) iff `x` is the
reader's own root transaction or `x` had already finished in `S0`. -/
theorem C05_snapshot_sees_exactly_the_finished (last : Txnid) (es0 es : List TEv) (e : TEv)
    (S0 S1 S2 : Sys) (s : Snap)
    (h0 : (Sys.init last).run es0 = .ok S0) (h1 : S0.step e = .ok S1)
    (hnew : s ∈ S1.mgr.snaps ∧ s ∉ S0.mgr.snaps)
    (h2 : S1.run es = .ok S2) (hs : s ∈ S2.mgr.snaps)
    (x : Txnid) (hx : (∃ r ∈ S2.roots, r.readOnly = false ∧ r.xid = x) ∨ ∃ d ∈ S2.ended, d.xid = x) :
    readsTxnid s.root s.id s.live x = true ↔ x = s.root ∨ ∃ d ∈ S0.ended, d.xid = x := by
  have hI0 := ((inv_run (Inv.init last) es0).2 S0 h0).1
  have hI1 := ((inv_step hI0 e).2 S1 h1).1
  have hI2 := ((inv_run hI1 es).2 S2 h2).1
  have hcr : S0.mgr.lastXid < s.id ∧ S1.ended = S0.ended :=
    ((step_facts hI0 h1).2.1 s hnew.1).resolve_left hnew.2
  have hpos : 0 < x ∧ s.id ≠ x := by
    rcases hx with ⟨r, hr, _, rfl⟩ | ⟨d, hd, rfl⟩
    · exact ⟨(hI2.rootsLe r hr).1, hI2.snapNeR s hs r hr⟩
    · exact ⟨(hI2.endedLe d hd).1, hI2.snapNeE s hs d hd⟩
  rw [readsTxnid_spec hI2 s hs x hpos.1 hpos.2]
  apply or_congr_right
  obtain ⟨hkeep, hlater⟩ := run_ended hI1 h2
  rw [hcr.2] at hkeep hlater
  constructor
  · rintro ⟨hlt, hnl⟩
    rw [hI2.snapLive s hs] at hnl
    rcases hx with ⟨r, hr, hro, hrx⟩ | ⟨d, hd, hdx⟩
    · exact absurd ⟨hlt, Or.inl ((mem_live hI2).mpr ⟨r, hr, hro, hrx⟩)⟩ hnl
    · rcases hlater d hd with h | h
      · exact ⟨d, h, hdx⟩
      · have := hI1.snapsLe s hnew.1
        exact absurd ⟨hlt, Or.inr ⟨d, hd, hdx, by omega⟩⟩ hnl
  · rintro ⟨d, hd, rfl⟩
    have hd2 : d ∈ S2.ended := hkeep d hd
    have hle := hI0.endedLe d hd
    refine ⟨by omega, ?_⟩
    intro hc
    rcases ((hI2.snapLive s hs d.xid).mp hc).2 with h | ⟨d', hd', he, hst⟩
    · obtain ⟨r, hr, _, hrx⟩ := (mem_live hI2).mp h
      exact hI2.endedNe d hd2 r hr hrx.symm
    · rw [inj_of_nodup_map hI2.endedNodup d' hd' d hd2 he] at hst
      omega

/-- The hypotheses of C05 are met with all three verdicts: transaction 1 finished before the snapshot
(accepted), 2 live at the snapshot and finished later (refused), 3 the reader itself (accepted), 6 begun
later (refused). -/
example : ∃ S0 S1 S2 s,
    (Sys.init 0).run [.begin false false, .write 1, .begin false false, .write 2, .finish 1] = .ok S0 ∧
    S0.step (.begin true false) = .ok S1 ∧ s ∈ S1.mgr.snaps ∧ s ∉ S0.mgr.snaps ∧
    S1.run [.finish 2, .begin false false, .write 6] = .ok S2 ∧ s ∈ S2.mgr.snaps ∧
    [1, 2, 3, 6].map (readsTxnid s.root s.id s.live) = [true, false, true, false] :=
  ⟨_, _, _, _, rfl, rfl, List.mem_singleton.mpr rfl, by decide, rfl, List.mem_singleton.mpr rfl, by decide⟩

/-- C16: in every reachable state, the table of referenced transactions lists `x` with count `n` iff `x`
is a finished transaction that wrote and `n > 0` is the number of live snapshots that began after `x`
and must not see it. -/
theorem C16_referenced_exact (last : Txnid) (es : List TEv) (S : Sys)
    (h : (Sys.init last).run es = .ok S) (x n : Txnid) :
    (∃ t ∈ S.mgr.refs, t.beginId = x ∧ t.refs = n) ↔
      (∃ d ∈ S.ended, d.xid = x ∧ d.wrote = true) ∧ 0 < n ∧
      n = S.mgr.snaps.countP (fun s => decide (x < s.id) && !readsTxnid s.root s.id s.live x) := by
  have hI := ((inv_run (Inv.init last) es).2 S h).1
  have hcount : ∀ d ∈ S.ended, S.mgr.snaps.countP (fun s => decide (d.xid ∈ s.live)) =
      S.mgr.snaps.countP (fun s => decide (d.xid < s.id) && !readsTxnid s.root s.id s.live d.xid) := by
    intro d hd
    apply List.countP_congr
    intro s hs
    have hsp := readsTxnid_spec hI s hs d.xid (hI.endedLe d hd).1 (hI.snapNeE s hs d hd)
    have hroot : d.xid ≠ s.root := by
      obtain ⟨r, hr, hx, _⟩ := hI.snapRoot s hs
      have := hI.endedNe d hd r hr
      omega
    have hlt : d.xid ∈ s.live → d.xid < s.id := fun h => ((hI.snapLive s hs _).mp h).1
    simp only [decide_eq_true_eq, Bool.and_eq_true, Bool.not_eq_true']
    constructor
    · intro hm
      refine ⟨hlt hm, ?_⟩
      rw [← Bool.not_eq_true, hsp]
      rintro (h | h)
      · exact hroot h
      · exact h.2 hm
    · rintro ⟨h1, h2⟩
      rw [← Bool.not_eq_true, hsp] at h2
      exact Classical.byContradiction fun hc => h2 (Or.inr ⟨h1, hc⟩)
  constructor
  · rintro ⟨t, ht, rfl, rfl⟩
    obtain ⟨d, hd, hw, hx, _⟩ := hI.refsOf t ht
    have hc := hI.refsCount t ht
    refine ⟨⟨d, hd, hx, hw⟩, hc.2, ?_⟩
    rw [hc.1, ← hx]
    exact hcount d hd
  · rintro ⟨⟨d, hd, rfl, hw⟩, hn, hc⟩
    rw [← hcount d hd] at hc
    have : 0 < S.mgr.snaps.countP (fun s => decide (d.xid ∈ s.live)) := by omega
    obtain ⟨s, hs, hm⟩ := List.countP_pos_iff.mp this
    obtain ⟨t, ht, hb⟩ := hI.refsHas d hd hw s hs (by simpa using hm)
    refine ⟨t, ht, hb, ?_⟩
    rw [(hI.refsCount t ht).1, hb, hc]

/-- C16: the two removal strategies agree in every reachable state, for every recorded snapshot. -/
theorem C16_strategies_agree (last : Txnid) (es : List TEv) (S : Sys)
    (h : (Sys.init last).run es = .ok S) (s : Snap) (hs : s ∈ S.mgr.snaps) :
    noteEndByLiveList S.mgr.refs s.live = noteEndByRefXids S.mgr.refs s.live ∧
      (noteEndByLiveList S.mgr.refs s.live).isSome := by
  have hI := ((inv_run (Inv.init last) es).2 S h).1
  rw [noteEndByLiveList_eq _ _ (fun t ht => (hI.refsCount t ht).2),
    noteEndByRefXids_eq _ _ (fun t ht => (hI.refsCount t ht).2) hI.refsAsc (snap_live_nodup hI hs)]
  simp

/-- C17: the oldest-referenced id is not larger than any live transaction id, snapshot id, or id of a
finished writer that some live snapshot must not see; it never decreases. -/
theorem C17_oldest_is_lower_bound (last : Txnid) (es : List TEv) (S : Sys)
    (h : (Sys.init last).run es = .ok S) :
    (∀ r ∈ S.roots, r.readOnly = false → S.mgr.oldest ≤ r.xid) ∧
    (∀ s ∈ S.mgr.snaps, S.mgr.oldest ≤ s.id) ∧
    (∀ d ∈ S.ended, d.wrote = true → ∀ s ∈ S.mgr.snaps, readsTxnid s.root s.id s.live d.xid = false →
      S.mgr.oldest ≤ d.xid) ∧
    (∀ es' S', S.run es' = .ok S' → S.mgr.oldest ≤ S'.mgr.oldest) := by
  have hI := ((inv_run (Inv.init last) es).2 S h).1
  refine ⟨?_, hI.oldestSnap, ?_, fun es' S' h' => ((inv_run hI es').2 S' h').2.1⟩
  · intro r hr hro
    exact hI.oldestLive _ ((mem_live hI).mpr ⟨r, hr, hro, rfl⟩)
  · intro d hd hw s hs hf
    have hsp := readsTxnid_spec hI s hs d.xid (hI.endedLe d hd).1 (hI.snapNeE s hs d hd)
    have hno : ¬ (d.xid = s.root ∨ d.xid < s.id ∧ d.xid ∉ s.live) := by
      rw [← hsp, hf]; simp
    by_cases hlt : d.xid < s.id
    · have hm : d.xid ∈ s.live := Classical.byContradiction fun hc => hno (Or.inr ⟨hlt, hc⟩)
      obtain ⟨t, ht, hb⟩ := hI.refsHas d hd hw s hs hm
      rw [← hb]; exact hI.oldestRef t ht
    · have := hI.oldestSnap s hs; omega

end Verif.Txn
