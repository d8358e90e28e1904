import Verif.Rec.Final
import Verif.Rec.Demo
/-!
# Theorems: crash recovery (C41)

`Reach files s` (in `Verif.Rec.Spec`): the running system can be in state `s`, after any calls of clients, any checkpoints, any number of
crashes.  `s.crash n`: it crashes now and the first `n` records of its log are found on disk; all synced records are.
`Sys.abortAll`: the last step of recovery.  `Spec.recovered f k log`: read off the log alone, the last write to the row by a transaction that has committed (or is
part of a prepared one).
-/
set_option autoImplicit false
set_option synthInstance.maxSize 2000

namespace Verif.Rec
open Verif.Rec.Spec
open Verif.Ule (Bytes latest)

/-! ## A run for the examples -/

/-- Transaction 1 writes two rows and commits; 2 overwrites one of them, and a child of it the other; a checkpoint begins; the child
commits; 3 is prepared after its child aborted; one of the two headers is written, the other half way; then the system stops. -/
def demoCmds : List Cmd :=
  [.client (.xbegin ⟨1, 0⟩ none), .client (.enq ⟨1, 0⟩ [⟨0, [1], .put [10]⟩, ⟨1, [1], .put [11]⟩]), .client (.xcommit ⟨1, 0⟩), .fsync 8,
   .client (.xbegin ⟨2, 0⟩ none), .client (.enq ⟨2, 0⟩ [⟨0, [1], .put [20]⟩]), .client (.xbegin ⟨2, 5⟩ (some ⟨2, 0⟩)), .client (.enq ⟨2, 5⟩ [⟨1, [1], .del⟩]),
   .client (.xbegin ⟨3, 0⟩ none), .client (.enq ⟨3, 0⟩ [⟨1, [2], .putNew [30]⟩]),
   .ckBegin 3, .client (.xcommit ⟨2, 5⟩), .startFile 0, .finishFile 0,
   .client (.xbegin ⟨3, 6⟩ (some ⟨3, 0⟩)), .client (.enq ⟨3, 6⟩ [⟨1, [2], .put [31]⟩]), .client (.xabort ⟨3, 6⟩), .client (.xprepare ⟨3, 0⟩), .fsync 26,
   .startFile 1, .client .comment]

def demoFiles : List File := [0, 1]

/-- The same run with the checkpoint completed. -/
def demoCmds2 : List Cmd := demoCmds ++ [.finishFile 1, .startRb, .finishRb, .ckEndLog, .ckEndSync, .trim 10, .client .comment]

/-! ## While the system runs -/

/-- A call that is allowed does not fail. -/
theorem call_succeeds {files : List File} (hn : files.Nodup) {s : Sys} (h : Reach files s) {r : Rec} (ha : Allowed files s.log s.w.txns r) :
    ∃ s', s.client r = some s' ∧ s'.log = s.log ++ [r] := by
  obtain ⟨s', h1, h2, -⟩ := (Reach.inv files hn h).client_some ha
  exact ⟨s', h1, h2⟩

/-- What a row holds is what the log says about it: the last write that has not been undone. -/
theorem running_value {files : List File} (hn : files.Nodup) {s : Sys} (h : Reach files s) (f : File) (k : Key) :
    latest (s.w.rows f k) = valueOf (writes f k s.log) := by
  have hi := Reach.inv files hn h
  rw [hi.w]; exact hi.valid.value f k

example : ((runAll demoFiles (Sys.init demoFiles) demoCmds).map fun s => (latest (s.w.rows 0 [1]), latest (s.w.rows 1 [1]), latest (s.w.rows 1 [2]))) =
    some (some [20], none, some [30]) := by decide +kernel

/-! ## After a crash -/

/-- Recovery succeeds, whatever the moment of the crash and however much of the log beyond what was synced is on disk, and every row holds
what it is to hold. -/
theorem recovery {files : List File} (hn : files.Nodup) {s : Sys} (h : Reach files s) {n : Nat} (h1 : s.synced ≤ n) (h2 : n ≤ s.log.length) :
    ∃ s1, s.crash n = some s1 ∧ s1.log = s.log.take n ∧ ∃ m0, ∀ m, m0 ≤ m → ∃ s2, s1.abortAll m = some s2 ∧ Reach files s2 ∧
      ∀ f k, latest (s2.w.rows f k) = recovered f k (s.log.take n) := by
  obtain ⟨s1, a1, a2, a3⟩ := (Reach.inv files hn h).crash files hn h1 h2
  refine ⟨s1, a1, a3, s1.w.txns.length + 1, fun m hm => ?_⟩
  obtain ⟨s2, as, b1, b2, b3, b4, b5, b6⟩ := abortAll_spec m s1 a2 (by omega)
  refine ⟨s2, b1, b6 (h.crash h1 h2 a1), ?_⟩
  intro f k
  rw [b2.w, b2.valid.value f k, b3, a2.valid.recovered as (by rw [← a2.w]; exact b5) f k, a3]

/-- After recovery exactly the prepared transactions are left, with the rollback entries they had, and every one of them can be committed
or aborted. -/
theorem recovery_prepared {files : List File} (hn : files.Nodup) {s : Sys} (h : Reach files s) {n m : Nat} {s1 s2 : Sys} (h1 : s.synced ≤ n) (h2 : n ≤ s.log.length)
    (hc : s.crash n = some s1) (ha : s1.abortAll m = some s2) :
    s2.w.txns = s1.w.txns.filter (fun e => e.2.prepared) ∧
    (∀ p, (∃ t, s2.w.txns.get p = some t) ↔ p.child = 0 ∧ .xprepare p ∈ s.log.take n ∧ .xcommit p ∉ s.log.take n ∧ .xabort p ∉ s.log.take n) ∧
    ∀ p t, s2.w.txns.get p = some t → (∃ s3, s2.client (.xcommit p) = some s3) ∧ ∃ s3, s2.client (.xabort p) = some s3 := by
  obtain ⟨s1', a1, a2, a3⟩ := (Reach.inv files hn h).crash files hn h1 h2
  rw [hc] at a1; injection a1 with a1; subst a1
  obtain ⟨as, b2, b3, b4, b5⟩ := abortAll_any m s1 a2 ha
  have wf1 : TxWf s1.w.txns := by rw [a2.w]; exact a2.valid.txwf.1
  have ids1 : Ids s1.log s1.w.txns := by rw [a2.w]; exact a2.valid.txwf.2
  have life1 : Life s1.log s1.w.txns := by rw [a2.w]; exact a2.valid.life
  have wf2 : TxWf s2.w.txns := by rw [b2.w]; exact b2.valid.txwf.1
  have hroot : ∀ p t, (p, t) ∈ s2.w.txns → t.parent = none ∧ t.prepared = true ∧ (p, t) ∈ s1.w.txns := by
    intro p t hm
    rw [b4] at hm
    obtain ⟨hm, hp⟩ := List.mem_filter.mp hm
    refine ⟨?_, hp, hm⟩
    cases hq : t.parent with
    | none => rfl
    | some q => have := (wf1.child _ hm q hq).1; simp only at this hp; rw [this] at hp; simp at hp
  refine ⟨b4, ?_, ?_⟩
  · intro p
    rw [← a3]
    constructor
    · rintro ⟨t, ht⟩
      obtain ⟨c1, c2, c3⟩ := hroot p t (get_mem ht)
      obtain ⟨d1, d2, d3⟩ := life1.st3 p t (get_of_mem wf1.sorted c3)
      exact ⟨(wf1.root _ c3 c1).1, d3.mpr c2, d1, d2⟩
    · rintro ⟨-, c2, c3, c4⟩
      obtain ⟨q, hq⟩ := life1.st2 p (.inr (.inr c2))
      rcases life1.st1 p q hq with ⟨t, ht⟩ | h' | h'
      · refine ⟨t, get_of_mem wf2.sorted ?_⟩
        rw [b4]
        exact List.mem_filter.mpr ⟨get_mem ht, (life1.st3 p t ht).2.2.mp c2⟩
      · exact absurd h' c3
      · exact absurd h' c4
  · intro p t ht
    have hc : s2.w.txns.childOf p = none := by
      rw [childOf_none]; intro e he
      rw [(hroot e.1 e.2 he).1]; simp
    have hg : s2.w.txns.get p ≠ none := by rw [ht]; simp
    obtain ⟨s3, e1, -⟩ := b2.client_some (r := .xcommit p) ⟨hg, hc⟩
    obtain ⟨s4, e2, -⟩ := b2.client_some (r := .xabort p) ⟨hg, hc⟩
    exact ⟨⟨s3, e1⟩, s4, e2⟩

/-- The two theorems meet a case: the run above, crashed with just the synced records on disk.  2 has not ended, so what it overwrote is back; 3 is prepared
and keeps its row, without what its child did. -/
example : ((runAll demoFiles (Sys.init demoFiles) demoCmds).map fun s => (s.synced, s.log.length)) = some (26, 27) := by decide +kernel

example : ((runAll demoFiles (Sys.init demoFiles) demoCmds).bind fun s => (s.crash 26).bind fun s1 => (s1.abortAll 5).map fun s2 =>
      (latest (s2.w.rows 0 [1]), latest (s2.w.rows 1 [1]), latest (s2.w.rows 1 [2]), s2.w.txns.map fun e => (e.1, e.2.acts))) =
    some (some [10], some [11], some [30], [(⟨3, 0⟩, [⟨1, [2], false⟩])]) := by decide +kernel

/-- …and with the checkpoint completed and the beginning of the log removed. -/
example : ((runAll demoFiles (Sys.init demoFiles) demoCmds2).bind fun s => (s.crash 28).bind fun s1 => (s1.abortAll 5).map fun s2 =>
      (s.trimmed, latest (s2.w.rows 0 [1]), latest (s2.w.rows 1 [1]), latest (s2.w.rows 1 [2]), s2.w.txns.map fun e => (e.1, e.2.acts))) =
    some (10, some [10], some [11], some [30], [(⟨3, 0⟩, [⟨1, [2], false⟩])]) := by decide +kernel

/-! ## Crashes during recovery -/

/-- Recovery from `s1` has come as far as `s`: it aborts transactions that are not prepared, the log is written, and it may crash again, any number of times. -/
inductive Recovering (s1 : Sys) : Sys → Prop
  | start : Recovering s1 s1
  | abort {s s' p} : Recovering s1 s → (∃ t, s.w.txns.get p = some t ∧ t.prepared = false) → s.w.txns.childOf p = none → s.client (.xabort p) = some s' → Recovering s1 s'
  | fsync {s} (n : Nat) : Recovering s1 s → Recovering s1 (s.fsync n)
  | crash {s s' n} : Recovering s1 s → s.synced ≤ n → n ≤ s.log.length → s.crash n = some s' → Recovering s1 s'

theorem Recovering.inv {files : List File} (hn : files.Nodup) {s1 s : Sys} (h1 : SysInv files s1) (hs1 : s1.synced = s1.log.length) (h : Recovering s1 s) :
    SysInv files s ∧ s1.log.length ≤ s.synced ∧ ∃ as : List Xid, s.log = s1.log ++ as.map Rec.xabort ∧ ∀ q ∈ as, ∃ t, (q, t) ∈ (W s1.log).txns ∧ t.prepared = false := by
  induction h with
  | start => exact ⟨h1, by omega, [], by simp, by simp⟩
  | @abort s s' p hr hp hc he ih =>
    obtain ⟨ih1, ih2, as, ih3, ih4⟩ := ih
    obtain ⟨t, ht, htp⟩ := hp
    obtain ⟨s'', b1, b2, b3, -⟩ := ih1.abort (p := p) (by rw [ht]; simp) hc
    rw [he] at b1; injection b1 with b1; subst b1
    refine ⟨b3, ?_, as ++ [p], by rw [b2, ih3]; simp, ?_⟩
    · have : s'.synced = s.synced := by
        unfold Sys.client at he
        obtain ⟨w, -, rfl⟩ := Option.map_eq_some_iff.mp he
        rfl
      omega
    · intro q hq
      rcases List.mem_append.mp hq with hq | hq
      · exact ih4 q hq
      · rw [List.mem_singleton] at hq; subst hq
        exact live_before h1.valid (by rw [← ih3]; exact ih1.valid) (by rw [← ih3, ← ih1.w]; exact ht) htp
  | @fsync s n hr ih =>
    obtain ⟨ih1, ih2, as, ih3, ih4⟩ := ih
    exact ⟨ih1.fsync files n, by simp only [Sys.fsync]; omega, as, ih3, ih4⟩
  | @crash s s' n hr hl hu he ih =>
    obtain ⟨ih1, ih2, as, ih3, ih4⟩ := ih
    obtain ⟨s'', b1, b2, b3⟩ := ih1.crash files hn hl hu
    rw [he] at b1; injection b1 with b1; subst b1
    refine ⟨b2, ?_, as.take (n - s1.log.length), ?_, fun q hq => ih4 q (List.mem_of_mem_take hq)⟩
    · have := crash_synced he; omega
    · rw [b3, ih3, List.take_append, List.map_take, List.take_of_length_le (by omega)]

/-- However often recovery itself is interrupted by a crash, what it arrives at is what the first crash left. -/
theorem recovery_repeated {files : List File} (hn : files.Nodup) {s : Sys} (h : Reach files s) {n : Nat} (h1 : s.synced ≤ n) (h2 : n ≤ s.log.length) {s1 s' : Sys}
    (hc : s.crash n = some s1) (hr : Recovering s1 s') :
    Reach files s' ∧ ∀ f k, recovered f k s'.log = recovered f k (s.log.take n) := by
  obtain ⟨s1', a1, a2, a3⟩ := (Reach.inv files hn h).crash files hn h1 h2
  rw [hc] at a1; injection a1 with a1; subst a1
  have hs1 : s1.synced = s1.log.length := by rw [crash_synced hc, a3, List.length_take]; omega
  refine ⟨?_, fun f k => ?_⟩
  · have hr1 := h.crash h1 h2 hc
    clear hs1 a3 a2
    induction hr with
    | start => exact hr1
    | abort _ hp hch he ih => exact ih.client (r := .xabort _) ⟨by obtain ⟨t, ht, -⟩ := hp; rw [ht]; simp, hch⟩ he
    | fsync n _ ih => exact ih.fsync n
    | crash _ hl hu he ih => exact ih.crash hl hu he
  · obtain ⟨-, -, as, c1, c2⟩ := hr.inv hn a2 hs1
    rw [c1, a2.valid.recovered_some as c2 f k, a3]

/-- A case: the run above crashes, recovery aborts 2, crashes again, and starts over. -/
example : ((runAll demoFiles (Sys.init demoFiles) demoCmds).bind fun s => (s.crash 27).bind fun s1 => (s1.client (.xabort ⟨2, 0⟩)).bind fun s2 => (s2.crash 28).bind fun s3 =>
      (s3.abortAll 5).map fun s4 => (s3.log.length, latest (s4.w.rows 0 [1]), latest (s4.w.rows 1 [1]))) =
    some (28, some [10], some [11]) := by decide +kernel

/-! ## Durability -/

/-- The value a write leaves; only for writes that do not look at the row. -/
def blind : Wr → Option (Option Bytes)
  | .put v => some (some v)
  | .del => some none
  | .putNew _ => none

/-- A transaction whose commit (and that of all it is nested in) is in the synced part of the log is durable: where it is the last to have written a row, the row holds what it
wrote after a crash and recovery. -/
theorem durability {files : List File} (hn : files.Nodup) {s : Sys} (h : Reach files s) {n m : Nat} (h1 : s.synced ≤ n) (h2 : n ≤ s.log.length) {s1 s2 : Sys}
    (hc : s.crash n = some s1) (ha : s1.abortAll m = some s2) {p : Xid} (hp : .xcommit p ∈ s.log.take s.synced) (hcom : Committed (s.log.take s.synced) p)
    {f : File} {k : Key} {wr : Wr} {v : Option Bytes} (hlast : (allWrites f k (s.log.take n)).getLast? = some (p, wr)) (hv : blind wr = some v) :
    latest (s2.w.rows f k) = v := by
  have hi := Reach.inv files hn h
  obtain ⟨s1', a1, a2, a3⟩ := hi.crash files hn h1 h2
  rw [hc] at a1; injection a1 with a1; subst a1
  obtain ⟨as, b2, b3, b4, b5⟩ := abortAll_any m s1 a2 ha
  have hval : Valid files (s.log.take n) := hi.valid.take n
  rw [b2.w, b2.valid.value f k, b3, a2.valid.recovered as (by rw [← a2.w]; exact b5) f k, a3]
  have hsub : s.log.take s.synced <+: s.log.take n := List.take_prefix_take_left h1
  obtain ⟨q, hq⟩ := (hi.valid.take s.synced).life.st2 p (.inl hp)
  have hlin := lineage_prefix hval hsub hq
  have hcom' : Committed (s.log.take n) p := by
    intro q' hq'
    rw [hlin] at hq'
    exact hsub.subset (hcom q' hq')
  have hno : ∀ q' ∈ lineage (s.log.take n) p, Rec.xabort q' ∉ s.log.take n := fun q' hq' hab => hval.notBoth q' (hcom' q' hq') hab
  have hhead := lastWrite hval hlast (v := v) (by cases wr <;> simp_all [blind]) hno
  unfold recovered
  cases hw : writes f k (s.log.take n) with
  | nil => rw [hw] at hhead; simp at hhead
  | cons w ws =>
    rw [hw] at hhead
    simp only [List.head?_cons, Option.some.injEq] at hhead
    subst hhead
    rw [List.filter_cons, if_pos (by simp only [decide_eq_true_eq]; exact .inl hcom')]
    rfl

/-- A case: transaction 1 in the run above, stopped before 2 writes. -/
example : ((runAll demoFiles (Sys.init demoFiles) (demoCmds.take 5)).bind fun s => (s.crash 9).bind fun s1 => (s1.abortAll 5).map fun s2 =>
      (s.synced, decide (.xcommit ⟨1, 0⟩ ∈ s.log.take s.synced), decide (Committed (s.log.take s.synced) ⟨1, 0⟩), (allWrites 1 [1] (s.log.take 9)).getLast?, latest (s2.w.rows 1 [1]))) =
    some (8, true, true, some (⟨1, 0⟩, .put [11]), some [11]) := by decide +kernel

end Verif.Rec
