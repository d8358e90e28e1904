import Verif.Logger.FlushLemmas
import Verif.Logger.ReadLemmas
import Verif.Log.Props
/-!
C40: the log under concurrent use.
-/
set_option linter.unusedVariables false
namespace Verif.Logger.Props
open Verif.Logger Verif.Log Verif.Log.Spec Verif.Ser Verif.Logger.Spec

/-! ### A concrete execution, for the examples -/

def cfg0 : Cfg := ⟨100, true, 120⟩

/-- Much room in the buffer and in the file. -/
def cfg1 : Cfg := ⟨1000, true, 1000⟩

/-- The records of beginning and committing a transaction. -/
def jBegin : Job := ⟨'b'.toNat, [.pair 5 0, .pair 0 0], 0⟩
def jCommit : Job := ⟨'C'.toNat, [.pair 5 0], 0⟩

theorem jobOk_of {j : Job} {tys : List Ty} (ht : fieldsOf j.cmd = some tys) (hf : FitsAll tys j.vals) (hnow : j.now < 2 ^ 64)
    (hb : ∃ n, j.len = .ok n ∧ n ≤ 2 ^ 29) : JobOk j := by
  obtain ⟨n, hn, hle⟩ := hb
  refine ⟨hnow, fun lsn hl => ⟨⟨tys, ht, hl, hf⟩, fun bs hw => ?_⟩⟩
  have hs := sizes_ok j.now hf
  have hb := good_small (lsn := lsn) ht hf j.now
  have hw' : write j.now ⟨j.cmd, lsn, j.vals⟩ = .ok (recBytes j.now j.cmd tys lsn j.vals) := by
    simp only [write, ht]; exact writeRecord_ok hnow (fieldsOf_char ht) hl hf hb
  rw [hw'] at hw
  cases R.ok.inj hw
  simp only [Job.len, ht, hs] at hn
  rw [rec_length] at hb ⊢
  rw [← R.ok.inj hn, m32, Nat.mod_eq_of_lt hb] at hle
  exact hle

theorem jBegin_ok : JobOk jBegin := jobOk_of (tys := [.pair, .pair]) (by decide) ⟨by decide, by decide, trivial⟩ (by decide) ⟨53, by decide +kernel, by decide⟩
theorem jCommit_ok : JobOk jCommit := jobOk_of (tys := [.pair]) (by decide) ⟨by decide, trivial⟩ (by decide) ⟨37, by decide +kernel, by decide⟩

/-- A schedule: who acts, and whether they make a call. -/
def play (cfg : Cfg) : St → List (Tid × Option Call) → Option (St × List Event)
  | s, [] => some (s, [])
  | s, (t, c) :: l =>
    match (match c with | some c => s.call t c | none => step cfg s t) with
    | .ok s' ev => if s'.lsn + 1 < 2 ^ 64 then (play cfg s' l).map fun (s, es) => (s, ev.toList ++ es) else none
    | _ => none

theorem play_run {cfg : Cfg} {l : List (Tid × Option Call)} {s s' : St} {evs : List Event} (h : play cfg s l = some (s', evs)) (hok : ∀ x ∈ l, ∀ c, x.2 = some c → CallOk c) :
    Run cfg s s' evs := by
  induction l generalizing s evs with
  | nil => cases h; exact .start
  | cons x l ih =>
    obtain ⟨t, c⟩ := x
    have one : ∀ (a : Act), a.Ok → (match act cfg s t a with
        | .ok s' ev => if s'.lsn + 1 < 2 ^ 64 then (play cfg s' l).map fun (s, es) => (s, ev.toList ++ es) else none
        | _ => none) = some (s', evs) → Run cfg s s' evs := by
      intro a ha h
      split at h
      · rename_i s1 ev hs
        split at h
        · rename_i hl
          obtain ⟨⟨s2, es⟩, h1, h2⟩ := Option.map_eq_some_iff.mp h
          cases h2
          have := Run.step .start ha hs hl
          rw [List.nil_append] at this
          exact run_append this (ih h1 (fun x hx => hok x (List.mem_cons_of_mem _ hx)))
        · cases h
      · cases h
    cases c with
    | some c => exact one (.call c) (hok (t, some c) List.mem_cons_self c rfl) h
    | none => exact one .go trivial h

def go (t : Tid) (n : Nat) : List (Tid × Option Call) := List.replicate n (t, none)

/-- Thread 1 begins a transaction, thread 2 commits one and waits for the log to be on disk; there is no room for both records
in the buffer, and the first file gets too big. -/
def both : List (Tid × Option Call) :=
  (1, some (.log jBegin false)) :: go 1 4 ++ (1, some (.log jBegin false)) :: go 1 4 ++ (2, some (.log jCommit true)) :: go 2 21

def bothEvents : List Event :=
  [.call 1 (.log jBegin false), .put 1 jBegin 1 (bytesFrom (write 0 ⟨'b'.toNat, 1, [.pair 5 0, .pair 0 0]⟩)), .ret 1 (.log jBegin false) 1,
   .call 1 (.log jBegin false), .put 1 jBegin 2 (bytesFrom (write 0 ⟨'b'.toNat, 2, [.pair 5 0, .pair 0 0]⟩)), .ret 1 (.log jBegin false) 2,
   .call 2 (.log jCommit true), .put 2 jCommit 3 (bytesFrom (write 0 ⟨'C'.toNat, 3, [.pair 5 0]⟩)), .ret 2 (.log jCommit true) 3]
where
  bytesFrom : R (List Nat) → List Nat
    | .ok bs => bs
    | _ => []

theorem both_played : (play cfg0 (St.opened cfg0 [] 0) both).map (·.2) = some bothEvents := by decide +kernel

theorem both_calls : ∀ x ∈ both, ∀ c, x.2 = some c → CallOk c := by
  intro x hx c hc
  simp only [both, go, List.mem_append, List.mem_cons, List.mem_replicate] at hx
  rcases hx with (((rfl | ⟨-, rfl⟩) | rfl | ⟨-, rfl⟩) | rfl | ⟨-, rfl⟩) <;> first | (cases hc; done) | (cases hc; first | exact jBegin_ok | exact jCommit_ok)

/-- The execution `both` exists. -/
theorem both_runs : ∃ s, Run cfg0 (St.opened cfg0 [] 0) s bothEvents := by
  obtain ⟨⟨s, es⟩, h1, h2⟩ := Option.map_eq_some_iff.mp both_played
  cases h2
  exact ⟨s, play_run h1 both_calls⟩

/-! ### No assertion fails, and some thread can always go on -/

/-- Whatever the threads do, no assertion of the logger fails and no record is written past the end of the buffer. -/
theorem no_crash (cfg : Cfg) (old : List File) (lsn0 : Nat) (h0 : lsn0 + 1 < 2 ^ 64) (s : St) (evs : List Event) (h : Run cfg (St.opened cfg old lsn0) s evs)
    (t : Tid) (a : Act) (ha : a.Ok) : act cfg s t a ≠ .crash := by
  obtain ⟨g, hg⟩ := inv_run h0 h
  intro hc
  have := act_good hg t a ha (Run.numbers h h0)
  rw [hc] at this
  exact this

example : ∃ s, Run cfg0 (St.opened cfg0 [] 0) s bothEvents := both_runs

/-- There is no deadlock: as long as some call has not returned, some thread can run on. -/
theorem no_deadlock (cfg : Cfg) (old : List File) (lsn0 : Nat) (h0 : lsn0 + 1 < 2 ^ 64) (s : St) (evs : List Event) (h : Run cfg (St.opened cfg old lsn0) s evs)
    (u : Tid) (hu : s.pc u ≠ .idle) : ∃ t s' ev, act cfg s t .go = .ok s' ev := by
  obtain ⟨g, hg⟩ := inv_run h0 h
  have hn := Run.numbers h h0
  have key : ∀ t, act cfg s t .go ≠ .wait → ∃ t s' ev, act cfg s t .go = .ok s' ev := by
    intro t ht
    cases hr : act cfg s t .go with
    | ok s' ev => exact ⟨t, s', ev, hr⟩
    | wait => exact absurd hr ht
    | crash => exact absurd hr (no_crash cfg old lsn0 h0 s evs h t .go trivial)
  cases hin : s.inLock with
  | some t =>
    have hh := (hg.locks.inl t).mpr hin
    apply key t
    show step cfg s t ≠ .wait
    unfold step
    split <;> rename_i e <;> rw [e] at hh <;> first | (cases hh; done) | skip
    all_goals
      intro hc
      first
      | (cases hc; done)
      | (split at hc <;> first | (cases hc; done) | (split at hc <;> first | (cases hc; done) | (split at hc <;> first | (cases hc; done) | (split at hc <;> cases hc))))
  | none =>
    have hin' := hin
    cases hf : s.outFree with
    | false =>
      have : ∃ t, holdsOut (s.pc t) = true := by
        rcases Classical.em (∃ t, holdsOut (s.pc t) = true) with h | h
        · exact h
        · have := hg.locks.free.mpr (fun t => by
            cases hb : holdsOut (s.pc t)
            · rfl
            · exact absurd ⟨t, hb⟩ h)
          rw [hf] at this; cases this
      obtain ⟨t, hh⟩ := this
      apply key t
      show step cfg s t ≠ .wait
      unfold step
      split <;> rename_i e <;> rw [e] at hh <;> first | (cases hh; done) | skip
      all_goals
        intro hc
        try rw [if_pos hin'] at hc
        first
        | (cases hc; done)
        | (split at hc <;> first | (cases hc; done) | (split at hc <;> first | (cases hc; done) | (split at hc <;> first | (cases hc; done) | (split at hc <;> cases hc))))
    | true =>
      apply key u
      show step cfg s u ≠ .wait
      unfold step
      split <;> rename_i e <;> first | (exact absurd e hu) | skip
      all_goals
        intro hc
        try rw [if_pos hin'] at hc
        try rw [if_pos hf] at hc
        first
        | (cases hc; done)
        | (split at hc <;> first | (cases hc; done) | (split at hc <;> first | (cases hc; done) | (split at hc <;> first | (cases hc; done) | (split at hc <;> cases hc))))

/-- A state in which thread 2 waits for the log to be on disk. -/
example : (play cfg0 (St.opened cfg0 [] 0) (both.take 22)).map (fun x => decide (x.1.pc 2 = .idle)) = some false := by decide +kernel

/-! ### The order of the records -/

/-- The records are numbered in the order in which they are logged, without a gap, and the bytes of each are what `write` makes
of it. -/
theorem numbers_consecutive (cfg : Cfg) (old : List File) (lsn0 : Nat) (h0 : lsn0 + 1 < 2 ^ 64) (s : St) (evs : List Event) (h : Run cfg (St.opened cfg old lsn0) s evs)
    (i : Nat) (r : Entry × List Nat) (hr : (recs evs)[i]? = some r) : r.1.lsn = lsn0 + i + 1 ∧ Written r := by
  obtain ⟨g, hg⟩ := inv_run h0 h
  rw [hg.data.all] at hr
  have hi : i < g.all.length := (List.getElem?_eq_some_iff.mp hr).1
  refine ⟨?_, hg.data.written r (List.mem_of_getElem? hr)⟩
  have := numbered_at hg.data.num (A := g.all.take i) (r := r) (B := g.all.drop (i + 1)) (by
    have e : g.all[i] = r := (List.getElem?_eq_some_iff.mp hr).2
    rw [← e, ← List.drop_eq_getElem_cons hi, List.take_append_drop])
  rw [List.length_take, Nat.min_eq_left (Nat.le_of_lt hi)] at this
  exact this

example : (recs bothEvents).map (·.1.lsn) = [1, 2, 3] := by decide +kernel

/-- The log files and the buffers hold every record once, whole and in order; only records below a number at which the log was
trimmed, and only the oldest, are missing. -/
theorem log_in_order (cfg : Cfg) (old : List File) (lsn0 : Nat) (h0 : lsn0 + 1 < 2 ^ 64) (s : St) (evs : List Event) (h : Run cfg (St.opened cfg old lsn0) s evs) :
    ∃ (old' : List File) (groups : List (List (Entry × List Nat))) (gone outs ins : List (Entry × List Nat)),
      s.files.map (·.bytes) = old'.map (·.bytes) ++ groups.map (fun g => Seg.bytes (.full logVersion g)) ∧
      old' <:+ old ∧ (gone ≠ [] → old' = []) ∧
      s.outbuf.bytes = outs.flatMap (·.2) ∧ s.inbuf.bytes = ins.flatMap (·.2) ∧
      recs evs = gone ++ groups.flatten ++ outs ++ ins ∧
      (∀ r ∈ gone, TrimmedAbove evs r.1.lsn) ∧ (∀ f ∈ old, f ∉ old' → TrimmedAbove evs f.info) := by
  obtain ⟨g, hg⟩ := inv_run h0 h
  have hd := hg.data
  have hmap : ∀ (n : Nat) (l : List (List Rec)), (closedFiles n l).map (·.bytes) = l.map fun g => Seg.bytes (.full logVersion g) := by
    intro n l
    induction l generalizing n with
    | nil => rfl
    | cons r l ih => simp only [closedFiles, List.map_cons, ih]; rfl
  have hdrop : ∀ (n m : Nat) (l : List (List Rec)), ((closedFiles n l).drop m).map (·.bytes) = (l.drop m).map fun g => Seg.bytes (.full logVersion g) := by
    intro n m l
    rw [List.map_drop, hmap, ← List.map_drop]
  refine ⟨old.drop g.k, g.closed.drop (g.k - old.length) ++ [g.gs ++ g.gu], (g.closed.take (g.k - old.length)).flatten, g.p, g.i, ?_, List.drop_suffix _ _, ?_, hd.out, hd.inb, ?_, ?_, ?_⟩
  · rw [hd.files, List.map_append, List.drop_append, List.map_append, hdrop, List.map_append, List.append_assoc]
    rfl
  · intro hne
    have : g.k - old.length ≠ 0 := by intro h0; rw [h0] at hne; exact hne rfl
    exact List.drop_eq_nil_of_le (by omega)
  · rw [hd.all, G.all, List.flatten_append, ← List.append_assoc, ← List.flatten_append, List.take_append_drop]
    simp
  · intro r hr
    exact gone_trimmed hd hr
  · intro f hf hn
    apply hd.trimmed f
    rw [List.take_append, List.mem_append]
    left
    rw [← List.take_append_drop g.k old] at hf
    rcases List.mem_append.mp hf with hf | hf
    · exact hf
    · exact absurd hf hn

/-! ### Durability -/

/-- When a call that asks for the log to be on disk returns — logging with `do_fsync`, or waiting for a number at commit — every
record up to that number is on disk, and stays there: whatever a crash leaves of the files at that time or later, the records
are in it, unless the log was trimmed above them. -/
theorem synced_records_survive (cfg : Cfg) (old : List File) (lsn0 : Nat) (h0 : lsn0 + 1 < 2 ^ 64) (s : St) (evs : List Event) (h : Run cfg (St.opened cfg old lsn0) s evs)
    (t : Tid) (c : Call) (l : Nat) (hret : Event.ret t c l ∈ evs) (hc : (∃ j, c = .log j true) ∨ ∃ n, c = .sync n) (n : Nat) (hn : n ≤ l) : Durable s evs n := by
  obtain ⟨g, hg, hr⟩ := run_ret h0 h
  refine durable_of_inv hg (Nat.le_trans hn ((hr t c l hret).1 ?_))
  rcases hc with ⟨j, rfl⟩ | ⟨n, rfl⟩ <;> rfl

/-- When logging with `do_fsync` returns, the record logged is on disk, and stays there. -/
theorem synced_record_survives (cfg : Cfg) (old : List File) (lsn0 : Nat) (h0 : lsn0 + 1 < 2 ^ 64) (s : St) (evs : List Event) (h : Run cfg (St.opened cfg old lsn0) s evs)
    (t : Tid) (j : Job) (l : Nat) (hret : Event.ret t (.log j true) l ∈ evs) :
    ∃ bs, Event.put t j l bs ∈ evs ∧ ∀ img, LeavesAll s.files img → Survives img (logged j.now ⟨j.cmd, l, j.vals⟩, bs) ∨ TrimmedAbove evs l := by
  obtain ⟨g, hg, hr⟩ := run_ret h0 h
  obtain ⟨h1, bs, h2⟩ := hr t _ l hret
  refine ⟨bs, h2, ?_⟩
  have hd := synced_records_survive cfg old lsn0 h0 s evs h t _ l hret (.inl ⟨j, rfl⟩) l (Nat.le_refl _)
  exact hd _ (List.mem_filterMap.mpr ⟨_, h2, rfl⟩) rfl

example : Event.ret 2 (.log jCommit true) 3 ∈ bothEvents := by decide

/-- What was logged can be read back.  The files found at the beginning hold consecutive records up to number `lsn0`.  After a
crash that leaves the open file cut behind one of its records, but not within what is on disk for sure, the log cursor walks over
consecutive records, and every record logged with `do_fsync` whose call has returned is one of them, unless the log was trimmed
above it. -/
theorem log_read_back_partial (cfg : Cfg) (old : List File) (lsn0 : Nat) (h0 : lsn0 + 1 < 2 ^ 64) (s : St) (evs : List Event) (h : Run cfg (St.opened cfg old lsn0) s evs)
    (olds : List Seg) (hold : old.map (·.bytes) = olds.map Seg.bytes) (hok : ∀ x ∈ olds, x.Ok) (hc : Consecutive (entries olds))
    (hl : ∀ e, (entries olds).getLast? = some e → e.lsn = lsn0) :
    ∃ (closed : List Seg) (rs : List (Entry × List Nat)) (f : File), s.files.map (·.bytes) = (closed ++ [Seg.full logVersion rs]).map Seg.bytes ∧ s.files.getLast? = some f ∧
      ∀ m, f.synced ≤ (Seg.bytes (.full logVersion (rs.take m))).length →
        (∀ ms, smooth (entries (closed ++ [Seg.full logVersion (rs.take m)])) .out ms = true →
          ((Cur.create ((closed ++ [Seg.full logVersion (rs.take m)]).map Seg.bytes)).steps ms).2 = (answers (entries (closed ++ [Seg.full logVersion (rs.take m)])) .out ms).map told) ∧
        Consecutive (entries (closed ++ [Seg.full logVersion (rs.take m)])) ∧
        ∀ t j l, Event.ret t (.log j true) l ∈ evs → logged j.now ⟨j.cmd, l, j.vals⟩ ∈ entries (closed ++ [Seg.full logVersion (rs.take m)]) ∨ TrimmedAbove evs l := by
  obtain ⟨g, hg, hret⟩ := run_ret h0 h
  have hd := hg.data
  refine ⟨(olds ++ fullSegs g.closed).drop g.k, g.gs ++ g.gu, g.cur, ?_, by rw [hd.files]; simp, ?_⟩
  · rw [hd.files, List.map_append, List.map_append, List.map_drop, List.map_append, hold, closedFiles_bytes, ← List.map_append, ← List.map_drop]
    rfl
  intro m hm
  have hent : ∃ pre, pre ++ entries ((olds ++ fullSegs g.closed).drop g.k ++ [Seg.full logVersion ((g.gs ++ g.gu).take m)]) =
      entries olds ++ (g.closed.flatten ++ (g.gs ++ g.gu).take m).map (·.1) := by
    refine ⟨entries ((olds ++ fullSegs g.closed).take g.k), ?_⟩
    have e1 : entries ((olds ++ fullSegs g.closed).take g.k) ++ entries ((olds ++ fullSegs g.closed).drop g.k ++ [Seg.full logVersion ((g.gs ++ g.gu).take m)]) =
        entries (olds ++ fullSegs g.closed ++ [Seg.full logVersion ((g.gs ++ g.gu).take m)]) := by
      simp only [entries, ← List.map_append, ← List.flatMap_append, ← List.append_assoc, List.take_append_drop]
    rw [e1]
    simp only [entries, List.flatMap_append, List.map_append, fullSegs_recs, List.append_assoc]
    simp [Seg.recs]
  have hnum : numbered lsn0 (g.closed.flatten ++ (g.gs ++ g.gu).take m) := by
    have := hd.num
    have e : g.all = (g.closed.flatten ++ (g.gs ++ g.gu).take m) ++ ((g.gs ++ g.gu).drop m ++ g.p ++ g.i) := by
      have := List.take_append_drop m (g.gs ++ g.gu)
      have e2 : g.all = g.closed.flatten ++ (g.gs ++ g.gu) ++ g.p ++ g.i := by simp only [G.all, List.append_assoc]
      rw [e2]
      refine Eq.trans (congrArg (fun x => g.closed.flatten ++ x ++ g.p ++ g.i) this.symm) ?_
      simp only [List.append_assoc]
    rw [e] at this
    exact (numbered_append.mp this).1
  have hcons : Consecutive (entries ((olds ++ fullSegs g.closed).drop g.k ++ [Seg.full logVersion ((g.gs ++ g.gu).take m)])) := by
    obtain ⟨pre, hpre⟩ := hent
    have := consecutive_join hc hl hnum
    rw [← hpre] at this
    exact Consecutive.suffix this
  have hw : ∀ r ∈ g.closed.flatten ++ (g.gs ++ g.gu), Written r := by
    intro r hr; apply hd.written
    simp only [G.all, List.mem_append] at hr ⊢
    rcases hr with h | h | h <;> simp [h]
  have hok' : ∀ x ∈ (olds ++ fullSegs g.closed).drop g.k ++ [Seg.full logVersion ((g.gs ++ g.gu).take m)], x.Ok := by
    intro x hx
    rcases List.mem_append.mp hx with hx | hx
    · rcases List.mem_append.mp (List.mem_of_mem_drop hx) with hx | hx
      · exact hok x hx
      · obtain ⟨c, hcm, rfl⟩ := List.mem_map.mp hx
        exact ⟨by decide, by decide, fun r hr => hw r (List.mem_append_left _ (List.mem_flatten.mpr ⟨c, hcm, hr⟩))⟩
    · cases List.mem_singleton.mp hx
      exact ⟨by decide, by decide, fun r hr => hw r (List.mem_append_right _ (List.mem_of_mem_take hr))⟩
  refine ⟨fun ms hs => Verif.Log.Props.cursor_walks_partial _ hok' hcons ms hs, hcons, ?_⟩
  · intro t j l hr
    obtain ⟨h1, bs, h2⟩ := hret t _ l hr
    have h1 := h1 rfl
    have hmem : ((logged j.now ⟨j.cmd, l, j.vals⟩, bs) : Entry × List Nat) ∈ recs evs := List.mem_filterMap.mpr ⟨_, h2, rfl⟩
    rw [hd.all] at hmem
    obtain ⟨A, B, hAB⟩ := List.append_of_mem hmem
    have hn := numbered_at hd.num hAB
    have hn' : l = lsn0 + A.length + 1 := hn
    have hlen : A.length < (g.closed.flatten ++ g.gs).length := by
      rw [List.length_append]; simp only [G.dur] at h1; omega
    have hin : ((logged j.now ⟨j.cmd, l, j.vals⟩, bs) : Entry × List Nat) ∈ g.closed.flatten ++ g.gs := by
      have e1 : (g.closed.flatten ++ g.gs ++ (g.gu ++ g.p ++ g.i))[A.length]? = some (logged j.now ⟨j.cmd, l, j.vals⟩, bs) := by
        have : g.closed.flatten ++ g.gs ++ (g.gu ++ g.p ++ g.i) = A ++ (logged j.now ⟨j.cmd, l, j.vals⟩, bs) :: B := by rw [← hAB]; simp [G.all]
        rw [this]; simp
      rw [List.getElem?_append_left hlen] at e1
      exact List.mem_of_getElem? e1
    have put : ∀ {x : Seg}, x ∈ (olds ++ fullSegs g.closed).drop g.k ++ [Seg.full logVersion ((g.gs ++ g.gu).take m)] → ((logged j.now ⟨j.cmd, l, j.vals⟩, bs) : Entry × List Nat) ∈ x.recs →
        logged j.now ⟨j.cmd, l, j.vals⟩ ∈ entries ((olds ++ fullSegs g.closed).drop g.k ++ [Seg.full logVersion ((g.gs ++ g.gu).take m)]) := by
      intro x hx hr
      exact List.mem_map.mpr ⟨_, List.mem_flatMap.mpr ⟨x, hx, hr⟩, rfl⟩
    rcases List.mem_append.mp hin with hin | hin
    · rw [← List.take_append_drop (g.k - old.length) g.closed, List.flatten_append] at hin
      rcases List.mem_append.mp hin with hin | hin
      · right; exact gone_trimmed hd hin
      · left
        obtain ⟨c, hcm, hrc⟩ := List.mem_flatten.mp hin
        refine put (x := .full logVersion c) (List.mem_append_left _ ?_) hrc
        have hlo : olds.length = old.length := by have := congrArg List.length hold; simpa using this.symm
        rw [List.drop_append, List.mem_append, hlo]
        right
        rw [fullSegs, ← List.map_drop]
        exact List.mem_map.mpr ⟨c, hcm, rfl⟩
    · left
      refine put (List.mem_append_right _ (List.mem_singleton.mpr rfl)) ?_
      have hcov : g.gs <+: (g.gs ++ g.gu).take m := by
        refine take_covers (fun r hr => (Written.whole (hw r (List.mem_append_right _ (List.mem_append_left _ hr)))).pos) ?_
        by_cases hh : g.hdr = true
        · have : g.cur.synced = 12 + (bytesOf g.gs).length := by simp only [G.cur, hh]; rfl
          rw [this] at hm
          have e : (Seg.bytes (.full logVersion ((g.gs ++ g.gu).take m))).length = 12 + (bytesOf ((g.gs ++ g.gu).take m)).length := by
            show (header logVersion ++ bytesOf _).length = _
            rw [List.length_append]; rfl
          omega
        · rw [hd.hdr (by simpa using hh)]; simp [bytesOf]
      exact hcov.subset hin

/-- At the end of `both` two files have been written; the log is read from the end. -/
example : (play cfg0 (St.opened cfg0 [] 0) both).map (fun x => ((Cur.create (x.1.files.map (·.bytes))).steps [.prev, .prev, .prev]).2.map fun | .ok e => e.lsn | _ => 0) =
    some [3, 2, 1] := by decide +kernel

/-- When waiting for the log up to `n` to be on disk returns, it is. -/
theorem waited_records_survive (cfg : Cfg) (old : List File) (lsn0 : Nat) (h0 : lsn0 + 1 < 2 ^ 64) (s : St) (evs : List Event) (h : Run cfg (St.opened cfg old lsn0) s evs)
    (t : Tid) (n l : Nat) (hret : Event.ret t (.sync n) l ∈ evs) (m : Nat) (hm : m ≤ n) : Durable s evs m := by
  obtain ⟨g, hg, hr⟩ := run_ret h0 h
  have : l = n := (hr t _ l hret).2
  exact synced_records_survive cfg old lsn0 h0 s evs h t _ l hret (.inr ⟨n, rfl⟩) m (by omega)

/-- Thread 1 logs a record, then waits for it. -/
example : (play cfg1 (St.opened cfg1 [] 0) ((1, some (.log jBegin false)) :: go 1 4 ++ (1, some (.sync 1)) :: go 1 9)).map (fun x => x.2.getLast?) =
    some (some (.ret 1 (.sync 1) 1)) := by decide +kernel

/-- If no thread is writing the log when `log_flush` looks at the input buffer, then upon its return all records logged before
that are on disk, and stay there. -/
theorem flush_durable_partial (cfg : Cfg) (old : List File) (lsn0 : Nat) (h0 : lsn0 + 1 < 2 ^ 64) (s1 : St) (evs1 : List Event) (h : Run cfg (St.opened cfg old lsn0) s1 evs1)
    (t : Tid) (hp : s1.pc t = .flushRead) (hf : s1.outFree = true)
    (s2 : St) (evs2 : List Event) (h2 : Run cfg s1 s2 evs2) (l : Nat) (hret : Event.ret t .flush l ∈ evs2) (n : Nat) (hn : n ≤ s1.lsn) : Durable s2 (evs1 ++ evs2) n := by
  obtain ⟨g, hg⟩ := inv_run h0 h
  have hnum := Run.numbers h h0
  -- when the buffer is read
  have hfree := hg.locks.free.mp hf
  have hin : s1.inLock = some t := (hg.locks.inl t).mp (by rw [hp]; rfl)
  have hstart : s1.lsn ≤ g.dur lsn0 ∨ FlushAt s1.lsn s1.inbuf.maxLsn (s1.pc t) := by
    have hp0 : g.p = [] := by
      rcases hg.pend with h | ⟨u, h⟩
      · exact h
      · have := hfree u
        cases hpc : s1.pc u <;> rw [hpc] at h this <;> first | (cases h; done) | (cases this; done)
    by_cases hi : g.i = []
    · left
      have hgu : g.gu = [] := by
        rcases hg.late with h | h | ⟨u, h⟩
        · exact h
        · exact absurd hi h
        · have hu := hfree u
          have hput : holdsIn (s1.pc u) = true := by
            cases hpc : s1.pc u <;> rw [hpc] at h hu <;> first | (cases h; done) | (cases hu; done) | rfl
          have e := (hg.locks.inl u).mp hput
          rw [hin] at e
          rw [← Option.some.inj e, hp] at h
          cases h
      rw [hg.data.lsn, G.lsn, G.out, G.wr, hp0, hi, hgu]; exact Nat.le_refl _
    · right
      rw [hp]
      show s1.lsn ≤ s1.inbuf.maxLsn
      rw [hg.data.inMax hi, hg.data.lsn]; exact Nat.le_refl _
  have key : ∃ g2, Inv lsn0 cfg old g2 s2 (evs1 ++ evs2) ∧ (s1.lsn ≤ g2.dur lsn0 ∨ (FlushAt s1.lsn s2.inbuf.maxLsn (s2.pc t) ∧ ∀ l, Event.ret t .flush l ∉ evs2)) := by
    clear hret
    induction h2 with
    | start => exact ⟨g, by simpa using hg, hstart.imp id fun h => ⟨h, by simp⟩⟩
    | step hr ha hs hl ih =>
      rename_i u a ev
      obtain ⟨g1, hg1, hor⟩ := ih
      have hgood := act_good hg1 u a ha (Run.numbers hr hnum)
      rw [hs] at hgood
      obtain ⟨g2, hg2, hd⟩ := hgood
      refine ⟨g2, by rw [← List.append_assoc]; exact hg2, ?_⟩
      rcases hor with hor | ⟨hor, hno⟩
      · exact .inl (Nat.le_trans hor hd)
      · rcases flush_keeps hg1.locks hor hs with ⟨h1, h2⟩ | ⟨l', h1, h2⟩
        · refine .inr ⟨h1, ?_⟩
          intro l' hm
          rcases List.mem_append.mp hm with hm | hm
          · exact hno l' hm
          · cases ev with
            | none => cases hm
            | some x => simp only [Option.toList_some, List.mem_cons, List.not_mem_nil, or_false] at hm; exact h2 l' (by rw [hm])
        · left
          cases a with
          | call c =>
            rw [h1] at hs
            simp only [act, St.call] at hs
            split at hs
            · split at hs
              · cases hs
              · cases hs
              · split at hs <;> cases hs
              · cases hs
            · cases hs
          | go =>
            rw [h1] at hs
            have := (step_ret hg1 hs).1 rfl
            omega
  obtain ⟨g2, hg2, hor⟩ := key
  rcases hor with hor | ⟨_, hno⟩
  · exact durable_of_inv hg2 (Nat.le_trans hn hor)
  · exact absurd hret (hno l)

/-- The premises are met: thread 1 logs a record and flushes the log. -/
example : (play cfg0 (St.opened cfg0 [] 0) ((1, some (.log jBegin false)) :: go 1 4 ++ (1, some .flush) :: go 1 1)).map (fun x => (x.1.pc 1, x.1.outFree, x.1.lsn)) =
    some (.flushRead, true, 1) := by decide +kernel

/-- A thread logs a record; another one, which has to write the log, has just exchanged the buffers; the first one flushes the
log.  It looks at a buffer that is empty and was last filled long ago, and returns at once: nothing is on disk. -/
def race : List (Tid × Option Call) :=
  (1, some (.log jBegin false)) :: go 1 4 ++ (2, some (.log jCommit true)) :: go 2 8 ++ (1, some .flush) :: go 1 4

/-- The bytes of the first record. -/
def raceBytes : List Nat := match write jBegin.now ⟨jBegin.cmd, 1, jBegin.vals⟩ with | .ok b => b | _ => []

/-- What is called, logged and returned before the flush. -/
def race1 : List Event := [.call 1 (.log jBegin false), .put 1 jBegin 1 raceBytes, .ret 1 (.log jBegin false) 1, .call 2 (.log jCommit true),
  .put 2 jCommit 2 (bothEvents.bytesFrom (write 0 ⟨'C'.toNat, 2, [.pair 5 0]⟩))]

/-- `log_flush` can return although a record logged by its caller before the call is not on disk. -/
theorem flush_not_durable : ∃ s evs1 evs2 bs, Run cfg1 (St.opened cfg1 [] 0) s (evs1 ++ [.call 1 .flush] ++ evs2) ∧
    Event.put 1 jBegin 1 bs ∈ evs1 ∧ Event.ret 1 .flush 0 ∈ evs2 ∧ ¬ Durable s (evs1 ++ [.call 1 .flush] ++ evs2) 1 := by
  have hp : (play cfg1 (St.opened cfg1 [] 0) race).map (·.2) = some (race1 ++ [.call 1 .flush] ++ [.ret 1 .flush 0]) := by decide +kernel
  have hq : (play cfg1 (St.opened cfg1 [] 0) race).map (·.1.files) = some [⟨header logVersion, 0, 0⟩] := by decide +kernel
  obtain ⟨⟨s, es⟩, h1, h2⟩ := Option.map_eq_some_iff.mp hp
  rw [h1] at hq
  have h3 : s.files = [⟨header logVersion, 0, 0⟩] := Option.some.inj hq
  replace h2 : es = _ := h2
  have hcalls : ∀ x ∈ race, ∀ c, x.2 = some c → CallOk c := by
    intro x hx c hc
    simp only [race, go, List.mem_append, List.mem_cons, List.mem_replicate] at hx
    rcases hx with (((rfl | ⟨-, rfl⟩) | rfl | ⟨-, rfl⟩) | rfl | ⟨-, rfl⟩) <;> first | (cases hc; done) | (cases hc; first | exact jBegin_ok | exact jCommit_ok | trivial)
  have hrun := play_run h1 hcalls
  rw [h2] at hrun
  refine ⟨s, race1, _, _, hrun, List.mem_cons_of_mem _ List.mem_cons_self, List.mem_cons_self, ?_⟩
  intro hd
  have := hd (logged jBegin.now ⟨jBegin.cmd, 1, jBegin.vals⟩, _) (by simp only [recs, race1, List.cons_append, List.filterMap_cons, Event.rec?]; exact List.mem_cons_self) rfl
    [header logVersion] (by rw [h3]; exact .cons ⟨by simp, fun _ => rfl⟩ .nil)
  rcases this with ⟨b, hb, rs, -, hpre⟩ | ⟨u, l, hm, -⟩
  · have hl := hpre.length_le
    cases List.mem_singleton.mp hb
    have : (Seg.bytes (.full logVersion (rs ++ [(logged jBegin.now ⟨jBegin.cmd, 1, jBegin.vals⟩, raceBytes)]))).length = (header logVersion).length + (rs.flatMap (·.2)).length + 53 := by
      have e : raceBytes.length = 53 := by decide +kernel
      simp only [Seg.bytes, List.flatMap_append, List.flatMap_cons, List.flatMap_nil, List.append_nil, List.length_append, e]
      omega
    omega
  · simp [race1] at hm

/-! ### The size of a file -/

/-- When no thread is writing the log, the open file is not bigger than `lg_max` bytes (or has only a header). -/
theorem open_file_small (cfg : Cfg) (old : List File) (lsn0 : Nat) (h0 : lsn0 + 1 < 2 ^ 64) (s : St) (evs : List Event) (h : Run cfg (St.opened cfg old lsn0) s evs)
    (hf : s.outFree = true) : ∃ f, s.files.getLast? = some f ∧ f.bytes.length ≤ max cfg.lgMax 12 := by
  obtain ⟨g, hg⟩ := inv_run h0 h
  refine ⟨g.cur, by rw [hg.data.files]; simp, ?_⟩
  rcases hg.small with h | ⟨u, h⟩
  · exact h
  · have := hg.locks.free.mp hf u
    cases hp : s.pc u <;> rw [hp] at h this <;> first | (cases h; done) | (cases this; done)

example : (play cfg0 (St.opened cfg0 [] 0) both).map (fun x => (x.1.outFree, x.1.files.map (·.bytes.length))) = some (true, [118, 49]) := by decide +kernel

/-! ### Records that are too long -/

/-- A record of 2^31 bytes or more is taken for one of negative length: the test for room succeeds however small the buffer. -/
theorem long_record_overruns (cfg : Cfg) (b : Buf) (n : Nat) (h1 : 2 ^ 31 ≤ n) (h2 : n < 2 ^ 32) (hb : b.bytes.length ≤ 2 ^ 31 - 1) (hn : b.bytes.length + n ≤ 2 ^ 32) : roomy cfg b n = true := by
  have : n % 2 ^ 32 = n := Nat.mod_eq_of_lt h2
  simp only [roomy, asInt, this, decide_eq_true_eq]
  rw [if_neg (by omega)]
  omega

/-- After a record of more than 2^29 bytes a longer one makes the assertion on the size of the buffer fail, though both are
shorter than 2^30 bytes. -/
theorem second_long_record_crashes (n : Nat) (h1 : 2 ^ 29 < n) (h2 : n + 1 < 2 ^ 30) : grown n (n + 1) = none := by
  have e : asInt (n + 1) = ((n + 1 : Nat) : Int) := by
    have : (n + 1) % 2 ^ 32 = n + 1 := Nat.mod_eq_of_lt (by omega)
    rw [asInt, this, if_pos (by omega)]
  have e1 : ((n + 1 : Nat) : Int) > (n : Int) := by omega
  have e2 : ((n + 1 : Nat) : Int) < 2 ^ 30 := by omega
  have e3 : n * 2 > n + 1 := by omega
  have e4 : ¬ n * 2 < 2 ^ 30 := by omega
  simp only [grown, e, Int.toNat_natCast]
  rw [if_pos e1, if_pos e2, if_pos e3, if_neg e4]

end Verif.Logger.Props
