import Verif.Rowcount.Shape

/-!
# C79: the number of rows and the size reported for a dictionary

While a dictionary is open, the number of rows reported does not depend on what was read, evicted, written or
checkpointed in between.  Over a restart it does.
-/

namespace Verif.Rowcount

variable {σ μ : Type}

/-- While the dictionary is open, the number of rows reported is the count at the start, plus what the senders
of messages said, plus the corrections of exactly the messages that are in the versions readers would find,
each counted once, whatever was loaded, read, flushed, written, cloned and evicted in between and in whatever
order, as long as that number is never below zero. -/
theorem C79_rows_partial {O : Ops σ μ} {R : σ → σ → Prop} (hs : Silent O R) (vss : List (List σ)) (r : Nat)
    (evs : List (Ev μ)) (t : St σ μ) (hr : run O (start O vss r) evs = some t)
    (ho : ∀ e, e ∈ evs → e.ordinary = true) (hb : bounded O r (start O vss r) evs = true) :
    nkeys t = due O r evs t := by
  obtain ⟨a, b⟩ := start_all (μ := μ) hs vss r
  have h0 : ((start O vss r : St σ μ).rows : Int) = (r : Int) + total (Base.due O) (start O vss r : St σ μ).leaves := by
    rw [b]; show (r : Int) = r + 0; omega
  exact nkeys_of (rows_due hs evs r a h0 hr ho hb).2 (bounded_last evs r hb hr).2

/-- Two histories in which the same messages were sent in the same order, each followed by a scan, report the
same number of rows, however much they differ otherwise. -/
theorem C79_same_answer_partial {O : Ops σ μ} {R : σ → σ → Prop} (hs : Silent O R) (vss : List (List σ)) (r : Nat)
    (evs evs' : List (Ev μ)) (t t' : St σ μ)
    (hr : run O (start O vss r) evs = some t) (hr' : run O (start O vss r) evs' = some t')
    (ho : ∀ e, e ∈ evs → e.ordinary = true) (ho' : ∀ e, e ∈ evs' → e.ordinary = true)
    (hb : bounded O r (start O vss r) evs = true) (hb' : bounded O r (start O vss r) evs' = true)
    (hsent : evs.filter Ev.sends = evs'.filter Ev.sends) (hsc : Scanned t) (hsc' : Scanned t') :
    nkeys t = nkeys t' := by
  rw [C79_rows_partial hs vss r evs t hr ho hb, C79_rows_partial hs vss r evs' t' hr' ho' hb']
  have e : t.past = t'.past := by
    have a := run_past evs hr ho
    have b := run_past evs' hr' ho'
    rw [hsent, ← b] at a
    exact congrArg Prod.fst a
  unfold due
  rw [scanned_due hsc, scanned_due hsc', e, said_filter evs, said_filter evs', hsent]

/-- Closing and opening again, everything written: the number of rows is off by exactly the corrections that
readers have made and that are not on disk, from then on. -/
theorem C79_reopen {O : Ops σ μ} {R : σ → σ → Prop} (hs : Silent O R) (vss : List (List σ)) (r : Nat)
    (evs : List (Ev μ)) (s : St σ μ) (hr : run O (start O vss r) evs = some s)
    (ho : ∀ e, e ∈ evs → e.ordinary = true) (hb : bounded O r (start O vss r) evs = true) (hc : Clean s) :
    ∃ t, run O s [.beginCkpt, .endCkpt, .restart] = some t ∧
      ∀ (evs' : List (Ev μ)) (u : St σ μ), run O t evs' = some u → (∀ e, e ∈ evs' → e.ordinary = true) →
        bounded O (r + (evs.map (saidBy O)).sum + outstanding s) t evs' = true →
        nkeys u = due O r (evs ++ evs') u + outstanding s := by
  obtain ⟨a, b⟩ := start_all (μ := μ) hs vss r
  have h0 : ((start O vss r : St σ μ).rows : Int) = (r : Int) + total (Base.due O) (start O vss r : St σ μ).leaves := by
    rw [b]; show (r : Int) = r + 0; omega
  obtain ⟨c1, c2⟩ := rows_due hs evs r a h0 hr ho hb
  obtain ⟨t, t1, t2, t3, t4, t5, t6, t7⟩ := reopen_state c1 hc
  refine ⟨t, t1, ?_⟩
  intro evs' u hu ho' hb'
  have h1 : (t.rows : Int) = (r + (evs.map (saidBy O)).sum + outstanding s) + total (Base.due O) t.leaves := by
    rw [t3, c2, t5]; unfold due; omega
  have d := (rows_due hs evs' _ t2 h1 hu ho' hb').2
  have l := bounded_last evs' _ hb' hu
  rw [nkeys_of d l.2]
  unfold due
  rw [List.map_append, List.sum_append]
  omega

theorem settled_zero {s : St σ μ} (h : Settled s) : outstanding s = 0 := by
  unfold outstanding total
  refine sum_zero _ _ (fun l hl => sum_zero _ _ (fun b hb => ?_))
  unfold Base.undo
  cases hm : b.mem with
  | none => rfl
  | some m => simp only [(h l hl).2.2 b hb m hm]; rfl

/-- So it stays right over closing and opening when no reader's corrections are outstanding. -/
theorem C79_reopen_partial {O : Ops σ μ} {R : σ → σ → Prop} (hs : Silent O R) (vss : List (List σ)) (r : Nat)
    (evs : List (Ev μ)) (s : St σ μ) (hr : run O (start O vss r) evs = some s)
    (ho : ∀ e, e ∈ evs → e.ordinary = true) (hb : bounded O r (start O vss r) evs = true)
    (hk : s.ckpt = none) (hc : Settled s) :
    ∃ t, run O s [.beginCkpt, .endCkpt, .restart] = some t ∧
      ∀ (evs' : List (Ev μ)) (u : St σ μ), run O t evs' = some u → (∀ e, e ∈ evs' → e.ordinary = true) →
        bounded O (r + (evs.map (saidBy O)).sum) t evs' = true →
        nkeys u = due O r (evs ++ evs') u := by
  obtain ⟨t, t1, t2⟩ := C79_reopen hs vss r evs s hr ho hb ⟨hk, fun l hl => ⟨(hc l hl).1, (hc l hl).2.1⟩⟩
  refine ⟨t, t1, ?_⟩
  rw [settled_zero hc] at t2
  intro evs' u hu ho' hb'
  rw [t2 evs' u hu ho' (by rw [Int.add_zero]; exact hb')]
  omega

/-- The physical counts (rows or bytes) are those of the versions readers would find, over any history with
restarts, if no leaf that readers have changed is evicted as a whole and no checkpoint begins while a dirty
leaf holds garbage. -/
theorem C79_size_partial {O : Ops σ μ} (vss : List (List σ)) (r : Nat) (evs : List (Ev μ)) (t : St σ μ)
    (hr : run O (start O vss r) evs = some t) (hh : harmlessRun O (start O vss r) evs = true)
    (hn : ∀ v, 0 ≤ O.size v) : dsize t = actual O t := by
  have h := run_stats evs (start_stats vss r) hh hr
  have e : t.stats = actual O t := h.mem
  have nn : 0 ≤ actual O t := by
    have : ∀ {α : Type} (f : α → Int) (l : List α), (∀ x, x ∈ l → 0 ≤ f x) → 0 ≤ (l.map f).sum := by
      intro α f l
      induction l with
      | nil => intro _; exact Int.le_refl 0
      | cons x xs ih =>
        intro k
        have a := k x List.mem_cons_self
        have b := ih (fun y hy => k y (List.mem_cons_of_mem _ hy))
        simp only [List.map_cons, List.sum_cons]
        omega
    exact this _ _ (fun l _ => this _ _ (fun b _ => hn _))
  unfold dsize
  rw [if_neg (by omega)]
  exact e

/-! ## A concrete dictionary -/

/-- Rows are keys; what a delete leaves behind is garbage until it is collected.  A put says one more, a delete
one less. -/
def keys : Ops (List Nat × Nat) (Bool × Nat) where
  apply v m := match m with
    | (true, k) => if k ∈ v.1 then v else (k :: v.1, v.2)
    | (false, k) => if k ∈ v.1 then (v.1.erase k, v.2 + 1) else v
  corr v m := match m with
    | (true, k) => if k ∈ v.1 then -1 else 0
    | (false, k) => if k ∈ v.1 then 0 else 1
  said m := if m.1 then 1 else -1
  gc v := (v.1, 0)
  size v := v.1.length + v.2

theorem keys_silent : Silent keys (fun v w => v.1 = w.1) where
  refl _ := rfl
  trans _ _ _ a b := a.trans b
  corr v w m h := by
    obtain ⟨c, k⟩ := m
    cases c <;> simp only [keys] <;> rw [h]
  apply v w m h := by
    obtain ⟨c, k⟩ := m
    cases c <;> simp only [keys] <;> rw [h] <;> by_cases d : k ∈ w.1 <;> simp [d, h]
  gc _ := rfl

/-- The number of rows there are, once everything has been read. -/
def present (t : St (List Nat × Nat) (Bool × Nat)) : Int := total (fun b => b.view.1.length) t.leaves

/-- One leaf of two basement nodes, holding the keys 1 and 10. -/
def two : List (List (List Nat × Nat)) := [[([1], 0), ([10], 0)]]

/-- Puts, deletes, reads, evictions of parts and of the whole, flushing, a checkpoint with its clone, reads. -/
def busy : List (Ev (Bool × Nat)) :=
  [.put 0 0 (true, 1), .put 0 1 (true, 11), .load 0 0, .read 0 0, .drop 0 0, .load 0 0, .read 0 0, .load 0 1,
   .flush 0 1, .put 0 1 (false, 12), .read 0 1, .beginCkpt, .read 0 0, .writeClone 0, .endCkpt, .evict 0,
   .load 0 0, .load 0 1, .read 0 0, .read 0 1]

/-- The same messages, read at the end only. -/
def idle : List (Ev (Bool × Nat)) :=
  [.put 0 0 (true, 1), .put 0 1 (true, 11), .put 0 1 (false, 12), .load 0 0, .load 0 1, .read 0 0, .read 0 1]

example : (run keys (start keys two 2) busy).map (fun t => (nkeys t, present t, due keys 2 busy t)) = some (3, 3, 3) ∧
    (run keys (start keys two 2) idle).map (fun t => (nkeys t, present t)) = some (3, 3) ∧
    busy.all Ev.ordinary = true ∧ idle.all Ev.ordinary = true ∧
    bounded keys 2 (start keys two 2) busy = true ∧ bounded keys 2 (start keys two 2) idle = true ∧
    busy.filter Ev.sends = idle.filter Ev.sends := by decide +kernel

/-- Scanned, as a check. -/
def scannedB (t : St (List Nat × Nat) (Bool × Nat)) : Bool :=
  t.leaves.all (fun l => l.bases.all (fun b => match b.mem with
    | none => false
    | some m => b.hist.all (fun x => decide (x.1 ≤ m.upto))))

theorem scanned_of {t : St (List Nat × Nat) (Bool × Nat)} (h : scannedB t = true) : Scanned t := by
  intro l hl b hb
  have k := List.all_eq_true.mp (List.all_eq_true.mp h l hl) b hb
  cases hm : b.mem with
  | none => rw [hm] at k; cases k
  | some m =>
    rw [hm] at k
    exact ⟨m, rfl, fun x hx => of_decide_eq_true (List.all_eq_true.mp k x hx)⟩

example : (run keys (start keys two 2) busy).map scannedB = some true ∧
    (run keys (start keys two 2) idle).map scannedB = some true := by decide +kernel

/-! ## Where the number of rows goes wrong -/

/-- One empty basement node. -/
def none' : List (List (List Nat × Nat)) := [[([], 0)]]

/-- A key is put twice, read, the dictionary is closed and opened again, read again: no rows are reported where
there is one.  Without the restart one is reported. -/
theorem C79_reopen_refuted :
    (run keys (start keys none' 0)
      [.put 0 0 (true, 7), .put 0 0 (true, 7), .load 0 0, .read 0 0, .beginCkpt, .endCkpt, .restart,
       .load 0 0, .read 0 0]).map (fun t => (nkeys t, present t)) = some (0, 1) ∧
    (run keys (start keys none' 0)
      [.put 0 0 (true, 7), .put 0 0 (true, 7), .load 0 0, .read 0 0, .beginCkpt, .endCkpt, .evict 0,
       .load 0 0, .read 0 0]).map (fun t => (nkeys t, present t)) = some (1, 1) := by decide +kernel

/-- A put while a checkpoint runs, a crash, and the put again by recovery: two rows are reported where there is
one, although no key was ever put twice by a user and no correction was ever made. -/
theorem C79_crash_refuted :
    (run keys (start keys none' 0)
      [.beginCkpt, .put 0 0 (true, 7), .endCkpt, .restart, .put 0 0 (true, 7), .load 0 0, .read 0 0]).map
        (fun t => (nkeys t, present t)) = some (2, 1) := by decide +kernel

/-- A key that is not there is deleted from an empty dictionary: one row is reported where there is none. -/
theorem C79_below_zero_refuted :
    (run keys (start keys none' 0) [.put 0 0 (false, 7), .load 0 0, .read 0 0]).map
        (fun t => (nkeys t, present t)) = some (1, 0) := by decide +kernel

/-- Every update that recovery passes over, as being in the tree already, adds a row to the count. -/
theorem C79_old_update_refuted (n : Nat) (h : n < 2 ^ 62) :
    ∃ t, run keys (start keys none' 0) (List.replicate n .oldUpdate) = some t ∧ nkeys t = n ∧ present t = 0 := by
  have key : ∀ (n : Nat) (s : St (List Nat × Nat) (Bool × Nat)), s.rows + n < 2 ^ 63 →
      run keys s (List.replicate n .oldUpdate) = some { s with rows := s.rows + n } := by
    intro n
    induction n with
    | zero => intro s _; rfl
    | succ n ih =>
      intro s hs
      simp only [List.replicate_succ, run, step]
      have e : adjust s.rows 1 = s.rows + 1 := by
        have := adjust_eq (rows := s.rows) (x := s.rows) 1 rfl (by omega) (by omega) (by omega)
        omega
      rw [e, ih _ (by dsimp only; omega)]
      dsimp only
      rw [Nat.add_right_comm, Nat.add_assoc]
  refine ⟨_, key n _ (by show 0 + n < _; omega), ?_, rfl⟩
  apply nkeys_of
  · show ((0 + n : Nat) : Int) = n; omega
  · omega

/-- Reading and evicting a leaf, again and again, with nothing written: each round adds the size of a row that
readers had to apply to the size reported. -/
theorem C79_size_refuted (n : Nat) :
    ∃ t, run keys (start keys none' 0)
        (.put 0 0 (true, 7) :: (List.replicate n [.load 0 0, .read 0 0, .evict 0]).flatten) = some t ∧
      dsize t = n ∧ actual keys t = 0 ∧ nkeys t = 1 := by
  let s0 : St (List Nat × Nat) (Bool × Nat) :=
    { leaves := [{ bases := [{ disk := ([], 0), dupto := 0, mem := none, clone := none, pend := [(1, (true, 7))],
                               init := ([], 0), hist := [(1, (true, 7))] }], dirty := false, cloned := false }],
      rows := 1, stats := 0, onDisk := 0, next := 1, ckpt := none,
      saved := { leaves := [Leaf.fresh [([], 0)]], rows := 0, stats := 0, next := 0 } }
  have key : ∀ n : Nat, ∀ x : Int, run keys { s0 with stats := x }
      (List.replicate n [.load 0 0, .read 0 0, .evict 0]).flatten = some { s0 with stats := x + n } := by
    intro n
    induction n with
    | zero => intro x; simp [run]
    | succ n ih =>
      intro x
      have e : run keys { s0 with stats := x } [.load 0 0, .read 0 0, .evict 0] = some { s0 with stats := x + 1 } := rfl
      rw [List.replicate_succ, List.flatten_cons]
      have ap : ∀ (a b : List (Ev (Bool × Nat))) (s t : St (List Nat × Nat) (Bool × Nat)), run keys s a = some t →
          run keys s (a ++ b) = run keys t b := by
        intro a
        induction a with
        | nil => intro b s t h; simp only [run] at h; cases h; rfl
        | cons q qs iq =>
          intro b s t h
          simp only [List.cons_append, run] at h ⊢
          cases hq : step keys s q with
          | none => rw [hq] at h; cases h
          | some w => rw [hq] at h; exact iq b w t h
      rw [ap _ _ _ _ e, ih]
      congr 2
      push_cast
      omega
  refine ⟨{ s0 with stats := 0 + n }, ?_, ?_, rfl, rfl⟩
  · show run keys { s0 with stats := 0 } _ = _
    exact key n 0
  · show (if (0 + (n : Int)) < 0 then 0 else (0 + (n : Int))) = n
    rw [if_neg (by omega)]; omega

/-- A delete is flushed, a checkpoint writes the leaf without the garbage, the leaf is evicted and read again:
the size still counts the garbage, also after a restart. -/
theorem C79_garbage_refuted :
    (run keys (start keys [[([1], 0)]] 1)
      [.put 0 0 (false, 1), .load 0 0, .flush 0 1, .beginCkpt, .writeClone 0, .endCkpt, .evict 0, .load 0 0]).map
        (fun t => (dsize t, actual keys t)) = some (1, 0) ∧
    (run keys (start keys [[([1], 0)]] 1)
      [.put 0 0 (false, 1), .load 0 0, .flush 0 1, .beginCkpt, .writeClone 0, .endCkpt, .restart, .load 0 0]).map
        (fun t => (dsize t, actual keys t)) = some (1, 0) := by decide +kernel

/-- The hypotheses of `C79_size_partial` and `C79_reopen_partial` are met: a history with a write in place that
collects garbage, a partial eviction after a read, a checkpoint and a restart. -/
def calm : List (Ev (Bool × Nat)) :=
  [.put 0 0 (true, 2), .load 0 0, .read 0 0, .drop 0 0, .load 0 0, .load 0 1, .put 0 1 (false, 10), .flush 0 9,
   .write 0, .beginCkpt, .endCkpt, .restart, .put 0 0 (true, 3), .load 0 0, .read 0 0]

example : (run keys (start keys two 2) calm).map (fun t => (dsize t, actual keys t, nkeys t, present t)) =
      some (3, 3, 3, 3) ∧ harmlessRun keys (start keys two 2) calm = true := by decide +kernel

example : ∀ v, 0 ≤ keys.size v := by intro v; show (0 : Int) ≤ v.1.length + v.2; omega

/-- Settled, as a check. -/
def settledB (t : St (List Nat × Nat) (Bool × Nat)) : Bool :=
  decide (t.ckpt = none) && t.leaves.all (fun l => !l.dirty && !l.cloned &&
    l.bases.all (fun b => match b.mem with | none => true | some m => decide (m.lrd = 0)))

example : (run keys (start keys two 2) (calm.take 9)).map settledB = some true ∧
    bounded keys 2 (start keys two 2) (calm.take 9) = true ∧ (calm.take 9).all Ev.ordinary = true := by
  decide +kernel

end Verif.Rowcount
