import Verif.Ule.SpecLemmas

/-!
Property theorems about one row under nested transactions (no garbage collection; that is added in
`Verif/Mvcc`).  `Verif/Ule/Spec.lean` is the specification.
-/
namespace Verif.Ule
open Spec

theorem emptyUle_wf : Wf emptyUle := by
  refine ⟨?_, ?_, ?_, ?_, ?_, ?_⟩ <;>
    simp [emptyUle, committedDelete, Uxr.isPlaceholder]

/-- C02 (and the engine behind C01, C09–C11): for every history of nested begins, writes, commit and
abort notifications and ends, from any well-formed row, the version stack accepts every message (no
assertion fails) and the row's value is that of the last write not undone. -/
theorem C02_row_value_is_last_surviving_write (u : Ule) (hw : Wf u) (used : List (List Txnid))
    (hu : ∀ q, q ≠ [] → q <+: u.pux.map (·.xid) → q ∈ used) (h : List Ev) (s : Row)
    (hs : (Row.fresh used).run (latest u) h = some s) :
    ∃ u', runMsgs u ((Row.fresh used).msgs (latest u) h) = some u' ∧ Wf u' ∧
      latest u' = s.value (latest u) := by
  obtain ⟨u', h1, h2⟩ := R_run (R_init u hw used hu) hs
  exact ⟨u', h1, h2.wf, h2.val⟩

/-- A history with two levels of nesting, a committed child, an aborted child and a second root. -/
def demoHistory : List Ev :=
  [.begin 5, .put [1], .begin 6, .put [2], .commitMsg, .finish, .begin 7, .del, .begin 8, .put [3],
   .finish, .abortMsg, .finish, .finish, .begin 9, .putIfAbsent [4], .del, .abortMsg, .finish]

example : ∃ s, (Row.fresh []).run (latest emptyUle) demoHistory = some s ∧
    s.value (latest emptyUle) = some [2] := by decide

example : ∃ u, runMsgs emptyUle ((Row.fresh []).msgs (latest emptyUle) demoHistory) = some u ∧
    latest u = some [2] ∧ u.cux.length = 2 := by decide

/-- C02, the two observable clauses: a child's commit does not change the row's value, and a later
abort of an ancestor discards everything the child did. -/
theorem C02_child_commit_keeps_value (init : Option Bytes) (s s' : Row)
    (h : s.run init [.commitMsg, .finish] = some s') : s'.value init = s.value init := by
  simp only [Row.run, Row.step] at h
  split at h
  · simp only [Option.bind_some] at h
    split at h
    · cases h; rfl
    · cases h
  · cases h

/-- C01: if a transaction `x` begins at some point of a row's history, anything at all happens while
it is alive (its own writes, nested children that write, commit or abort, commit notifications of
those children), and it then aborts, the row's value is what it was when `x` began. -/
theorem C01_abort_restores_value (u : Ule) (hw : Wf u) (used : List (List Txnid))
    (hu : ∀ q, q ≠ [] → q <+: u.pux.map (·.xid) → q ∈ used) (before during : List Ev) (x : Txnid) (s0 s1 s2 s3 : Row)
    (h0 : (Row.fresh used).run (latest u) before = some s0)
    (h1 : s0.step (latest u) (.begin x) = some s1)
    (h2 : s1.run (latest u) during = some s2)
    (halive : s1.staysIn (latest u) s1.chain during = true)
    (hback : s2.chain = s1.chain)
    (h3 : s2.run (latest u) [.abortMsg, .finish] = some s3) :
    ∃ u0 u3,
      runMsgs u ((Row.fresh used).msgs (latest u) before) = some u0 ∧
      runMsgs u ((Row.fresh used).msgs (latest u)
        (before ++ [.begin x] ++ during ++ [.abortMsg, .finish])) = some u3 ∧
      latest u3 = latest u0 := by
  obtain ⟨u0, hu0, hr0⟩ := R_run (R_init u hw used hu) h0
  have hall : (Row.fresh used).run (latest u)
      (before ++ [.begin x] ++ during ++ [.abortMsg, .finish]) = some s3 := by
    rw [Row.run_append, Row.run_append, Row.run_append, h0]
    simp only [Option.bind_some, Row.run, h1, h2]
    exact h3
  obtain ⟨u3, hu3, hr3⟩ := R_run (R_init u hw used hu) hall
  refine ⟨u0, u3, hu0, hu3, ?_⟩
  rw [hr3.val, hr0.val]
  have hinv0 := SpecInv_run _ _ _ (SpecInv_fresh used) h0
  simp only [Row.step] at h1
  split at h1
  · rename_i hc
    have hs1 : s1 = { s0 with chain := s0.chain ++ [x], used := (s0.chain ++ [x]) :: s0.used } := by cases h1; rfl
    have hne : s1.chain ≠ [] := by rw [hs1]; simp
    have hund := undo_stable s1.chain s1 s2 during h2 halive
    simp only [Row.run, Row.step] at h3
    split at h3
    · simp only [Option.bind_some] at h3
      split at h3
      · cases h3
        simp only [Row.value]
        rw [hback, hund]
        congr 1
        rw [hs1]
        exact undo_fresh _ s0.used _ (by simp) hc.2.2.2.1 hinv0.wsub
      · cases h3
    · cases h3
  · cases h1

/-- The hypotheses of `C01_abort_restores_value` are met by a history with nested work. -/
example : ∃ s0 s1 s2 s3,
    (Row.fresh []).run (latest emptyUle) [.begin 5, .put [1]] = some s0 ∧
    s0.step (latest emptyUle) (.begin 6) = some s1 ∧
    s1.run (latest emptyUle) [.del, .begin 7, .put [9], .commitMsg, .finish] = some s2 ∧
    s2.chain = s1.chain ∧
    s2.run (latest emptyUle) [.abortMsg, .finish] = some s3 ∧ s3.value (latest emptyUle) = some [1] ∧
    s2.value (latest emptyUle) = some [9] ∧
    s1.staysIn (latest emptyUle) s1.chain [.del, .begin 7, .put [9], .commitMsg, .finish] = true :=
  ⟨_, _, _, _, rfl, rfl, rfl, rfl, rfl, rfl, rfl, rfl⟩

/-- C01, stack form: a write followed by the abort of any transaction on the writing chain leaves the
version stack exactly as that abort alone would have left it. -/
theorem C01_abort_erases_write (u : Ule) (hw : Wf u) (xs p : Xids) (hx : Chain xs) (hp : p <+: xs)
    (hp0 : p ≠ []) (op : Op) (v : Bytes) (hv : v.length < 2 ^ 31)
    (hop : op = .insert v ∨ op = .delete) :
    runMsgs u [(xs, op), (p, .abort)] = runMsgs u [(p, .abort)] ∧
      (runMsgs u [(p, .abort)]).isSome := by
  have hcp : Chain p :=
    ⟨hp0, hx.nodup.sublist hp.sublist, fun x h => hx.nz x (hp.subset h),
      Nat.le_trans hp.length_le hx.len⟩
  rcases hop with rfl | rfl
  · have hw' := writeF_wf u xs (.insert v) hw hx (by simp)
    simp [runMsgs, msgModify_insert u xs v hw hx hv, msgModify_abort _ p hw' hcp,
      msgModify_abort u p hw hcp, abortF_writeF u xs p _ hw hx hp hp0]
  · have hw' := writeF_wf u xs .delete hw hx (by simp)
    simp [runMsgs, msgModify_delete u xs hw hx, msgModify_abort _ p hw' hcp,
      msgModify_abort u p hw hcp, abortF_writeF u xs p _ hw hx hp hp0]

/-- C09: insert-if-absent leaves an existing value alone, and otherwise stores the new value.  Missing: that a put asking for this
always sends this message; the shortcut to the last leaf sends a plain insertion instead, and `C62_silent_put_overwrites`
(Tree/RightProps.lean) is a history in which the row is replaced. -/
theorem C09_insert_no_overwrite_partial (u : Ule) (hw : Wf u) (xs : Xids) (hx : Chain xs) (v : Bytes)
    (hv : v.length < 2 ^ 31) :
    ∃ u', msgModifyU u xs (.insertNoOverwrite v) = some u' ∧ Wf u' ∧
      latest u' = (match latest u with | some old => some old | none => some v) := by
  rw [msgModify_insertNoOverwrite u xs v hw hx hv]
  cases h : latest u with
  | some old =>
    exact ⟨_, rfl, promo_wf _ _ hw, by simpa [h] using latest_promo u xs hw.cne⟩
  | none =>
    exact ⟨_, rfl, writeF_wf _ _ _ hw hx (by simp), latest_writeF u xs _ hw.cne⟩

example : Wf ⟨[⟨0, .insert [1]⟩], [⟨5, .delete⟩]⟩ ∧ Chain [5, 6] := by
  refine ⟨⟨?_, ?_, ?_, ?_, ?_, ?_⟩, ⟨?_, ?_, ?_, ?_⟩⟩ <;> simp [Uxr.isPlaceholder]

/-- C10: the promotions a message performs implicitly are exactly the effect of the explicit commit
messages of the transactions that are on the row's stack but not on the message's chain, sent
innermost first. -/
theorem C10_implicit_equals_explicit_commits (u : Ule) (hw : Wf u) (xs : Xids) (hx : Chain xs)
    (op : Op) (hop : op ≠ .optimize) :
    let stack := u.pux.map (·.xid)
    let shared := matchLen u.pux xs
    (runMsgs u ((List.range (stack.length - shared)).map fun i =>
        (stack.take (stack.length - i), Op.commit))).bind (fun u' => msgModify u' xs op)
      = msgModify u xs op ∧
    stack.take shared <+: xs ∧
    ∀ n, stack.take n <+: xs → n ≤ stack.length → n ≤ shared := by
  have hle := matchLen_le_left u.pux xs
  have hpos : op.isOptimize = false := by cases op <;> simp_all [Op.isOptimize]
  refine ⟨?_, ?_, ?_⟩
  · simp only [List.length_map]
    rw [explicit_commits u hw _ (by omega)]
    rw [show u.pux.length - (u.pux.length - matchLen u.pux xs) = matchLen u.pux xs by omega]
    simp only [Option.bind_some]
    unfold msgModify
    rw [if_pos (chain_len_lt xs hx), if_pos (chain_len_lt xs hx), hpos]
    simp only [Bool.false_eq_true, if_false]
    rw [implicitPromotions_eq u xs hw hx.ne, implicitPromotions_eq _ xs (promoN_wf _ _ hw) hx.ne]
    have := promo_promo_prefix u xs xs (List.prefix_refl _)
    rw [show promoN u (matchLen u.pux xs) = promo u xs from rfl, this]
  · rw [← List.map_take, matchLen_prefix]; exact List.take_prefix _ _
  · intro n hn hle'
    simp only [List.length_map] at hle'
    have h1 : matchLen (u.pux.take n) xs = (u.pux.take n).length :=
      matchLen_of_prefix _ _ (by simpa [List.map_take] using hn)
    have h2 : ∀ (l : List Uxr) (k : Nat) (ys : Xids), matchLen (l.take k) ys ≤ matchLen l ys := by
      intro l
      induction l with
      | nil => simp
      | cons f fs ih =>
        intro k ys
        cases k with
        | zero => simp [matchLen]
        | succ k =>
          cases ys with
          | nil => simp [matchLen]
          | cons y ys =>
            simp only [List.take_succ_cons, matchLen]
            split
            · have := ih k ys; omega
            · omega
    have h3 := h2 u.pux n xs
    rw [h1] at h3
    simp at h3
    omega

/-- C10, history form: adding or removing explicit commit notifications anywhere in a history does
not change the row's value. -/
theorem C10_commit_notifications_unobservable (u : Ule) (hw : Wf u) (used : List (List Txnid))
    (hu : ∀ q, q ≠ [] → q <+: u.pux.map (·.xid) → q ∈ used) (h h' : List Ev) (s s' : Row)
    (hs : (Row.fresh used).run (latest u) h = some s)
    (hs' : (Row.fresh used).run (latest u) h' = some s')
    (heq : h.filter (· ≠ .commitMsg) = h'.filter (· ≠ .commitMsg)) :
    ∃ v v', runMsgs u ((Row.fresh used).msgs (latest u) h) = some v ∧
      runMsgs u ((Row.fresh used).msgs (latest u) h') = some v' ∧ latest v = latest v' := by
  obtain ⟨v, h1, h2⟩ := R_run (R_init u hw used hu) hs
  obtain ⟨v', h1', h2'⟩ := R_run (R_init u hw used hu) hs'
  refine ⟨v, v', h1, h1', ?_⟩
  rw [h2.val, h2'.val]
  obtain ⟨d, hd1, hd2⟩ := digest_filter _ h (Row.fresh used) s (Row.fresh used) hs rfl rfl rfl (by simp [Row.fresh])
    (by simp) (by simp [Row.fresh])
  obtain ⟨d', hd1', hd2'⟩ := digest_filter _ h' (Row.fresh used) s' (Row.fresh used) hs' rfl rfl rfl
    (by simp [Row.fresh]) (by simp) (by simp [Row.fresh])
  rw [heq] at hd1
  rw [hd1] at hd1'
  cases hd1'
  simp [Row.value, hd2, hd2']

example : ∃ s s',
    (Row.fresh []).run none [.begin 5, .begin 6, .put [1], .commitMsg, .finish, .commitMsg, .finish] = some s ∧
    (Row.fresh []).run none [.begin 5, .begin 6, .put [1], .finish, .finish] = some s' :=
  ⟨_, _, rfl, rfl⟩

/-- Number of record slots an unpacked row has: `le_unpack`, ft/ule.cc:826-836 with
ft/ule-internal.h:76-78 (static array when fewer than 254 committed records, else
`num_cuxrs + 1 + 254`). -/
def uleCapacity (numCuxrs : Nat) : Nat :=
  if numCuxrs < maxTransactionRecords then 2 * maxTransactionRecords
  else numCuxrs + 1 + maxTransactionRecords

/-- What a client can send: the messages of a transaction carry its chain of ids (a value is shorter
than 2^31 bytes); `optimize` (ft/ft-ops.cc:2310-2332) carries no id, or the oldest living one.
`commitAll` is sent by a resetting update broadcast of a transaction (ft/txn/roll.cc:390-405). -/
def CanSend (xs : Xids) : Op → Prop
  | .insert v => Chain xs ∧ v.length < 2 ^ 31
  | .insertNoOverwrite v => Chain xs ∧ v.length < 2 ^ 31
  | .optimize => xs.length ≤ 1
  | _ => Chain xs

theorem msgModify_optimize (u : Ule) (xs : Xids) (hw : Wf u) (hx : xs.length ≤ 1) :
    ∃ u', msgModifyU u xs .optimize = some u' ∧ (u' = u ∨ u' = promoN u 0) := by
  have hpc : u.pux ≠ [] → promoteToCommitted u = some (promoN u 0) := by
    intro hp
    obtain ⟨inn, hi, hv, -⟩ := innermost?_eq u hw.cne
    have hnp := innermost_np u hw inn hi
    have hpos : 0 < u.pux.length := List.length_pos_iff.mpr hp
    unfold promoteToCommitted
    cases hq : u.pux with
    | nil => exact absurd hq hp
    | cons o os =>
      rw [promoN_zero u o os hq]
      simp [hi, hnp, pushCommitted, hv]
  have hl : xs.length < maxTransactionRecords := by unfold maxTransactionRecords; omega
  unfold msgModifyU msgModify
  rw [if_pos hl, if_pos (by rfl)]
  unfold applyOp applyOptimize
  cases hq : u.pux with
  | nil => exact ⟨u, rfl, .inl rfl⟩
  | cons o os =>
    have hpc' := hpc (by simp [hq])
    match xs, hx with
    | [], _ => exact ⟨_, by simp only [hpc']; rfl, .inr rfl⟩
    | [x], _ =>
      simp only
      split
      · exact ⟨_, by rw [hpc']; rfl, .inr rfl⟩
      · exact ⟨u, rfl, .inl rfl⟩

theorem msgModify_commitAll (u : Ule) (xs : Xids) (hw : Wf u) (hx : Chain xs) :
    msgModifyU u xs .commitAll = some ⟨[⟨0, topVal u⟩], []⟩ := by
  have hl : xs.length < maxTransactionRecords := by
    have := hx.len; unfold maxTransactionRecords; omega
  have hpm := promo_wf u xs hw
  obtain ⟨inn, hi, hv, -⟩ := innermost?_eq (promo u xs) hpm.cne
  unfold msgModifyU msgModify
  rw [if_pos hl, if_neg (by simp [Op.isOptimize]), implicitPromotions_eq u xs hw hx.ne]
  simp only [Option.bind_some, applyOp, applyCommitAll, hi, Option.map_some]
  have : topVal (promo u xs) = topVal u := topVal_promoN u _
  rw [← this, ← hv]
  rfl

/-- C11: a message of any type never overruns the record array: it is accepted, and both the
intermediate stack (after implicit promotion) and the final stack fit, with at most 253 provisional
records. -/
theorem C11_stack_never_overflows (u : Ule) (hw : Wf u) (xs : Xids) (op : Op) (hs : CanSend xs op) :
    ∃ um u', (if op = .optimize then um = u else implicitPromotions u xs = some um) ∧
      msgModifyU u xs op = some u' ∧
      um.cux.length + um.pux.length ≤ uleCapacity u.cux.length ∧
      u'.cux.length + u'.pux.length ≤ uleCapacity u.cux.length ∧
      u'.pux.length ≤ 253 ∧ Wf u' := by
  have hcap : u.cux.length + 1 + 253 ≤ uleCapacity u.cux.length := by
    unfold uleCapacity maxTransactionRecords; split <;> omega
  have hp := hw.plen
  have hpm := (promo_wf u xs hw)
  have hcm : (promo u xs).cux.length ≤ u.cux.length + 1 := promoN_cux_len u _
  have hpl := hpm.plen
  have fin : ∀ u', Wf u' → u'.cux.length ≤ u.cux.length + 1 →
      u'.cux.length + u'.pux.length ≤ uleCapacity u.cux.length ∧ u'.pux.length ≤ 253 ∧ Wf u' := by
    intro u' hw' hc
    have := hw'.plen
    exact ⟨by omega, this, hw'⟩
  have hcommit : (commitF u xs).cux.length ≤ u.cux.length + 1 := by
    unfold commitF commitA promo
    by_cases h : xs.length - 1 ≤ matchLen u.pux xs
    · rw [promoN_promoN _ _ _ h]; exact promoN_cux_len _ _
    · rw [promoN_of_le _ (xs.length - 1) (by rw [promoN_len]; omega)]; exact promoN_cux_len _ _
  cases op with
  | insert v =>
    obtain ⟨hx, hv⟩ := hs
    exact ⟨promo u xs, _, by rw [if_neg (by simp)]; exact implicitPromotions_eq u xs hw hx.ne,
      msgModify_insert u xs v hw hx hv, by omega,
      fin _ (writeF_wf _ _ _ hw hx (by simp)) hcm⟩
  | insertNoOverwrite v =>
    obtain ⟨hx, hv⟩ := hs
    refine ⟨promo u xs, _, by rw [if_neg (by simp)]; exact implicitPromotions_eq u xs hw hx.ne,
      msgModify_insertNoOverwrite u xs v hw hx hv, by omega, fin _ ?_ ?_⟩
    · split
      · exact hpm
      · exact writeF_wf _ _ _ hw hx (by simp)
    · split
      · exact hcm
      · exact hcm
  | delete =>
    have hx : Chain xs := hs
    exact ⟨promo u xs, _, by rw [if_neg (by simp)]; exact implicitPromotions_eq u xs hw hx.ne,
      msgModify_delete u xs hw hx, by omega, fin _ (writeF_wf _ _ _ hw hx (by simp)) hcm⟩
  | abort =>
    have hx : Chain xs := hs
    exact ⟨promo u xs, _, by rw [if_neg (by simp)]; exact implicitPromotions_eq u xs hw hx.ne,
      msgModify_abort u xs hw hx, by omega, fin _ (abortF_wf _ _ hw) hcm⟩
  | commit =>
    have hx : Chain xs := hs
    exact ⟨promo u xs, _, by rw [if_neg (by simp)]; exact implicitPromotions_eq u xs hw hx.ne,
      msgModify_commit u xs hw hx, by omega, fin _ (commitF_wf _ _ hw) hcommit⟩
  | commitAll =>
    have hx : Chain xs := hs
    refine ⟨promo u xs, _, by rw [if_neg (by simp)]; exact implicitPromotions_eq u xs hw hx.ne,
      msgModify_commitAll u xs hw hx, by omega, fin _ ?_ (by simp)⟩
    obtain ⟨inn, hi, hv, -⟩ := innermost?_eq u hw.cne
    have hnp := innermost_np u hw inn hi
    refine ⟨by simp, ?_, by simp, by simp, by simp, by simp⟩
    intro r hr
    simp only [List.mem_singleton] at hr
    subst hr
    rw [← hv]
    exact hnp
  | optimize =>
    obtain ⟨u', h1, h2⟩ := msgModify_optimize u xs hw hs
    refine ⟨u, u', by rw [if_pos rfl], h1, by omega, fin _ ?_ ?_⟩
    · rcases h2 with rfl | rfl
      · exact hw
      · exact promoN_wf u 0 hw
    · rcases h2 with rfl | rfl
      · omega
      · exact promoN_cux_len u 0

/-- C11 for histories: from an empty row, any sequence of messages a client can send is accepted, and
the row stays well formed. -/
theorem C11_any_sequence (ms : List (Xids × Op)) (hs : ∀ m ∈ ms, CanSend m.1 m.2) :
    ∃ u, runMsgs emptyUle ms = some u ∧ Wf u := by
  suffices h : ∀ u, Wf u → ∃ u', runMsgs u ms = some u' ∧ Wf u' from
    h emptyUle ⟨by decide, by decide, by decide, by decide, by decide, by decide⟩
  induction ms with
  | nil => exact fun u hw => ⟨u, rfl, hw⟩
  | cons m ms ih =>
    intro u hw
    obtain ⟨_, u', -, h1, -, -, -, hw'⟩ := C11_stack_never_overflows u hw m.1 m.2 (hs m (by simp))
    obtain ⟨u'', h2, h3⟩ := ih (fun m' hm' => hs m' (by simp [hm'])) u' hw'
    exact ⟨u'', by simp only [runMsgs, h1, Option.bind_some, h2], h3⟩

/-- `optimize` and `commitAll` never change the newest value of a row. -/
theorem C11_broadcasts_keep_value (u u' : Ule) (hw : Wf u) (xs : Xids) (op : Op) (hs : CanSend xs op)
    (hop : op = .optimize ∨ op = .commitAll) (h : msgModifyU u xs op = some u') :
    latest u' = latest u := by
  have ht : topVal u' = topVal u := by
    rcases hop with rfl | rfl
    · obtain ⟨v, h1, h2⟩ := msgModify_optimize u xs hw hs
      rw [h1] at h; cases h
      rcases h2 with rfl | rfl
      · rfl
      · exact topVal_promoN u 0
    · rw [msgModify_commitAll u xs hw hs] at h; cases h
      rfl
  have hw' : Wf u' := by
    obtain ⟨_, v, -, h1, -, -, -, hv⟩ := C11_stack_never_overflows u hw xs op hs
    rw [h1] at h; cases h; exact hv
  obtain ⟨i, hi, hv, -⟩ := innermost?_eq u hw.cne
  obtain ⟨j, hj, hv', -⟩ := innermost?_eq u' hw'.cne
  unfold latest
  simp only [hi, hj, Option.bind_some, hv, hv', ht]

example : ∃ u, runMsgs emptyUle
    [([5, 6], .insert [1]), ([5], .delete), ([5], .commit), ([7], .insert [2]), ([], .optimize),
     ([8, 9], .commitAll)] = some u ∧ u = ⟨[⟨0, .insert [2]⟩], []⟩ := ⟨_, rfl, rfl⟩

example : ∀ m ∈ ([([5, 6], .insert [1]), ([7], .optimize), ([8, 9], .commitAll)] : List (Xids × Op)),
    CanSend m.1 m.2 := by
  intro m hm
  simp only [List.mem_cons, List.not_mem_nil, or_false] at hm
  rcases hm with rfl | rfl | rfl
  · exact ⟨⟨by simp, by decide, by decide, by decide⟩, by decide⟩
  · show (1 : Nat) ≤ 1
    omega
  · exact ⟨by simp, by decide, by decide, by decide⟩

end Verif.Ule
