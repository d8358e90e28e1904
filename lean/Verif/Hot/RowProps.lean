import Verif.Hot.Whole

/-! C65: what an index shows of a row with versions. -/
namespace Verif.Hot
open Verif.Ule Verif.Mvcc Verif.Txn

theorem row_rows (g : Gen) (hg : g.Ok) (u : Ule) (states : List TxState) (hu : RowOk u states) :
    ∃ ms rows, undoDo g u states = some ms ∧ applyMsgs (fun _ => emptyUle) ms = some rows ∧
      ∀ h, Wf (rows h) ∧ ∀ acc, Closed acc (versionIds u) →
        snapshotRead acc (rows h) = look g h (snapshotRead acc (settled u states)) ∧
        ∀ p, p ≠ [] → p <+: openChain u states →
          snapshotRead acc (abortF (rows h) p) = look g h (snapshotRead acc (abortF (settled u states) p)) := by
  obtain ⟨ms, h1, h2⟩ := row_all g hg u states hu
  obtain ⟨rows, h3, h4⟩ := applyMsgs_of ms (fun _ => emptyUle) (fun h => by
    obtain ⟨V, h5, -⟩ := h2 h
    exact ⟨V, h5⟩)
  refine ⟨ms, rows, h1, h3, fun h => ?_⟩
  obtain ⟨V, h5, h6, h7⟩ := h2 h
  have : rows h = V := by
    have := (h4 h).symm.trans h5
    injection this
  rw [this]
  exact ⟨h6, h7⟩

theorem release_pin (states : List TxState) (pins : List Nat) :
    releaseAll states (pinAll states pins) = some pins := by
  induction states generalizing pins with
  | nil => cases pins <;> rfl
  | cons s ss ih =>
    cases pins with
    | nil => rfl
    | cons n ns =>
      unfold pinAll releaseAll
      by_cases h : throughTxn s = true
      · simp [h, ih]
      · simp [h, ih]

theorem settled_wf (u : Ule) (states : List TxState) (hw : Wf u) : Wf (settled u states) := strip_take_wf u hw _

theorem openChain_chain (u : Ule) (states : List TxState) (hw : Wf u) (p : Xids) (hp : p ≠ [])
    (hpp : p <+: openChain u states) : Chain p := by
  have h1 : p <+: u.pux.map (·.xid) := hpp.trans ((List.take_prefix _ _).map _)
  refine ⟨hp, hw.pnodup.sublist h1.sublist, ?_, ?_⟩
  · intro x hx
    obtain ⟨r, hr, rfl⟩ := List.mem_map.mp (h1.subset hx)
    exact hw.p0 r hr
  · have := h1.length_le
    have := hw.plen
    simp at *
    omega

/-- One index, a source row with any stack of versions whose transactions are in any states they can be in
    together: the builder does not stop, leaves the pins of the transactions as it found them, and the index rows it
    makes are right for every reader:
    * whoever reads the index under any key sees what is computed from the version of the row they see in the
      source, or nothing if nothing is computed from it under that key;
    * the same holds after any of the transactions that are still open, from any nesting level on, is undone in both
      dictionaries;
    * and after it is committed in both.
    Readers are decisions on transaction ids that go along with the order of the row's versions (`Closed`).
    `partial`: with two or more indexes the builder stops the process
    (`C65_two_indexes_and_an_open_transaction_stop`); and a reader that sees a version but not the one below it may
    see stale rows in the index (`C65_reader_above_an_unseen_version`). -/
theorem C65_index_rows_right_for_every_reader_partial (g : Gen) (hg : g.Ok) (u : Ule) (states : List TxState)
    (hu : RowOk u states) (pins : List Nat) :
    ∃ rows, indexRow u states [(g, fun _ => emptyUle)] pins = some ([rows], pins) ∧
      ∀ h acc, Closed acc (versionIds u) →
        snapshotRead acc (rows h) = look g h (snapshotRead acc (settled u states)) ∧
        ∀ p, p ≠ [] → p <+: openChain u states →
          (∃ v w, msgModifyU (rows h) p .abort = some v ∧ msgModifyU (settled u states) p .abort = some w ∧
            snapshotRead acc v = look g h (snapshotRead acc w)) ∧
          (∃ v w, msgModifyU (rows h) p .commit = some v ∧ msgModifyU (settled u states) p .commit = some w ∧
            snapshotRead acc v = look g h (snapshotRead acc w)) := by
  obtain ⟨ms, rows, h1, h2, h3⟩ := row_rows g hg u states hu
  refine ⟨rows, ?_, ?_⟩
  · simp only [indexRow, eachDb, h1, h2, release_pin, Option.bind_some, Option.map_some]
  · intro h acc hcl
    obtain ⟨hw, hr⟩ := h3 h
    obtain ⟨r1, r2⟩ := hr acc hcl
    have hws := settled_wf u states hu.wf
    refine ⟨r1, fun p hp hpp => ?_⟩
    have hc := openChain_chain u states hu.wf p hp hpp
    refine ⟨⟨_, _, msgModify_abort _ p hw hc, msgModify_abort _ p hws hc, r2 p hp hpp⟩,
      ⟨_, _, msgModify_commit _ p hw hc, msgModify_commit _ p hws hc, ?_⟩⟩
    rw [snapshotRead_commitF acc _ p hw.cne, snapshotRead_commitF acc _ p hws.cne, r1]

/-- Reading without a transaction, or with one that sees everything: the newest version. -/
theorem C65_index_shows_the_newest_version (g : Gen) (hg : g.Ok) (u : Ule) (states : List TxState)
    (hu : RowOk u states) (pins : List Nat) :
    ∃ rows, indexRow u states [(g, fun _ => emptyUle)] pins = some ([rows], pins) ∧
      ∀ h, latest (rows h) = look g h (latest (settled u states)) := by
  obtain ⟨ms, rows, h1, h2, h3⟩ := row_rows g hg u states hu
  refine ⟨rows, ?_, ?_⟩
  · simp only [indexRow, eachDb, h1, h2, release_pin, Option.bind_some, Option.map_some]
  · intro h
    obtain ⟨hw, hr⟩ := h3 h
    have hcl : ∀ l, Closed (fun _ => true) l := by
      intro l
      induction l with
      | nil => trivial
      | cons x l ih =>
        cases l with
        | nil => exact .inr rfl
        | cons y l => exact ⟨fun _ => .inr rfl, ih⟩
    have := (hr (fun _ => true) (hcl _)).1
    rw [snapshotRead_true _ hw.cne, snapshotRead_true _ (settled_wf u states hu.wf).cne] at this
    exact this

/-- A committed row, whatever its versions: no transaction is involved, and any number of indexes can be built. -/
theorem C65_committed_rows_any_number_of_indexes (u : Ule) (hu : RowOk u []) (gs : List Gen)
    (hg : ∀ g ∈ gs, g.Ok) (pins : List Nat) :
    ∃ dbs, indexRow u [] (gs.map fun g => (g, fun _ => emptyUle)) pins = some (dbs, pins) ∧
      dbs.length = gs.length ∧
      ∀ (i : Nat) (g : Gen) (rows : Rows), gs[i]? = some g → dbs[i]? = some rows → ∀ h acc, Closed acc (versionIds u) →
        snapshotRead acc (rows h) = look g h (snapshotRead acc u) := by
  have hs : settled u [] = u := by
    have hl := hu.len
    have hp : u.pux = [] := List.eq_nil_of_length_eq_zero hl.symm
    cases u
    simp only at hp
    subst hp
    rfl
  unfold indexRow
  show ∃ dbs, eachDb u [] _ pins = some (dbs, pins) ∧ _
  induction gs with
  | nil => exact ⟨[], rfl, rfl, fun i g rows h => by simp at h⟩
  | cons g gs ih =>
    obtain ⟨dbs, e1, e2, e3⟩ := ih (fun g' hg' => hg g' (List.mem_cons_of_mem _ hg'))
    obtain ⟨ms, rows, h1, h2, h3⟩ := row_rows g (hg g (by simp)) u [] hu
    refine ⟨rows :: dbs, ?_, by simp [e2], ?_⟩
    · simp only [List.map_cons, eachDb, h1, h2, releaseAll, Option.bind_some, e1, Option.map_some]
    · intro i g' rows' hi hj h acc hcl
      cases i with
      | zero =>
        simp only [List.getElem?_cons_zero, Option.some.injEq] at hi hj
        subst hi hj
        rw [((h3 h).2 acc hcl).1, hs]
      | succ i =>
        simp only [List.getElem?_cons_succ] at hi hj
        exact e3 i g' rows' hi hj h acc hcl

/-! ### Two indexes at once -/

theorem release_fails (states : List TxState) (pins : List Nat) (i : Nat) (s : TxState) (hs : states[i]? = some s)
    (ho : throughTxn s = true) (hp : pins[i]? = some 0) : releaseAll states pins = none := by
  induction states generalizing pins i with
  | nil => simp at hs
  | cons s' ss ih =>
    cases pins with
    | nil => simp at hp
    | cons n ns =>
      unfold releaseAll
      cases i with
      | zero =>
        simp only [List.getElem?_cons_zero, Option.some.injEq] at hs hp
        subst hs hp
        rw [if_pos ho]
        rfl
      | succ i =>
        simp only [List.getElem?_cons_succ] at hs hp
        rw [ih ns i hs hp]
        split
        · split <;> rfl
        · rfl

/-- **The code breaks this.**  A transaction with an uncommitted write on a source row is pinned once, and
    unpinned once for each index that is built: with two or more indexes, and no other pin on it, the process stops
    at the second index (`assert(txn->num_pin > 0)`), whatever the row and the callbacks. -/
theorem C65_two_indexes_and_an_open_transaction_stop (u : Ule) (states : List TxState) (pins : List Nat)
    (i : Nat) (s : TxState) (hs : states[i]? = some s) (ho : s = .live ∨ s = .preparing)
    (hp : pins[i]? = some 0) (d1 d2 : Gen × Rows) (more : List (Gen × Rows)) :
    indexRow u states (d1 :: d2 :: more) pins = none := by
  have ho' : throughTxn s = true := by rcases ho with rfl | rfl <;> rfl
  unfold indexRow
  obtain ⟨g1, r1⟩ := d1
  obtain ⟨g2, r2⟩ := d2
  simp only [eachDb]
  cases undoDo g1 u states with
  | none => rfl
  | some ms1 =>
    simp only [Option.bind_some]
    cases applyMsgs r1 ms1 with
    | none => rfl
    | some db1 =>
      simp only [Option.bind_some, release_pin]
      rw [release_fails states pins i s hs ho' hp]
      cases undoDo g2 u states with
      | none => rfl
      | some ms2 =>
        simp only [Option.bind_some]
        cases applyMsgs r2 ms2 with
        | none => rfl
        | some db2 => rfl

/-! ### Concrete cases -/

/-- An index on the first byte of the value. -/
def byFirst : Gen := ⟨fun v => [(v.take 1, v)], fun v => [v.take 1]⟩

/-- The index under its own contract. -/
def byFirstOk : Gen := ⟨fun v => if v.length < 2 ^ 31 then [(v.take 1, v)] else [],
  fun v => if v.length < 2 ^ 31 then [v.take 1] else []⟩

theorem byFirstOk_ok : byFirstOk.Ok := by
  refine ⟨?_, ?_⟩
  · intro v k
    simp only [byFirstOk]
    split <;> simp [eq_comm]
  · intro v kv h
    simp only [byFirstOk] at h
    split at h
    · simp at h; rw [h]; assumption
    · simp at h

/-- A row written without a transaction, by transaction 3, deleted by 5, and now being changed by 9, by 10 inside it
    and by 11 inside that one, 11 being finished. -/
def busy : Ule := ⟨[⟨5, .delete⟩, ⟨3, .insert [2, 2]⟩, ⟨0, .insert [1, 1]⟩],
  [⟨9, .insert [1, 7]⟩, ⟨10, .placeholder⟩, ⟨11, .insert [2, 8]⟩]⟩

theorem busy_ok : RowOk busy [.live, .live, .retired] := by
  refine ⟨⟨by simp [busy], by decide, by decide, by decide, by decide, by decide⟩, by decide, rfl, ?_⟩
  simp [legal, innerLegal]

/-- A transaction's view in which 3 and what is older is seen. -/
example : ∃ rows, indexRow busy [.live, .live, .retired] [(byFirstOk, fun _ => emptyUle)] [0, 0, 0]
    = some ([rows], [0, 0, 0]) ∧
    snapshotRead (· ≤ 3) (rows [2]) = some [2, 2] ∧ snapshotRead (· ≤ 3) (rows [1]) = none ∧
    snapshotRead (· ≤ 5) (rows [2]) = none ∧ snapshotRead (· ≤ 9) (rows [2]) = some [2, 8] ∧
    snapshotRead (· ≤ 0) (rows [1]) = some [1, 1] := by
  obtain ⟨rows, h1, h2⟩ := C65_index_rows_right_for_every_reader_partial byFirstOk byFirstOk_ok busy
    [.live, .live, .retired] busy_ok [0, 0, 0]
  refine ⟨rows, h1, ?_, ?_, ?_, ?_, ?_⟩
  · rw [(h2 [2] (· ≤ 3) (by simp [versionIds, busy, Closed])).1]; decide
  · rw [(h2 [1] (· ≤ 3) (by simp [versionIds, busy, Closed])).1]; decide
  · rw [(h2 [2] (· ≤ 5) (by simp [versionIds, busy, Closed])).1]; decide
  · rw [(h2 [2] (· ≤ 9) (by simp [versionIds, busy, Closed])).1]; decide
  · rw [(h2 [1] (· ≤ 0) (by simp [versionIds, busy, Closed])).1]; decide

/-- The transactions that can still be undone there are 9 and 10 in 9. -/
example : openChain busy [.live, .live, .retired] = [9, 10] := rfl

example : indexRow busy [.live, .live, .retired] [(byFirst, fun _ => emptyUle), (byFirst, fun _ => emptyUle)]
    [0, 0, 0] = none :=
  C65_two_indexes_and_an_open_transaction_stop busy _ _ 0 .live rfl (.inl rfl) rfl _ _ []

/-- A row that 5 changed after transaction 9 took its view, and that 9 then changed. -/
def over : Ule := ⟨[⟨5, .insert [2]⟩, ⟨0, .insert [1]⟩], [⟨9, .insert [3]⟩]⟩

/-- A reader that sees its own version, 9, but not the one below it, 5: the source shows it `[3]` only, the
    index shows it `[1]` too. -/
theorem C65_reader_above_an_unseen_version :
    RowOk over [.live] ∧ (∃ v, (undoDo byFirst over [.live]).bind (applyMsgs fun _ => emptyUle) = some v ∧
      snapshotRead (fun x => x = 9) over = some [3] ∧ snapshotRead (fun x => x = 9) (v [3]) = some [3] ∧
      snapshotRead (fun x => x = 9) (v [1]) = some [1]) := by
  refine ⟨⟨⟨by simp [over], by decide, by decide, by decide, by decide, by decide⟩, by decide, rfl, trivial⟩, ?_⟩
  exact ⟨_, rfl, by decide, by decide, by decide⟩

end Verif.Hot
