import Verif.Ft.LogicalRows

/-!
C13, C14: the counters of a leaf.

A leaf's rows are `bn.rows`, in key order; `latest u` is the newest version of a row (`none` if that is a
delete).  `numrows`/`numbytes` are what `DB->stat64` reports summed over leaves (`bt_ndata`'s physical
counterpart and `bt_dsize`).
-/
namespace Verif.Ft
open Verif.Ule Verif.Txn Std

/-- The built-in comparator `toku_builtin_compare_fun`: bytewise, then by length (ft/ft-ops.cc:3070-3090). -/
def memcmp : Key → Key → Ordering := List.compareLex (compareOn UInt8.toNat)

instance : TransCmp memcmp := inferInstanceAs (TransCmp (List.compareLex (compareOn UInt8.toNat)))

theorem memcmp_eq {a b : Key} (h : memcmp a b = .eq) : a = b := by
  have : LawfulEqCmp (compareOn UInt8.toNat) := ⟨fun h => by
    simp only [compareOn, LawfulEqCmp.compare_eq_iff_eq] at h
    exact UInt8.toNat.inj h⟩
  exact LawfulEqCmp.compare_eq_iff_eq.mp (show List.compareLex (compareOn UInt8.toNat) a b = .eq from h)

theorem memcmp_eqLen : EqLen memcmp := fun _ _ h => by rw [memcmp_eq h]

/-- An update callback: extra `[0]` leaves the row alone, `[1]` removes it, anything else becomes the value. -/
def sampleUpd : Upd := fun _ _ e => if e = [0] then .keep else if e = [1] then .remove else .set e

/-- No bounds, no collection state. -/
def noGc : GcInfo := ⟨0, 0, true, none⟩

/-- Two puts, an overwrite, a delete, an update that creates, one that removes, an abort and a broadcast. -/
def sampleEvs : List LeafEv :=
  [.msg ⟨.insert [1, 2, 3], [5], [10]⟩ noGc, .msg ⟨.insert [7], [6, 6], [10]⟩ noGc, .msg ⟨.insert [9, 9], [5], [10, 11]⟩ noGc,
   .msg ⟨.update [4, 4], [4], [10]⟩ noGc, .msg ⟨.deleteAny, [6, 6], [12]⟩ noGc, .msg ⟨.abortAny, [5], [10, 11]⟩ noGc,
   .msg ⟨.insertNoOverwrite [8], [3], [12]⟩ noGc, .msg ⟨.update [1], [4], [12]⟩ noGc,
   .msg ⟨.commitBroadcastTxn, [], [12]⟩ ⟨20, 20, true, some (true, ⟨[], [], []⟩)⟩, .gc 30 ⟨[], [], []⟩]

/-- C13: however the leaf was reached, its row count is the number of rows it stores, its keys strictly
increase (no key twice), its key storage is exact, and, for any comparator under which equal keys have equal
length, its byte count is the sum of key and newest-value lengths over the rows that have a value. -/
theorem C13_counts (cmp : Key → Key → Ordering) [TransCmp cmp] (upd : Upd) (es : List LeafEv) (bn : Bn) (d : Int)
    (h : runLeaf cmp upd Bn.empty es = some (bn, d)) :
    bn.numrows = bn.rows.length ∧
    bn.rows.Pairwise (fun a b => cmp a.1 b.1 = .lt) ∧
    bn.keyBytes = ((bn.rows.map fun r => 4 + r.1.length).sum : Nat) ∧
    ((∀ a b, cmp a b = .eq → a.length = b.length) →
      bn.numbytes = ((bn.rows.map fun r => match latest r.2 with
        | some v => r.1.length + v.length
        | none => 0).sum : Nat)) := by
  have hi := runLeaf_inv (binv_empty cmp) h
  exact ⟨hi.nrows, hi.sorted, hi.keys, hi.bytes⟩

/-- The hypotheses are met: the sample history runs, and leaves two rows. -/
example : (runLeaf memcmp sampleUpd Bn.empty sampleEvs).map (fun r => (r.1.numrows, r.1.numbytes, r.1.rows.map fun x => (x.1, latest x.2)))
    = some (2, 6, [([3], some [8]), ([5], some [1, 2, 3])]) := by rfl

/-- A comparator that looks only at the first byte, as a case-insensitive or prefix collation would. -/
def headCmp : Key → Key → Ordering := compareOn fun k : Key => (k.headD 0).toNat

instance : TransCmp headCmp := inferInstanceAs (TransCmp (compareOn fun k : Key => (k.headD 0).toNat))

/-- C13, where the code falls short: if keys of different lengths may compare equal, the byte count drifts.
A 3-byte key is stored and then deleted through a 1-byte key that compares equal; the leaf is empty and its
byte count is 2. -/
theorem C13_bytes_drift_when_equal_keys_differ_in_length :
    ∃ (es : List LeafEv) (bn : Bn) (d : Int), runLeaf headCmp sampleUpd Bn.empty es = some (bn, d) ∧
      bn.rows = [] ∧ bn.numbytes = 2 := by
  refine ⟨[.msg ⟨.insert [9], [1, 2, 3], []⟩ noGc, .msg ⟨.deleteAny, [1], []⟩ noGc], ?_⟩
  exact ⟨_, _, rfl, rfl, rfl⟩

/-- What the sender of a message adds to the logical row count: +1 for a put or an update, -1 for a del
(ft/ft-ops.cc:2268, 2444, 2519, 2629). -/
def sent : MsgType → Int
  | .insert _ => 1
  | .insertNoOverwrite _ => 1
  | .update _ => 1
  | .deleteAny => -1
  | _ => 0

/-- A leaf reached by some history. -/
def Reached (cmp : Key → Key → Ordering) (upd : Upd) (bn : Bn) : Prop :=
  ∃ es d, runLeaf cmp upd Bn.empty es = some (bn, d)

/-- C14 (partial): for every message except aborts and broadcast updates, whatever the leaf holds, what the
sender counted plus the correction the leaf reports is exactly the change in the number of rows that have a
value, provided a delete finds a stored row and an update callback sets a value.  Missing: aborts (wrong
unless the row has one committed and one provisional record, see `C14_abort_miscounts`), deletes of keys with
no stored row and updates that keep or remove (see the other `C14_*_miscounts`). -/
theorem C14_logical_rows_partial (cmp : Key → Key → Ordering) [TransCmp cmp] (upd : Upd) (bn bn' : Bn) (m : Msg)
    (g g' : GcInfo) (d : Int) (hr : Reached cmp upd bn) (h : applyMsg cmp upd bn m g = some (bn', d, g'))
    (hab : m.type ≠ .abortAny ∧ m.type ≠ .abortBroadcastTxn) (hub : ∀ e, m.type ≠ .updateBroadcastAll e)
    (hdel : m.type = .deleteAny → lookup cmp bn.rows m.key ≠ none)
    (hupd : ∀ e, m.type = .update e → ∃ v, upd m.key ((lookup cmp bn.rows m.key).bind latest) e = .set v) :
    sent m.type + d = (liveRows bn'.rows : Int) - liveRows bn.rows := by
  obtain ⟨es, d0, hes⟩ := hr
  have hb := runLeaf_inv (binv_empty cmp) hes
  have hb0 := hb.seq 0
  have hfz := findZero_spec cmp m.key bn.rows hb.sorted
  have hlk := findZero_lookup cmp m.key bn.rows hb.sorted
  have hany : ∀ kl op b, op ≠ .abort → (∀ r, (findZero cmp m.key bn.rows).2 = some r → kl = r.1.length) →
      applyOnce { bn with seqinsert := 0 } m.key (findZero cmp m.key bn.rows).1
      kl ((findZero cmp m.key bn.rows).2.map (·.2)) g m.xids op = some b →
      opSent op + b.2.1 = (liveRows b.1.rows : Int) - liveRows bn.rows := by
    intro kl op b hop hkl ha
    obtain ⟨l, t, k', h1, h2, h3, h4, h5, h6, h7⟩ := hfz
    rw [h2] at ha
    obtain ⟨b1, b2, b3⟩ := b
    refine applyOnce_delta (bn := { bn with seqinsert := 0 }) hb0 (k := k') (l := l) (t := t) h1 ?_ ?_ ha hop
    · intro hn; exact h7 (by simpa using hn)
    · intro hn
      cases hf : (findZero cmp m.key bn.rows).2 with
      | none => simp [hf] at hn
      | some r => rw [hkl r hf, h6 r hf]
  have hins : ∀ op, op ≠ .abort → ((applyOnce { bn with seqinsert := 0 } m.key (findZero cmp m.key bn.rows).1
      (((findZero cmp m.key bn.rows).2.map (·.1.length)).getD 0) ((findZero cmp m.key bn.rows).2.map (·.2)) g m.xids op).map
      fun (b, d, g') => ({ b with seqinsert := nextSeq bn.seqinsert b.rows.length (findZero cmp m.key bn.rows).1 }, d, g'))
        = some (bn', d, g') → opSent op + d = (liveRows bn'.rows : Int) - liveRows bn.rows := by
    intro op hop h
    obtain ⟨⟨b, d', g''⟩, ha, he⟩ := Option.map_eq_some_iff.mp h
    simp only [Prod.mk.injEq] at he
    obtain ⟨rfl, rfl, _⟩ := he
    exact hany _ op _ hop (fun r hf => by simp [hf]) ha
  have hall : ∀ {f : Bn → Nat → Key × Ule → GcInfo → Option (Bn × Int × GcInfo)},
      (∀ bn idx r g bn' d g', BInv cmp bn → bn.rows[idx]? = some r → f bn idx r g = some (bn', d, g') → BInv cmp bn') →
      (∀ bn idx r g bn' d g', BInv cmp bn → bn.rows[idx]? = some r → f bn idx r g = some (bn', d, g') →
        d = (liveRows bn'.rows : Int) - liveRows bn.rows) →
      eachRow f bn.rows.length 0 { bn with seqinsert := 0 } 0 g = some (bn', d, g') →
        0 + d = (liveRows bn'.rows : Int) - liveRows bn.rows := by
    intro f hf1 hf2 h
    have := eachRow_delta hf1 hf2 h hb0
    simp only at this
    omega
  unfold applyMsg at h
  simp only [findForInsert_eq cmp _ _ _ hb.sorted] at h
  obtain ⟨ty, key, xs⟩ := m
  cases ty with
  | insert v => exact hins _ (by simp) h
  | insertNoOverwrite v => exact hins _ (by simp) h
  | deleteAny =>
    simp only at h
    split at h
    · rename_i idx hf
      rw [hf] at hlk
      exact absurd hlk.symm (hdel rfl)
    · rename_i idx r hf
      refine hany r.1.length .delete (bn', d, g') (by simp) ?_ ?_
      · simp only [hf]; simp
      · simp only [hf, Option.map_some, Option.map_none]; exact h
  | abortAny => exact absurd rfl hab.1
  | commitAny =>
    simp only at h
    split at h
    · simp at h; obtain ⟨rfl, rfl, rfl⟩ := h; simp [sent]
    · rename_i idx r hf
      refine hany r.1.length .commit (bn', d, g') (by simp) ?_ ?_
      · simp only [hf]; simp
      · simp only [hf, Option.map_some, Option.map_none]; exact h
  | commitBroadcastAll => exact hall stepUnclean_inv (stepUnclean_delta (by simp) rfl) h
  | commitBroadcastTxn => exact hall stepTxn_inv (stepTxn_delta (by simp) rfl) h
  | abortBroadcastTxn => exact absurd rfl hab.2
  | optimize => exact hall stepUnclean_inv (stepUnclean_delta (by simp) rfl) h
  | optimizeForUpgrade => exact hall stepUnclean_inv (stepUnclean_delta (by simp) rfl) h
  | update e =>
    obtain ⟨v, hv⟩ := hupd e rfl
    simp only at h hv
    split at h
    · rename_i idx hf
      rw [hf] at hlk
      simp only [Option.map_none] at hlk
      rw [← hlk] at hv
      simp only [Option.bind_none] at hv
      unfold doUpdate at h
      simp only [Option.bind_none, hv] at h
      refine hany 0 (.insert v) (bn', d, g') (by simp) ?_ ?_
      · simp only [hf]; simp
      · simp only [hf, Option.map_some, Option.map_none]; exact h
    · rename_i idx r hf
      rw [hf] at hlk
      simp only [Option.map_some] at hlk
      rw [← hlk] at hv
      simp only [Option.bind_some] at hv
      unfold doUpdate at h
      simp only [Option.bind_some, hv] at h
      refine hany r.1.length (.insert v) (bn', d, g') (by simp) ?_ ?_
      · simp only [hf]; simp
      · simp only [hf, Option.map_some, Option.map_none]; exact h
  | updateBroadcastAll e => exact absurd rfl (hub e)
  | noop => simp at h; obtain ⟨rfl, rfl, rfl⟩ := h; simp [sent]

/-- The hypotheses are met by the put that follows the sample history. -/
example : ∃ bn bn' d g', Reached memcmp sampleUpd bn ∧
    applyMsg memcmp sampleUpd bn ⟨.insert [1], [5], [40]⟩ noGc = some (bn', d, g') ∧ liveRows bn.rows = 2 := by
  obtain ⟨r, hr⟩ : ∃ r, runLeaf memcmp sampleUpd Bn.empty sampleEvs = some r := ⟨_, rfl⟩
  obtain ⟨r', hr'⟩ : ∃ r', applyMsg memcmp sampleUpd r.1 ⟨.insert [1], [5], [40]⟩ noGc = some r' := by
    have : (runLeaf memcmp sampleUpd Bn.empty sampleEvs).bind (fun r => applyMsg memcmp sampleUpd r.1 ⟨.insert [1], [5], [40]⟩ noGc) ≠ none := by
      exact fun h => by cases h
    rw [hr] at this
    exact Option.ne_none_iff_exists'.mp this
  refine ⟨r.1, r'.1, r'.2.1, r'.2.2, ⟨sampleEvs, r.2, hr⟩, hr', ?_⟩
  have : (runLeaf memcmp sampleUpd Bn.empty sampleEvs).map (fun r => liveRows r.1.rows) = some 2 := by decide +kernel
  rw [hr] at this
  simpa using this

/-- C14 where aborts are counted right: a single provisional record over a single committed one. -/
theorem C14_abort_simple_partial (u u' : Ule) (x : Txnid) (c p : Uxr) (d : Int) (hu : u = ⟨[c], [p]⟩)
    (hp : p.val ≠ .placeholder) (h : msgModify u [x] .abort = some (u', d)) :
    d = (live (latest u') : Int) - live (latest u) := abort_delta_simple hu hp h

example : msgModify ⟨[⟨0, .insert [1]⟩], [⟨5, .delete⟩]⟩ [5] .abort = some (⟨[⟨0, .insert [1]⟩], []⟩, 1) := by decide +kernel

/-- C14 is false for aborts: a transaction puts a key, its child overwrites the key and aborts.  The sender
counted two puts and the leaf reported corrections that bring the total to 0, yet the row is there. -/
theorem C14_abort_miscounts : ∃ (es : List LeafEv) (bn : Bn) (d : Int),
    runLeaf memcmp sampleUpd Bn.empty es = some (bn, d) ∧
    (es.map fun | .msg m _ => sent m.type | .gc _ _ => 0).sum + d = 0 ∧ liveRows bn.rows = 1 := by
  refine ⟨[.msg ⟨.insert [1], [5], [10]⟩ noGc, .msg ⟨.insert [2], [5], [10, 11]⟩ noGc,
    .msg ⟨.abortAny, [5], [10, 11]⟩ noGc], ?_⟩
  exact ⟨_, _, rfl, rfl, rfl⟩

/-- C14 is false for a delete of a key that is not stored: the total is -1 with no row. -/
theorem C14_delete_absent_miscounts : ∃ (es : List LeafEv) (bn : Bn) (d : Int),
    runLeaf memcmp sampleUpd Bn.empty es = some (bn, d) ∧
    (es.map fun | .msg m _ => sent m.type | .gc _ _ => 0).sum + d = -1 ∧ liveRows bn.rows = 0 :=
  ⟨[.msg ⟨.deleteAny, [5], [10]⟩ noGc], _, _, rfl, rfl, rfl⟩

/-- C14 is false for an update whose callback leaves the row alone: the total is 1 with no row. -/
theorem C14_update_miscounts : ∃ (es : List LeafEv) (bn : Bn) (d : Int),
    runLeaf memcmp sampleUpd Bn.empty es = some (bn, d) ∧
    (es.map fun | .msg m _ => sent m.type | .gc _ _ => 0).sum + d = 1 ∧ liveRows bn.rows = 0 :=
  ⟨[.msg ⟨.update [0], [5], [10]⟩ noGc], _, _, rfl, rfl, rfl⟩

end Verif.Ft
