import Verif.Ser.MsgBufShow
/-!
Message buffers in memory and on disk: the property theorems.
-/
namespace Verif.Ser
open MsgBufSpec

variable {cmp : List Nat → List Nat → Ordering} [Std.TransCmp cmp]

/-- C34, in memory.  Whatever messages arrive and whichever of them queries apply, the calls succeed and the buffer shows exactly the messages that arrived, in
order, each fresh until a query applied it. -/
theorem C34_buffer_shows {ops : List Op} (h : Legal cmp ops) : ∃ c, bufferAfter cmp ops = .ok c ∧ Shows cmp c (run ops) := by
  obtain ⟨c, offs, e, hi⟩ := bufferAfter_ok h
  exact ⟨c, e, inv_shows hi⟩

/-- C34, on disk.  Writing the buffer takes exactly the space computed for it (less the four bytes of the checksum the caller adds), and reading it back, wherever it
stands in a block, gives the same messages, in the same order and at the same offsets, with the same freshness and the same trees, and stops at the end of what was
written. -/
theorem C34_round_trip {ops : List Op} (h : Legal cmp ops) {c : Bnc} (hc : bufferAfter cmp ops = .ok c) {w : W} (hw : w.out.length + c.partitionSize ≤ w.size + 4) :
    ∃ bytes, c.serialize w = .ok { w with out := w.out ++ bytes } ∧ bytes.length + 4 = c.partitionSize ∧
      ∀ pre post, ∃ d, Bnc.deserialize ⟨pre ++ (bytes ++ post), pre.length + 1⟩ = .ok (d, ⟨pre ++ (bytes ++ post), pre.length + bytes.length⟩) ∧ Same c d := by
  obtain ⟨c', offs, e, hi⟩ := bufferAfter_ok h
  rw [hc] at e
  cases e
  have hs := inv_sizes hi
  have hrl : (rowsOf (run ops)).length = (run ops).length := by simp [rowsOf]
  have hcount := hs.count
  have hn : (rowsOf (run ops)).length < 2 ^ 31 := by omega
  refine ⟨bncBytes (rowsOf (run ops)) c.fresh c.stale c.bcast, Bnc.serialize_ok hi.mem (by rw [hrl]; exact hi.n) hn hi.fit.good hs.fresh hs.stale hs.bcast (by
    have := hs.total; omega), hs.total.symm, fun pre post => ?_⟩
  obtain ⟨size, ed⟩ := Bnc.deserialize_ok hn hi.fit.good hs.fresh hs.stale hs.bcast pre post
  refine ⟨_, ed, ⟨iter_congr hi.mem.symm, by rw [hrl]; exact hi.n.symm, get_congr hi.mem.symm, getFresh_congr hi.mem.symm, rfl, rfl, rfl⟩⟩

/-- C34, in the format of version 26 and before, which has no trees on disk: when the applied messages have been filed, the reader that sorts the messages again gives
the same buffer and the same trees. -/
theorem C34_round_trip_without_trees {ops : List Op} (h : Legal cmp ops) (hset : ∀ x ∈ run ops, x.filed = !x.fresh) {c : Bnc} (hc : bufferAfter cmp ops = .ok c) {w : W}
    (hw : w.out.length + (4 + c.b.mem.length) ≤ w.size) :
    ∃ bytes, c.b.serialize w = .ok { w with out := w.out ++ bytes } ∧ bytes.length = 4 + c.b.mem.length ∧
      ∀ pre post, ∃ d, Bnc.deserialize26 cmp ⟨pre ++ (bytes ++ post), pre.length⟩ = .ok (d, ⟨pre ++ (bytes ++ post), pre.length + bytes.length⟩) ∧ Same c d := by
  obtain ⟨c', offs, e, hi⟩ := bufferAfter_ok h
  rw [hc] at e
  cases e
  have hs := inv_sizes hi
  have hrl : (rowsOf (run ops)).length = (run ops).length := by simp [rowsOf]
  have hcount := hs.count
  have hi4 : (BufSpec.bytes (.int (rowsOf (run ops)).length)).length = 4 := by simp [BufSpec.bytes, digits_length]
  have hlen : (BufSpec.bytes (.int (rowsOf (run ops)).length) ++ diskOf (rowsOf (run ops))).length = 4 + c.b.mem.length := by
    rw [List.length_append, hi4, diskOf_length, hi.mem]
  refine ⟨BufSpec.bytes (.int (rowsOf (run ops)).length) ++ diskOf (rowsOf (run ops)), ?_, hlen, fun pre post => ?_⟩
  · obtain ⟨os, e1, e2, _⟩ := MB.iterLoop_ok (b := c.b) (pre := []) (s := rowsOf (run ops)) (fuel := c.b.mem.length) (by rw [hi.mem]; rfl) hi.fit.good (by rw [hi.mem]; exact Nat.le_refl _)
    have e1 : c.b.iterate = .ok (os.zip (rowsOf (run ops))) := e1
    have w1 : W.int0 w c.b.n = .ok { w with out := w.out ++ BufSpec.bytes (.int (rowsOf (run ops)).length) } := by
      rw [hi.n, ← hrl]
      exact W.field0_ok (f := .int (rowsOf (run ops)).length) (show _ < 2 ^ 32 by omega) (by rw [hi4]; omega)
    unfold MB.serialize
    rw [w1, R.bind_ok, e1, R.bind_ok, MB.writeAll_ok hi.fit.good e2 (by simp only [List.length_append, hi4, diskOf_length, ← hi.mem]; omega)]
    simp only [List.append_assoc]
  · obtain ⟨size, ed⟩ := deserialize26_ok hi hset pre post
    rw [hlen]
    rw [diskOf_length, ← hi.mem] at ed
    simp only [List.append_assoc] at ed ⊢
    exact ⟨_, ed, ⟨iter_congr rfl, by rw [hrl]; exact hi.n.symm, get_congr rfl, getFresh_congr rfl, rfl, rfl, rfl⟩⟩

/-! ### A concrete case -/

/-- Keys in order of their bytes. -/
def byteCmp (a b : List Nat) : Ordering := compare a b

/-- Two messages for one key, one for another, a commit of every row and one whose queries are done. -/
def someOps : List Op :=
  [.add ⟨1, 70, [5, 2 ^ 40], [9, 9], [1, 2, 3]⟩ true, .add ⟨2, 71, [6], [9], []⟩ true, .add ⟨15, 72, [], [], [255]⟩ true, .apply 0, .settle,
    .add ⟨1, 73, [7], [9, 9], [4]⟩ true, .add ⟨14, 69, [3], [8], [0]⟩ false, .apply 3, .settle]

instance : Std.TransCmp byteCmp := inferInstanceAs (Std.TransCmp (compare : List Nat → List Nat → Ordering))

theorem someOps_legal : Legal byteCmp someOps where
  valid m hm := by
    simp only [someOps, added, List.filterMap_cons, List.filterMap_nil, List.mem_cons, List.not_mem_nil, or_false] at hm
    rcases hm with rfl | rfl | rfl | rfl | rfl <;> constructor <;> simp [single, every]
  distinct := by
    unfold Before
    simp only [someOps, added, List.filterMap_cons, List.filterMap_nil]
    decide +kernel
  size := by decide +kernel

example : (match bufferAfter byteCmp someOps with | .ok c => decide (c.fresh = [40] ∧ c.stale = [118, 0, 88] ∧ c.bcast = [68] ∧ c.b.n = 5 ∧ c.partitionSize = 188) | _ => false) = true := by
  decide +kernel

example : ∀ x ∈ run someOps, x.filed = !x.fresh := by decide +kernel

/-- Both readers on the bytes of the example. -/
example : (match bufferAfter byteCmp (someOps ++ [.settle]) with
    | .ok c =>
      match c.serialize (W.init 184) with
      | .ok w =>
        match Bnc.deserialize ⟨w.out, 1⟩, Bnc.deserialize26 byteCmp ⟨w.out, 1⟩ with
        | .ok (d, r), .ok (d', _) => decide (w.out.length = 184 ∧ d.b.mem = c.b.mem ∧ d.fresh = c.fresh ∧ d.stale = c.stale ∧ d.bcast = c.bcast ∧ r.ndone = 184 ∧
          d'.b.mem = c.b.mem ∧ d'.fresh = c.fresh ∧ d'.stale = c.stale ∧ d'.bcast = c.bcast)
        | _, _ => false
      | _ => false
    | _ => false) = true := by decide +kernel

end Verif.Ser
