import Verif.Hot.Lemmas

/-! The committed part: every reader sees in the index what follows from what they see in the source. -/
namespace Verif.Hot
open Verif.Ule Verif.Mvcc Verif.Txn

theorem not_ph {r : Uxr} (h : r.isPlaceholder = false) : r.val ≠ .placeholder := by
  intro hv; unfold Uxr.isPlaceholder at h; rw [hv] at h; cases h

theorem root_insert (v : XrVal) (w : Bytes) (hl : w.length < 2 ^ 31) :
    msgModifyU ⟨[⟨0, v⟩], []⟩ [] (.insert w) = some ⟨[⟨0, .insert w⟩], []⟩ := by
  simp [msgModifyU, msgModify, Op.isOptimize, maxTransactionRecords, implicitPromotions, applyOp, applyInsert,
    isValidLen, hl, innermost?, writeUxr, prepareForNewUxr, uleInnermostXid, innermostXid, txnidNone,
    removeInnermost, pushNew, pushCommitted]

theorem run_root (ms : List (Xids × Op)) (hm : ∀ m ∈ ms, m.1 = [] ∧ ∃ w, w.length < 2 ^ 31 ∧ m.2 = .insert w)
    (v : XrVal) : ∃ v', runMsgs ⟨[⟨0, v⟩], []⟩ ms = some ⟨[⟨0, v'⟩], []⟩ ∧
      v'.read = (lastVal ms).getD v.read ∧ (v ≠ .placeholder → v' ≠ .placeholder) := by
  induction ms generalizing v with
  | nil => exact ⟨v, rfl, rfl, id⟩
  | cons m ms ih =>
    obtain ⟨xs, op⟩ := m
    obtain ⟨h1, w, hl, h2⟩ := hm (xs, op) (by simp)
    simp only at h1 h2
    subst h1 h2
    obtain ⟨v', e1, e2, e3⟩ := ih (fun m h => hm m (List.mem_cons_of_mem _ h)) (.insert w)
    refine ⟨v', ?_, ?_, fun _ => e3 (by simp)⟩
    · simp only [runMsgs, root_insert v w hl, Option.bind_some]; exact e1
    · rw [e2]
      simp only [lastVal]
      cases lastVal ms <;> simp [XrVal.read]

theorem forKey_commitMsgs (h : Bytes) (xs : Xids) (hx : xs ≠ []) (l : List Msg) :
    (∀ m ∈ forKey h (commitMsgs xs (l.map Msg.key)), m = (xs, Op.commit)) ∧
    (forKey h l ≠ [] → forKey h (commitMsgs xs (l.map Msg.key)) ≠ []) := by
  unfold commitMsgs
  rw [if_neg hx]
  constructor
  · intro m hm
    simp only [forKey, List.mem_map, List.mem_filter] at hm
    obtain ⟨a, ⟨⟨k, -, rfl⟩, -⟩, rfl⟩ := hm
    rfl
  · intro hne he
    apply hne
    simp only [forKey, List.map_eq_nil_iff, List.filter_eq_nil_iff, List.mem_map] at he ⊢
    intro m hm
    exact he ⟨m.key, xs, .commit⟩ ⟨m.key, ⟨m, hm, rfl⟩, rfl⟩

/-- What a reader sees of one key, version after version. -/
def hotFold (g : Gen) (h : Bytes) (acc : Txnid → Bool) : XrVal → Option Bytes → List Uxr → Option Bytes
  | _, R, [] => R
  | p, R, r :: rs => hotFold g h acc r.val
      (if (look g h p.read = none ∧ look g h r.val.read = none) ∨ acc r.xid = false then R
       else look g h r.val.read) rs

theorem committed_some (g : Gen) (hg : g.Ok) (rs : List Uxr) (p : XrVal) (hp : p ≠ .placeholder)
    (hr : ∀ r ∈ rs, r.isPlaceholder = false) (h0 : ∀ r ∈ rs, r.xid ≠ 0) :
    ∃ ms, committedLoop g (some p) rs = some ms ∧ ∀ h V, Wf V → V.pux = [] →
      ∃ V', runMsgs V (forKey h ms) = some V' ∧ Wf V' ∧ V'.pux = [] ∧
        ∀ acc, snapshotRead acc V' = hotFold g h acc p (snapshotRead acc V) rs := by
  induction rs generalizing p with
  | nil => exact ⟨[], rfl, fun h V hw hx => ⟨V, rfl, hw, hx, fun _ => rfl⟩⟩
  | cons r rs ih =>
    have hrp := hr r (by simp)
    have hv := not_ph hrp
    have hx0 := h0 r (by simp)
    obtain ⟨ms, e1, e2⟩ := ih r.val hv (fun q hq => hr q (List.mem_cons_of_mem _ hq))
      (fun q hq => h0 q (List.mem_cons_of_mem _ hq))
    have hxs : setXid r.xid = [r.xid] := by simp [setXid, txnidNone, hx0]
    have hc : Chain [r.xid] := ⟨by simp, by simp, by simpa using hx0, by simp⟩
    refine ⟨undoL g [r.xid] p ++ doL g [r.xid] r.val ++
      commitMsgs [r.xid] ((undoL g [r.xid] p ++ doL g [r.xid] r.val).map Msg.key) ++ ms, ?_, ?_⟩
    · simp [committedLoop, hrp, hxs, undoMsgs_eq g _ p hp, doMsgs_eq g _ _ hv, e1]
    · intro h V hw hpx
      obtain ⟨V1, a1, a2, a3, -, a5⟩ := level g hg h [r.xid] r.xid rfl hc p r.val V hw
      obtain ⟨b1, b2⟩ := forKey_commitMsgs h [r.xid] (by simp) (undoL g [r.xid] p ++ doL g [r.xid] r.val)
      obtain ⟨V2, c1, c2, c3, c4⟩ := run_commits [r.xid] hc _ b1 V1 a2
      have hpx2 : V2.pux = [] := by
        apply c4 rfl
        rcases a5 with ⟨-, rfl⟩ | hh
        · exact .inr hpx
        · by_cases hk : forKey h (undoL g [r.xid] p ++ doL g [r.xid] r.val) = []
          · rw [hk] at a1
            injection a1 with a1
            subst a1
            exact .inr hpx
          · exact .inl (b2 hk)
      obtain ⟨V3, d1, d2, d3, d4⟩ := e2 h V2 c2 hpx2
      refine ⟨V3, ?_, d2, d3, ?_⟩
      · rw [forKey_append, forKey_append, runMsgs_append, runMsgs_append, a1]
        simp only [Option.bind_some, c1, d1]
      · intro acc
        rw [d4 acc, c3 acc, a3 acc]
        rfl

/-- What a reader sees of one key after the oldest version. -/
def hotFirst (g : Gen) (h : Bytes) (acc : Txnid → Bool) (r : Uxr) : Option Bytes :=
  if r.xid = 0 ∨ acc r.xid = true then look g h r.val.read else none

theorem committed_all (g : Gen) (hg : g.Ok) (r : Uxr) (rs : List Uxr)
    (hr : ∀ q ∈ r :: rs, q.isPlaceholder = false) (h0 : ∀ q ∈ rs, q.xid ≠ 0) :
    ∃ ms, committedLoop g none (r :: rs) = some ms ∧ ∀ h,
      ∃ V', runMsgs emptyUle (forKey h ms) = some V' ∧ Wf V' ∧ V'.pux = [] ∧
        ∀ acc, snapshotRead acc V' = hotFold g h acc r.val (hotFirst g h acc r) rs := by
  have hrp := hr r (by simp)
  have hv := not_ph hrp
  obtain ⟨ms, e1, e2⟩ := committed_some g hg rs r.val hv (fun q hq => hr q (List.mem_cons_of_mem _ hq)) h0
  by_cases hx0 : r.xid = 0
  · have hxs : setXid r.xid = [] := by simp [setXid, txnidNone, hx0]
    refine ⟨doL g [] r.val ++ ms, ?_, ?_⟩
    · simp [committedLoop, hrp, hxs, doMsgs_eq g _ _ hv, e1, commitMsgs]
    · intro h
      obtain ⟨v', a1, a2, a3⟩ := run_root (forKey h (doL g [] r.val)) (by
        intro m hm
        simp only [forKey, List.mem_map, List.mem_filter] at hm
        obtain ⟨a, ⟨ha, -⟩, rfl⟩ := hm
        unfold doL at ha
        split at ha
        · obtain ⟨kv, hk, rfl⟩ := List.mem_map.mp ha
          exact ⟨rfl, kv.2, hg.short _ kv hk, rfl⟩
        · cases ha) .delete
      have hwf : Wf ⟨[⟨0, v'⟩], []⟩ := by
        refine ⟨by simp, ?_, by simp, by simp, by simp, by simp⟩
        intro q hq
        rw [List.mem_singleton] at hq
        subst hq
        have := a3 (by simp)
        cases v' <;> first | rfl | exact absurd rfl this
      obtain ⟨V3, d1, d2, d3, d4⟩ := e2 h ⟨[⟨0, v'⟩], []⟩ hwf rfl
      refine ⟨V3, ?_, d2, d3, ?_⟩
      · rw [forKey_append, runMsgs_append]
        simp only [emptyUle, committedDelete, txnidNone, a1, Option.bind_some, d1]
      · intro acc
        rw [d4 acc]
        congr 1
        have : lastVal (forKey h (doL g [] r.val)) = (look g h r.val.read).map some := by
          have := lastVal_level g hg h [] .delete r.val
          rw [show undoL g [] .delete = [] from rfl, List.nil_append] at this
          rw [this]
          have hd : look g h XrVal.delete.read = none := rfl
          simp only [hd, true_and]
          cases look g h r.val.read <;> rfl
        rw [this] at a2
        simp only [snapshotRead, readCommitted, Option.bind_some, a2, hotFirst, hx0, true_or, if_true]
        cases look g h r.val.read <;> rfl
  · have hxs : setXid r.xid = [r.xid] := by simp [setXid, txnidNone, hx0]
    have hc : Chain [r.xid] := ⟨by simp, by simp, by simpa using hx0, by simp⟩
    have hud : undoL g [r.xid] .delete = [] := rfl
    refine ⟨doL g [r.xid] r.val ++ commitMsgs [r.xid] ((doL g [r.xid] r.val).map Msg.key) ++ ms, ?_, ?_⟩
    · simp [committedLoop, hrp, hxs, doMsgs_eq g _ _ hv, e1]
    · intro h
      obtain ⟨V1, a1, a2, a3, -, a5⟩ := level g hg h [r.xid] r.xid rfl hc .delete r.val emptyUle emptyUle_wf
      rw [hud, List.nil_append] at a1 a5
      obtain ⟨b1, b2⟩ := forKey_commitMsgs h [r.xid] (by simp) (doL g [r.xid] r.val)
      obtain ⟨V2, c1, c2, c3, c4⟩ := run_commits [r.xid] hc _ b1 V1 a2
      have hpx2 : V2.pux = [] := by
        apply c4 rfl
        rcases a5 with ⟨-, rfl⟩ | hh
        · exact .inr rfl
        · by_cases hk : forKey h (doL g [r.xid] r.val) = []
          · rw [hk] at a1
            injection a1 with a1
            subst a1
            exact .inr rfl
          · exact .inl (b2 hk)
      obtain ⟨V3, d1, d2, d3, d4⟩ := e2 h V2 c2 hpx2
      refine ⟨V3, ?_, d2, d3, ?_⟩
      · rw [forKey_append, forKey_append, runMsgs_append, runMsgs_append, a1]
        simp only [Option.bind_some, c1, d1]
      · intro acc
        rw [d4 acc, c3 acc, a3 acc]
        congr 1
        have e : snapshotRead acc emptyUle = none := rfl
        rw [e]
        have hd : look g h XrVal.delete.read = none := rfl
        simp only [hotFirst, hx0, false_or, hd, true_and]
        cases acc r.xid with
        | false => simp
        | true =>
          simp only [if_true, Bool.true_eq_false, or_false]
          cases look g h r.val.read <;> rfl

/-! ### The source read in the same order -/

/-- `Closed` from the oldest version up. -/
def ClosedUp (acc : Txnid → Bool) : Txnid → List Uxr → Prop
  | _, [] => True
  | y, r :: rs => (acc r.xid = true → y = 0 ∨ acc y = true) ∧ ClosedUp acc r.xid rs

theorem closedUp_of (acc : Txnid → Bool) (rs : List Uxr) (y : Txnid) (l : List Txnid)
    (h : Closed acc (rs.reverse.map (·.xid) ++ y :: l)) : ClosedUp acc y rs ∧ Closed acc (y :: l) := by
  induction rs generalizing y l with
  | nil => exact ⟨trivial, h⟩
  | cons r rs ih =>
    rw [List.reverse_cons, List.map_append, List.append_assoc] at h
    obtain ⟨h1, h2⟩ := ih r.xid (y :: l) h
    exact ⟨⟨h2.1, h1⟩, h2.2⟩

/-- The source row, version after version. -/
def srcFold (acc : Txnid → Bool) : Option Bytes → List Uxr → Option Bytes
  | S, [] => S
  | S, r :: rs => srcFold acc (if acc r.xid then r.val.read else S) rs

theorem readC_fold (acc : Txnid → Bool) (rs base : List Uxr) (hb : base ≠ []) :
    readC acc (rs.reverse ++ base) = srcFold acc (readC acc base) rs := by
  induction rs generalizing base with
  | nil => rfl
  | cons r rs ih =>
    rw [List.reverse_cons, List.append_assoc]
    show readC acc (rs.reverse ++ (r :: base)) = _
    rw [ih (r :: base) (by simp), readC_cons acc r base hb]
    rfl

/-- The newest version of the fold. -/
def lastRec (y : Txnid) (p : XrVal) : List Uxr → Txnid × XrVal
  | [] => (y, p)
  | r :: rs => lastRec r.xid r.val rs

theorem folds_agree (g : Gen) (h : Bytes) (acc : Txnid → Bool) (rs : List Uxr) (y : Txnid) (p : XrVal)
    (S R : Option Bytes) (hn : ∀ r ∈ rs, r.xid ≠ 0) (hcl : ClosedUp acc y rs)
    (h1 : (y = 0 ∨ acc y = true) → S = p.read) (h2 : R = look g h S) :
    hotFold g h acc p R rs = look g h (srcFold acc S rs) ∧
      (((lastRec y p rs).1 = 0 ∨ acc (lastRec y p rs).1 = true) → srcFold acc S rs = (lastRec y p rs).2.read) := by
  induction rs generalizing y p S R with
  | nil => exact ⟨h2, h1⟩
  | cons r rs ih =>
    have hr0 := hn r (by simp)
    refine ih r.xid r.val _ _ (fun q hq => hn q (List.mem_cons_of_mem _ hq)) hcl.2 ?_ ?_
    · rintro (h | h)
      · exact absurd h hr0
      · rw [if_pos h]
    · cases ha : acc r.xid with
      | false => simp [h2]
      | true =>
        have hS := h1 (hcl.1 ha)
        simp only [Bool.true_eq_false, or_false, if_true]
        split
        · rename_i hh
          rw [h2, hS, hh.1, hh.2]
        · rfl

end Verif.Hot
