import Verif.Mvcc.Run
import Verif.Ule.PackAccess

/-! Every row a schedule can produce can be stored: its bottom record has no id, its values are short. -/
namespace Verif.Mvcc
open Verif.Ule Verif.Ule.Spec
open Verif.Txn

/-- The bottom record has id 0 and values are shorter than 2^31. -/
structure Solid (u : Ule) : Prop where
  bottom : ∃ b, u.cux.getLast? = some b ∧ b.xid = 0
  vlen : ∀ r ∈ u.cux ++ u.pux, r.val.vallen < 2 ^ 31

theorem Solid.cne {u : Ule} (h : Solid u) : u.cux ≠ [] := by
  obtain ⟨b, hb, -⟩ := h.bottom
  intro h0; simp [h0] at hb

theorem Solid.top {u : Ule} (h : Solid u) : (topVal u).vallen < 2 ^ 31 := by
  unfold topVal
  split
  · rename_i r hr; exact h.vlen r (List.mem_append_right _ (List.mem_of_getLast? hr))
  · split
    · rename_i c cs hc; exact h.vlen c (by simp [hc])
    · decide

theorem Solid.promoN {u : Ule} (h : Solid u) (m : Nat) : Solid (promoN u m) := by
  by_cases hle : u.pux.length ≤ m
  · rw [promoN_of_le u m hle]; exact h
  · cases hp : u.pux with
    | nil => simp [hp] at hle
    | cons o os =>
      cases m with
      | zero =>
        rw [promoN_zero u o os hp]
        refine ⟨?_, ?_⟩
        · obtain ⟨b, hb, hz⟩ := h.bottom
          refine ⟨b, ?_, hz⟩
          simp only
          rw [List.getLast?_cons, hb]; rfl
        · intro r hr
          simp at hr
          rcases hr with rfl | hr
          · exact h.top
          · exact h.vlen r (List.mem_append_left _ hr)
      | succ m =>
        have hm : m < u.pux.length := by omega
        rw [promoN_succ u m u.pux[m] (by omega) (by simp [hm])]
        refine ⟨h.bottom, ?_⟩
        intro r hr
        simp at hr
        rcases hr with hr | hr | rfl
        · exact h.vlen r (List.mem_append_left _ hr)
        · exact h.vlen r (List.mem_append_right _ (List.mem_of_mem_take hr))
        · exact h.top

theorem Solid.writeF {u : Ule} (h : Solid u) (xs : Xids) (v : XrVal) (hv : v.vallen < 2 ^ 31) :
    Solid (writeF u xs v) := by
  have h1 := h.promoN (matchLen u.pux xs)
  refine ⟨h1.bottom, ?_⟩
  intro r hr
  simp only [Ule.writeF, writeA, List.mem_append, List.mem_singleton] at hr
  rcases hr with hr | (hr | hr) | rfl
  · exact h1.vlen r (List.mem_append_left _ hr)
  · exact h1.vlen r (List.mem_append_right _ (List.mem_of_mem_take hr))
  · unfold phs at hr
    obtain ⟨x, -, rfl⟩ := List.mem_map.mp hr
    simp [XrVal.vallen]
  · exact hv

theorem Solid.abortF {u : Ule} (h : Solid u) (xs : Xids) : Solid (abortF u xs) := by
  have h1 := h.promoN (matchLen u.pux xs)
  refine ⟨h1.bottom, ?_⟩
  intro r hr
  simp only [Ule.abortF, abortA, List.mem_append] at hr
  rcases hr with hr | hr
  · exact h1.vlen r (List.mem_append_left _ hr)
  · exact h1.vlen r (List.mem_append_right _ (List.mem_of_mem_take ((strip_prefix _).subset hr)))

theorem Solid.stepMsg {init} {u u' : Ule} {s s' : Row} {e : Ev} (h : Solid u) (hR : R init u s)
    (hs : s.step init e = some s') (hu : stepMsg u s.chain e = some u') : Solid u' := by
  cases e with
  | begin x => simp only [Ule.stepMsg, Ev.msg, Option.some.injEq] at hu; subst hu; exact h
  | finish => simp only [Ule.stepMsg, Ev.msg, Option.some.injEq] at hu; subst hu; exact h
  | put v =>
    simp only [Row.step] at hs
    split at hs
    · rename_i hc
      simp only [Ule.stepMsg, Ev.msg, msgModify_insert u _ v hR.wf (hR.inv.chain hc.2.1) hc.2.2,
        Option.some.injEq] at hu
      subst hu
      exact h.writeF _ _ hc.2.2
    · cases hs
  | putIfAbsent v =>
    simp only [Row.step] at hs
    split at hs
    · rename_i hc
      simp only [Ule.stepMsg, Ev.msg, msgModify_insertNoOverwrite u _ v hR.wf (hR.inv.chain hc.2.1) hc.2.2,
        Option.some.injEq] at hu
      subst hu
      split
      · exact h.promoN _
      · exact h.writeF _ _ hc.2.2
    · cases hs
  | del =>
    simp only [Row.step] at hs
    split at hs
    · rename_i hc
      simp only [Ule.stepMsg, Ev.msg, msgModify_delete u _ hR.wf (hR.inv.chain hc.2), Option.some.injEq] at hu
      subst hu
      exact h.writeF _ _ (by decide)
    · cases hs
  | commitMsg =>
    simp only [Row.step] at hs
    split at hs
    · rename_i hc
      simp only [Ule.stepMsg, Ev.msg, msgModify_commit u _ hR.wf (hR.inv.chain hc.2), Option.some.injEq] at hu
      subst hu
      exact (h.promoN _).promoN _
    · cases hs
  | abortMsg =>
    simp only [Row.step] at hs
    split at hs
    · rename_i hc
      simp only [Ule.stepMsg, Ev.msg, msgModify_abort u _ hR.wf (hR.inv.chain hc.2), Option.some.injEq] at hu
      subst hu
      exact h.abortF _
    · cases hs

theorem Solid.tryPromote {u u' : Ule} (h : Solid u) (hw : Wf u) (k : Txnid)
    (hu : tryPromoteOutermost u k = some u') : Solid u' := by
  unfold tryPromoteOutermost at hu
  cases hp : u.pux with
  | nil => rw [hp] at hu; simp only [Option.some.injEq] at hu; subst hu; exact h
  | cons f fs =>
    rw [hp] at hu
    simp only at hu
    split at hu
    · rw [promoteToCommitted_eq u hw (by simp [hp])] at hu
      simp only [Option.some.injEq] at hu
      subst hu; exact h.promoN 0
    · simp only [Option.some.injEq] at hu; subst hu; exact h

theorem zeroBottom_bottom (l : List Uxr) (hl : l ≠ []) : ∃ b, (zeroBottom l).getLast? = some b ∧ b.xid = 0 := by
  induction l with
  | nil => exact absurd rfl hl
  | cons c l ih =>
    cases hl' : l with
    | nil => exact ⟨⟨0, c.val⟩, rfl, rfl⟩
    | cons d l' =>
      obtain ⟨b, hb, hz⟩ := ih (by simp [hl'])
      refine ⟨b, ?_, hz⟩
      rw [hl'] at hb
      simp only [zeroBottom]
      rw [List.getLast?_cons, hb]; rfl

theorem Solid.cut {u : Ule} (h : Solid u) (l : List Uxr) (hl : l ≠ []) (hs : ∀ r ∈ l, r ∈ u.cux) :
    Solid { u with cux := zeroBottom l } := by
  refine ⟨zeroBottom_bottom l hl, ?_⟩
  intro r hr
  rcases List.mem_append.mp hr with hr | hr
  · have : r.val ∈ (zeroBottom l).map (·.val) := List.mem_map_of_mem hr
    rw [map_val_zeroBottom] at this
    obtain ⟨q, hq, hv⟩ := List.mem_map.mp this
    rw [← hv]
    exact h.vlen q (List.mem_append_left _ (hs q hq))
  · exact h.vlen r (List.mem_append_right _ hr)

theorem Solid.simpleGc {u : Ule} (h : Solid u) (o : Txnid) : Solid (simpleGc o u) := by
  unfold Txn.simpleGc
  split
  · exact h
  · split
    · exact h
    · obtain ⟨h1, h2, -⟩ := keepToOldest_spec o u.cux h.cne
      exact h.cut _ h1 (fun r hr => h2.subset hr)

theorem gcWalk_sub (g : GcState) (mode : Option Txnid) (l l' : List Uxr) (hl : l ≠ []) (h : gcWalk g mode l = some l') :
    l' ≠ [] ∧ ∀ r ∈ l', r ∈ l := by
  induction l generalizing mode l' with
  | nil => exact absurd rfl hl
  | cons c l ih =>
    cases hl' : l with
    | nil =>
      subst hl'
      simp only [gcWalk, Option.some.injEq] at h
      subst h; simp
    | cons d rest =>
      subst hl'
      have hrec : ∀ mode l', gcWalk g mode (d :: rest) = some l' → l' ≠ [] ∧ ∀ r ∈ l', r ∈ d :: rest :=
        fun mode l' h => ih mode l' (by simp) h
      have hcons : ∀ mode, (gcWalk g mode (d :: rest)).map (c :: ·) = some l' → l' ≠ [] ∧ ∀ r ∈ l', r ∈ c :: d :: rest := by
        intro mode h
        obtain ⟨q, hq, rfl⟩ := Option.map_eq_some_iff.mp h
        refine ⟨by simp, fun r hr => ?_⟩
        rcases List.mem_cons.mp hr with rfl | hr
        · exact List.mem_cons_self ..
        · exact List.mem_cons_of_mem _ ((hrec _ _ hq).2 r hr)
      have hnec : (if g.live.contains c.xid then (gcWalk g none (d :: rest)).map (c :: ·)
          else
            let y := g.youngest c.xid
            if y = some c.xid then none
            else match (y <|> findLT g.snapIds c.xid) with
              | none => some [c]
              | some tl1 => (gcWalk g (some tl1) (d :: rest)).map (c :: ·)) = some l' →
          l' ≠ [] ∧ ∀ r ∈ l', r ∈ c :: d :: rest := by
        intro h
        split at h
        · exact hcons _ h
        · simp only at h
          split at h
          · cases h
          · split at h
            · simp only [Option.some.injEq] at h; subst h; simp
            · exact hcons _ h
      unfold gcWalk at h
      simp only at h
      split at h
      · exact hnec h
      · split at h
        · exact hnec h
        · obtain ⟨h1, h2⟩ := hrec _ _ h
          exact ⟨h1, fun r hr => List.mem_cons_of_mem _ (h2 r hr)⟩

theorem Solid.fullGc {u u' : Ule} (h : Solid u) (g : GcState) (hu : fullGc g u = some u') : Solid u' := by
  unfold Txn.fullGc at hu
  split at hu
  · simp only [Option.some.injEq] at hu; subst hu; exact h
  · obtain ⟨l, hl, rfl⟩ := Option.map_eq_some_iff.mp hu
    obtain ⟨h1, h2⟩ := gcWalk_sub g none _ _ h.cne hl
    exact h.cut l h1 h2

theorem Solid.collectFull {m : M} {u u' : Ule} (h : Solid u) (hu : m.collectFull u = .ok u') : Solid u' := by
  unfold M.collectFull at hu
  split at hu
  · cases hu
  · rename_i S _
    split at hu
    · cases hf : Txn.fullGc S.mgr.gcState u with
      | none => rw [hf] at hu; cases hu
      | some v => rw [hf] at hu; simp only [Outcome.ofCode, Outcome.ok.injEq] at hu; subst hu; exact h.fullGc _ hf
    · cases hu

theorem Solid.drop {u : Ule} (h : Solid u) : Solid (dropIfAllDeleted u) := by
  unfold dropIfAllDeleted
  split
  · exact h
  · refine ⟨⟨committedDelete, rfl, rfl⟩, ?_⟩
    intro r hr
    simp [emptyUle] at hr
    subst hr; decide

theorem Solid.settle {m : M} {o : Txnid} {gc : Bool} {u u' : Ule} (h : Solid u) (hw : Wf u)
    (hu : m.settle o gc u = .ok u') : Solid u' := by
  unfold M.settle at hu
  cases h1 : tryPromoteOutermost u m.known with
  | none => rw [h1] at hu; cases hu
  | some u1 =>
    rw [h1] at hu
    simp only [Outcome.ofCode, Outcome.bind] at hu
    have hs := (h.tryPromote hw _ h1).simpleGc o
    cases gc with
    | false =>
      simp only [Bool.false_eq_true, if_false, Outcome.ok.injEq] at hu
      subst hu; exact hs.drop
    | true =>
      simp only [if_true] at hu
      cases h2 : m.collectFull (Txn.simpleGc o u1) with
      | crash => rw [h2] at hu; cases hu
      | impossible => rw [h2] at hu; cases hu
      | ok v =>
        rw [h2] at hu
        simp only [Outcome.ok.injEq] at hu
        subst hu
        exact (hs.collectFull h2).drop

theorem solid_step {init} {m m' : M} (h : MInv init m) (hs : Solid m.leaf) (e : MEv)
    (hm : m.step init e = .ok m') : Solid m'.leaf := by
  cases e with
  | txn e =>
    simp only [M.step, M.txnStep] at hm
    have hgen : ∀ e, (m.sys.step e).bind (fun s => Outcome.ok { m with sys := s }) = .ok m' → Solid m'.leaf := by
      intro e hm
      cases hS : m.sys.step e with
      | crash => rw [hS] at hm; cases hm
      | impossible => rw [hS] at hm; cases hm
      | ok S' =>
        rw [hS] at hm
        simp only [Outcome.bind, Outcome.ok.injEq] at hm
        subst hm; exact hs
    split at hm
    · split at hm
      · split at hm
        · split at hm
          · rename_i x _ _ _ _ _
            cases hS : m.sys.step (.finish x) with
            | crash => rw [hS] at hm; cases hm
            | impossible => rw [hS] at hm; cases hm
            | ok S' =>
              rw [hS] at hm
              simp only [Outcome.bind, Outcome.ok.injEq] at hm
              subst hm; exact hs
          · cases hm
        · cases hm
      · exact hgen _ hm
    · exact hgen _ hm
  | row e =>
    simp only [M.step, M.rowStep] at hm
    split at hm
    · cases hm
    · split at hm
      · cases hm
      · split at hm
        · rename_i x _ _ _
          cases hS : m.sys.step (.write x) with
          | crash => rw [hS] at hm; cases hm
          | impossible => rw [hS] at hm; cases hm
          | ok S' =>
            rw [hS] at hm
            simp only [Outcome.bind, Outcome.ok.injEq] at hm
            subst hm; exact hs
        · simp only [Outcome.bind, Outcome.ok.injEq] at hm
          subst hm; exact hs
  | learn o =>
    simp only [M.step] at hm
    split at hm
    · simp only [Outcome.ok.injEq] at hm; subst hm; exact hs
    · cases hm
  | capture =>
    simp only [M.step, Outcome.ok.injEq] at hm; subst hm; exact hs
  | collect =>
    simp only [M.step] at hm
    cases hu : tryPromoteOutermost m.leaf m.known with
    | none => rw [hu] at hm; cases hm
    | some u =>
      rw [hu] at hm
      simp only [Outcome.ofCode, Outcome.bind] at hm
      cases hv : m.collectFull u with
      | crash => rw [hv] at hm; cases hm
      | impossible => rw [hv] at hm; cases hm
      | ok v =>
        rw [hv] at hm
        simp only [Outcome.ok.injEq] at hm
        subst hm
        exact ((hs.tryPromote h.rel.wf _ hu).collectFull hv).drop
  | deliver o gc =>
    simp only [M.step, M.deliver] at hm
    cases hq : m.queue with
    | nil => rw [hq] at hm; cases hm
    | cons it q =>
      obtain ⟨c, act⟩ := it
      have hqok := h.queue
      rw [hq] at hqok hm
      obtain ⟨hc, hqok⟩ := hqok
      simp only at hc
      cases act with
      | known k => simp only [Outcome.ok.injEq] at hm; subst hm; exact hs
      | ev e =>
        simp only at hqok hm
        obtain ⟨d', hd, hqok⟩ := hqok
        have hR := h.rel.toR (Obs.true _)
        obtain ⟨u1, hu1, hR1⟩ := R_step hR hd
        have hs1 := hs.stepMsg hR hd hu1
        cases hmsg : e.msg c with
        | none => rw [hmsg] at hm; simp only [Outcome.ok.injEq] at hm; subst hm; exact hs
        | some msg =>
          obtain ⟨xs, op⟩ := msg
          rw [hmsg] at hm
          simp only at hm
          split at hm
          · have hu : msgModifyU m.leaf xs op = some u1 := by
              unfold Ule.stepMsg at hu1
              rw [← hc, hmsg] at hu1
              exact hu1
            rw [hu] at hm
            simp only [Outcome.ofCode, Outcome.bind] at hm
            cases hst : m.settle o gc u1 with
            | crash => rw [hst] at hm; cases hm
            | impossible => rw [hst] at hm; cases hm
            | ok v =>
              rw [hst] at hm
              simp only [Outcome.ok.injEq] at hm
              subst hm
              exact hs1.settle hR1.wf hst
          · cases hm

theorem solid_run {init} {m m' : M} (h : MInv init m) (hs : Solid m.leaf) (es : List MEv)
    (hm : m.run init es = .ok m') : Solid m'.leaf := by
  induction es generalizing m with
  | nil => simp only [M.run, Outcome.ok.injEq] at hm; subst hm; exact hs
  | cons e es ih =>
    simp only [M.run] at hm
    cases hc : m.step init e with
    | ok m1 =>
      rw [hc] at hm
      exact ih ((minv_step h e).2 m1 hc) (solid_step h hs e hc) hm
    | impossible => rw [hc] at hm; cases hm
    | crash => rw [hc] at hm; cases hm

theorem solid_init (last : Txnid) (v : Option Bytes) (hv : (v.getD []).length < 2 ^ 31) :
    Solid (M.init last v).leaf := by
  refine ⟨⟨_, rfl, rfl⟩, ?_⟩
  intro r hr
  simp [M.init] at hr
  subst hr
  cases v with
  | none => decide
  | some b => simpa [XrVal.vallen] using hv

theorem packable_of {u : Ule} (hw : Wf u) (hs : Solid u) (hc : u.cux.length < 2 ^ 32)
    (hx : ∀ r ∈ u.cux ++ u.pux, r.xid < 2 ^ 64) : Packable u := by
  have hnp : ∀ r : Uxr, r.isPlaceholder = false → r.val ≠ .placeholder := by
    intro r h h'; simp [Uxr.isPlaceholder, h'] at h
  exact ⟨hs.bottom, fun r hr => hnp r (hw.cnp r hr), fun r hr => hnp r (hw.plast r hr), hw.plen, hc, hx, hs.vlen⟩

end Verif.Mvcc
