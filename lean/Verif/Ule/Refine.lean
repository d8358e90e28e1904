import Verif.Ule.Lemmas2
import Verif.Ule.Spec

/-! The version stack refines the history specification of one row. -/
namespace Verif.Ule
open Spec

theorem latest_eq (u : Ule) (h : u.cux ≠ []) : latest u = (topVal u).read := by
  obtain ⟨r, h1, h2, -⟩ := innermost?_eq u h
  simp [latest, h1, h2]

theorem latest_promo (u : Ule) (xs : Xids) (h : u.cux ≠ []) : latest (promo u xs) = latest u := by
  unfold promo
  rw [latest_eq u h, latest_eq _ (promoN_cux_ne _ _ h), topVal_promoN]

theorem latest_commitF (u : Ule) (xs : Xids) (h : u.cux ≠ []) : latest (commitF u xs) = latest u := by
  rw [latest_eq u h]
  have : (commitF u xs).cux ≠ [] := promoN_cux_ne _ _ (promoN_cux_ne _ _ h)
  rw [latest_eq _ this]
  unfold commitF commitA promo
  rw [topVal_promoN, topVal_promoN]

theorem topVal_writeF (u : Ule) (xs : Xids) (v : XrVal) : topVal (writeF u xs v) = v := by
  simp [writeF, writeA, topVal]

theorem latest_writeF (u : Ule) (xs : Xids) (v : XrVal) (h : u.cux ≠ []) :
    latest (writeF u xs v) = v.read := by
  have : (writeF u xs v).cux ≠ [] := promoN_cux_ne _ _ h
  rw [latest_eq _ this, topVal_writeF]

theorem writeF_wf (u : Ule) (xs : Xids) (v : XrVal) (hw : Wf u) (hx : Chain xs)
    (hv : v ≠ .placeholder) : Wf (writeF u xs v) :=
  (writeA_wf _ _ _ (promo_wf u xs hw) hx (promo_aligned u xs) hv).1

theorem abortF_wf (u : Ule) (xs : Xids) (hw : Wf u) : Wf (abortF u xs) :=
  abortA_wf _ _ (promo_wf u xs hw)

theorem commitF_wf (u : Ule) (xs : Xids) (hw : Wf u) : Wf (commitF u xs) :=
  commitA_wf _ _ (promo_wf u xs hw)

theorem chain_len_lt (xs : Xids) (h : Chain xs) : xs.length < maxTransactionRecords := by
  have := h.len; unfold maxTransactionRecords; omega

theorem msgModify_insert (u : Ule) (xs : Xids) (v : Bytes) (hw : Wf u) (hx : Chain xs)
    (hv : v.length < 2 ^ 31) :
    msgModifyU u xs (.insert v) = some (writeF u xs (.insert v)) := by
  obtain ⟨r, h1, -⟩ := innermost?_eq (promo u xs) (promo_wf u xs hw).cne
  unfold msgModifyU msgModify
  rw [if_pos (chain_len_lt xs hx)]
  simp [Op.isOptimize, implicitPromotions_eq u xs hw hx.ne, applyOp, applyInsert, isValidLen, hv, h1,
    writeUxr_eq _ _ _ (promo_wf u xs hw) hx (promo_aligned u xs), writeF]

theorem msgModify_delete (u : Ule) (xs : Xids) (hw : Wf u) (hx : Chain xs) :
    msgModifyU u xs .delete = some (writeF u xs .delete) := by
  obtain ⟨r, h1, -⟩ := innermost?_eq (promo u xs) (promo_wf u xs hw).cne
  unfold msgModifyU msgModify
  rw [if_pos (chain_len_lt xs hx)]
  simp [Op.isOptimize, implicitPromotions_eq u xs hw hx.ne, applyOp, applyDelete, h1,
    writeUxr_eq _ _ _ (promo_wf u xs hw) hx (promo_aligned u xs), writeF]

theorem isInsert_iff_latest (u : Ule) (r : Uxr) (h : innermost? u = some r) :
    r.isInsert = (latest u).isSome := by
  unfold latest Uxr.isInsert
  rw [h]
  cases hv : r.val <;> simp [XrVal.read, hv]

theorem msgModify_insertNoOverwrite (u : Ule) (xs : Xids) (v : Bytes) (hw : Wf u) (hx : Chain xs)
    (hv : v.length < 2 ^ 31) :
    msgModifyU u xs (.insertNoOverwrite v) =
      some (if (latest u).isSome then promo u xs else writeF u xs (.insert v)) := by
  obtain ⟨r, h1, -⟩ := innermost?_eq (promo u xs) (promo_wf u xs hw).cne
  have h2 := isInsert_iff_latest _ _ h1
  rw [latest_promo u xs hw.cne] at h2
  unfold msgModifyU msgModify
  rw [if_pos (chain_len_lt xs hx)]
  simp only [Op.isOptimize, implicitPromotions_eq u xs hw hx.ne, applyOp, applyInsertNoOverwrite,
    isValidLen, hv, h1, h2, decide_true, if_true, Option.bind_some, Bool.false_eq_true, if_false]
  by_cases h : (latest u).isSome = true
  · simp [h]
  · simp [h, writeUxr_eq _ _ _ (promo_wf u xs hw) hx (promo_aligned u xs), writeF]

theorem msgModify_abort (u : Ule) (xs : Xids) (hw : Wf u) (hx : Chain xs) :
    msgModifyU u xs .abort = some (abortF u xs) := by
  obtain ⟨d, h⟩ := applyAbort_eq _ _ (promo_wf u xs hw) hx (promo_aligned u xs)
  unfold msgModifyU msgModify
  rw [if_pos (chain_len_lt xs hx)]
  simp [Op.isOptimize, implicitPromotions_eq u xs hw hx.ne, applyOp, h, abortF]

theorem msgModify_commit (u : Ule) (xs : Xids) (hw : Wf u) (hx : Chain xs) :
    msgModifyU u xs .commit = some (commitF u xs) := by
  unfold msgModifyU msgModify
  rw [if_pos (chain_len_lt xs hx)]
  simp [Op.isOptimize, implicitPromotions_eq u xs hw hx.ne, applyOp,
    applyCommit_eq _ _ (promo_wf u xs hw) hx (promo_aligned u xs), commitF]

/-- Apply the event's message to the version stack. -/
def stepMsg (u : Ule) (chain : List Txnid) (e : Ev) : Option Ule :=
  match e.msg chain with
  | none => some u
  | some (xs, op) => msgModifyU u xs op

/-- every non-empty prefix of the chain `c` is in `used` -/
def PathsIn (c : List Txnid) (used : List (List Txnid)) : Prop := ∀ q, q ≠ [] → q <+: c → q ∈ used

/-- the chains of the row's provisional records stay among the used chains -/
def idsIn (u : Ule) (used : List (List Txnid)) : Prop := PathsIn (u.pux.map (·.xid)) used

theorem PathsIn.mono {c used} (x) (h : PathsIn c used) : PathsIn c (x :: used) :=
  fun q hq hp => List.mem_cons_of_mem _ (h q hq hp)

theorem PathsIn.prefix {c c' used} (h : PathsIn c used) (hp : c' <+: c) : PathsIn c' used :=
  fun q hq hp' => h q hq (hp'.trans hp)

theorem promoN_ids (u : Ule) (m : Nat) (used) (h : idsIn u used) : idsIn (promoN u m) used := by
  unfold idsIn at *
  rw [promoN_xids]
  exact h.prefix (List.take_prefix _ _)

theorem promo_ids (u : Ule) (xs : Xids) (used) (h : idsIn u used) : idsIn (promo u xs) used :=
  promoN_ids u _ used h

theorem writeF_ids (u : Ule) (xs : Xids) (v : XrVal) (hw : Wf u) (hx : Chain xs)
    (hv : v ≠ .placeholder) (used) (hs : PathsIn xs used) : idsIn (writeF u xs v) used := by
  have h := (writeA_wf _ _ v (promo_wf u xs hw) hx (promo_aligned u xs) hv).2
  unfold idsIn writeF
  rw [h]; exact hs

theorem abortF_ids (u : Ule) (xs : Xids) (used) (h : idsIn u used) : idsIn (abortF u xs) used := by
  have hpre : (abortF u xs).pux <+: (promo u xs).pux :=
    (strip_prefix _).trans (List.take_prefix _ _)
  exact (promo_ids u xs used h).prefix (hpre.map _)

/-- The spec's chain is a legal chain (when non-empty) and contained in `used`. -/
structure SpecInv (s : Row) : Prop where
  nodup : s.chain.Nodup
  nz : ∀ x ∈ s.chain, x ≠ 0
  len : s.chain.length ≤ 253
  sub : PathsIn s.chain s.used
  wsub : ∀ w ∈ s.writes, PathsIn w.chain s.used

theorem SpecInv.chain {s : Row} (h : SpecInv s) (hne : s.chain ≠ []) : Chain s.chain :=
  ⟨hne, h.nodup, h.nz, h.len⟩

theorem mem_undo {p ws w} (h : w ∈ undo p ws) : w ∈ ws := (List.mem_filter.mp h).1

theorem SpecInv.step {init} {s s' : Row} {e : Ev} (h : SpecInv s) (hs : s.step init e = some s') :
    SpecInv s' := by
  cases e with
  | begin x =>
    simp only [Row.step] at hs
    split at hs
    · rename_i hc
      cases hs
      obtain ⟨-, h0, hnc, hu, hl⟩ := hc
      refine ⟨?_, ?_, ?_, ?_, ?_⟩
      · simp only
        rw [List.nodup_append]
        refine ⟨h.nodup, by simp, ?_⟩
        intro a ha b hb hab
        simp at hb
        exact hnc (by rw [← hb, ← hab]; exact ha)
      · intro y hy; simp at hy
        rcases hy with hy | rfl
        · exact h.nz y hy
        · exact h0
      · simp [maxDepth] at hl ⊢; omega
      · intro q hq hp
        simp only at hp ⊢
        rcases List.prefix_concat_iff.mp hp with rfl | hp
        · simp
        · exact List.mem_cons_of_mem _ (h.sub q hq hp)
      · intro w hw; exact (h.wsub w hw).mono _
    · cases hs
  | put v =>
    simp only [Row.step] at hs
    split at hs
    · cases hs
      exact ⟨h.nodup, h.nz, h.len, h.sub, by
        intro w hw; simp at hw; rcases hw with rfl | hw
        · exact h.sub
        · exact h.wsub w hw⟩
    · cases hs
  | putIfAbsent v =>
    simp only [Row.step] at hs
    split at hs
    · split at hs
      · cases hs; exact h
      · cases hs
        exact ⟨h.nodup, h.nz, h.len, h.sub, by
          intro w hw; simp at hw; rcases hw with rfl | hw
          · exact h.sub
          · exact h.wsub w hw⟩
    · cases hs
  | del =>
    simp only [Row.step] at hs
    split at hs
    · cases hs
      exact ⟨h.nodup, h.nz, h.len, h.sub, by
        intro w hw; simp at hw; rcases hw with rfl | hw
        · exact h.sub
        · exact h.wsub w hw⟩
    · cases hs
  | commitMsg =>
    simp only [Row.step] at hs
    split at hs
    · cases hs; exact ⟨h.nodup, h.nz, h.len, h.sub, h.wsub⟩
    · cases hs
  | abortMsg =>
    simp only [Row.step] at hs
    split at hs
    · cases hs
      exact ⟨h.nodup, h.nz, h.len, h.sub, fun w hw => h.wsub w (mem_undo hw)⟩
    · cases hs
  | finish =>
    simp only [Row.step] at hs
    split at hs
    · cases hs
      have hsub := List.dropLast_subset s.chain
      exact ⟨h.nodup.sublist (List.dropLast_sublist _), fun x hx => h.nz x (hsub hx),
        by simp; have := h.len; omega, h.sub.prefix (List.dropLast_prefix _), h.wsub⟩
    · cases hs

/-- The refinement relation: same value now, and same value after undoing any current transaction
that may still abort. -/
structure R (init : Option Bytes) (u : Ule) (s : Row) : Prop where
  wf : Wf u
  inv : SpecInv s
  ids : idsIn u s.used
  val : latest u = s.value init
  undo : ∀ p, p ≠ [] → p <+: s.chain → (s.mode = .committing → p.length < s.chain.length) →
    latest (abortF u p) = valueOf init (Spec.undo p s.writes)

theorem undo_undo_prefix (p q : List Txnid) (ws : List Write) (h : p <+: q) :
    Spec.undo p (Spec.undo q ws) = Spec.undo p ws := by
  unfold Spec.undo
  rw [List.filter_filter]
  apply List.filter_congr
  intro w _
  by_cases hp : p.isPrefixOf w.chain = true
  · simp [hp]
  · have : ¬ q.isPrefixOf w.chain = true := by
      intro hq
      exact hp (List.isPrefixOf_iff_prefix.mpr (h.trans (List.isPrefixOf_iff_prefix.mp hq)))
    simp [hp, this]

theorem undo_cons_prefix (p : List Txnid) (w : Write) (ws : List Write) (h : p <+: w.chain) :
    Spec.undo p (w :: ws) = Spec.undo p ws := by
  unfold Spec.undo
  rw [List.filter_cons_of_neg]
  simp [List.isPrefixOf_iff_prefix.mpr h]

theorem undo_fresh (p : List Txnid) (used) (ws : List Write) (hne : p ≠ []) (hx : p ∉ used)
    (h : ∀ w ∈ ws, PathsIn w.chain used) : Spec.undo p ws = ws := by
  unfold Spec.undo
  rw [List.filter_eq_self]
  intro w hw
  simp only [Bool.not_eq_true', ← Bool.not_eq_true]
  intro hp
  exact hx (h w hw p hne (List.isPrefixOf_iff_prefix.mp hp))

theorem prefix_concat_cases {p l : List Txnid} {x : Txnid} (h : p <+: l ++ [x]) :
    p <+: l ∨ p = l ++ [x] := by
  rcases List.prefix_concat_iff.mp h with h | h
  · right; exact h
  · left; exact h

theorem R_write {init} {u : Ule} {s : Row} (h : R init u s)
    (hne : s.chain ≠ []) (v : XrVal) (hv : v ≠ .placeholder) :
    R init (writeF u s.chain v) { s with writes := ⟨s.chain, v.read⟩ :: s.writes } := by
  have hc := h.inv.chain hne
  refine ⟨writeF_wf _ _ _ h.wf hc hv, ?_, writeF_ids _ _ _ h.wf hc hv _ h.inv.sub, ?_, ?_⟩
  · exact ⟨h.inv.nodup, h.inv.nz, h.inv.len, h.inv.sub, by
      intro w hw; simp at hw; rcases hw with rfl | hw
      · exact h.inv.sub
      · exact h.inv.wsub w hw⟩
  · rw [latest_writeF _ _ _ h.wf.cne]; rfl
  · intro p hp hpre hmode
    simp only at *
    rw [abortF_writeF _ _ _ _ h.wf hc hpre hp hv, undo_cons_prefix _ _ _ hpre]
    exact h.undo p hp hpre hmode

theorem R_promo {init} {u : Ule} {s : Row} (h : R init u s) :
    R init (promo u s.chain) s := by
  refine ⟨promo_wf _ _ h.wf, h.inv, promo_ids _ _ _ h.ids, ?_, ?_⟩
  · rw [latest_promo _ _ h.wf.cne]; exact h.val
  · intro p hp hpre hmode
    unfold abortF
    rw [promo_promo_prefix _ _ _ hpre]
    exact h.undo p hp hpre hmode

theorem R_step {init} {u : Ule} {s s' : Row} {e : Ev} (h : R init u s)
    (hs : s.step init e = some s') :
    ∃ u', stepMsg u s.chain e = some u' ∧ R init u' s' := by
  have hinv' := h.inv.step hs
  cases e with
  | begin x =>
    simp only [Row.step] at hs
    split at hs
    · rename_i hc
      cases hs
      obtain ⟨hm, h0, -, hu, hl⟩ := hc
      refine ⟨u, rfl, h.wf, hinv', h.ids.mono _, h.val, ?_⟩
      intro p hp hpre hmode
      simp only at hpre hmode
      rcases prefix_concat_cases hpre with hpre | rfl
      · exact h.undo p hp hpre (by simp [hm])
      · have hch : Chain (s.chain ++ [x]) := hinv'.chain (by simp)
        rw [abortF_fresh u _ h.wf hch]
        · rw [latest_promo _ _ h.wf.cne, undo_fresh _ s.used _ (by simp) hu h.inv.wsub]
          exact h.val
        · intro hp'
          exact hu (h.ids _ (by simp) hp')
    · cases hs
  | put v =>
    simp only [Row.step] at hs
    split at hs
    · rename_i hc
      cases hs
      obtain ⟨hm, hne, hl⟩ := hc
      refine ⟨writeF u s.chain (.insert v), ?_, ?_⟩
      · simp only [stepMsg, Ev.msg]
        exact msgModify_insert u _ v h.wf (h.inv.chain hne) hl
      · exact R_write h hne _ (by simp)
    · cases hs
  | putIfAbsent v =>
    simp only [Row.step] at hs
    split at hs
    · rename_i hc
      obtain ⟨hm, hne, hl⟩ := hc
      have hmsg := msgModify_insertNoOverwrite u s.chain v h.wf (h.inv.chain hne) hl
      split at hs
      · rename_i hv
        cases hs
        rw [h.val, if_pos hv] at hmsg
        exact ⟨_, hmsg, R_promo h⟩
      · rename_i hv
        cases hs
        rw [h.val, if_neg hv] at hmsg
        exact ⟨_, hmsg, R_write h hne _ (by simp)⟩
    · cases hs
  | del =>
    simp only [Row.step] at hs
    split at hs
    · rename_i hc
      cases hs
      obtain ⟨hm, hne⟩ := hc
      exact ⟨_, msgModify_delete u _ h.wf (h.inv.chain hne), R_write h hne .delete (by simp)⟩
    · cases hs
  | commitMsg =>
    simp only [Row.step] at hs
    split at hs
    · rename_i hc
      cases hs
      obtain ⟨hm, hne⟩ := hc
      refine ⟨_, msgModify_commit u _ h.wf (h.inv.chain hne), commitF_wf _ _ h.wf, hinv', ?_, ?_, ?_⟩
      · exact promoN_ids _ _ _ (promo_ids _ _ _ h.ids)
      · rw [latest_commitF _ _ h.wf.cne]; exact h.val
      · intro p hp hpre hmode
        simp only at hpre hmode
        have hlt := hmode trivial
        rw [abortF_commitF _ _ _ hpre hp hlt]
        exact h.undo p hp hpre (fun _ => hlt)
    · cases hs
  | abortMsg =>
    simp only [Row.step] at hs
    split at hs
    · rename_i hc
      cases hs
      obtain ⟨hm, hne⟩ := hc
      refine ⟨_, msgModify_abort u _ h.wf (h.inv.chain hne), abortF_wf _ _ h.wf, hinv', ?_, ?_, ?_⟩
      · exact abortF_ids _ _ _ h.ids
      · exact h.undo s.chain hne (List.prefix_refl _) (fun hc => absurd hc hm)
      · intro p hp hpre hmode
        simp only at hpre hmode
        rw [abortF_abortF _ _ _ h.wf hpre hp, undo_undo_prefix _ _ _ hpre]
        exact h.undo p hp hpre (fun hc => absurd hc hm)
    · cases hs
  | finish =>
    simp only [Row.step] at hs
    split at hs
    · rename_i hne
      cases hs
      refine ⟨u, rfl, h.wf, hinv', h.ids, h.val, ?_⟩
      intro p hp hpre _
      simp only at hpre
      apply h.undo p hp (hpre.trans (List.dropLast_prefix _))
      intro _
      have := hpre.length_le
      have := List.length_pos_iff.mpr hne
      simp at *
      omega
    · cases hs

theorem R_run {init} {u : Ule} {s s' : Row} {es : List Ev} (h : R init u s)
    (hs : s.run init es = some s') : ∃ u', runMsgs u (s.msgs init es) = some u' ∧ R init u' s' := by
  induction es generalizing u s with
  | nil => simp [Row.run] at hs; subst hs; exact ⟨u, rfl, h⟩
  | cons e es ih =>
    simp only [Row.run] at hs
    cases h1 : s.step init e with
    | none => simp [h1] at hs
    | some s1 =>
      rw [h1] at hs
      obtain ⟨u1, hu1, hr1⟩ := R_step h h1
      obtain ⟨u', hu', hr'⟩ := ih hr1 hs
      refine ⟨u', ?_, hr'⟩
      simp only [Row.msgs, h1]
      unfold stepMsg at hu1
      cases hm : e.msg s.chain with
      | none =>
        rw [hm] at hu1; cases hu1
        simpa using hu'
      | some m =>
        rw [hm] at hu1
        simp only at hu1
        simp [runMsgs, hu1, hu']

theorem R_init (u : Ule) (hw : Wf u) (used : List (List Txnid)) (hu : idsIn u used) :
    R (latest u) u (Row.fresh used) := by
  refine ⟨hw, ?_, hu, rfl, ?_⟩
  · refine ⟨?_, ?_, ?_, ?_, ?_⟩ <;> simp [Row.fresh, PathsIn]
    exact fun q hq h => absurd h hq
  · intro p hp hpre
    simp [Row.fresh] at hpre
    exact absurd hpre hp

end Verif.Ule
