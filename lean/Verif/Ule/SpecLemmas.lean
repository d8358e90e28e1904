import Verif.Ule.Refine

/-! Facts about the history specification itself, and bounds used by the property file. -/
namespace Verif.Ule
open Spec

theorem Row.run_append {init} (s : Row) (a b : List Ev) :
    s.run init (a ++ b) = (s.run init a).bind fun s' => s'.run init b := by
  induction a generalizing s with
  | nil => rfl
  | cons e a ih =>
    simp only [List.cons_append, Row.run]
    cases s.step init e with
    | none => rfl
    | some s' => simp [ih]

theorem Row.msgs_append {init} (s s1 : Row) (a b : List Ev) (h : s.run init a = some s1) :
    s.msgs init (a ++ b) = s.msgs init a ++ s1.msgs init b := by
  induction a generalizing s with
  | nil => simp [Row.run] at h; subst h; simp [Row.msgs]
  | cons e a ih =>
    simp only [Row.run] at h
    cases h1 : s.step init e with
    | none => simp [h1] at h
    | some s' =>
      rw [h1] at h
      simp [Row.msgs, h1, ih s' h]

theorem runMsgs_append (u : Ule) (a b : List (Xids × Op)) :
    runMsgs u (a ++ b) = (runMsgs u a).bind fun u' => runMsgs u' b := by
  induction a generalizing u with
  | nil => rfl
  | cons e a ih =>
    obtain ⟨xs, op⟩ := e
    simp only [List.cons_append, runMsgs]
    cases msgModifyU u xs op with
    | none => rfl
    | some u' => simp [ih]

/-- While the transaction with chain `c` is alive, undoing it yields the same writes. -/
theorem undo_stable {init} (c : List Txnid) (s s' : Row) (es : List Ev)
    (h : s.run init es = some s') (hin : s.staysIn init c es = true) :
    Spec.undo c s'.writes = Spec.undo c s.writes := by
  induction es generalizing s with
  | nil => simp [Row.run] at h; rw [h]
  | cons e es ih =>
    simp only [Row.run] at h
    cases h1 : s.step init e with
    | none => simp [h1] at h
    | some s1 =>
      rw [h1] at h
      simp only [Row.staysIn, h1, Bool.and_eq_true] at hin
      rw [ih s1 h hin.2]
      have hpre := List.isPrefixOf_iff_prefix.mp hin.1
      cases e with
      | begin x =>
        simp only [Row.step] at h1
        split at h1 <;> cases h1; rfl
      | put v =>
        simp only [Row.step] at h1
        split at h1 <;> cases h1
        exact undo_cons_prefix _ _ _ hpre
      | putIfAbsent v =>
        simp only [Row.step] at h1
        split at h1
        · split at h1 <;> cases h1
          · rfl
          · exact undo_cons_prefix _ _ _ hpre
        · cases h1
      | del =>
        simp only [Row.step] at h1
        split at h1 <;> cases h1
        exact undo_cons_prefix _ _ _ hpre
      | commitMsg =>
        simp only [Row.step] at h1
        split at h1 <;> cases h1; rfl
      | abortMsg =>
        simp only [Row.step] at h1
        split at h1 <;> cases h1
        exact undo_undo_prefix _ _ _ hpre
      | finish =>
        simp only [Row.step] at h1
        split at h1 <;> cases h1; rfl

theorem SpecInv_run {init} (s s' : Row) (es : List Ev) (hi : SpecInv s)
    (h : s.run init es = some s') : SpecInv s' := by
  induction es generalizing s with
  | nil => simp [Row.run] at h; exact h ▸ hi
  | cons e es ih =>
    simp only [Row.run] at h
    cases h1 : s.step init e with
    | none => simp [h1] at h
    | some s1 => rw [h1] at h; exact ih s1 (hi.step h1) h

theorem SpecInv_fresh (used : List (List Txnid)) : SpecInv (Row.fresh used) := by
  refine ⟨?_, ?_, ?_, ?_, ?_⟩ <;> simp [Row.fresh, PathsIn]
  exact fun q hq h => absurd h hq

theorem promoN_cux_len (u : Ule) (m : Nat) : (promoN u m).cux.length ≤ u.cux.length + 1 := by
  unfold promoN
  split
  · omega
  · split
    · split <;> simp
    · split <;> simp

theorem promoN_total (u : Ule) (m : Nat) :
    (promoN u m).cux.length + (promoN u m).pux.length ≤ u.cux.length + u.pux.length := by
  unfold promoN
  split
  · omega
  · split
    · split
      · omega
      · rename_i o os h; simp [h]
    · split
      · omega
      · simp; omega

theorem explicit_commits (u : Ule) (hw : Wf u) (k : Nat) (hk : k ≤ u.pux.length) :
    runMsgs u ((List.range k).map fun i =>
      ((u.pux.map (·.xid)).take (u.pux.length - i), Op.commit)) =
    some (promoN u (u.pux.length - k)) := by
  induction k with
  | zero => simp [runMsgs, promoN_of_le]
  | succ k ih =>
    rw [List.range_succ, List.map_append, runMsgs_append, ih (by omega)]
    simp only [Option.bind_some, List.map_cons, List.map_nil, runMsgs]
    have hw' := promoN_wf u (u.pux.length - k) hw
    have hids := promoN_xids u (u.pux.length - k)
    have hch : Chain ((u.pux.map (·.xid)).take (u.pux.length - k)) := by
      refine ⟨?_, hw.pnodup.sublist (List.take_sublist _ _), ?_, ?_⟩
      · rw [ne_eq, ← List.length_eq_zero_iff]; simp; omega
      · intro x hx
        obtain ⟨r, h1, h2⟩ := List.mem_map.mp (List.mem_of_mem_take hx)
        rw [← h2]; exact hw.p0 r h1
      · simp; have := hw.plen; omega
    rw [msgModify_commit _ _ hw' hch]
    simp only [Option.bind_some, Option.some.injEq]
    unfold commitF
    rw [promo_of_aligned _ _ (by unfold Aligned; rw [hids]; exact List.prefix_refl _)]
    unfold commitA
    rw [promoN_promoN _ _ _ (by simp)]
    congr 1
    simp; omega

/-- Dropping commit notifications from a history keeps its surviving writes. -/
theorem digest_filter (init : Option Bytes) : ∀ (es : List Ev) (a b c : Row), a.run init es = some b →
    a.chain = c.chain → a.used = c.used → a.writes = c.writes →
    (c.mode = .committing → False) → (a.mode ≠ .committing → a.mode = c.mode) →
    (a.mode = .committing → c.mode = .active) →
    ∃ d, c.run init (es.filter (· ≠ .commitMsg)) = some d ∧ b.writes = d.writes := by
  intro es
  induction es with
  | nil =>
    intro a b c hr _ _ hw _ _ _
    simp [Row.run] at hr
    exact ⟨c, by simp [Row.run], by rw [← hr, hw]⟩
  | cons e es ih =>
    intro a b c hr hch hus hwr hcm ham hac
    simp only [Row.run] at hr
    cases h1 : a.step init e with
    | none => simp [h1] at hr
    | some a1 =>
      rw [h1] at hr
      have hval : a.value init = c.value init := by simp [Row.value, hwr]
      cases e with
      | commitMsg =>
        rw [List.filter_cons_of_neg (by simp)]
        simp only [Row.step] at h1
        split at h1
        · rename_i hc
          cases h1
          refine ih _ b c hr hch hus hwr hcm (by simp) ?_
          intro _
          cases hm : a.mode with
          | active => rw [← ham (by simp [hm]), hm]
          | committing => exact hac hm
          | aborting => exact absurd hm hc.1
        · cases h1
      | begin x =>
        rw [List.filter_cons_of_pos (by simp)]
        simp only [Row.step] at h1
        split at h1
        · rename_i hc
          cases h1
          have hmc : c.mode = .active := by rw [← ham (by simp [hc.1]), hc.1]
          simp only [Row.run, Row.step, hmc, ← hus, ← hch]
          rw [if_pos ⟨trivial, hc.2⟩]
          exact ih _ b _ hr (by simp) (by simp) hwr (by simp)
            (by simp [hc.1]) (by simp)
        · cases h1
      | put v =>
        rw [List.filter_cons_of_pos (by simp)]
        simp only [Row.step] at h1
        split at h1
        · rename_i hc
          cases h1
          have hmc : c.mode = .active := by rw [← ham (by simp [hc.1]), hc.1]
          simp only [Row.run, Row.step, hmc, ← hus, ← hch]
          rw [if_pos ⟨trivial, hc.2⟩]
          exact ih _ b _ hr (by simp) (by simp [hus]) (by simp [hwr]) (by simp)
            (by simp [hc.1]) (by simp)
        · cases h1
      | putIfAbsent v =>
        rw [List.filter_cons_of_pos (by simp)]
        simp only [Row.step] at h1
        split at h1
        · rename_i hc
          have hmc : c.mode = .active := by rw [← ham (by simp [hc.1]), hc.1]
          simp only [Row.run, Row.step, hmc, ← hus, ← hch, ← hval]
          rw [if_pos ⟨trivial, hc.2⟩]
          split at h1
          · rename_i hv
            cases h1
            rw [if_pos hv]
            exact ih _ b _ hr hch hus hwr hcm ham hac
          · rename_i hv
            cases h1
            rw [if_neg hv]
            exact ih _ b _ hr (by simp) (by simp [hus]) (by simp [hwr]) (by simp)
              (by simp [hc.1]) (by simp)
        · cases h1
      | del =>
        rw [List.filter_cons_of_pos (by simp)]
        simp only [Row.step] at h1
        split at h1
        · rename_i hc
          cases h1
          have hmc : c.mode = .active := by rw [← ham (by simp [hc.1]), hc.1]
          simp only [Row.run, Row.step, hmc, ← hus, ← hch]
          rw [if_pos ⟨trivial, hc.2⟩]
          exact ih _ b _ hr (by simp) (by simp [hus]) (by simp [hwr]) (by simp)
            (by simp [hc.1]) (by simp)
        · cases h1
      | abortMsg =>
        rw [List.filter_cons_of_pos (by simp)]
        simp only [Row.step] at h1
        split at h1
        · rename_i hc
          cases h1
          have hmc : c.mode = a.mode := (ham hc.1).symm
          simp only [Row.run, Row.step, hmc, ← hus, ← hch]
          rw [if_pos hc]
          exact ih _ b _ hr (by simp) (by simp [hus]) (by simp [hwr]) (by simp)
            (by simp) (by simp)
        · cases h1
      | finish =>
        rw [List.filter_cons_of_pos (by simp)]
        simp only [Row.step] at h1
        split at h1
        · rename_i hc
          cases h1
          simp only [Row.run, Row.step, ← hch]
          rw [if_pos hc]
          exact ih _ b _ hr (by simp) (by simp [hus]) (by simp [hwr]) (by simp)
            (by simp) (by simp)
        · cases h1

end Verif.Ule
