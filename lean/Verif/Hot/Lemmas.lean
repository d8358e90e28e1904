import Verif.Hot.Spec
import Verif.Mvcc.Inv

/-! Messages on one key of the destination dictionary. -/
namespace Verif.Hot
open Verif.Ule Verif.Mvcc Verif.Txn

/-- The messages for one key. -/
def forKey (h : Bytes) (ms : List Msg) : List (Xids × Op) :=
  (ms.filter fun m => m.key = h).map fun m => (m.xids, m.op)

theorem forKey_append (h : Bytes) (a b : List Msg) : forKey h (a ++ b) = forKey h a ++ forKey h b := by
  simp [forKey]

theorem runMsgs_append (u : Ule) (a b : List (Xids × Op)) :
    runMsgs u (a ++ b) = (runMsgs u a).bind fun v => runMsgs v b := by
  induction a generalizing u with
  | nil => rfl
  | cons m a ih =>
    obtain ⟨xs, op⟩ := m
    simp only [List.cons_append, runMsgs]
    cases msgModifyU u xs op with
    | none => rfl
    | some v => exact ih v

theorem applyMsgs_of (ms : List Msg) (db : Rows)
    (H : ∀ h, ∃ v, runMsgs (db h) (forKey h ms) = some v) :
    ∃ db', applyMsgs db ms = some db' ∧ ∀ h, runMsgs (db h) (forKey h ms) = some (db' h) := by
  induction ms generalizing db with
  | nil => exact ⟨db, rfl, fun h => rfl⟩
  | cons m ms ih =>
    obtain ⟨v, hv⟩ := H m.key
    have e : forKey m.key (m :: ms) = (m.xids, m.op) :: forKey m.key ms := by simp [forKey]
    rw [e, runMsgs] at hv
    cases hu : msgModifyU (db m.key) m.xids m.op with
    | none => rw [hu] at hv; cases hv
    | some u =>
      have key : ∀ h, runMsgs (db h) (forKey h (m :: ms)) =
          runMsgs (if h = m.key then u else db h) (forKey h ms) := by
        intro h
        by_cases hh : h = m.key
        · subst hh
          rw [e, runMsgs, hu, if_pos rfl]; rfl
        · rw [if_neg hh]
          have : forKey h (m :: ms) = forKey h ms := by
            simp [forKey, Ne.symm hh]
          rw [this]
      obtain ⟨db', h1, h2⟩ := ih (fun k => if k = m.key then u else db k) (by
        intro h
        obtain ⟨v, hv⟩ := H h
        exact ⟨v, by rw [← key h]; exact hv⟩)
      refine ⟨db', ?_, fun h => by rw [key h]; exact h2 h⟩
      simp only [applyMsgs, hu]
      exact h1

/-! ### Writes of one transaction -/

/-- What the last write leaves. -/
def lastVal : List (Xids × Op) → Option (Option Bytes)
  | [] => none
  | (_, .insert w) :: rest => (lastVal rest).orElse fun _ => some (some w)
  | _ :: rest => (lastVal rest).orElse fun _ => some none

/-- Puts and deletes of the transaction `xs`. -/
def Writes (xs : Xids) (ms : List (Xids × Op)) : Prop :=
  ∀ m ∈ ms, m.1 = xs ∧ (m.2 = .delete ∨ ∃ w, w.length < 2 ^ 31 ∧ m.2 = .insert w)

theorem commitF_wf' (u : Ule) (xs : Xids) (hw : Wf u) : Wf (commitF u xs) := commitA_wf _ _ (promo_wf u xs hw)

theorem run_writes (xs : Xids) (x : Txnid) (hx : xs.head? = some x) (hc : Chain xs)
    (ms : List (Xids × Op)) (hm : Writes xs ms) (V : Ule) (hw : Wf V) :
    ∃ V', runMsgs V ms = some V' ∧ Wf V' ∧
      (∀ acc, snapshotRead acc V' = match lastVal ms with
        | none => snapshotRead acc V
        | some v => if acc x then v else snapshotRead acc V) ∧
      (∀ p, p ≠ [] → p <+: xs → abortF V' p = abortF V p) ∧
      ((ms = [] ∧ V' = V) ∨ V'.pux.map (·.xid) = xs) := by
  induction ms generalizing V with
  | nil => exact ⟨V, rfl, hw, fun _ => rfl, fun _ _ _ => rfl, .inl ⟨rfl, rfl⟩⟩
  | cons m ms ih =>
    obtain ⟨xs', op⟩ := m
    have h0 := hm (xs', op) (by simp)
    have hrest : Writes xs ms := fun m hmem => hm m (List.mem_cons_of_mem _ hmem)
    obtain ⟨rfl, hop⟩ := h0
    simp only at hop
    obtain ⟨tl, rfl⟩ : ∃ tl, xs' = x :: tl := by
      cases xs' with
      | nil => cases hx
      | cons a tl => injection hx with hx; exact ⟨tl, by rw [hx]⟩
    have key : ∀ (v : XrVal), v ≠ .placeholder → msgModifyU V (x :: tl) op = some (writeF V (x :: tl) v) →
        ((∃ w, op = .insert w ∧ v = .insert w) ∨ (op = .delete ∧ v = .delete)) →
        ∃ V', runMsgs V ((x :: tl, op) :: ms) = some V' ∧ Wf V' ∧
      (∀ acc, snapshotRead acc V' = match lastVal ((x :: tl, op) :: ms) with
        | none => snapshotRead acc V
        | some v => if acc x then v else snapshotRead acc V) ∧
      (∀ p, p ≠ [] → p <+: x :: tl → abortF V' p = abortF V p) ∧
      (((x :: tl, op) :: ms = [] ∧ V' = V) ∨ V'.pux.map (·.xid) = x :: tl) := by
      intro v hv hmm hval
      have hw1 := writeF_wf V (x :: tl) v hw hc hv
      obtain ⟨V', h1, h2, h3, h4, h5⟩ := ih hrest (writeF V (x :: tl) v) hw1
      refine ⟨V', ?_, h2, ?_, ?_, ?_⟩
      · simp only [runMsgs, hmm, Option.bind_some]; exact h1
      · intro acc
        rw [h3 acc, snapshotRead_writeF acc V x tl v hw hc hv]
        rcases hval with ⟨w, rfl, rfl⟩ | ⟨rfl, rfl⟩
        · simp only [lastVal]
          cases lastVal ms with
          | none => simp [XrVal.read]
          | some y => cases acc x <;> simp
        · simp only [lastVal]
          cases lastVal ms with
          | none => simp [XrVal.read]
          | some y => cases acc x <;> simp
      · intro p hp hpre
        rw [h4 p hp hpre, abortF_writeF V (x :: tl) p v hw hc hpre hp hv]
      · right
        rcases h5 with ⟨-, rfl⟩ | h5
        · exact (writeA_wf _ _ v (promo_wf V _ hw) hc (promo_aligned V _) hv).2
        · exact h5
    rcases hop with rfl | ⟨w, hl, rfl⟩
    · exact key .delete (by simp) (msgModify_delete V _ hw hc) (.inr ⟨rfl, rfl⟩)
    · exact key (.insert w) (by simp) (msgModify_insert V _ w hw hc hl) (.inl ⟨w, rfl, rfl⟩)

theorem run_commits (xs : Xids) (hc : Chain xs) (ms : List (Xids × Op)) (hm : ∀ m ∈ ms, m = (xs, .commit))
    (V : Ule) (hw : Wf V) :
    ∃ V', runMsgs V ms = some V' ∧ Wf V' ∧ (∀ acc, snapshotRead acc V' = snapshotRead acc V) ∧
      (xs.length = 1 → ms ≠ [] ∨ V.pux = [] → V'.pux = []) := by
  induction ms generalizing V with
  | nil => exact ⟨V, rfl, hw, fun _ => rfl, fun _ h => by rcases h with h | h; exact absurd rfl h; exact h⟩
  | cons m ms ih =>
    have h0 := hm m (by simp)
    subst h0
    obtain ⟨V', h1, h2, h3, h4⟩ := ih (fun m h => hm m (List.mem_cons_of_mem _ h)) (commitF V xs) (commitF_wf' V xs hw)
    refine ⟨V', ?_, h2, ?_, ?_⟩
    · simp only [runMsgs, msgModify_commit V xs hw hc, Option.bind_some]; exact h1
    · intro acc; rw [h3 acc, snapshotRead_commitF acc V xs hw.cne]
    · intro hl _
      refine h4 hl (.inr ?_)
      unfold commitF commitA
      rw [hl]
      exact promoN_zero_pux _

/-! ### Undo and do -/

/-- The deletes of a version's rows. -/
def undoL (g : Gen) (xs : Xids) (v : XrVal) : List Msg :=
  match v.read with
  | some v => (g.del v).map fun k => ⟨k, xs, .delete⟩
  | none => []

/-- The inserts of a version's rows. -/
def doL (g : Gen) (xs : Xids) (v : XrVal) : List Msg :=
  match v.read with
  | some v => (g.put v).map fun kv => ⟨kv.1, xs, .insert kv.2⟩
  | none => []

theorem undoMsgs_eq (g : Gen) (xs : Xids) (v : XrVal) (hv : v ≠ .placeholder) :
    undoMsgs g xs v = some (undoL g xs v) := by
  cases v <;> first | rfl | exact absurd rfl hv

theorem doMsgs_eq (g : Gen) (xs : Xids) (v : XrVal) (hv : v ≠ .placeholder) :
    doMsgs g xs v = some (doL g xs v) := by
  cases v <;> first | rfl | exact absurd rfl hv

theorem lastVal_append (a b : List (Xids × Op)) : lastVal (a ++ b) = (lastVal b).orElse fun _ => lastVal a := by
  induction a with
  | nil => cases hb : lastVal b <;> simp [lastVal, hb]
  | cons m a ih =>
    obtain ⟨xs, op⟩ := m
    cases op <;> simp only [List.cons_append, lastVal, ih] <;> cases lastVal b <;> simp

theorem forKey_dels (h : Bytes) (xs : Xids) (l : List Bytes) :
    lastVal (forKey h (l.map fun k => ⟨k, xs, .delete⟩)) = if h ∈ l then some none else none := by
  induction l with
  | nil => rfl
  | cons k l ih =>
    by_cases hk : k = h
    · subst hk
      simp only [forKey, List.map_cons, List.filter_cons, decide_true, if_true, lastVal, List.mem_cons, true_or]
      replace ih := ih
      simp only [forKey] at ih
      rw [ih]; split <;> rfl
    · simp only [forKey, List.map_cons, List.filter_cons, hk, decide_false, Bool.false_eq_true, if_false,
        List.mem_cons, Ne.symm hk, false_or]
      exact ih

theorem forKey_ins (h : Bytes) (xs : Xids) (l : List (Bytes × Bytes)) :
    lastVal (forKey h (l.map fun kv => ⟨kv.1, xs, .insert kv.2⟩)) =
      ((l.reverse.find? fun kv => kv.1 = h).map fun kv => some kv.2) := by
  induction l with
  | nil => rfl
  | cons k l ih =>
    rw [List.reverse_cons, List.find?_append]
    by_cases hk : k.1 = h
    · subst hk
      simp only [forKey, List.map_cons, List.filter_cons, decide_true, if_true, lastVal]
      simp only [forKey] at ih
      rw [ih]
      cases List.find? (fun kv => decide (kv.1 = k.1)) l.reverse <;> simp
    · simp only [forKey, List.map_cons, List.filter_cons, hk, decide_false, Bool.false_eq_true, if_false]
      simp only [forKey] at ih
      rw [ih]
      cases List.find? (fun kv => decide (kv.1 = h)) l.reverse <;> simp [hk]

theorem look_isSome (g : Gen) (hg : g.Ok) (h : Bytes) (v : Bytes) :
    h ∈ g.del v ↔ look g h (some v) ≠ none := by
  rw [hg.agree]
  simp only [look, Option.bind_some, ne_eq, Option.map_eq_none_iff, List.find?_eq_none, List.mem_reverse,
    decide_eq_true_eq, List.mem_map]
  constructor
  · rintro ⟨kv, h1, h2⟩ hn
    exact hn kv h1 h2
  · intro hn
    apply Classical.byContradiction
    intro hne
    exact hn fun kv h1 h2 => hne ⟨kv, h1, h2⟩

/-- The last thing said about a key by an undo and a do. -/
theorem lastVal_level (g : Gen) (hg : g.Ok) (h : Bytes) (xs : Xids) (p c : XrVal) :
    lastVal (forKey h (undoL g xs p ++ doL g xs c)) =
      if look g h p.read = none ∧ look g h c.read = none then none else some (look g h c.read) := by
  rw [forKey_append, lastVal_append]
  have h1 : lastVal (forKey h (undoL g xs p)) = if look g h p.read = none then none else some none := by
    unfold undoL
    cases hp : p.read with
    | none => simp [look, lastVal, forKey]
    | some v =>
      simp only
      rw [forKey_dels]
      by_cases hh : h ∈ g.del v
      · rw [if_pos hh, if_neg ((look_isSome g hg h v).mp hh)]
      · rw [if_neg hh, if_pos (Classical.byContradiction fun hn => hh ((look_isSome g hg h v).mpr hn))]
  have h2 : lastVal (forKey h (doL g xs c)) = (look g h c.read).map some := by
    unfold doL
    cases hc : c.read with
    | none => simp [look, lastVal, forKey]
    | some v =>
      simp only
      rw [forKey_ins]
      simp only [look, Option.bind_some, Option.map_map]
      rfl
  rw [h1, h2]
  cases look g h c.read with
  | none => cases look g h p.read <;> simp
  | some w => simp

theorem writes_level (g : Gen) (hg : g.Ok) (h : Bytes) (xs : Xids) (p c : XrVal) :
    Writes xs (forKey h (undoL g xs p ++ doL g xs c)) := by
  intro m hm
  simp only [forKey, List.mem_map, List.mem_filter, List.mem_append] at hm
  obtain ⟨a, ⟨ha, -⟩, rfl⟩ := hm
  rcases ha with ha | ha
  · unfold undoL at ha
    split at ha
    · obtain ⟨k, -, rfl⟩ := List.mem_map.mp ha
      exact ⟨rfl, .inl rfl⟩
    · cases ha
  · unfold doL at ha
    split at ha
    · obtain ⟨kv, hk, rfl⟩ := List.mem_map.mp ha
      exact ⟨rfl, .inr ⟨kv.2, hg.short _ kv hk, rfl⟩⟩
    · cases ha

/-- One version's undo and do on one key. -/
theorem level (g : Gen) (hg : g.Ok) (h : Bytes) (xs : Xids) (x : Txnid) (hx : xs.head? = some x) (hc : Chain xs)
    (p c : XrVal) (V : Ule) (hw : Wf V) :
    ∃ V', runMsgs V (forKey h (undoL g xs p ++ doL g xs c)) = some V' ∧ Wf V' ∧
      (∀ acc, snapshotRead acc V' =
        if (look g h p.read = none ∧ look g h c.read = none) ∨ acc x = false then snapshotRead acc V
        else look g h c.read) ∧
      (∀ q, q ≠ [] → q <+: xs → abortF V' q = abortF V q) ∧
      ((forKey h (undoL g xs p ++ doL g xs c) = [] ∧ V' = V) ∨ V'.pux.map (·.xid) = xs) := by
  obtain ⟨V', h1, h2, h3, h4, h5⟩ := run_writes xs x hx hc _ (writes_level g hg h xs p c) V hw
  refine ⟨V', h1, h2, ?_, h4, h5⟩
  intro acc
  rw [h3 acc, lastVal_level g hg h xs p c]
  by_cases hn : look g h p.read = none ∧ look g h c.read = none
  · simp [hn]
  · rw [if_neg hn]
    simp only [hn, false_or]
    cases acc x <;> simp

end Verif.Hot
