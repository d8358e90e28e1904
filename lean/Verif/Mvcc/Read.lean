import Verif.Mvcc.Gc
import Verif.Ule.Refine

/-! How the leaf-entry operations act on what a reader (a decision on outermost ids) sees. -/
namespace Verif.Mvcc
open Verif.Ule Verif.Ule.Spec
open Verif.Txn

/-- Reading the committed part. -/
def readC (acc : Txnid → Bool) (l : List Uxr) : Option Bytes := (readCommitted acc l).bind fun r => r.val.read

theorem readC_cons (acc : Txnid → Bool) (c : Uxr) (l : List Uxr) (hl : l ≠ []) :
    readC acc (c :: l) = if acc c.xid then c.val.read else readC acc l := by
  unfold readC
  rw [readCommitted_cons acc c l hl]
  split <;> simp

theorem snapshotRead_eq (acc : Txnid → Bool) (u : Ule) (h : u.cux ≠ []) :
    snapshotRead acc u = match u.pux with
      | o :: _ => if acc o.xid then (topVal u).read else readC acc u.cux
      | [] => readC acc u.cux := by
  unfold snapshotRead
  cases hp : u.pux with
  | nil => rfl
  | cons o os => simp only [latest_eq u h]; rfl

theorem snapshotRead_true (u : Ule) (h : u.cux ≠ []) : snapshotRead (fun _ => true) u = latest u := by
  rw [snapshotRead_eq _ u h, latest_eq u h]
  cases hp : u.pux with
  | cons o os => simp
  | nil =>
    simp only [topVal, hp, List.getLast?_nil]
    cases hc : u.cux with
    | nil => exact absurd hc h
    | cons c cs =>
      cases cs with
      | nil => rfl
      | cons d cs => rw [readC_cons _ _ _ (by simp)]; simp

theorem snapshotRead_promoN (acc : Txnid → Bool) (u : Ule) (m : Nat) (h : u.cux ≠ []) :
    snapshotRead acc (promoN u m) = snapshotRead acc u := by
  rw [snapshotRead_eq _ _ (promoN_cux_ne u m h), snapshotRead_eq _ u h, topVal_promoN]
  by_cases hle : u.pux.length ≤ m
  · rw [promoN_of_le u m hle]
  · cases hp : u.pux with
    | nil => simp [hp] at hle
    | cons o os =>
      cases m with
      | zero =>
        rw [promoN_zero u o os hp]
        simp only
        rw [readC_cons _ _ _ h]
      | succ m =>
        have hm : m < u.pux.length := by omega
        rw [promoN_succ u m u.pux[m] (by omega) (by simp [hm])]
        cases m with
        | zero => simp [hp]
        | succ m => simp [hp]

theorem snapshotRead_promo (acc : Txnid → Bool) (u : Ule) (xs : Xids) (h : u.cux ≠ []) :
    snapshotRead acc (promo u xs) = snapshotRead acc u := snapshotRead_promoN acc u _ h

theorem snapshotRead_commitF (acc : Txnid → Bool) (u : Ule) (xs : Xids) (h : u.cux ≠ []) :
    snapshotRead acc (commitF u xs) = snapshotRead acc u := by
  unfold commitF commitA
  rw [snapshotRead_promoN _ (promo u xs) _ (promoN_cux_ne _ _ h), snapshotRead_promo _ _ _ h]

/-! ### Ids on a stack -/

/-- Outermost ids on the stack, newest first, without the bottom record. -/
def leafIds (u : Ule) : List Txnid := (u.pux.head?.map (·.xid)).toList ++ upper u.cux

theorem upper_cons' (c : Uxr) (l : List Uxr) (hl : l ≠ []) : upper (c :: l) = c.xid :: upper l := by
  cases l with
  | nil => exact absurd rfl hl
  | cons d l => rfl

theorem leafIds_promoN (u : Ule) (m : Nat) (h : u.cux ≠ []) : leafIds (promoN u m) = leafIds u := by
  by_cases hle : u.pux.length ≤ m
  · rw [promoN_of_le u m hle]
  · cases hp : u.pux with
    | nil => simp [hp] at hle
    | cons o os =>
      cases m with
      | zero =>
        rw [promoN_zero u o os hp]
        simp [leafIds, hp, upper_cons' _ _ h]
      | succ m =>
        have hm : m < u.pux.length := by omega
        rw [promoN_succ u m u.pux[m] (by omega) (by simp [hm])]
        cases m with
        | zero => simp [leafIds, hp]
        | succ m => simp [leafIds, hp]

theorem matchLen_zero (l : List Uxr) (xs : Xids) (h : l.head?.map (·.xid) ≠ xs.head?) : matchLen l xs = 0 := by
  have hp := matchLen_prefix l xs
  have hl := matchLen_le_left l xs
  have hr := matchLen_le_right l xs
  cases l with
  | nil => simp at hl; exact hl
  | cons o os =>
    cases xs with
    | nil => simp at hr; exact hr
    | cons x xs =>
      cases hm : matchLen (o :: os) (x :: xs) with
      | zero => rfl
      | succ n =>
        exfalso
        rw [hm] at hp
        simp at hp
        simp at h
        grind

theorem matchLen_pos (o : Uxr) (os : List Uxr) (x : Txnid) (xs : List Txnid) (h : o.xid = x) :
    0 < matchLen (o :: os) (x :: xs) := by
  have := matchLen_take (o :: os) (x :: xs) 1
  simp [matchLen, h]

/-- Aligning with a chain whose root is the stack's provisional root leaves the committed part alone. -/
theorem promo_same (u : Ule) (o : Uxr) (os : List Uxr) (x : Txnid) (xs : List Txnid) (hp : u.pux = o :: os)
    (h : o.xid = x) : (promo u (x :: xs)).cux = u.cux ∧ (promo u (x :: xs)).pux.head?.map (·.xid) = some x := by
  unfold promo
  have hpos : 0 < matchLen u.pux (x :: xs) := by rw [hp]; exact matchLen_pos o os x xs h
  refine ⟨promoN_cux_pos u _ hpos, ?_⟩
  have hx := promoN_xids u (matchLen u.pux (x :: xs))
  rw [← List.head?_map, hx]
  cases hm : matchLen u.pux (x :: xs) with
  | zero => omega
  | succ n => rw [hp]; simpa using h

/-- Aligning with a chain of another root commits everything provisional. -/
theorem promo_other (u : Ule) (xs : Xids) (h : u.pux.head?.map (·.xid) ≠ xs.head?) :
    promo u xs = promoN u 0 := by
  unfold promo; rw [matchLen_zero _ _ h]

theorem promoN_zero_pux (u : Ule) : (promoN u 0).pux = [] := by
  have := promoN_len u 0
  exact List.eq_nil_of_length_eq_zero (by omega)

theorem writeF_head (u : Ule) (x : Txnid) (xs : List Txnid) (v : XrVal) (hw : Wf u)
    (hc : Chain (x :: xs)) (hv : v ≠ .placeholder) :
    (writeF u (x :: xs) v).pux.head?.map (·.xid) = some x := by
  have h := (writeA_wf _ _ v (promo_wf u _ hw) hc (promo_aligned u _) hv).2
  unfold writeF
  rw [← List.head?_map, h]
  rfl

theorem writeF_cux (u : Ule) (xs : Xids) (v : XrVal) : (writeF u xs v).cux = (promo u xs).cux := rfl
theorem abortF_cux (u : Ule) (xs : Xids) : (abortF u xs).cux = (promo u xs).cux := rfl

theorem readC_promo_reject (acc : Txnid → Bool) (u : Ule) (x : Txnid) (xs : List Txnid)
    (h : u.cux ≠ []) (hx : acc x = false) : readC acc (promo u (x :: xs)).cux = snapshotRead acc u := by
  by_cases hh : u.pux.head?.map (·.xid) = (x :: xs).head?
  · cases hp : u.pux with
    | nil => simp [hp] at hh
    | cons o os =>
      simp [hp] at hh
      rw [(promo_same u o os x xs hp hh).1, snapshotRead_eq _ u h, hp]
      simp [hh, hx]
  · have h2 := promo_other u _ hh
    rw [← snapshotRead_promo acc u (x :: xs) h, snapshotRead_eq _ (promo u (x :: xs)) (promoN_cux_ne _ _ h), h2,
      promoN_zero_pux]

theorem snapshotRead_writeF (acc : Txnid → Bool) (u : Ule) (x : Txnid) (xs : List Txnid) (v : XrVal)
    (hw : Wf u) (hc : Chain (x :: xs)) (hv : v ≠ .placeholder) :
    snapshotRead acc (writeF u (x :: xs) v) = if acc x then v.read else snapshotRead acc u := by
  have hne : (writeF u (x :: xs) v).cux ≠ [] := promoN_cux_ne _ _ hw.cne
  rw [snapshotRead_eq _ _ hne, topVal_writeF]
  have hh := writeF_head u x xs v hw hc hv
  cases hp : (writeF u (x :: xs) v).pux with
  | nil => simp [hp] at hh
  | cons o os =>
    simp [hp] at hh
    simp only [hh]
    split
    · rfl
    · rename_i hx
      rw [writeF_cux, readC_promo_reject acc u x xs hw.cne (by simpa using hx)]

/-! ### What one reader sees, against the history -/

/-- The write is one this reader may see. -/
def accW (acc : Txnid → Bool) (w : Write) : Bool := acc (w.chain.head?.getD 0)

/-- For one reader: the value now, and after undoing any current transaction that may still abort. -/
structure RA (acc : Txnid → Bool) (init : Option Bytes) (u : Ule) (s : Row) : Prop where
  val : snapshotRead acc u = valueOf init (s.writes.filter (accW acc))
  undo : ∀ p, p ≠ [] → p <+: s.chain → (s.mode = .committing → p.length < s.chain.length) →
    snapshotRead acc (abortF u p) = valueOf init ((Spec.undo p s.writes).filter (accW acc))

theorem RA_write {acc init} {u : Ule} {s : Row} (hw : Wf u) (hi : SpecInv s) (h : RA acc init u s)
    (hne : s.chain ≠ []) (v : XrVal) (hv : v ≠ .placeholder) :
    RA acc init (writeF u s.chain v) { s with writes := ⟨s.chain, v.read⟩ :: s.writes } := by
  have hc := hi.chain hne
  refine ⟨?_, ?_⟩
  · cases hch : s.chain with
    | nil => exact absurd hch hne
    | cons x xs =>
      rw [hch] at hc
      rw [snapshotRead_writeF acc u x xs v hw hc hv]
      by_cases hx : acc x = true
      · rw [if_pos hx, List.filter_cons_of_pos (by exact hx)]; rfl
      · rw [if_neg hx, List.filter_cons_of_neg (by exact hx)]; exact h.val
  · intro p hp hpre hmode
    simp only at *
    rw [abortF_writeF _ _ _ _ hw hc hpre hp hv, undo_cons_prefix _ _ _ hpre]
    exact h.undo p hp hpre hmode

theorem RA_promo {acc init} {u : Ule} {s : Row} (hw : Wf u) (h : RA acc init u s) :
    RA acc init (promo u s.chain) s := by
  refine ⟨?_, ?_⟩
  · rw [snapshotRead_promo _ _ _ hw.cne]; exact h.val
  · intro p hp hpre hmode
    unfold abortF
    rw [promo_promo_prefix _ _ _ hpre]
    exact h.undo p hp hpre hmode

theorem RA_step {acc init} {u u' : Ule} {s s' : Row} {e : Ev} (hR : R init u s) (h : RA acc init u s)
    (hs : s.step init e = some s') (hu : stepMsg u s.chain e = some u') : RA acc init u' s' := by
  have hinv' := hR.inv.step hs
  cases e with
  | begin x =>
    simp only [Row.step] at hs
    split at hs
    · rename_i hc
      cases hs
      simp only [stepMsg, Ev.msg, Option.some.injEq] at hu
      subst hu
      obtain ⟨hm, h0, -, hun, hl⟩ := hc
      refine ⟨h.val, ?_⟩
      intro p hp hpre hmode
      simp only at hpre hmode
      rcases prefix_concat_cases hpre with hpre | rfl
      · exact h.undo p hp hpre (by simp [hm])
      · have hch : Chain (s.chain ++ [x]) := hinv'.chain (by simp)
        rw [abortF_fresh u _ hR.wf hch]
        · rw [snapshotRead_promo _ _ _ hR.wf.cne, undo_fresh _ s.used _ (by simp) hun hR.inv.wsub]
          exact h.val
        · intro hp'
          exact hun (hR.ids _ (by simp) hp')
    · cases hs
  | put v =>
    simp only [Row.step] at hs
    split at hs
    · rename_i hc
      cases hs
      obtain ⟨hm, hne, hl⟩ := hc
      simp only [stepMsg, Ev.msg, msgModify_insert u _ v hR.wf (hR.inv.chain hne) hl,
        Option.some.injEq] at hu
      subst hu
      exact RA_write hR.wf hR.inv h hne _ (by simp)
    · cases hs
  | putIfAbsent v =>
    simp only [Row.step] at hs
    split at hs
    · rename_i hc
      obtain ⟨hm, hne, hl⟩ := hc
      simp only [stepMsg, Ev.msg, msgModify_insertNoOverwrite u s.chain v hR.wf (hR.inv.chain hne) hl,
        hR.val, Option.some.injEq] at hu
      split at hs
      · rename_i hv
        cases hs
        rw [if_pos hv] at hu
        subst hu
        exact RA_promo hR.wf h
      · rename_i hv
        cases hs
        rw [if_neg hv] at hu
        subst hu
        exact RA_write hR.wf hR.inv h hne _ (by simp)
    · cases hs
  | del =>
    simp only [Row.step] at hs
    split at hs
    · rename_i hc
      cases hs
      obtain ⟨hm, hne⟩ := hc
      simp only [stepMsg, Ev.msg, msgModify_delete u _ hR.wf (hR.inv.chain hne), Option.some.injEq] at hu
      subst hu
      exact RA_write hR.wf hR.inv h hne .delete (by simp)
    · cases hs
  | commitMsg =>
    simp only [Row.step] at hs
    split at hs
    · rename_i hc
      cases hs
      obtain ⟨hm, hne⟩ := hc
      simp only [stepMsg, Ev.msg, msgModify_commit u _ hR.wf (hR.inv.chain hne), Option.some.injEq] at hu
      subst hu
      refine ⟨?_, ?_⟩
      · rw [snapshotRead_commitF _ _ _ hR.wf.cne]; exact h.val
      · intro p hp hpre hmode
        simp only at hpre hmode
        have hlt := hmode trivial
        rw [abortF_commitF _ _ _ hpre hp hlt]
        exact h.undo p hp hpre (fun _ => hlt)
    · cases hs
  | abortMsg =>
    simp only [Row.step] at hs
    split at hs
    · rename_i hc
      cases hs
      obtain ⟨hm, hne⟩ := hc
      simp only [stepMsg, Ev.msg, msgModify_abort u _ hR.wf (hR.inv.chain hne), Option.some.injEq] at hu
      subst hu
      refine ⟨?_, ?_⟩
      · exact h.undo s.chain hne (List.prefix_refl _) (fun hc => absurd hc hm)
      · intro p hp hpre hmode
        simp only at hpre hmode
        rw [abortF_abortF _ _ _ hR.wf hpre hp, undo_undo_prefix _ _ _ hpre]
        exact h.undo p hp hpre (fun hc => absurd hc hm)
    · cases hs
  | finish =>
    simp only [Row.step] at hs
    split at hs
    · rename_i hne
      cases hs
      simp only [stepMsg, Ev.msg, Option.some.injEq] at hu
      subst hu
      refine ⟨h.val, ?_⟩
      intro p hp hpre _
      simp only at hpre
      apply h.undo p hp (hpre.trans (List.dropLast_prefix _))
      intro _
      have := hpre.length_le
      have := List.length_pos_iff.mpr hne
      simp at *
      omega
    · cases hs

/-! ### Replacing the committed part -/

/-- Same provisional part, committed part that reads the same. -/
def SameFor (acc : Txnid → Bool) (u u' : Ule) : Prop :=
  u'.pux = u.pux ∧ u.cux ≠ [] ∧ u'.cux ≠ [] ∧ readC acc u'.cux = readC acc u.cux

theorem SameFor.read {acc} {u u' : Ule} (h : SameFor acc u u') : snapshotRead acc u' = snapshotRead acc u := by
  obtain ⟨h1, h2, h3, h4⟩ := h
  rw [snapshotRead_eq _ u h2, snapshotRead_eq _ u' h3, h1, h4]
  cases hp : u.pux with
  | nil => rfl
  | cons o os =>
    have : topVal u' = topVal u := by
      obtain ⟨z, hz⟩ : ∃ z, u.pux.getLast? = some z := by
        rw [hp]; exact ⟨_, List.getLast?_cons⟩
      simp [topVal, h1, hz]
    rw [this]

theorem SameFor.topVal {acc} {u u' : Ule} (h : SameFor acc u u') (hp : u.pux ≠ []) : topVal u' = topVal u := by
  obtain ⟨z, hz⟩ : ∃ z, u.pux.getLast? = some z := by
    cases hp' : u.pux with
    | nil => exact absurd hp' hp
    | cons o os => exact ⟨_, List.getLast?_cons⟩
  simp [Verif.Ule.topVal, h.1, hz]

theorem SameFor.promoN {acc} {u u' : Ule} (h : SameFor acc u u') (m : Nat) :
    SameFor acc (promoN u m) (promoN u' m) := by
  obtain ⟨h1, h2, h3, h4⟩ := h
  by_cases hle : u.pux.length ≤ m
  · rw [promoN_of_le u m hle, promoN_of_le u' m (by rw [h1]; exact hle)]; exact ⟨h1, h2, h3, h4⟩
  · cases hp : u.pux with
    | nil => simp [hp] at hle
    | cons o os =>
      have htop := SameFor.topVal ⟨h1, h2, h3, h4⟩ (by simp [hp])
      cases m with
      | zero =>
        rw [promoN_zero u o os hp, promoN_zero u' o os (by rw [h1, hp])]
        refine ⟨rfl, by simp, by simp, ?_⟩
        rw [readC_cons _ _ _ h2, readC_cons _ _ _ h3, htop, h4]
      | succ m =>
        have hm : m < u.pux.length := by omega
        rw [promoN_succ u m u.pux[m] (by omega) (by simp [hm]),
          promoN_succ u' m u.pux[m] (by rw [h1]; omega) (by simp [h1, hm])]
        exact ⟨by simp [h1, htop], h2, h3, h4⟩

theorem SameFor.abortF {acc} {u u' : Ule} (h : SameFor acc u u') (p : Xids) :
    SameFor acc (abortF u p) (abortF u' p) := by
  have hm : matchLen u'.pux p = matchLen u.pux p := by rw [h.1]
  obtain ⟨h1, h2, h3, h4⟩ := h.promoN (matchLen u.pux p)
  unfold Ule.abortF abortA promo
  rw [hm]
  exact ⟨by simp only [h1], h2, h3, h4⟩

theorem RA_same {acc init} {u u' : Ule} {s : Row} (h : RA acc init u s) (hs : SameFor acc u u') :
    RA acc init u' s :=
  ⟨by rw [hs.read]; exact h.val, fun p hp hpre hm => by
    rw [(hs.abortF p).read]; exact h.undo p hp hpre hm⟩

/-! ### Promoting a finished transaction's records -/

theorem RA_promote {acc init} {u : Ule} {s : Row} (hw : Wf u) (h : RA acc init u s)
    (hne : u.pux.head?.map (·.xid) ≠ s.chain.head? ∨ s.chain = []) : RA acc init (promoN u 0) s := by
  refine ⟨by rw [snapshotRead_promoN _ _ _ hw.cne]; exact h.val, ?_⟩
  intro p hp hpre hm
  have hph : u.pux.head?.map (·.xid) ≠ p.head? := by
    cases p with
    | nil => exact absurd rfl hp
    | cons y ys =>
      obtain ⟨t, ht⟩ := hpre
      rcases hne with hne | hne
      · rw [← ht] at hne; simpa using hne
      · rw [hne] at ht; simp at ht
  have : abortF (promoN u 0) p = abortF u p := by
    unfold abortF
    rw [promo_other u p hph]
    congr 1
    have hz : (promoN u 0).pux = [] := promoN_zero_pux u
    unfold promo
    rw [promoN_of_le _ _ (by rw [hz]; simp)]
  rw [this]
  exact h.undo p hp hpre hm

/-! ### Dropping a row with no insert -/

/-- No value anywhere on the stack. -/
def NoInsert (u : Ule) : Prop := ∀ r, r ∈ u.cux ∨ r ∈ u.pux → r.val.read = none

theorem NoInsert.top {u : Ule} (h : NoInsert u) : (topVal u).read = none := by
  unfold topVal
  split
  · rename_i r hr; exact h r (Or.inr (List.mem_of_getLast? hr))
  · split
    · rename_i c cs hc; exact h c (Or.inl (by rw [hc]; exact List.mem_cons_self ..))
    · rfl

theorem NoInsert.promoN {u : Ule} (h : NoInsert u) (m : Nat) : NoInsert (promoN u m) := by
  by_cases hle : u.pux.length ≤ m
  · rw [promoN_of_le u m hle]; exact h
  · cases hp : u.pux with
    | nil => simp [hp] at hle
    | cons o os =>
      cases m with
      | zero =>
        rw [promoN_zero u o os hp]
        intro r hr
        simp at hr
        rcases hr with rfl | hr
        · exact h.top
        · exact h r (Or.inl hr)
      | succ m =>
        have hm : m < u.pux.length := by omega
        rw [promoN_succ u m u.pux[m] (by omega) (by simp [hm])]
        intro r hr
        simp at hr
        rcases hr with hr | hr | rfl
        · exact h r (Or.inl hr)
        · exact h r (Or.inr (List.mem_of_mem_take hr))
        · exact h.top

theorem readC_noInsert (acc : Txnid → Bool) (l : List Uxr) (h : ∀ r ∈ l, r.val.read = none) :
    readC acc l = none := by
  induction l with
  | nil => rfl
  | cons c l ih =>
    cases hl : l with
    | nil => exact h c (List.mem_cons_self ..)
    | cons d l' =>
      rw [← hl, readC_cons _ _ _ (by simp [hl])]
      split
      · exact h c (List.mem_cons_self ..)
      · exact ih (fun r hr => h r (List.mem_cons_of_mem _ hr))

theorem NoInsert.read {u : Ule} (h : NoInsert u) (hc : u.cux ≠ []) (acc : Txnid → Bool) :
    snapshotRead acc u = none := by
  rw [snapshotRead_eq _ u hc]
  have hr := readC_noInsert acc u.cux (fun r hr => h r (Or.inl hr))
  have ht := h.top
  split
  · split
    · exact ht
    · exact hr
  · exact hr

theorem NoInsert.abortF {u : Ule} (h : NoInsert u) (p : Xids) : NoInsert (abortF u p) := by
  have h1 := h.promoN (matchLen u.pux p)
  intro r hr
  apply h1 r
  rcases hr with hr | hr
  · exact Or.inl hr
  · exact Or.inr (List.mem_of_mem_take ((strip_prefix _).subset hr))

theorem noInsert_of (u : Ule) (h : ¬ (u.cux.any Uxr.isInsert ∨ u.pux.any Uxr.isInsert)) : NoInsert u := by
  intro r hr
  have : r.isInsert = false := by
    rw [← Bool.not_eq_true]
    intro hi
    apply h
    rcases hr with hr | hr
    · exact Or.inl (List.any_eq_true.mpr ⟨r, hr, hi⟩)
    · exact Or.inr (List.any_eq_true.mpr ⟨r, hr, hi⟩)
  unfold Uxr.isInsert at this
  cases hv : r.val <;> simp_all [XrVal.read]

theorem RA_drop {acc init} {u : Ule} {s : Row} (hw : Wf u) (h : RA acc init u s) :
    RA acc init (dropIfAllDeleted u) s := by
  unfold dropIfAllDeleted
  split
  · exact h
  · rename_i hno
    have hn := noInsert_of u hno
    have he : NoInsert emptyUle := by
      intro r hr
      simp [emptyUle] at hr
      subst hr; rfl
    refine ⟨?_, ?_⟩
    · rw [he.read (by simp [emptyUle]), ← h.val, hn.read hw.cne]
    · intro p hp hpre hm
      rw [(he.abortF p).read (promoN_cux_ne _ _ (by simp [emptyUle])), ← h.undo p hp hpre hm,
        (hn.abortF p).read (promoN_cux_ne _ _ hw.cne)]

/-- Readers that agree on the ids present read the same. -/
theorem readC_congr (a b : Txnid → Bool) (l : List Uxr) (h : ∀ x ∈ upper l, a x = b x) :
    readC a l = readC b l := by
  induction l with
  | nil => rfl
  | cons c l ih =>
    by_cases hl : l = []
    · subst hl; rfl
    · rw [upper_cons' c l hl] at h
      rw [readC_cons _ _ _ hl, readC_cons _ _ _ hl, h c.xid (List.mem_cons_self ..),
        ih (fun x hx => h x (List.mem_cons_of_mem _ hx))]

theorem snapshotRead_congr (a b : Txnid → Bool) (u : Ule) (hc : u.cux ≠ []) (h : ∀ x ∈ leafIds u, a x = b x) :
    snapshotRead a u = snapshotRead b u := by
  rw [snapshotRead_eq a u hc, snapshotRead_eq b u hc]
  have hr : readC a u.cux = readC b u.cux :=
    readC_congr a b _ (fun x hx => h x (List.mem_append_right _ hx))
  cases hp : u.pux with
  | nil => exact hr
  | cons o os =>
    simp only
    rw [h o.xid (by simp [leafIds, hp]), hr]

end Verif.Mvcc
