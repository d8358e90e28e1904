import Verif.Mvcc.Sys
import Verif.Mvcc.Read
import Verif.Txn.Inv

/-! Invariant of the row machine. -/
namespace Verif.Mvcc
open Verif.Ule Verif.Ule.Spec
open Verif.Txn

/-! ### Roots that have used the row -/

/-- Root transactions that have worked on the row, newest first. -/
def rootIds (used : List (List Txnid)) : List Txnid :=
  used.filterMap fun p => match p with | [x] => some x | _ => none

theorem mem_rootIds {used : List (List Txnid)} {x : Txnid} : x ∈ rootIds used ↔ [x] ∈ used := by
  unfold rootIds
  rw [List.mem_filterMap]
  constructor
  · rintro ⟨p, hp, h⟩
    split at h
    · cases h; exact hp
    · cases h
  · intro h; exact ⟨[x], h, rfl⟩

theorem rootIds_cons_root (x : Txnid) (used : List (List Txnid)) : rootIds ([x] :: used) = x :: rootIds used := rfl

theorem rootIds_cons_child (c : List Txnid) (x : Txnid) (hc : c ≠ []) (used : List (List Txnid)) :
    rootIds ((c ++ [x]) :: used) = rootIds used := by
  unfold rootIds
  rw [List.filterMap_cons]
  cases c with
  | nil => exact absurd rfl hc
  | cons a c => cases c <;> rfl

/-- How a row event changes the current root and the list of roots. -/
theorem step_root {init} {s s' : Row} {e : Ev} (h : s.step init e = some s') :
    (s'.chain.head? = s.chain.head? ∧ rootIds s'.used = rootIds s.used ∧
      (∀ x, e = .begin x → s.chain ≠ []) ∧ (e = .finish → 1 < s.chain.length)) ∨
    (∃ x, e = .begin x ∧ s.chain = [] ∧ s'.chain = [x] ∧ rootIds s'.used = x :: rootIds s.used ∧
      x ∉ rootIds s.used) ∨
    (∃ x, e = .finish ∧ s.chain = [x] ∧ s'.chain = [] ∧ rootIds s'.used = rootIds s.used) := by
  cases e with
  | begin x =>
    simp only [Row.step] at h
    split at h
    · rename_i hc
      cases h
      cases hch : s.chain with
      | nil =>
        refine Or.inr (Or.inl ⟨x, rfl, rfl, by simp, ?_, ?_⟩)
        · simp only [List.nil_append]; rfl
        · rw [mem_rootIds]; rw [hch] at hc; simpa using hc.2.2.2.1
      | cons a c =>
        refine Or.inl ⟨by simp, ?_, by simp, by simp⟩
        exact rootIds_cons_child _ _ (by simp) _
    · cases h
  | finish =>
    simp only [Row.step] at h
    split at h
    · rename_i hne
      cases h
      cases hch : s.chain with
      | nil => exact absurd hch hne
      | cons a c =>
        cases c with
        | nil => exact Or.inr (Or.inr ⟨a, rfl, rfl, rfl, rfl⟩)
        | cons b c => exact Or.inl ⟨by simp, rfl, by simp, by simp⟩
    · cases h
  | put v =>
    simp only [Row.step] at h
    split at h
    · cases h; exact Or.inl ⟨rfl, rfl, by simp, by simp⟩
    · cases h
  | putIfAbsent v =>
    simp only [Row.step] at h
    split at h
    · split at h <;> cases h <;> exact Or.inl ⟨rfl, rfl, by simp, by simp⟩
    · cases h
  | del =>
    simp only [Row.step] at h
    split at h
    · cases h; exact Or.inl ⟨rfl, rfl, by simp, by simp⟩
    · cases h
  | commitMsg =>
    simp only [Row.step] at h
    split at h
    · cases h; exact Or.inl ⟨rfl, rfl, by simp, by simp⟩
    · cases h
  | abortMsg =>
    simp only [Row.step] at h
    split at h
    · cases h; exact Or.inl ⟨rfl, rfl, by simp, by simp⟩
    · cases h

theorem step_used {init} {s s' : Row} {e : Ev} (h : s.step init e = some s') : s.used <:+ s'.used := by
  cases e <;> simp only [Row.step] at h <;> (repeat' split at h) <;> cases h <;>
    first | exact List.suffix_refl _ | exact List.suffix_cons _ _

/-! ### Readers -/

/-- The decision of a snapshot `s`, in terms of history: its own root, and whatever had finished before
it was taken. -/
def sees (S : Sys) (s : Snap) (x : Txnid) : Bool :=
  decide (x = s.root) || S.ended.any fun d => decide (d.xid = x) && decide (d.stamp < s.id)

/-- Present and future readers: the recorded snapshots, and anyone who accepts all that has finished. -/
def Obs (S : Sys) (acc : Txnid → Bool) : Prop :=
  (∃ s ∈ S.mgr.snaps, acc = sees S s) ∨ ∀ d ∈ S.ended, acc d.xid = true

theorem sees_iff {S : Sys} {s : Snap} {x : Txnid} :
    sees S s x = true ↔ x = s.root ∨ ∃ d ∈ S.ended, d.xid = x ∧ d.stamp < s.id := by
  simp [sees]

/-- Relation between the leaf and the delivered history, for a class of readers. -/
structure RO (O : (Txnid → Bool) → Prop) (init : Option Bytes) (u : Ule) (d : Row) : Prop where
  wf : Wf u
  inv : SpecInv d
  ids : idsIn u d.used
  ra : ∀ acc, O acc → RA acc init u d

theorem RO.toR {O init u d} (h : RO O init u d) (ht : O (fun _ => true)) : R init u d := by
  have ha := h.ra _ ht
  have hf : ∀ ws : List Write, ws.filter (accW fun _ => true) = ws := by
    intro ws; rw [List.filter_eq_self]; intro w _; rfl
  refine ⟨h.wf, h.inv, h.ids, ?_, ?_⟩
  · rw [← snapshotRead_true u h.wf.cne, ha.val, hf]; rfl
  · intro p hp hpre hm
    rw [← snapshotRead_true (abortF u p) (promoN_cux_ne _ _ h.wf.cne), ha.undo p hp hpre hm, hf]

theorem Obs.true (S : Sys) : Obs S (fun _ => true) := Or.inr fun _ _ => rfl

/-- Order of the ids on the leaf. -/
def Ord (u : Ule) (d : Row) : Prop :=
  (leafIds u).Sublist (rootIds d.used) ∧
  (¬ (d.mode = .committing ∧ d.chain.length = 1) → ∀ h, d.chain.head? = some h → h ∉ upper u.cux)

/-! ### Leaf steps -/

theorem upper_promo (u : Ule) (h : u.cux ≠ []) (xs : Xids) :
    upper (promo u xs).cux = upper u.cux ∨
    (upper (promo u xs).cux = leafIds u ∧ u.pux.head?.map (·.xid) ≠ xs.head?) := by
  by_cases hh : u.pux.head?.map (·.xid) = xs.head?
  · left
    cases hp : u.pux with
    | nil =>
      unfold promo; rw [promoN_of_le _ _ (by simp [hp])]
    | cons o os =>
      cases xs with
      | nil => simp [hp] at hh
      | cons x xs =>
        simp [hp] at hh
        rw [(promo_same u o os x xs hp hh).1]
  · right
    refine ⟨?_, hh⟩
    have := leafIds_promoN u 0 h
    rw [promo_other u xs hh]
    rw [← this]
    simp [leafIds, promoN_zero_pux]

theorem not_mem_upper_promo {u : Ule} {xs : Xids} {x : Txnid} (h : u.cux ≠ []) (hx : xs.head? = some x)
    (hno : x ∉ upper u.cux) : x ∉ upper (promo u xs).cux := by
  rcases upper_promo u h xs with h1 | ⟨h1, h2⟩
  · rw [h1]; exact hno
  · rw [h1]
    intro hm
    rcases List.mem_append.mp hm with hm | hm
    · rw [hx] at h2
      cases hp : u.pux with
      | nil => simp [hp] at hm
      | cons o os => simp [hp] at hm h2; exact h2 hm.symm
    · exact hno hm

theorem leafIds_writeF (u : Ule) (x : Txnid) (xs : List Txnid) (v : XrVal) (hw : Wf u)
    (hc : Chain (x :: xs)) (hv : v ≠ .placeholder) :
    leafIds (writeF u (x :: xs) v) =
      if u.pux.head?.map (·.xid) = some x then leafIds u else x :: leafIds u := by
  have hh := writeF_head u x xs v hw hc hv
  unfold leafIds
  rw [hh, writeF_cux]
  by_cases he : u.pux.head?.map (·.xid) = some x
  · rw [if_pos he, he]
    cases hp : u.pux with
    | nil => simp [hp] at he
    | cons o os =>
      simp [hp] at he
      rw [(promo_same u o os x xs hp he).1]
  · rw [if_neg he]
    have he' : u.pux.head?.map (·.xid) ≠ (x :: xs).head? := he
    rw [promo_other u _ he']
    have := leafIds_promoN u 0 hw.cne
    unfold leafIds at this
    rw [promoN_zero_pux] at this
    simp at this ⊢
    exact this

theorem leafIds_abortF (u : Ule) (xs : Xids) (h : u.cux ≠ []) : (leafIds (abortF u xs)).Sublist (leafIds u) := by
  have h1 := leafIds_promoN u (matchLen u.pux xs) h
  rw [← h1]
  unfold leafIds
  refine List.Sublist.append ?_ (List.Sublist.refl _)
  show (((strip ((promo u xs).pux.take _)).head?.map (·.xid)).toList).Sublist
    (((promo u xs).pux.head?.map (·.xid)).toList)
  have hp : strip ((promo u xs).pux.take (xs.length - 1)) <+: (promo u xs).pux :=
    (strip_prefix _).trans (List.take_prefix _ _)
  obtain ⟨t, ht⟩ := hp
  cases hs : strip ((promo u xs).pux.take (xs.length - 1)) with
  | nil => simp
  | cons a as => rw [hs] at ht; rw [← ht]; simp

theorem Ord_write {u : Ule} {s : Row} (hw : Wf u) (hi : SpecInv s) (h : Ord u s) (hne : s.chain ≠ [])
    (hm : s.mode = .active) (hsh : ∃ r, rootIds s.used = s.chain.head?.toList ++ r)
    (v : XrVal) (hv : v ≠ .placeholder) (w : Write) :
    Ord (writeF u s.chain v) { s with writes := w :: s.writes } := by
  have hc := hi.chain hne
  cases hch : s.chain with
  | nil => exact absurd hch hne
  | cons x xs =>
    rw [hch] at hc
    have hx : x ∉ upper u.cux := h.2 (by simp [hm]) x (by simp [hch])
    refine ⟨?_, ?_⟩
    · rw [leafIds_writeF u x xs v hw hc hv]
      split
      · exact h.1
      · rename_i hnh
        obtain ⟨r, hr⟩ := hsh
        rw [hch] at hr
        simp only [List.head?_cons, Option.toList_some, List.singleton_append] at hr
        show (x :: leafIds u).Sublist (rootIds s.used)
        have hsub := h.1
        rw [hr] at hsub ⊢
        have hxl : x ∉ leafIds u := by
          intro hm'
          rcases List.mem_append.mp hm' with hm' | hm'
          · cases hp : u.pux with
            | nil => simp [hp] at hm'
            | cons o os => simp [hp] at hm' hnh; exact hnh hm'.symm
          · exact hx hm'
        revert hsub hxl
        generalize leafIds u = L
        intro hsub hxl
        cases hsub with
        | cons _ hsub => exact hsub.cons_cons x
        | cons_cons _ hsub => exact absurd (List.mem_cons_self ..) hxl
    · intro _ y hy
      simp only [hch, List.head?_cons, Option.some.injEq] at hy
      subst hy
      rw [writeF_cux]
      exact not_mem_upper_promo hw.cne rfl hx

theorem Ord_step {init} {u u' : Ule} {s s' : Row} {e : Ev} (hR : R init u s) (h : Ord u s)
    (hsh : ∃ r, rootIds s.used = s.chain.head?.toList ++ r)
    (hs : s.step init e = some s') (hu : stepMsg u s.chain e = some u') : Ord u' s' := by
  cases e with
  | begin x =>
    have hroot := step_root hs
    simp only [Row.step] at hs
    split at hs
    · rename_i hc
      simp only [stepMsg, Ev.msg, Option.some.injEq] at hu
      subst hu
      rcases hroot with ⟨h1, h2, h3, _⟩ | ⟨y, hy, h1, h2, h3, h4⟩ | ⟨_, hx, _⟩
      · refine ⟨by rw [h2]; exact h.1, ?_⟩
        intro _ z hz
        rw [h1] at hz
        exact h.2 (by simp [hc.1]) z hz
      · refine ⟨by rw [h3]; exact h.1.cons _, ?_⟩
        intro _ z hz
        rw [h2] at hz
        simp at hz; subst hz
        intro hmem
        exact h4 (h.1.subset (List.mem_append_right _ hmem))
      · cases hx
    · cases hs
  | put v =>
    simp only [Row.step] at hs
    split at hs
    · rename_i hc
      cases hs
      obtain ⟨hm, hne, hl⟩ := hc
      simp only [stepMsg, Ev.msg, msgModify_insert u _ v hR.wf (hR.inv.chain hne) hl,
        Option.some.injEq] at hu
      subst hu
      exact Ord_write hR.wf hR.inv h hne hm hsh _ (by simp) _
    · cases hs
  | putIfAbsent v =>
    simp only [Row.step] at hs
    split at hs
    · rename_i hc
      obtain ⟨hm, hne, hl⟩ := hc
      simp only [stepMsg, Ev.msg, msgModify_insertNoOverwrite u s.chain v hR.wf (hR.inv.chain hne) hl,
        hR.val, Option.some.injEq] at hu
      split at hs
      · rename_i hv
        cases hs
        rw [if_pos hv] at hu
        subst hu
        refine ⟨?_, ?_⟩
        · show (leafIds (promoN _ _)).Sublist _
          rw [leafIds_promoN _ _ hR.wf.cne]; exact h.1
        · intro h1 x hx
          exact not_mem_upper_promo hR.wf.cne hx (h.2 h1 x hx)
      · rename_i hv
        cases hs
        rw [if_neg hv] at hu
        subst hu
        exact Ord_write hR.wf hR.inv h hne hm hsh _ (by simp) _
    · cases hs
  | del =>
    simp only [Row.step] at hs
    split at hs
    · rename_i hc
      cases hs
      obtain ⟨hm, hne⟩ := hc
      simp only [stepMsg, Ev.msg, msgModify_delete u _ hR.wf (hR.inv.chain hne), Option.some.injEq] at hu
      subst hu
      exact Ord_write hR.wf hR.inv h hne hm hsh _ (by simp) _
    · cases hs
  | commitMsg =>
    simp only [Row.step] at hs
    split at hs
    · rename_i hc
      cases hs
      obtain ⟨hm, hne⟩ := hc
      simp only [stepMsg, Ev.msg, msgModify_commit u _ hR.wf (hR.inv.chain hne), Option.some.injEq] at hu
      subst hu
      refine ⟨?_, ?_⟩
      · show (leafIds (promoN (promoN _ _) _)).Sublist _
        rw [leafIds_promoN _ _ (promoN_cux_ne _ _ hR.wf.cne), leafIds_promoN _ _ hR.wf.cne]; exact h.1
      · intro h1 x hx
        simp only [true_and] at h1
        simp only at hx
        have hlen : 0 < s.chain.length := List.length_pos_iff.mpr hne
        show x ∉ upper (promoN (promo u s.chain) (s.chain.length - 1)).cux
        rw [promoN_cux_pos _ _ (by omega)]
        exact not_mem_upper_promo hR.wf.cne hx (h.2 (fun hh => h1 hh.2) x hx)
    · cases hs
  | abortMsg =>
    simp only [Row.step] at hs
    split at hs
    · rename_i hc
      cases hs
      obtain ⟨hm, hne⟩ := hc
      simp only [stepMsg, Ev.msg, msgModify_abort u _ hR.wf (hR.inv.chain hne), Option.some.injEq] at hu
      subst hu
      refine ⟨(leafIds_abortF u _ hR.wf.cne).trans h.1, ?_⟩
      intro _ x hx
      rw [abortF_cux]
      exact not_mem_upper_promo hR.wf.cne hx (h.2 (fun hh => hm hh.1) x hx)
    · cases hs
  | finish =>
    simp only [Row.step] at hs
    split at hs
    · rename_i hne
      cases hs
      simp only [stepMsg, Ev.msg, Option.some.injEq] at hu
      subst hu
      refine ⟨h.1, ?_⟩
      intro _ x hx
      simp only at hx
      have hx' : s.chain.head? = some x := by
        cases hch : s.chain with
        | nil => exact absurd hch hne
        | cons a c =>
          cases c with
          | nil => simp [hch] at hx
          | cons b c => simp [hch] at hx ⊢; exact hx
      apply h.2 _ x hx'
      rintro ⟨_, hl⟩
      have : (s.chain.dropLast).length = 0 := by simp [hl]
      rw [List.eq_nil_of_length_eq_zero this] at hx
      simp at hx
    · cases hs

theorem promoteToCommitted_eq (u : Ule) (hw : Wf u) (hp : u.pux ≠ []) :
    promoteToCommitted u = some (promoN u 0) := by
  cases hpx : u.pux with
  | nil => exact absurd hpx hp
  | cons o os =>
    obtain ⟨r, h1, h2, -⟩ := innermost?_eq u hw.cne
    have hnp := innermost_np u hw r h1
    unfold promoteToCommitted
    simp [hpx, h1, hnp, pushCommitted, promoN_zero u o os hpx, h2]

theorem RO_promote {O init} {u : Ule} {d : Row} (k : Txnid) (h : RO O init u d) (ho : Ord u d)
    (hk : ∀ x, d.chain.head? = some x → k ≤ x) :
    ∃ u', tryPromoteOutermost u k = some u' ∧ RO O init u' d ∧ Ord u' d := by
  unfold tryPromoteOutermost
  cases hp : u.pux with
  | nil => exact ⟨u, rfl, h, ho⟩
  | cons f fs =>
    simp only
    split
    · rename_i hlt
      have hne : u.pux.head?.map (·.xid) ≠ d.chain.head? ∨ d.chain = [] := by
        cases hch : d.chain with
        | nil => exact Or.inr rfl
        | cons x xs =>
          left
          have := hk x (by simp [hch])
          simp [hp]; omega
      refine ⟨promoN u 0, promoteToCommitted_eq u h.wf (by simp [hp]), ?_, ?_⟩
      · exact ⟨promoN_wf _ _ h.wf, h.inv, promoN_ids _ _ _ h.ids, fun acc ha => RA_promote h.wf (h.ra acc ha) hne⟩
      · refine ⟨by rw [leafIds_promoN _ _ h.wf.cne]; exact ho.1, ?_⟩
        intro h1 x hx hmem
        have hup : upper (promoN u 0).cux = leafIds u := by
          rw [← leafIds_promoN u 0 h.wf.cne]; simp [leafIds, promoN_zero_pux]
        rw [hup] at hmem
        rcases List.mem_append.mp hmem with hm | hm
        · simp [hp] at hm
          have := hk x hx
          omega
        · exact ho.2 h1 x hx hm
    · exact ⟨u, rfl, h, ho⟩

/-- Replacing the committed part by one with fewer versions that reads the same. -/
theorem RO_cux {O init} {u : Ule} {d : Row} (c : List Uxr) (h : RO O init u d) (ho : Ord u d)
    (hne : c ≠ []) (hval : ∀ r ∈ c, ∃ q ∈ u.cux, r.val = q.val) (hup : (upper c).Sublist (upper u.cux))
    (hread : ∀ acc, O acc → readC acc c = readC acc u.cux) :
    RO O init { u with cux := c } d ∧ Ord { u with cux := c } d := by
  refine ⟨⟨⟨hne, ?_, h.wf.plast, h.wf.pnodup, h.wf.p0, h.wf.plen⟩, h.inv, h.ids, ?_⟩, ?_, ?_⟩
  · intro r hr
    obtain ⟨q, hq, hv⟩ := hval r hr
    have := h.wf.cnp q hq
    unfold Uxr.isPlaceholder at *
    rw [hv]; exact this
  · intro acc ha
    exact RA_same (h.ra acc ha) ⟨rfl, h.wf.cne, hne, hread acc ha⟩
  · exact ((List.Sublist.refl _).append hup).trans ho.1
  · intro h1 x hx hm
    exact ho.2 h1 x hx (hup.subset hm)

theorem mem_val_of_zeroBottom {l : List Uxr} {r : Uxr} (h : r ∈ zeroBottom l) : ∃ q ∈ l, r.val = q.val := by
  have : r.val ∈ (zeroBottom l).map (·.val) := List.mem_map.mpr ⟨r, h, rfl⟩
  rw [map_val_zeroBottom] at this
  obtain ⟨q, hq, he⟩ := List.mem_map.mp this
  exact ⟨q, hq, he.symm⟩

theorem readC_zeroBottom (acc : Txnid → Bool) (l : List Uxr) : readC acc (zeroBottom l) = readC acc l := by
  have h := readCommitted_zeroBottom acc l
  unfold readC
  cases h1 : readCommitted acc (zeroBottom l) <;> cases h2 : readCommitted acc l <;> simp_all

theorem RO_simple {O init} {u : Ule} {d : Row} (o : Txnid) (h : RO O init u d) (ho : Ord u d)
    (hacc : ∀ acc, O acc → ∀ x ∈ upper u.cux, x < o → acc x = true) :
    RO O init (simpleGc o u) d ∧ Ord (simpleGc o u) d := by
  unfold simpleGc
  split
  · exact ⟨h, ho⟩
  · split
    · exact ⟨h, ho⟩
    · obtain ⟨h1, h2, h3, h4⟩ := keepToOldest_spec o u.cux h.wf.cne
      apply RO_cux _ h ho (zeroBottom_ne _ h1)
      · intro r hr
        obtain ⟨q, hq, hv⟩ := mem_val_of_zeroBottom hr
        exact ⟨q, h2.subset hq, hv⟩
      · rw [upper_zeroBottom]; exact upper_sublist h2
      · intro acc ha
        rw [readC_zeroBottom]
        unfold readC
        rw [h4 acc (hacc acc ha)]

theorem RO_full {O init} {u : Ule} {d : Row} (g : GcState) (last : Txnid) (fin : Txnid → Option Txnid)
    (h : RO O init u d) (ho : Ord u d) (hs : g.snapIds.Pairwise (· < ·))
    (hk : ∀ x ∈ upper u.cux, Known g last fin x) (hov : (upper u.cux).Pairwise (Over g fin))
    (hO : ∀ acc, O acc → Reader g last fin acc) :
    ∃ u', fullGc g u = some u' ∧ RO O init u' d ∧ Ord u' d := by
  unfold fullGc
  split
  · exact ⟨u, rfl, h, ho⟩
  · obtain ⟨l', h1, h2, h3, _, h5⟩ := gcWalk_spec g last fin hs u.cux h.wf.cne hk hov none (by simp)
    rw [h1]
    refine ⟨_, rfl, ?_⟩
    apply RO_cux _ h ho (zeroBottom_ne _ h2)
    · intro r hr
      obtain ⟨q, hq, hv⟩ := mem_val_of_zeroBottom hr
      exact ⟨q, h3.subset hq, hv⟩
    · rw [upper_zeroBottom]; exact upper_sublist h3
    · intro acc ha
      rw [readC_zeroBottom]
      unfold readC
      rw [h5 acc (hO acc ha) (by simp)]

theorem emptyUle_wf : Wf emptyUle := by
  constructor <;> simp [emptyUle, Uxr.isPlaceholder, committedDelete]

theorem RO_drop {O init} {u : Ule} {d : Row} (h : RO O init u d) (ho : Ord u d) :
    RO O init (dropIfAllDeleted u) d ∧ Ord (dropIfAllDeleted u) d := by
  have hra := fun acc ha => RA_drop h.wf (h.ra acc ha)
  unfold dropIfAllDeleted at *
  split
  · exact ⟨h, ho⟩
  · rename_i hno
    rw [if_neg hno] at hra
    refine ⟨⟨emptyUle_wf, h.inv, ?_, hra⟩, ?_, ?_⟩
    · intro q hq hp; simp [emptyUle] at hp; exact absurd hp hq
    · simp [leafIds, emptyUle, upper]
    · intro _ x _; simp [emptyUle, upper]

end Verif.Mvcc
