import Verif.Ft.BasementInv

/-! How the logical row-count correction relates to the number of rows that have a value. -/
namespace Verif.Ft
open Verif.Ule Verif.Txn Std

/-- 1 if there is a value, else 0. -/
def live (v : Option Bytes) : Nat := if v.isSome then 1 else 0

/-- Number of rows whose newest version is a value. -/
def liveRows (rows : List (Key × Ule)) : Nat := (rows.map fun r => live (latest r.2)).sum

theorem liveRows_split (l t : List (Key × Ule)) (k : Key) (o : Option Ule) :
    liveRows (l ++ opt k o ++ t) = liveRows l + live (valOf o) + liveRows t := by
  unfold liveRows
  cases o with
  | none => simp [valOf, live]
  | some u => simp [valOf, Nat.add_assoc]

theorem latest_of_top {u u' : Ule} (h : top? u' = top? u) : latest u' = latest u := by
  rw [latest_eq_top?, latest_eq_top?, h]

theorem isInsert_iff {u : Ule} {r : Uxr} (h : innermost? u = some r) : r.isInsert = (latest u).isSome := by
  unfold latest
  rw [h]
  cases hv : r.val <;> simp [Uxr.isInsert, XrVal.read, hv]

theorem isDelete_iff {u : Ule} {r : Uxr} (h : innermost? u = some r) (hr : Real u) : r.isDelete = (latest u).isNone := by
  obtain ⟨v, hv, hn⟩ := hr
  unfold latest
  rw [h]
  simp [top?, h] at hv
  subst hv
  cases hv' : r.val with
  | insert b => simp [Uxr.isDelete, XrVal.read, hv']
  | delete => simp [Uxr.isDelete, XrVal.read, hv']
  | placeholder => exact absurd hv' hn

/-- What the sender adds to the logical row count when it sends an operation: `toku_ft_send_insert` callers
ft/ft-ops.cc:2268, 2444, 2519 (+1) and 2629 (-1). -/
def opSent : Op → Int
  | .insert _ => 1
  | .insertNoOverwrite _ => 1
  | .delete => -1
  | _ => 0

theorem latest_writeUxr {u u' : Ule} {xs : Xids} {v : XrVal} (h : writeUxr u xs v = some u') : latest u' = v.read := by
  rw [latest_eq_top?, writeUxr_top h]; rfl

/-- For everything but abort, what the sender counted plus the correction is the change in liveness. -/
theorem applyOp_delta {u u' : Ule} {xs : Xids} {op : Op} {d : Int} (h : applyOp u xs op = some (u', d))
    (hr : Real u) (hop : op ≠ .abort) : opSent op + d = (live (latest u') : Int) - live (latest u) := by
  cases op with
  | insert v =>
    simp only [applyOp, applyInsert] at h
    split at h
    · split at h
      · simp at h
      · rename_i r hi
        obtain ⟨w, hw, he⟩ := Option.map_eq_some_iff.mp h
        simp only [Prod.mk.injEq] at he
        obtain ⟨rfl, rfl⟩ := he
        rw [latest_writeUxr hw, isInsert_iff hi]
        cases latest u <;> simp [live, XrVal.read, opSent]
    · simp at h
  | insertNoOverwrite v =>
    simp only [applyOp, applyInsertNoOverwrite] at h
    split at h
    · split at h
      · simp at h
      · rename_i r hi
        rw [isInsert_iff hi] at h
        split at h
        · simp at h
          obtain ⟨rfl, rfl⟩ := h
          simp [opSent]
        · rename_i hl
          obtain ⟨w, hw, he⟩ := Option.map_eq_some_iff.mp h
          simp only [Prod.mk.injEq] at he
          obtain ⟨rfl, rfl⟩ := he
          rw [latest_writeUxr hw]
          cases hc : latest u <;> simp_all [live, XrVal.read, opSent]
    · simp at h
  | delete =>
    simp only [applyOp, applyDelete] at h
    split at h
    · simp at h
    · rename_i r hi
      obtain ⟨w, hw, he⟩ := Option.map_eq_some_iff.mp h
      simp only [Prod.mk.injEq] at he
      obtain ⟨rfl, rfl⟩ := he
      rw [latest_writeUxr hw, isDelete_iff hi hr]
      cases latest u <;> simp [live, XrVal.read, opSent]
  | abort => exact absurd rfl hop
  | commit =>
    simp only [applyOp, applyCommit] at h
    obtain ⟨w, hw, he⟩ := Option.map_eq_some_iff.mp h
    simp only [Prod.mk.injEq] at he
    obtain ⟨rfl, rfl⟩ := he
    have : top? w = top? u := by
      split at hw
      · simp at hw
      · split at hw
        · simp at hw
        · split at hw
          · split at hw
            · exact (promoteToCommitted_top hw).1
            · exact promoteToIndex_top hw
          · simp at hw; rw [hw]
    simp [opSent, latest_of_top this]
  | commitAll =>
    simp only [applyOp, applyCommitAll] at h
    obtain ⟨w, hw, he⟩ := Option.map_eq_some_iff.mp h
    obtain ⟨r, hr', hre⟩ := Option.map_eq_some_iff.mp hw
    simp only [Prod.mk.injEq] at he
    obtain ⟨rfl, rfl⟩ := he
    subst hre
    simp [opSent, latest, innermost?, hr']
    unfold innermost? at hr'
    simp [hr']
  | optimize =>
    simp only [applyOp, applyOptimize] at h
    obtain ⟨w, hw, he⟩ := Option.map_eq_some_iff.mp h
    simp only [Prod.mk.injEq] at he
    obtain ⟨rfl, rfl⟩ := he
    have : top? w = top? u := by
      split at hw
      · simp at hw; rw [hw]
      · split at hw
        · exact (promoteToCommitted_top hw).1
        · split at hw
          · exact (promoteToCommitted_top hw).1
          · simp at hw; rw [hw]
        · simp at hw
    simp [opSent, latest_of_top this]

/-- The rows on which `ule_apply_abort`'s count is right: one provisional record over one committed one. -/
def SimpleRow (u : Ule) : Prop := u.cux.length = 1 ∧ u.pux.length = 1

theorem msgModify_delta {u u' : Ule} {xs : Xids} {op : Op} {d : Int} (h : msgModify u xs op = some (u', d))
    (hr : Real u) (hop : op ≠ .abort) : opSent op + d = (live (latest u') : Int) - live (latest u) := by
  unfold msgModify at h
  split at h
  · split at h
    · exact applyOp_delta h hr hop
    · obtain ⟨w, hw, hp⟩ := Option.bind_eq_some_iff.mp h
      rw [applyOp_delta hp (hr.of_top (implicitPromotions_top hw)) hop, latest_of_top (implicitPromotions_top hw)]
  · simp at h

/-- Abort of a transaction's only record over a single committed one: the count is right there. -/
theorem abort_delta_simple {u u' : Ule} {x : Txnid} {c p : Uxr} {d : Int} (hu : u = ⟨[c], [p]⟩)
    (hp : p.val ≠ .placeholder) (h : msgModify u [x] .abort = some (u', d)) :
    d = (live (latest u') : Int) - live (latest u) := by
  subst hu
  unfold msgModify at h
  split at h
  · simp only [Op.isOptimize, Bool.false_eq_true, if_false] at h
    obtain ⟨w, hw, ha⟩ := Option.bind_eq_some_iff.mp h
    simp only [applyOp, applyAbort] at ha
    split at ha
    · simp at ha
    · rename_i hx0
      unfold implicitPromotions at hw
      simp only [List.cons_ne_nil, if_false] at hw
      by_cases hx : x = p.xid
      · subst hx
        simp [matchLen] at hw
        subst hw
        simp [innermost?, innermostXid, removeInnermost, removeInnermostPlaceholders] at ha
        obtain ⟨hcp, rfl, rfl⟩ := ha
        have hcp' : c.val ≠ .placeholder := fun hh => by simp [Uxr.isPlaceholder, hh] at hcp
        obtain ⟨cx, cv⟩ := c
        obtain ⟨px, pv⟩ := p
        simp only at hp hcp'
        cases cv <;> cases pv <;>
          first
          | exact absurd rfl hp
          | exact absurd rfl hcp'
          | simp [abortRowDelta, Uxr.isDelete, Uxr.isInsert, latest, innermost?, XrVal.read, live]
      · simp [matchLen, hx] at hw
        have := (promoteToCommitted_top hw).1
        have hpx : w.pux = [] := by
          unfold promoteToCommitted at hw
          simp [innermost?] at hw
          obtain ⟨_, hw⟩ := hw
          simp [pushCommitted] at hw
          rw [← hw]
        split at ha
        · simp at ha
        · simp [hpx] at ha
          obtain ⟨rfl, rfl⟩ := ha
          simp [latest_of_top this]
  · simp at h

/-- A row operation inside a node: counted and corrected, it is the change in the number of live rows. -/
theorem applyOnce_delta {cmp : Key → Key → Ordering} {bn bn' : Bn} {key k : Key} {kl : Nat} {l t : List (Key × Ule)} {le : Option Ule}
    {g g' : GcInfo} {xs : Xids} {op : Op} {d : Int} (hb : BInv cmp bn)
    (hrows : bn.rows = l ++ opt k le ++ t) (hk : le = none → k = key) (hkl : le ≠ none → kl = k.length)
    (h : applyOnce bn key l.length kl le g xs op = some (bn', d, g')) (hop : op ≠ .abort) :
    opSent op + d = (liveRows bn'.rows : Int) - liveRows bn.rows := by
  obtain ⟨r, hr, hd, _, h1, _⟩ := applyOnce_spec hrows hk hkl h
  have hold : ∀ u, le = some u → Real u := by
    intro u hu
    exact hb.real (k, u) (by rw [hrows, hu]; simp)
  obtain ⟨_, _, u1, hm, hl⟩ := leApply_spec hr hold
  have hstart : Real (le.getD emptyUle) := by
    cases le with
    | none => exact real_empty
    | some u => exact hold u rfl
  have := msgModify_delta hm hstart hop
  rw [hd, this, h1, hrows, liveRows_split, liveRows_split, hl]
  have : latest (le.getD emptyUle) = valOf le := by
    cases le with
    | none => rfl
    | some u => rfl
  rw [this]
  omega

theorem eachRow_delta {cmp : Key → Key → Ordering} {f : Bn → Nat → Key × Ule → GcInfo → Option (Bn × Int × GcInfo)}
    (hi : ∀ bn idx r g bn' d g', BInv cmp bn → bn.rows[idx]? = some r → f bn idx r g = some (bn', d, g') → BInv cmp bn')
    (hf : ∀ bn idx r g bn' d g', BInv cmp bn → bn.rows[idx]? = some r → f bn idx r g = some (bn', d, g') →
      d = (liveRows bn'.rows : Int) - liveRows bn.rows)
    {fuel idx : Nat} {bn bn' : Bn} {d d' : Int} {g g' : GcInfo}
    (h : eachRow f fuel idx bn d g = some (bn', d', g')) (hp : BInv cmp bn) :
    d' - d = (liveRows bn'.rows : Int) - liveRows bn.rows := by
  induction fuel generalizing idx bn d g with
  | zero => simp [eachRow] at h; obtain ⟨rfl, rfl, rfl⟩ := h; omega
  | succ n ih =>
    unfold eachRow at h
    split at h
    · simp at h; obtain ⟨rfl, rfl, rfl⟩ := h; omega
    · rename_i r hr
      split at h
      · simp at h
      · rename_i b' d1 g1 hb
        have h1 := hf _ _ _ _ _ _ _ hp hr hb
        have h2 := ih h (hi _ _ _ _ _ _ _ hp hr hb)
        omega

theorem applyRow_delta {cmp : Key → Key → Ordering} {bn bn' : Bn} {idx : Nat} {r : Key × Ule}
    {g g' : GcInfo} {xs : Xids} {op : Op} {d : Int} (hb : BInv cmp bn) (hr : bn.rows[idx]? = some r)
    (h : applyOnce bn r.1 idx r.1.length (some r.2) g xs op = some (bn', d, g')) (hop : op ≠ .abort) :
    opSent op + d = (liveRows bn'.rows : Int) - liveRows bn.rows := by
  obtain ⟨l, t, hs, rfl⟩ := split_at hr
  exact applyOnce_delta hb hs (by simp) (fun _ => rfl) h hop

theorem stepUnclean_delta {cmp : Key → Key → Ordering} {op : Op} {xs : Xids} (hop : op ≠ .abort) (h0 : opSent op = 0) :
    ∀ bn idx r g bn' d g', BInv cmp bn → bn.rows[idx]? = some r → stepUnclean op xs bn idx r g = some (bn', d, g') →
      d = (liveRows bn'.rows : Int) - liveRows bn.rows := by
  intro bn idx r g bn' d g' hb hr h
  unfold stepUnclean at h
  split at h
  · simp at h; obtain ⟨rfl, rfl, rfl⟩ := h; omega
  · have := applyRow_delta hb hr h hop
    omega

theorem stepTxn_delta {cmp : Key → Key → Ordering} {op : Op} {xs : Xids} (hop : op ≠ .abort) (h0 : opSent op = 0) :
    ∀ bn idx r g bn' d g', BInv cmp bn → bn.rows[idx]? = some r → stepTxn op xs bn idx r g = some (bn', d, g') →
      d = (liveRows bn'.rows : Int) - liveRows bn.rows := by
  intro bn idx r g bn' d g' hb hr h
  unfold stepTxn at h
  split at h
  · simp at h
  · have := applyRow_delta hb hr h hop
    omega
  · simp at h; obtain ⟨rfl, rfl, rfl⟩ := h; omega

/-- Lookup of a key: the row whose key compares equal. -/
def lookup (cmp : Key → Key → Ordering) (rows : List (Key × Ule)) (k : Key) : Option Ule :=
  (rows.find? fun r => cmp r.1 k == .eq).map (·.2)

theorem findZero_lookup (cmp : Key → Key → Ordering) [TransCmp cmp] (k : Key) (rows : List (Key × Ule))
    (hs : rows.Pairwise fun a b => cmp a.1 b.1 = .lt) : (findZero cmp k rows).2.map (·.2) = lookup cmp rows k := by
  unfold lookup
  congr 1
  induction rows with
  | nil => rfl
  | cons r rs ih =>
    obtain ⟨hr, hrs⟩ := List.pairwise_cons.mp hs
    unfold findZero
    cases hc : cmp r.1 k with
    | lt => simp [List.find?_cons, hc, ih hrs]
    | eq => simp [List.find?_cons, hc]
    | gt =>
      symm
      simp [hc]
      intro a b hab
      have h1 := hr (a, b) hab
      have : cmp k a = .lt := TransCmp.lt_trans (OrientedCmp.gt_iff_lt.mp hc) h1
      rw [OrientedCmp.gt_iff_lt.mpr this]
      simp

end Verif.Ft
