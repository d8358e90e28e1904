import Verif.Ft.Basement
import Verif.Mvcc.Stored

/-! Lemmas about applying messages to rows and to a basement node. -/
namespace Verif.Ft
open Verif.Ule Verif.Txn

/-- The newest value of a row, as a record value. -/
def top? (u : Ule) : Option XrVal := (innermost? u).map (·.val)

theorem top?_mk_nil (c : Uxr) (cs : List Uxr) : top? ⟨c :: cs, []⟩ = some c.val := rfl

theorem top?_append (c : Uxr) (cs ps : List Uxr) (r : Uxr) : top? ⟨c :: cs, ps ++ [r]⟩ = some r.val := by
  simp [top?, innermost?]

theorem top?_isSome (u : Ule) : (top? u).isSome = decide (u.cux ≠ []) := by
  unfold top? innermost?
  cases u.cux <;> simp

theorem latest_eq_top? (u : Ule) : latest u = (top? u).bind XrVal.read := by
  unfold latest top?
  cases innermost? u <;> rfl

theorem promoteToCommitted_top {u u' : Ule} (h : promoteToCommitted u = some u') :
    top? u' = top? u ∧ top? u' ≠ some .placeholder := by
  unfold promoteToCommitted at h
  split at h
  · simp at h
  · split at h
    · simp at h
    · rename_i inn hi
      split at h
      · simp at h
      · rename_i hp
        simp [pushCommitted] at h
        subst h
        have : top? u = some inn.val := by simp [top?, hi]
        rw [this]
        refine ⟨rfl, ?_⟩
        simp only [top?, innermost?, Option.map_some]
        intro hc
        apply hp
        simp at hc
        simp [Uxr.isPlaceholder, hc]

theorem promoteToIndex_top {u u' : Ule} {k : Nat} (h : promoteToIndex u k = some u') :
    top? u' = top? u := by
  unfold promoteToIndex at h
  split at h
  · split at h
    · rename_i inn f hi hf
      split at h
      · simp at h
      · unfold pushProvisional at h
        split at h
        · simp at h
          subst h
          have : top? u = some inn.val := by simp [top?, hi]
          rw [this]
          unfold innermost? at hi
          cases hc : u.cux with
          | nil => simp [hc] at hi
          | cons c cs => exact top?_append ..
        · simp at h
    · simp at h
  · simp at h

theorem implicitPromotions_top {u u' : Ule} {xs : Xids} (h : implicitPromotions u xs = some u') :
    top? u' = top? u := by
  unfold implicitPromotions at h
  split at h
  · simp at h; rw [h]
  · split at h
    · simp at h
    · simp only at h
      split at h
      · exact (promoteToCommitted_top h).1
      · split at h
        · exact promoteToIndex_top h
        · simp at h; rw [h]

theorem removeInnermost_cux {u u' : Ule} (h : removeInnermost u = some u') (hp : u.pux ≠ []) :
    u'.cux = u.cux ∧ u.cux ≠ [] := by
  unfold removeInnermost at h
  split at h
  · simp at h
  · rename_i hc
    simp [hp] at h
    subst h
    exact ⟨rfl, hc⟩

theorem pushPlaceholders_cux {u u' : Ule} {xs : Xids} (h : pushPlaceholders u xs = some u') : u'.cux = u.cux := by
  induction xs generalizing u with
  | nil => simp [pushPlaceholders] at h; rw [h]
  | cons x xs ih =>
    unfold pushPlaceholders at h
    split at h
    · simp at h
    · split at h
      · simp at h
      · rename_i w hw
        rw [ih h]
        unfold pushProvisional at hw
        split at hw <;> simp at hw
        rw [← hw]

theorem addPlaceholders_cux {u u' : Ule} {xs : Xids} (h : addPlaceholders u xs = some u') :
    u'.cux = u.cux ∧ u.cux ≠ [] := by
  unfold addPlaceholders at h
  split at h
  · simp at h
  · rename_i hc
    split at h
    · simp at h
    · split at h
      · simp at h
      · split at h
        · simp at h
        · exact ⟨pushPlaceholders_cux h, hc⟩

theorem writeUxr_top {u u' : Ule} {xs : Xids} {v : XrVal} (h : writeUxr u xs v = some u') :
    top? u' = some v := by
  unfold writeUxr at h
  obtain ⟨w, hw, hp⟩ := Option.bind_eq_some_iff.mp h
  unfold pushNew at hp
  simp only at hp
  split at hp
  · unfold pushCommitted at hp
    split at hp
    · rename_i hpx
      simp at hp
      subst hp
      cases w
      simp only at hpx
      subst hpx
      rfl
    · simp at hp
  · rename_i hx
    have hc : w.cux ≠ [] := by
      unfold prepareForNewUxr at hw
      split at hw
      · simp at hw
      · simp only [hx, false_and, if_false] at hw
        split at hw
        · rename_i hh
          obtain ⟨h1, h2⟩ := removeInnermost_cux hw hh.1
          rw [h1]; exact h2
        · obtain ⟨h1, h2⟩ := addPlaceholders_cux hw
          rw [h1]; exact h2
    unfold pushProvisional at hp
    split at hp
    · simp at hp
      subst hp
      cases hcc : w.cux with
      | nil => exact absurd hcc hc
      | cons c cs => exact top?_append ..
    · simp at hp

theorem removeInnermostPlaceholders_top {u u' : Ule} (h : removeInnermostPlaceholders u = some u') :
    ∃ v, top? u' = some v ∧ v ≠ .placeholder := by
  unfold removeInnermostPlaceholders at h
  split at h
  · simp at h
  · rename_i c cs hc
    simp only at h
    split at h
    · simp at h
    · rename_i hn
      simp at h
      subst h
      change ¬ (strip u.pux = [] ∧ _) at hn
      change ∃ v, top? ⟨u.cux, strip u.pux⟩ = some v ∧ v ≠ .placeholder
      rw [hc]
      cases hs : (strip u.pux).getLast? with
      | none =>
        have hnil : strip u.pux = [] := by simpa using hs
        rw [hnil]
        refine ⟨c.val, rfl, ?_⟩
        intro hcp
        exact hn ⟨hnil, by simp [Uxr.isPlaceholder, hcp]⟩
      | some r =>
        refine ⟨r.val, by simp [top?, innermost?, hs], ?_⟩
        have := strip_last _ _ hs
        intro hcp
        simp [Uxr.isPlaceholder, hcp] at this

/-- The row has a newest record and it is a value or a delete, not a placeholder. -/
def Real (u : Ule) : Prop := ∃ v, top? u = some v ∧ v ≠ .placeholder

theorem real_empty : Real emptyUle := ⟨.delete, rfl, by simp⟩

theorem Real.of_top {u u' : Ule} (h : Real u) (ht : top? u' = top? u) : Real u' := by
  obtain ⟨v, hv, hn⟩ := h
  exact ⟨v, ht.trans hv, hn⟩

/-- A message that does not assert leaves a row whose newest record is a value or a delete, never a
placeholder. -/
theorem applyOp_real {u u' : Ule} {xs : Xids} {op : Op} {d : Int} (h : applyOp u xs op = some (u', d))
    (hreal : Real u) : Real u' := by
  have hinn : ∀ r, innermost? u = some r → ∃ v, top? u = some v ∧ v ≠ .placeholder := fun _ _ => hreal
  cases op with
  | insert v =>
    simp only [applyOp, applyInsert] at h
    split at h
    · split at h
      · simp at h
      · obtain ⟨w, hw, he⟩ := Option.map_eq_some_iff.mp h
        simp at he
        rw [← he.1]
        exact ⟨_, writeUxr_top hw, by simp⟩
    · simp at h
  | insertNoOverwrite v =>
    simp only [applyOp, applyInsertNoOverwrite] at h
    split at h
    · split at h
      · simp at h
      · rename_i r hr
        split at h
        · simp at h
          rw [← h.1]
          exact hinn _ hr
        · obtain ⟨w, hw, he⟩ := Option.map_eq_some_iff.mp h
          simp at he
          rw [← he.1]
          exact ⟨_, writeUxr_top hw, by simp⟩
    · simp at h
  | delete =>
    simp only [applyOp, applyDelete] at h
    split at h
    · simp at h
    · obtain ⟨w, hw, he⟩ := Option.map_eq_some_iff.mp h
      simp at he
      rw [← he.1]
      exact ⟨_, writeUxr_top hw, by simp⟩
  | abort =>
    simp only [applyOp, applyAbort] at h
    split at h
    · simp at h
    · split at h
      · simp at h
      · rename_i r hr
        split at h
        · obtain ⟨w, hw, he⟩ := Option.map_eq_some_iff.mp h
          obtain ⟨w', hw', hw''⟩ := Option.bind_eq_some_iff.mp hw
          simp at he
          rw [← he.1]
          exact removeInnermostPlaceholders_top hw''
        · simp at h
          rw [← h.1]
          exact hinn _ hr
  | commit =>
    simp only [applyOp, applyCommit] at h
    obtain ⟨w, hw, he⟩ := Option.map_eq_some_iff.mp h
    simp at he
    rw [← he.1]
    split at hw
    · simp at hw
    · split at hw
      · simp at hw
      · rename_i r hr
        split at hw
        · split at hw
          · exact hreal.of_top (promoteToCommitted_top hw).1
          · exact hreal.of_top (promoteToIndex_top hw)
        · simp at hw
          rw [← hw]
          exact hinn _ hr
  | commitAll =>
    simp only [applyOp, applyCommitAll] at h
    obtain ⟨w, hw, he⟩ := Option.map_eq_some_iff.mp h
    obtain ⟨r, hr, hre⟩ := Option.map_eq_some_iff.mp hw
    simp at he
    rw [← he.1, ← hre]
    obtain ⟨v, hv, hvn⟩ := hinn _ hr
    simp [top?, hr] at hv
    exact ⟨_, rfl, by rw [hv]; exact hvn⟩
  | optimize =>
    simp only [applyOp, applyOptimize] at h
    obtain ⟨w, hw, he⟩ := Option.map_eq_some_iff.mp h
    simp at he
    rw [← he.1]
    split at hw
    · simp at hw; rw [← hw]; exact hreal
    · split at hw
      · exact hreal.of_top (promoteToCommitted_top hw).1
      · split at hw
        · exact hreal.of_top (promoteToCommitted_top hw).1
        · simp at hw; rw [← hw]; exact hreal
      · simp at hw

theorem msgModify_real {u u' : Ule} {xs : Xids} {op : Op} {d : Int} (h : msgModify u xs op = some (u', d))
    (hreal : Real u) : Real u' := by
  unfold msgModify at h
  split at h
  · split at h
    · exact applyOp_real h hreal
    · obtain ⟨w, hw, hp⟩ := Option.bind_eq_some_iff.mp h
      exact applyOp_real hp (hreal.of_top (implicitPromotions_top hw))
  · simp at h

theorem zeroBottom_head (c : Uxr) (cs : List Uxr) : ∃ c' cs', zeroBottom (c :: cs) = c' :: cs' ∧ c'.val = c.val := by
  cases cs with
  | nil => exact ⟨_, _, rfl, rfl⟩
  | cons d ds => exact ⟨_, _, rfl, rfl⟩

theorem top?_cut (u : Ule) (c : Uxr) (cs l : List Uxr) (hu : u.cux = c :: cs) (hl : ∃ c' l', l = c' :: l' ∧ c'.val = c.val) :
    top? { u with cux := l } = top? u := by
  obtain ⟨c', l', rfl, hv⟩ := hl
  unfold top? innermost?
  rw [hu]
  cases u.pux.getLast? <;> simp [hv]

theorem simpleGc_top (o : Txnid) (u : Ule) : top? (simpleGc o u) = top? u := by
  unfold simpleGc
  split
  · rfl
  · split
    · rfl
    · cases hc : u.cux with
      | nil => simp_all [keepToOldest]
      | cons c cs =>
        refine top?_cut u c cs _ hc ?_
        cases cs with
        | nil => simp_all
        | cons d ds =>
          unfold keepToOldest
          split
          · exact zeroBottom_head ..
          · exact zeroBottom_head ..

theorem simpleGcNoMvcc_top (u : Ule) : top? (simpleGcNoMvcc u) = top? u := by
  unfold simpleGcNoMvcc
  split
  · rename_i c _ _ hc
    exact top?_cut u c _ _ hc ⟨_, _, rfl, rfl⟩
  · rfl

theorem gcWalk_head {g : GcState} {c : Uxr} {cs l : List Uxr} (h : gcWalk g none (c :: cs) = some l) :
    ∃ l', l = c :: l' := by
  cases cs with
  | nil => simp [gcWalk] at h; exact ⟨[], h.symm⟩
  | cons d ds =>
    unfold gcWalk at h
    simp only at h
    split at h
    · obtain ⟨a, _, he⟩ := Option.map_eq_some_iff.mp h; exact ⟨a, he.symm⟩
    · split at h
      · simp at h
      · split at h
        · simp at h; exact ⟨_, h.symm⟩
        · obtain ⟨a, _, he⟩ := Option.map_eq_some_iff.mp h; exact ⟨a, he.symm⟩

theorem fullGc_top {g : GcState} {u u' : Ule} (h : fullGc g u = some u') : top? u' = top? u := by
  unfold fullGc at h
  split at h
  · simp at h; rw [h]
  · obtain ⟨l, hl, he⟩ := Option.map_eq_some_iff.mp h
    subst he
    cases hc : u.cux with
    | nil => rw [hc] at hl; simp [gcWalk] at hl; subst hl; simp [top?, innermost?, zeroBottom, hc]
    | cons c cs =>
      rw [hc] at hl
      obtain ⟨l', rfl⟩ := gcWalk_head hl
      exact top?_cut u c cs _ hc (zeroBottom_head ..)

theorem tryPromoteOutermost_top {u u' : Ule} {o : Txnid} (h : tryPromoteOutermost u o = some u') : top? u' = top? u := by
  unfold tryPromoteOutermost at h
  split at h
  · simp at h; rw [h]
  · split at h
    · exact (promoteToCommitted_top h).1
    · simp at h; rw [h]

theorem tidy_top {g g' : GcInfo} {u u' : Ule} (h : tidy g u = some (u', g')) : top? u' = top? u := by
  unfold tidy at h
  split at h
  · simp at h
  · rename_i u1 hu1
    have h1 := tryPromoteOutermost_top hu1
    have h2 : top? (if g.mvccNeeded = true then simpleGc g.simpleBound u1 else simpleGcNoMvcc u1) = top? u := by
      split
      · rw [simpleGc_top, h1]
      · rw [simpleGcNoMvcc_top, h1]
    generalize (if g.mvccNeeded = true then simpleGc g.simpleBound u1 else simpleGcNoMvcc u1) = u2 at h h2
    simp only at h
    split at h
    · simp at h; rw [← h.1]; exact h2
    · split at h
      · obtain ⟨w, hw, he⟩ := Option.map_eq_some_iff.mp h
        simp at he
        rw [← he.1, fullGc_top hw]
        exact h2
      · simp at h; rw [← h.1]; exact h2

/-- Bytes a row contributes: key and newest value, if there is one. -/
def liveBytes (keylen : Nat) (v : Option Bytes) : Nat :=
  match v with
  | some b => keylen + b.length
  | none => 0

theorem numBytes_real {u : Ule} {n k : Nat} (hr : Real u) (h : numBytes u k = some n) : n = liveBytes k (latest u) := by
  unfold numBytes at h
  obtain ⟨r, hi, he⟩ := Option.map_eq_some_iff.mp h
  obtain ⟨v, hv, hn⟩ := hr
  rw [latest_eq_top?, hv]
  simp [top?, hi] at hv
  subst hv
  subst he
  cases hrv : r.val with
  | insert b => simp [Uxr.isDelete, hrv, XrVal.vallen, liveBytes, XrVal.read]; omega
  | delete => simp [Uxr.isDelete, hrv, liveBytes, XrVal.read]
  | placeholder => exact absurd hrv hn

theorem latest_none_of_no_insert {u : Ule} (h : hasInsert u = false) : latest u = none := by
  simp [hasInsert] at h
  obtain ⟨hc, hp⟩ := h
  unfold latest innermost?
  cases hcc : u.cux with
  | nil => rfl
  | cons c cs =>
    simp only [Option.bind_some]
    have hno : ∀ r : Uxr, r.isInsert = false → r.val.read = none := by
      intro r hr
      cases hv : r.val <;> simp_all [Uxr.isInsert, XrVal.read]
    cases hl : u.pux.getLast? with
    | none => exact hno _ (by simpa using hc c (by simp [hcc]))
    | some r => exact hno _ (by simpa using hp r (List.mem_of_getLast? hl))

/-- The value of a row that may be absent. -/
def valOf (o : Option Ule) : Option Bytes := o.bind latest

/-- What applying a message to a row reports: the row that remains is real, the byte delta is the change in
live bytes (counting the message's key), and the logical delta is that of `msg_modify_ule`. -/
theorem leApply_spec {g : GcInfo} {old : Option Ule} {k : Nat} {xs : Xids} {op : Op} {r : LeResult}
    (h : leApply g old k xs op = some r) (hr : ∀ u, old = some u → Real u) :
    (∀ u, r.new = some u → Real u) ∧
    r.bytesDelta = (liveBytes k (valOf r.new) : Int) - liveBytes k (valOf old) ∧
    ∃ u1, msgModify (old.getD emptyUle) xs op = some (u1, r.logicalDelta) ∧ latest u1 = valOf r.new := by
  unfold leApply at h
  simp only at h
  have hstart : Real (old.getD emptyUle) := by
    cases old with
    | none => exact real_empty
    | some u => exact hr u rfl
  split at h
  · simp at h
  · rename_i ob hob
    have hob' : ob = liveBytes k (valOf old) := by
      cases old with
      | none => simp at hob; subst hob; rfl
      | some u => exact numBytes_real (hr u rfl) hob
    split at h
    · simp at h
    · rename_i u1 dl hm
      have h1 := msgModify_real hm hstart
      split at h
      · simp at h
      · rename_i u2 g' ht
        have h2t := tidy_top ht
        have h2 := h1.of_top h2t
        have hlat : latest u1 = latest u2 := by rw [latest_eq_top?, latest_eq_top?, h2t]
        split at h
        · obtain ⟨nb, hnb, he⟩ := Option.map_eq_some_iff.mp h
          subst he
          refine ⟨fun u hu => by simp at hu; exact hu ▸ h2, ?_, u1, hm, hlat⟩
          rw [numBytes_real h2 hnb, hob']
          rfl
        · rename_i hi
          simp at h
          subst h
          refine ⟨fun u hu => by simp at hu, ?_, u1, hm, ?_⟩
          · rw [hob']; simp [valOf, liveBytes]
          · rw [hlat]; exact latest_none_of_no_insert (by simpa using hi)

end Verif.Ft
