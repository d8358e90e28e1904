import Verif.Ule.Model
import Mathlib.Data.List.Induction

/-! Helper lemmas: closed forms of the leaf-entry operations on well-formed stacks. -/
namespace Verif.Ule

/-- Well-formed version stack. -/
structure Wf (u : Ule) : Prop where
  cne : u.cux ≠ []
  cnp : ∀ r ∈ u.cux, r.isPlaceholder = false
  plast : ∀ r, u.pux.getLast? = some r → r.isPlaceholder = false
  pnodup : (u.pux.map (·.xid)).Nodup
  p0 : ∀ r ∈ u.pux, r.xid ≠ 0
  plen : u.pux.length ≤ 253

/-- A legal non-empty chain of nested transaction ids. -/
structure Chain (xs : Xids) : Prop where
  ne : xs ≠ []
  nodup : xs.Nodup
  nz : ∀ x ∈ xs, x ≠ 0
  len : xs.length ≤ 253

/-- innermost value -/
def topVal (u : Ule) : XrVal := match u.pux.getLast? with
  | some r => r.val
  | none => match u.cux with
    | c :: _ => c.val
    | [] => .delete

/-- closed form of promotion to `m` provisional records -/
def promoN (u : Ule) (m : Nat) : Ule :=
  if u.pux.length ≤ m then u
  else match m with
  | 0 => match u.pux with
    | [] => u
    | o :: _ => ⟨⟨o.xid, topVal u⟩ :: u.cux, []⟩
  | m+1 => match u.pux[m]? with
    | none => u
    | some f => ⟨u.cux, u.pux.take m ++ [⟨f.xid, topVal u⟩]⟩

theorem promoN_of_le (u : Ule) (m : Nat) (h : u.pux.length ≤ m) : promoN u m = u := by
  unfold promoN; rw [if_pos h]

theorem promoN_zero (u : Ule) (o : Uxr) (os : List Uxr) (h : u.pux = o :: os) :
    promoN u 0 = ⟨⟨o.xid, topVal u⟩ :: u.cux, []⟩ := by
  unfold promoN; rw [if_neg (by simp [h])]; simp [h]

theorem promoN_succ (u : Ule) (m : Nat) (f : Uxr) (h : m + 1 < u.pux.length)
    (hf : u.pux[m]? = some f) :
    promoN u (m+1) = ⟨u.cux, u.pux.take m ++ [⟨f.xid, topVal u⟩]⟩ := by
  unfold promoN; rw [if_neg (by omega)]; simp [hf]

def promo (u : Ule) (xs : Xids) : Ule := promoN u (matchLen u.pux xs)

def strip (l : List Uxr) : List Uxr := (l.reverse.dropWhile Uxr.isPlaceholder).reverse

theorem strip_append_ph (l : List Uxr) (r : Uxr) (h : r.isPlaceholder = true) :
    strip (l ++ [r]) = strip l := by simp [strip, h]

theorem strip_append_np (l : List Uxr) (r : Uxr) (h : r.isPlaceholder = false) :
    strip (l ++ [r]) = l ++ [r] := by simp [strip, h]

theorem strip_nil : strip [] = [] := rfl

theorem strip_of_last (l : List Uxr) (h : ∀ r, l.getLast? = some r → r.isPlaceholder = false) :
    strip l = l := by
  rcases List.eq_nil_or_concat l with rfl | ⟨l', r, rfl⟩
  · rfl
  · simp at h
    simpa using strip_append_np l' r h

theorem strip_last (l : List Uxr) (r : Uxr) (h : (strip l).getLast? = some r) :
    r.isPlaceholder = false := by
  simp only [strip, List.getLast?_reverse] at h
  have := List.head?_dropWhile_not Uxr.isPlaceholder l.reverse
  rw [h] at this
  simpa using this

theorem strip_prefix (l : List Uxr) : strip l <+: l := by
  have h : l.reverse.dropWhile Uxr.isPlaceholder <:+ l.reverse := List.dropWhile_suffix _
  have := List.reverse_prefix.mpr h
  simpa [strip] using this

theorem strip_append_phs (l : List Uxr) (xs : List Txnid) :
    strip (l ++ xs.map (fun x => (⟨x, .placeholder⟩ : Uxr))) = strip l := by
  induction xs using List.reverseRecOn with
  | nil => simp
  | append_singleton xs x ih =>
    rw [List.map_append, ← List.append_assoc]
    simp only [List.map_cons, List.map_nil]
    rw [strip_append_ph _ _ rfl, ih]

theorem matchLen_le_left (l : List Uxr) (xs : Xids) : matchLen l xs ≤ l.length := by
  fun_induction matchLen l xs <;> simp_all

theorem matchLen_le_right (l : List Uxr) (xs : Xids) : matchLen l xs ≤ xs.length := by
  fun_induction matchLen l xs <;> simp_all

theorem matchLen_take (l : List Uxr) (xs : Xids) (k : Nat) :
    matchLen l (xs.take k) = min (matchLen l xs) k := by
  induction l generalizing xs k with
  | nil => simp [matchLen]
  | cons f fs ih =>
    cases xs with
    | nil => simp [matchLen]
    | cons x xs =>
      cases k with
      | zero => simp [matchLen]
      | succ k =>
        simp only [List.take_succ_cons, matchLen]
        split
        · rw [ih]; omega
        · simp

theorem matchLen_prefix (l : List Uxr) (xs : Xids) :
    (l.take (matchLen l xs)).map (·.xid) = xs.take (matchLen l xs) := by
  fun_induction matchLen l xs with
  | case1 => simp_all
  | case2 => simp
  | case3 => simp

theorem matchLen_of_prefix (l : List Uxr) (xs : Xids) (h : l.map (·.xid) <+: xs) :
    matchLen l xs = l.length := by
  induction l generalizing xs with
  | nil => simp [matchLen]
  | cons f fs ih =>
    obtain ⟨t, rfl⟩ := h
    simp [matchLen, ih]

theorem innermost?_eq (u : Ule) (h : u.cux ≠ []) :
    ∃ r, innermost? u = some r ∧ r.val = topVal u ∧
      ((u.pux = [] ∧ u.cux.head? = some r) ∨ (u.pux.getLast? = some r)) := by
  unfold innermost? topVal
  cases hc : u.cux with
  | nil => exact absurd hc h
  | cons c cs =>
    cases hp : u.pux.getLast? with
    | none =>
      have hnil : u.pux = [] := by simpa using hp
      exact ⟨c, by simp, by simp, Or.inl ⟨hnil, by simp⟩⟩
    | some r => exact ⟨r, by simp, by simp, Or.inr rfl⟩

theorem topVal_np (u : Ule) (hw : Wf u) : topVal u ≠ .placeholder := by
  unfold topVal
  cases hp : u.pux.getLast? with
  | some r =>
    have := hw.plast r hp
    simp only
    intro h; simp [Uxr.isPlaceholder, h] at this
  | none =>
    cases hc : u.cux with
    | nil => simp
    | cons c cs =>
      have := hw.cnp c (by simp [hc])
      simp only
      intro h; simp [Uxr.isPlaceholder, h] at this

theorem innermost_np (u : Ule) (hw : Wf u) (r : Uxr) (h : innermost? u = some r) :
    r.isPlaceholder = false := by
  obtain ⟨r', h1, h2, -⟩ := innermost?_eq u hw.cne
  rw [h] at h1; cases h1
  have := topVal_np u hw
  unfold Uxr.isPlaceholder
  rw [h2]; split <;> simp_all

theorem topVal_promoN (u : Ule) (m : Nat) : topVal (promoN u m) = topVal u := by
  unfold promoN
  split
  · rfl
  · cases m with
    | zero =>
      cases hp : u.pux with
      | nil => rfl
      | cons o os => simp [topVal]
    | succ m =>
      simp only
      split
      · rfl
      · simp [topVal]

theorem promoN_cux_ne (u : Ule) (m : Nat) (h : u.cux ≠ []) : (promoN u m).cux ≠ [] := by
  unfold promoN
  split
  · exact h
  · split
    · split <;> simp_all
    · split <;> simp_all

theorem promoN_len (u : Ule) (m : Nat) : (promoN u m).pux.length = min u.pux.length m := by
  unfold promoN
  split
  · omega
  · cases m with
    | zero => cases hp : u.pux <;> simp [hp]
    | succ m =>
      simp only
      split
      · rename_i h; simp at h; omega
      · simp; omega

theorem promoN_xids (u : Ule) (m : Nat) :
    (promoN u m).pux.map (·.xid) = (u.pux.map (·.xid)).take m := by
  unfold promoN
  split
  · rw [List.take_of_length_le (by simpa)]
  · cases m with
    | zero => cases hp : u.pux <;> simp [hp]
    | succ m =>
      simp only
      split
      · rename_i h; simp at h; omega
      · rename_i f hf
        simp [List.take_add_one, hf, ← List.map_take]

theorem promoN_take (u : Ule) (m k : Nat) (h : k < m) :
    (promoN u m).pux.take k = u.pux.take k := by
  unfold promoN
  split
  · rfl
  · cases m with
    | zero => omega
    | succ m =>
      simp only
      split
      · rfl
      · rename_i f hf
        have : m < u.pux.length := by
          rcases Nat.lt_or_ge m u.pux.length with h' | h'
          · exact h'
          · simp [List.getElem?_eq_none h'] at hf
        simp only
        rw [List.take_append_of_le_length (by simp; omega), List.take_take]
        congr 1; omega

theorem promoN_cux_pos (u : Ule) (m : Nat) (h : 0 < m) : (promoN u m).cux = u.cux := by
  unfold promoN
  split
  · rfl
  · cases m with
    | zero => omega
    | succ m => simp only; split <;> rfl

theorem promoN_last (u : Ule) (m : Nat) (r : Uxr) (hm : m < u.pux.length)
    (h : (promoN u m).pux.getLast? = some r) : r.val = topVal u := by
  unfold promoN at h
  rw [if_neg (by omega)] at h
  cases m with
  | zero =>
    simp only at h
    split at h <;> simp_all
  | succ m =>
    simp only at h
    split at h
    · rename_i h'; simp at h'; omega
    · simp at h; rw [← h]

theorem promoN_wf (u : Ule) (m : Nat) (hw : Wf u) : Wf (promoN u m) := by
  have hx := promoN_xids u m
  refine ⟨promoN_cux_ne u m hw.cne, ?_, ?_, ?_, ?_, ?_⟩
  · intro r hr
    rcases Nat.eq_zero_or_pos m with rfl | hm
    · unfold promoN at hr
      split at hr
      · exact hw.cnp r hr
      · simp only at hr
        split at hr
        · exact hw.cnp r hr
        · simp only [List.mem_cons] at hr
          rcases hr with rfl | hr
          · have := topVal_np u hw
            unfold Uxr.isPlaceholder; split <;> simp_all
          · exact hw.cnp r hr
    · rw [promoN_cux_pos u m hm] at hr; exact hw.cnp r hr
  · intro r hr
    by_cases hm : u.pux.length ≤ m
    · have : promoN u m = u := by unfold promoN; rw [if_pos hm]
      rw [this] at hr; exact hw.plast r hr
    · have h1 := promoN_last u m r (by omega) hr
      have := topVal_np u hw
      unfold Uxr.isPlaceholder; split <;> simp_all
  · rw [hx]; exact hw.pnodup.sublist (List.take_sublist _ _)
  · intro r hr
    have : r.xid ∈ (promoN u m).pux.map (·.xid) := List.mem_map_of_mem hr
    rw [hx] at this
    have := List.mem_of_mem_take this
    obtain ⟨r', h1, h2⟩ := List.mem_map.mp this
    rw [← h2]; exact hw.p0 r' h1
  · rw [promoN_len]; have := hw.plen; omega

theorem promoN_promoN (u : Ule) (m k : Nat) (hkm : k ≤ m) :
    promoN (promoN u m) k = promoN u k := by
  by_cases hm : u.pux.length ≤ m
  · have : promoN u m = u := by unfold promoN; rw [if_pos hm]
    rw [this]
  · have hlen := promoN_len u m
    have hlen' : (promoN u m).pux.length = m := by omega
    by_cases hk : k = m
    · subst hk
      exact promoN_of_le _ _ (by omega)
    · have hcux := promoN_cux_pos u m (by omega)
      cases k with
      | zero =>
        have hx := promoN_xids u m
        cases hp : u.pux with
        | nil => simp [hp] at hm
        | cons o os =>
          obtain ⟨m', rfl⟩ : ∃ m', m = m' + 1 := ⟨m - 1, by omega⟩
          cases hq : (promoN u (m'+1)).pux with
          | nil => simp [hq] at hlen'
          | cons o' os' =>
            rw [promoN_zero _ _ _ hp, promoN_zero _ _ _ hq, hcux, topVal_promoN]
            rw [hp, hq] at hx
            simp at hx
            rw [hx.1]
      | succ k =>
        have h1 : (promoN u m).pux[k]? = u.pux[k]? := by
          have := promoN_take u m (k+1) (by omega)
          have h2 := congrArg (·[k]?) this
          simpa [List.getElem?_take] using h2
        cases hf : u.pux[k]? with
        | none => simp at hf; omega
        | some f =>
          rw [promoN_succ u k f (by omega) hf, promoN_succ _ k f (by omega) (h1.trans hf),
            promoN_take u m k (by omega), hcux, topVal_promoN]

theorem implicitPromotions_eq (u : Ule) (xs : Xids) (hw : Wf u) (hx : xs ≠ []) :
    implicitPromotions u xs = some (promo u xs) := by
  unfold implicitPromotions promo promoN
  by_cases hp : u.pux = []
  · simp [hp]
  · rw [if_neg hp, if_neg hx]
    obtain ⟨inn, hi, hv, -⟩ := innermost?_eq u hw.cne
    have hnp := innermost_np u hw inn hi
    simp only
    have hle := matchLen_le_left u.pux xs
    by_cases h0 : matchLen u.pux xs = 0
    · rw [if_pos h0, h0]
      have hpos : 0 < u.pux.length := List.length_pos_iff.mpr hp
      rw [if_neg (by omega)]
      unfold promoteToCommitted
      cases hq : u.pux with
      | nil => exact absurd hq hp
      | cons o os =>
        simp [hi, hnp, pushCommitted, hv]
    · rw [if_neg h0]
      by_cases hlt : matchLen u.pux xs < u.pux.length
      · rw [if_pos hlt, if_neg (by omega)]
        obtain ⟨m, hm⟩ : ∃ m, matchLen u.pux xs = m + 1 := ⟨matchLen u.pux xs - 1, by omega⟩
        rw [hm]
        simp only [Nat.add_sub_cancel]
        unfold promoteToIndex
        rw [if_pos (by omega), hi]
        cases hf : u.pux[m]? with
        | none => simp at hf; omega
        | some f =>
          have := hw.plen
          simp [hnp, pushProvisional, maxTransactionRecords, hv]
          omega
      · rw [if_neg hlt, if_pos (by omega)]

theorem promo_wf (u : Ule) (xs : Xids) (hw : Wf u) : Wf (promo u xs) := promoN_wf u _ hw

theorem promo_prefix (u : Ule) (xs : Xids) : (promo u xs).pux.map (·.xid) <+: xs := by
  unfold promo
  rw [promoN_xids, ← List.map_take, matchLen_prefix]
  exact List.take_prefix _ _

theorem promo_len_le (u : Ule) (xs : Xids) : (promo u xs).pux.length ≤ xs.length := by
  have := (promo_prefix u xs).length_le; simpa using this

end Verif.Ule
