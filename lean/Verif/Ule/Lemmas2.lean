import Verif.Ule.Lemmas

/-! Closed forms of write / abort / commit on well-formed stacks. -/
namespace Verif.Ule

def phs (xs : List Txnid) : List Uxr := xs.map fun x => ⟨x, .placeholder⟩

theorem phs_xids (xs : List Txnid) : (phs xs).map (·.xid) = xs := by
  simp [phs, Function.comp_def]

/-- closed form of a write on an aligned stack -/
def writeA (u : Ule) (xs : Xids) (v : XrVal) : Ule :=
  ⟨u.cux, u.pux.take (xs.length - 1) ++ phs (xs.dropLast.drop u.pux.length)
    ++ [⟨innermostXid xs, v⟩]⟩

/-- closed form of an abort on an aligned stack -/
def abortA (u : Ule) (xs : Xids) : Ule := ⟨u.cux, strip (u.pux.take (xs.length - 1))⟩

/-- closed form of a commit on an aligned stack -/
def commitA (u : Ule) (xs : Xids) : Ule := promoN u (xs.length - 1)

def writeF (u : Ule) (xs : Xids) (v : XrVal) : Ule := writeA (promo u xs) xs v
def abortF (u : Ule) (xs : Xids) : Ule := abortA (promo u xs) xs
def commitF (u : Ule) (xs : Xids) : Ule := commitA (promo u xs) xs

/-- the ids of the provisional records are a prefix of the chain -/
def Aligned (u : Ule) (xs : Xids) : Prop := u.pux.map (·.xid) <+: xs

theorem Chain.innermost (xs : Xids) (h : Chain xs) :
    ∃ ys x, xs = ys ++ [x] ∧ innermostXid xs = x ∧ x ≠ 0 ∧ x ∉ ys := by
  rcases List.eq_nil_or_concat xs with rfl | ⟨ys, x, rfl⟩
  · exact absurd rfl h.ne
  · rw [List.concat_eq_append] at *
    refine ⟨ys, x, rfl, by simp [innermostXid], h.nz x (by simp), ?_⟩
    have := h.nodup
    rw [List.nodup_append] at this
    intro hx
    exact this.2.2 x hx x (by simp) rfl

/-- In an aligned stack the innermost provisional id is the chain's innermost id iff the stack is as
deep as the chain. -/
theorem aligned_top (u : Ule) (ys : Xids) (x : Txnid) (hn : x ∉ ys)
    (ha : Aligned u (ys ++ [x])) (r : Uxr) (hr : u.pux.getLast? = some r) :
    r.xid = x ↔ u.pux.length = ys.length + 1 := by
  unfold Aligned at ha
  have hne : u.pux ≠ [] := by intro h; simp [h] at hr
  have h1 : (u.pux.map (·.xid)).getLast? = some r.xid := by simp [hr]
  have h2 : u.pux.map (·.xid) = (ys ++ [x]).take u.pux.length := by
    have := List.prefix_iff_eq_take.mp ha
    simpa using this
  have hlen : u.pux.length ≤ ys.length + 1 := by
    have := ha.length_le; simpa using this
  constructor
  · intro hx
    apply Classical.byContradiction
    intro hlt
    rw [List.take_append_of_le_length (by omega)] at h2
    rw [h2] at h1
    have : r.xid ∈ ys := List.mem_of_mem_take (List.mem_of_getLast? h1)
    exact hn (hx ▸ this)
  · intro hl
    rw [hl] at h2
    rw [List.take_of_length_le (by simp)] at h2
    rw [h2] at h1
    simp at h1; exact h1.symm

theorem pushPlaceholders_eq (u : Ule) (xs : Xids) (hc : u.cux ≠ [])
    (hl : u.pux.length + xs.length ≤ 253) :
    pushPlaceholders u xs = some ⟨u.cux, u.pux ++ phs xs⟩ := by
  induction xs generalizing u with
  | nil => simp [pushPlaceholders, phs]
  | cons x xs ih =>
    simp only [List.length_cons] at hl
    have h1 : pushProvisional u ⟨x, .placeholder⟩ =
        some ⟨u.cux, u.pux ++ [⟨x, .placeholder⟩]⟩ := by
      unfold pushProvisional
      rw [if_pos (by simp only [maxTransactionRecords]; omega)]
    simp only [pushPlaceholders, if_neg hc, h1]
    rw [ih]
    · simp [phs]
    · exact hc
    · simp; omega

theorem writeUxr_eq (u : Ule) (xs : Xids) (v : XrVal) (hw : Wf u) (hx : Chain xs)
    (ha : Aligned u xs) : writeUxr u xs v = some (writeA u xs v) := by
  obtain ⟨ys, x, rfl, hix, hx0, hxn⟩ := hx.innermost
  obtain ⟨inn, hi, -, hor⟩ := innermost?_eq u hw.cne
  have hlen : u.pux.length ≤ ys.length + 1 := by
    have := ha.length_le; simpa using this
  have hchain := hx.len
  simp only [List.length_append, List.length_singleton] at hchain
  unfold writeUxr prepareForNewUxr uleInnermostXid
  rw [hi]
  simp only [Option.map_some, hix]
  rw [if_neg (by simp [txnidNone, hx0])]
  unfold writeA
  rw [hix]
  by_cases hfull : u.pux.length = ys.length + 1
  · have hne : u.pux ≠ [] := by intro h; simp [h] at hfull
    have hr : u.pux.getLast? = some inn := by
      rcases hor with h | h
      · exact absurd h.1 hne
      · exact h
    have : inn.xid = x := (aligned_top u ys x hxn ha inn hr).mpr hfull
    rw [if_pos ⟨hne, this⟩]
    simp only [removeInnermost, if_neg hw.cne, if_pos hne, Option.bind_some, pushNew, hix,
      if_neg (show ¬ x = txnidNone by simpa [txnidNone] using hx0), pushProvisional]
    rw [if_pos (by simp [maxTransactionRecords]; omega)]
    congr 2
    rw [List.dropLast_eq_take]
    simp [hfull, phs]
  · have hcond : ¬ (u.pux ≠ [] ∧ inn.xid = x) := by
      rintro ⟨hne, h⟩
      have hr : u.pux.getLast? = some inn := by
        rcases hor with h | h
        · exact absurd h.1 hne
        · exact h
      exact hfull ((aligned_top u ys x hxn ha inn hr).mp h)
    rw [if_neg hcond]
    unfold addPlaceholders
    rw [if_neg hw.cne, if_neg (by simp; omega), if_neg, if_neg (by simp), pushPlaceholders_eq _ _ hw.cne]
    · simp only [Option.bind_some, pushNew, hix,
        if_neg (show ¬ x = txnidNone by simpa [txnidNone] using hx0), pushProvisional]
      rw [if_pos]
      · congr 2
        rw [List.take_of_length_le (by simp; omega)]
      · simp [phs, maxTransactionRecords]; omega
    · simp; omega
    · simp only [ne_eq, Decidable.not_not]
      have := List.prefix_iff_eq_take.mp ha
      simpa using this

theorem applyAbort_eq (u : Ule) (xs : Xids) (hw : Wf u) (hx : Chain xs)
    (ha : Aligned u xs) : ∃ d, applyAbort u xs = some (abortA u xs, d) := by
  obtain ⟨ys, x, rfl, hix, hx0, hxn⟩ := hx.innermost
  obtain ⟨inn, hi, -, hor⟩ := innermost?_eq u hw.cne
  have hlen : u.pux.length ≤ ys.length + 1 := by
    have := ha.length_le; simpa using this
  unfold applyAbort abortA
  simp only [hix, hi]
  rw [if_neg (by simpa [txnidNone] using hx0)]
  by_cases hfull : u.pux.length = ys.length + 1
  · have hne : u.pux ≠ [] := by intro h; simp [h] at hfull
    have hr : u.pux.getLast? = some inn := by
      rcases hor with h | h
      · exact absurd h.1 hne
      · exact h
    have : inn.xid = x := (aligned_top u ys x hxn ha inn hr).mpr hfull
    rw [if_pos ⟨hne, this⟩]
    simp only [removeInnermost, if_neg hw.cne, if_pos hne, Option.bind_some]
    unfold removeInnermostPlaceholders
    cases hc : u.cux with
    | nil => exact absurd hc hw.cne
    | cons c cs =>
      have hcp := hw.cnp c (by simp [hc])
      simp only
      rw [if_neg (by simp [hcp])]
      refine ⟨abortRowDelta u inn, ?_⟩
      simp only [Option.map_some]
      rw [List.dropLast_eq_take, hfull]
      simp [strip]
  · have hcond : ¬ (u.pux ≠ [] ∧ inn.xid = x) := by
      rintro ⟨hne, h⟩
      have hr : u.pux.getLast? = some inn := by
        rcases hor with h | h
        · exact absurd h.1 hne
        · exact h
      exact hfull ((aligned_top u ys x hxn ha inn hr).mp h)
    rw [if_neg hcond]
    refine ⟨0, ?_⟩
    rw [List.take_of_length_le (by simp; omega), strip_of_last _ hw.plast]

theorem applyCommit_eq (u : Ule) (xs : Xids) (hw : Wf u) (hx : Chain xs)
    (ha : Aligned u xs) : applyCommit u xs = some (commitA u xs) := by
  obtain ⟨ys, x, rfl, hix, hx0, hxn⟩ := hx.innermost
  obtain ⟨inn, hi, hv, hor⟩ := innermost?_eq u hw.cne
  have hnp := innermost_np u hw inn hi
  have hlen : u.pux.length ≤ ys.length + 1 := by
    have := ha.length_le; simpa using this
  have hplen := hw.plen
  unfold applyCommit commitA
  simp only [hix, hi]
  rw [if_neg (by simpa [txnidNone] using hx0)]
  by_cases hfull : u.pux.length = ys.length + 1
  · have hne : u.pux ≠ [] := by intro h; simp [h] at hfull
    have hr : u.pux.getLast? = some inn := by
      rcases hor with h | h
      · exact absurd h.1 hne
      · exact h
    have : inn.xid = x := (aligned_top u ys x hxn ha inn hr).mpr hfull
    rw [if_pos ⟨hne, this⟩]
    by_cases h1 : u.pux.length = 1
    · rw [if_pos h1]
      obtain ⟨o, hp⟩ := List.length_eq_one_iff.mp h1
      have hys : ys.length = 0 := by omega
      rw [show (ys ++ [x]).length - 1 = 0 by simp [hys], promoN_zero u o [] hp]
      unfold promoteToCommitted
      rw [hp]
      simp [hi, hnp, pushCommitted, hv]
    · rw [if_neg h1]
      obtain ⟨k, hk⟩ : ∃ k, ys.length = k + 1 := ⟨ys.length - 1, by omega⟩
      rw [show (ys ++ [x]).length - 1 = k + 1 by simp [hk], show u.pux.length - 2 = k by omega]
      unfold promoteToIndex
      rw [if_pos (by omega), hi]
      cases hf : u.pux[k]? with
      | none => simp at hf; omega
      | some f =>
        rw [promoN_succ u k f (by omega) hf]
        simp [hnp, pushProvisional, hv, maxTransactionRecords]
        omega
  · have hcond : ¬ (u.pux ≠ [] ∧ inn.xid = x) := by
      rintro ⟨hne, h⟩
      have hr : u.pux.getLast? = some inn := by
        rcases hor with h | h
        · exact absurd h.1 hne
        · exact h
      exact hfull ((aligned_top u ys x hxn ha inn hr).mp h)
    rw [if_neg hcond, promoN_of_le _ _ (by simp; omega)]

theorem writeA_wf (u : Ule) (xs : Xids) (v : XrVal) (hw : Wf u) (hx : Chain xs)
    (ha : Aligned u xs) (hv : v ≠ .placeholder) :
    Wf (writeA u xs v) ∧ (writeA u xs v).pux.map (·.xid) = xs := by
  have hids : (writeA u xs v).pux.map (·.xid) = xs := by
    obtain ⟨ys, x, rfl, hix, hx0, hxn⟩ := hx.innermost
    have hp := List.prefix_iff_eq_take.mp ha
    simp only [List.length_map] at hp
    have hlen : u.pux.length ≤ ys.length + 1 := by
      have := ha.length_le; simpa using this
    simp only [writeA, List.map_append, phs_xids, List.map_cons, List.map_nil, hix, List.map_take, hp]
    simp only [List.length_append, List.length_singleton, Nat.add_sub_cancel, List.dropLast_concat,
      List.take_take]
    by_cases h : u.pux.length ≤ ys.length
    · rw [Nat.min_eq_right h, List.take_append_of_le_length h, List.take_append_drop]
    · have : u.pux.length = ys.length + 1 := by omega
      rw [this]
      simp
  refine ⟨⟨hw.cne, hw.cnp, ?_, ?_, ?_, ?_⟩, hids⟩
  · intro r hr
    simp only [writeA, List.getLast?_append, List.getLast?_singleton, Option.some_or,
      Option.some.injEq] at hr
    rw [← hr]; unfold Uxr.isPlaceholder; split <;> simp_all
  · rw [hids]; exact hx.nodup
  · intro r hr
    have : r.xid ∈ (writeA u xs v).pux.map (·.xid) := List.mem_map_of_mem hr
    rw [hids] at this; exact hx.nz _ this
  · have : (writeA u xs v).pux.length = xs.length := by simpa using congrArg List.length hids
    rw [this]; exact hx.len

theorem strip_take_wf (u : Ule) (hw : Wf u) (k : Nat) : Wf ⟨u.cux, strip (u.pux.take k)⟩ := by
  have hpre : strip (u.pux.take k) <+: u.pux := (strip_prefix _).trans (List.take_prefix _ _)
  refine ⟨hw.cne, hw.cnp, fun r hr => strip_last _ r hr, ?_, ?_, ?_⟩
  · exact hw.pnodup.sublist (hpre.sublist.map _)
  · intro r hr; exact hw.p0 r (hpre.subset hr)
  · exact Nat.le_trans hpre.length_le hw.plen

theorem abortA_wf (u : Ule) (xs : Xids) (hw : Wf u) : Wf (abortA u xs) := strip_take_wf u hw _

theorem commitA_wf (u : Ule) (xs : Xids) (hw : Wf u) : Wf (commitA u xs) := promoN_wf u _ hw

theorem promo_aligned (u : Ule) (xs : Xids) : Aligned (promo u xs) xs := promo_prefix u xs

theorem promo_of_aligned (u : Ule) (xs : Xids) (h : Aligned u xs) : promo u xs = u := by
  unfold promo
  rw [matchLen_of_prefix _ _ h]
  exact promoN_of_le _ _ (Nat.le_refl _)

/-- Promotion by a prefix after promotion by the whole chain. -/
theorem promo_promo_prefix (u : Ule) (xs p : Xids) (hp : p <+: xs) :
    promo (promo u xs) p = promo u p := by
  obtain ⟨k, rfl⟩ : ∃ k, p = xs.take k := ⟨p.length, List.prefix_iff_eq_take.mp hp⟩
  unfold promo
  have h1 : matchLen (promoN u (matchLen u.pux xs)).pux xs = matchLen u.pux xs := by
    have := matchLen_of_prefix (promo u xs).pux xs (promo_prefix u xs)
    unfold promo at this
    rw [this, promoN_len]
    have := matchLen_le_left u.pux xs
    omega
  rw [matchLen_take, matchLen_take, h1, promoN_promoN]
  omega

/-- Core of transaction abort: undoing at a prefix of the chain forgets the write. -/
theorem abortF_writeF (u : Ule) (xs p : Xids) (v : XrVal) (hw : Wf u) (hx : Chain xs)
    (hp : p <+: xs) (hpne : p ≠ []) (hv : v ≠ .placeholder) :
    abortF (writeF u xs v) p = abortF u p := by
  have hw' := promo_wf u xs hw
  have ha' := promo_aligned u xs
  rw [show abortF u p = abortF (promo u xs) p by
    unfold abortF; rw [promo_promo_prefix u xs p hp]]
  unfold writeF
  generalize promo u xs = w at *
  obtain ⟨hww, hwx⟩ := writeA_wf w xs v hw' hx ha' hv
  obtain ⟨k, hk, rfl⟩ : ∃ k, k + 1 ≤ xs.length ∧ p = xs.take (k+1) := by
    refine ⟨p.length - 1, ?_, ?_⟩
    · have := hp.length_le
      have := List.length_pos_iff.mpr hpne
      omega
    · rw [show p.length - 1 + 1 = p.length by have := List.length_pos_iff.mpr hpne; omega]
      exact List.prefix_iff_eq_take.mp hp
  have hlk : (xs.take (k+1)).length = k + 1 := by simp; omega
  have hm1 : matchLen (writeA w xs v).pux (xs.take (k+1)) = k + 1 := by
    rw [matchLen_take, matchLen_of_prefix _ _ (by rw [hwx]; exact List.prefix_refl _)]
    have : (writeA w xs v).pux.length = xs.length := by simpa using congrArg List.length hwx
    omega
  have hm2 : matchLen w.pux (xs.take (k+1)) = min w.pux.length (k+1) := by
    rw [matchLen_take, matchLen_of_prefix _ _ ha']
  unfold abortF abortA promo
  rw [hm1, hm2, hlk]
  simp only [Nat.add_sub_cancel]
  rw [promoN_cux_pos _ _ (by omega), promoN_take _ _ _ (by omega)]
  have hwl : w.pux.length ≤ xs.length := by
    have := ha'.length_le; simpa using this
  by_cases hle : w.pux.length ≤ k
  · -- the chain goes deeper than the stack: only placeholders were added below the write
    rw [Nat.min_eq_left (by omega), promoN_of_le _ _ (Nat.le_refl _)]
    rw [List.take_of_length_le hle]
    have htake : (writeA w xs v).pux.take k
        = w.pux ++ phs ((xs.dropLast.drop w.pux.length).take (k - w.pux.length)) := by
      unfold writeA
      simp only
      rw [List.take_of_length_le (l := w.pux) (by omega)]
      rw [List.append_assoc, List.take_append, List.take_of_length_le hle]
      congr 1
      rw [List.take_append_of_le_length]
      · simp [phs]
      · simp [phs]; omega
    rw [htake]
    congr 1
    rw [phs, strip_append_phs]
  · rw [Nat.min_eq_right (by omega), promoN_cux_pos _ _ (by omega), promoN_take _ _ _ (by omega)]
    congr 1
    unfold writeA
    simp only
    rw [List.append_assoc, List.take_append_of_le_length (by simp; omega), List.take_take]
    congr 2
    omega

theorem mem_takeWhile_imp' {p : Uxr → Bool} {l : List Uxr} {r : Uxr} (h : r ∈ l.takeWhile p) :
    p r = true := by
  induction l with
  | nil => simp at h
  | cons a l ih =>
    rw [List.takeWhile_cons] at h
    split at h
    · rcases List.mem_cons.mp h with rfl | h
      · assumption
      · exact ih h
    · simp at h

/-- Undo at a prefix after undoing at the chain. -/
theorem abortF_abortF (u : Ule) (xs p : Xids) (hw : Wf u)
    (hp : p <+: xs) (hpne : p ≠ []) :
    abortF (abortF u xs) p = abortF u p := by
  have hw' := promo_wf u xs hw
  have ha' := promo_aligned u xs
  rw [show abortF u p = abortF (promo u xs) p by
    unfold abortF; rw [promo_promo_prefix u xs p hp]]
  rw [show abortF u xs = abortA (promo u xs) xs from rfl]
  generalize promo u xs = w at *
  obtain ⟨k, hk, rfl⟩ : ∃ k, k + 1 ≤ xs.length ∧ p = xs.take (k+1) := by
    refine ⟨p.length - 1, ?_, ?_⟩
    · have := hp.length_le
      have := List.length_pos_iff.mpr hpne
      omega
    · rw [show p.length - 1 + 1 = p.length by have := List.length_pos_iff.mpr hpne; omega]
      exact List.prefix_iff_eq_take.mp hp
  have hlk : (xs.take (k+1)).length = k + 1 := by simp; omega
  have hpre : (abortA w xs).pux <+: w.pux := (strip_prefix _).trans (List.take_prefix _ _)
  have ha2 : Aligned (abortA w xs) xs := (hpre.map _).trans ha'
  have hm1 : matchLen (abortA w xs).pux (xs.take (k+1)) = min (abortA w xs).pux.length (k+1) := by
    rw [matchLen_take, matchLen_of_prefix _ _ ha2]
  have hm2 : matchLen w.pux (xs.take (k+1)) = min w.pux.length (k+1) := by
    rw [matchLen_take, matchLen_of_prefix _ _ ha']
  have gen : ∀ z : Ule, abortA (promoN z (min z.pux.length (k+1))) (xs.take (k+1)) =
      ⟨z.cux, strip (z.pux.take k)⟩ := by
    intro z
    unfold abortA
    rw [hlk]
    simp only [Nat.add_sub_cancel]
    by_cases hle : z.pux.length ≤ k
    · rw [Nat.min_eq_left (by omega), promoN_of_le _ _ (Nat.le_refl _)]
    · rw [Nat.min_eq_right (by omega), promoN_cux_pos _ _ (by omega), promoN_take _ _ _ (by omega)]
  unfold abortF promo
  rw [hm1, hm2, gen, gen]
  congr 1
  -- strip (take k (strip (take (n-1) l))) = strip (take k l)
  have strip_strip : ∀ (l : List Uxr) (j : Nat), k ≤ j →
      strip ((strip (l.take j)).take k) = strip (l.take k) := by
    intro l j hj
    obtain ⟨t, ht⟩ := strip_prefix (l.take j)
    -- the removed tail consists of placeholders
    have hph : ∀ r ∈ t, r.isPlaceholder = true := by
      intro r hr
      have hd := List.takeWhile_append_dropWhile (p := Uxr.isPlaceholder) (l := (l.take j).reverse)
      have : t = ((l.take j).reverse.takeWhile Uxr.isPlaceholder).reverse := by
        have h1 : l.take j = strip (l.take j) ++ ((l.take j).reverse.takeWhile Uxr.isPlaceholder).reverse := by
          have h3 := congrArg List.reverse hd
          rw [List.reverse_append, List.reverse_reverse] at h3
          exact h3.symm
        have h2 := ht.trans h1
        exact List.append_cancel_left h2
      rw [this] at hr
      exact mem_takeWhile_imp' (by simpa using hr)
    have htk : l.take k = (strip (l.take j)).take k ++ t.take (k - (strip (l.take j)).length) := by
      rw [← List.take_append, ht, List.take_take, Nat.min_eq_left hj]
    rw [htk]
    have hph2 : ∀ r ∈ t.take (k - (strip (l.take j)).length), r.isPlaceholder = true :=
      fun r hr => hph r (List.mem_of_mem_take hr)
    generalize t.take (k - (strip (l.take j)).length) = t' at hph2
    induction t' using List.reverseRecOn with
    | nil => simp
    | append_singleton t' r ih =>
      rw [← List.append_assoc, strip_append_ph _ _ (hph2 r (by simp))]
      exact ih (fun r hr => hph2 r (by simp [hr]))
  apply strip_strip
  omega

/-- Undo at a proper prefix after a commit of the chain's innermost transaction. -/
theorem abortF_commitF (u : Ule) (xs p : Xids)
    (hp : p <+: xs) (hpne : p ≠ []) (hlt : p.length < xs.length) :
    abortF (commitF u xs) p = abortF u p := by
  have ha' := promo_aligned u xs
  rw [show abortF u p = abortF (promo u xs) p by
    unfold abortF; rw [promo_promo_prefix u xs p hp]]
  rw [show commitF u xs = commitA (promo u xs) xs from rfl]
  generalize promo u xs = w at *
  unfold abortF commitA
  congr 1
  have hc : Aligned (promoN w (xs.length - 1)) xs := by
    unfold Aligned
    rw [promoN_xids]
    exact (List.take_prefix _ _).trans ha'
  obtain ⟨k, hk, rfl⟩ : ∃ k, k ≤ xs.length ∧ p = xs.take k :=
    ⟨p.length, hp.length_le, List.prefix_iff_eq_take.mp hp⟩
  simp only [List.length_take] at hlt
  unfold promo
  rw [matchLen_take, matchLen_of_prefix _ _ hc, matchLen_take, matchLen_of_prefix _ _ ha', promoN_len]
  by_cases h : w.pux.length ≤ xs.length - 1
  · rw [promoN_of_le _ _ h]; congr 1; omega
  · rw [promoN_promoN _ _ _ (by omega)]; congr 1; omega

/-- Undoing a transaction that never wrote the row only runs implicit promotions. -/
theorem abortF_fresh (u : Ule) (xs : Xids) (hw : Wf u) (hx : Chain xs)
    (hf : ¬ xs <+: u.pux.map (·.xid)) : abortF u xs = promo u xs := by
  have ha' := promo_aligned u xs
  have hw' := promo_wf u xs hw
  have hx' := promoN_xids u (matchLen u.pux xs)
  have hlen : (promo u xs).pux.length ≤ xs.length := by
    have := ha'.length_le; simpa using this
  unfold abortF abortA
  have : (promo u xs).pux.length ≠ xs.length := by
    intro h
    apply hf
    have h1 : (promo u xs).pux.map (·.xid) = xs :=
      ha'.eq_of_length (by simpa using h)
    unfold promo at h1
    rw [hx'] at h1
    rw [← h1]
    exact List.take_prefix _ _
  rw [List.take_of_length_le (by have := List.length_pos_iff.mpr hx.ne; omega),
    strip_of_last _ hw'.plast]

end Verif.Ule
