import Verif.Hot.Row

/-! The whole row against the source. -/
namespace Verif.Hot
open Verif.Ule Verif.Mvcc Verif.Txn

/-- The value of the last record that is no placeholder. -/
def lastNP (p : XrVal) (l : List Uxr) : XrVal := l.foldl (fun p r => if r.isPlaceholder then p else r.val) p

theorem topVal_strip (c : Uxr) (cs : List Uxr) (l : List Uxr) :
    topVal ⟨c :: cs, strip l⟩ = lastNP c.val l := by
  rcases List.eq_nil_or_concat l with rfl | ⟨l', r, rfl⟩
  · rfl
  · rw [List.concat_eq_append]
    have hlen : l'.length < (l' ++ [r]).length := by simp
    by_cases hp : r.isPlaceholder = true
    · rw [strip_append_ph l' r hp, topVal_strip c cs l']
      simp [lastNP, hp]
    · rw [strip_append_np l' r (by simpa using hp)]
      simp [topVal, lastNP, hp]
termination_by l.length
decreasing_by simp_all

theorem finalVal_eq (p : XrVal) (l : List Uxr) (sts : List TxState) (h : sts.length = l.length) :
    finalVal p (l.zip sts) = lastNP p (l.take (sts.takeWhile (· ≠ .aborting)).length) := by
  induction l generalizing p sts with
  | nil => simp [finalVal, lastNP]
  | cons r l ih =>
    cases sts with
    | nil => simp at h
    | cons s sts =>
      simp only [List.zip_cons_cons, finalVal]
      by_cases hs : s = .aborting
      · simp [hs, lastNP]
      · rw [if_neg hs]
        have hk : ((s :: sts).takeWhile (· ≠ .aborting)).length = (sts.takeWhile (· ≠ .aborting)).length + 1 := by
          simp [hs]
        rw [hk, List.take_succ_cons]
        have h' : sts.length = l.length := by simpa using h
        by_cases hp : r.isPlaceholder = true
        · rw [if_pos hp, ih p sts h']; simp [lastNP, hp]
        · rw [if_neg hp, ih r.val sts h']; simp [lastNP, hp]

/-- What a reader sees of a row whose provisional part is a part of `u`'s. -/
theorem read_part (acc : Txnid → Bool) (c : Uxr) (cs : List Uxr) (x : Txnid) (l : List Uxr)
    (hl : ∀ r, l.head? = some r → r.xid = x)
    (hc : acc x = true → readC acc (c :: cs) = c.val.read) :
    snapshotRead acc ⟨c :: cs, strip l⟩ = if acc x then (lastNP c.val l).read else readC acc (c :: cs) := by
  rw [snapshotRead_eq acc _ (by simp), topVal_strip]
  simp only
  cases hs : strip l with
  | nil =>
    simp only
    by_cases ha : acc x = true
    · rw [if_pos ha, hc ha]
      have := topVal_strip c cs l
      rw [hs] at this
      rw [← this]; rfl
    · rw [if_neg ha]
  | cons o os =>
    simp only
    have : o.xid = x := by
      apply hl
      obtain ⟨t, ht⟩ := strip_prefix l
      rw [hs] at ht
      rw [← ht]; rfl
    rw [this]

theorem strip_take_strip (l : List Uxr) (n : Nat) : strip ((strip l).take n) = strip (l.take n) := by
  rcases List.eq_nil_or_concat l with rfl | ⟨l', r, rfl⟩
  · rfl
  · rw [List.concat_eq_append]
    by_cases hp : r.isPlaceholder = true
    · rw [strip_append_ph l' r hp, strip_take_strip l' n]
      by_cases hn : n ≤ l'.length
      · rw [List.take_append_of_le_length hn]
      · rw [List.take_of_length_le (by omega : l'.length ≤ n),
          List.take_of_length_le (by simp; omega : (l' ++ [r]).length ≤ n), strip_append_ph l' r hp]
    · rw [strip_append_np l' r (by simpa using hp)]
termination_by l.length
decreasing_by simp_all

theorem take_zip' (l : List Uxr) (sts : List TxState) (n : Nat) :
    (l.zip sts).take n = (l.take n).zip (sts.take n) := by
  induction l generalizing sts n with
  | nil => simp
  | cons r l ih =>
    cases sts with
    | nil => simp
    | cons s sts =>
      cases n with
      | zero => rfl
      | succ n => simp only [List.zip_cons_cons, List.take_succ_cons, ih]

theorem ids_zip (l : List Uxr) (sts : List TxState) (h : sts.length = l.length) : ids (l.zip sts) = l.map (·.xid) := by
  induction l generalizing sts with
  | nil => rfl
  | cons r l ih =>
    cases sts with
    | nil => simp at h
    | cons s sts => simp only [ids, List.zip_cons_cons, List.map_cons]; congr 1; exact ih sts (by simpa using h)

/-- Undoing an outer part of the row. -/
theorem abortF_part (u : Ule) (n m : Nat) (hn : n < m) (hm : m ≤ u.pux.length) :
    abortF ⟨u.cux, strip (u.pux.take m)⟩ ((u.pux.take (n + 1)).map (·.xid)) =
      ⟨u.cux, strip (u.pux.take n)⟩ := by
  have hsp : strip (u.pux.take m) <+: u.pux := (strip_prefix _).trans (List.take_prefix _ _)
  generalize hS : strip (u.pux.take m) = S at hsp
  have hlen : ((u.pux.take (n + 1)).map (·.xid)).length = n + 1 := by simp; omega
  have hfin : strip (S.take n) = strip (u.pux.take n) := by
    rw [← hS, strip_take_strip, List.take_take, Nat.min_eq_left (by omega)]
  unfold abortF abortA
  rw [hlen, Nat.add_sub_cancel]
  have hids : S.map (·.xid) <+: u.pux.map (·.xid) := hsp.map _
  by_cases hs : S.length ≤ n + 1
  · have hal : Aligned ⟨u.cux, S⟩ ((u.pux.take (n + 1)).map (·.xid)) := by
      unfold Aligned
      rw [List.prefix_iff_eq_take] at hids ⊢
      simp only [List.length_map] at hids ⊢
      rw [hids, List.map_take, List.take_take, Nat.min_eq_left hs]
    rw [promo_of_aligned _ _ hal]
    simp only
    rw [hfin]
  · have hml : matchLen S ((u.pux.take (n + 1)).map (·.xid)) = n + 1 := by
      have hpre : (S.take (n + 1)).map (·.xid) = (u.pux.take (n + 1)).map (·.xid) := by
        obtain ⟨t, ht⟩ := hsp
        rw [← ht, List.take_append_of_le_length (by omega)]
      rw [← hpre]
      have : ∀ (l : List Uxr) (k : Nat), k ≤ l.length → matchLen l ((l.take k).map (·.xid)) = k := by
        intro l
        induction l with
        | nil => intro k hk; have : k = 0 := by simpa using hk
                 subst this; rfl
        | cons a l ih =>
          intro k hk
          cases k with
          | zero => rfl
          | succ k =>
            simp only [List.take_succ_cons, List.map_cons, matchLen, if_true]
            rw [ih k (by simpa using hk)]
      exact this S (n + 1) (by omega)
    unfold promo
    simp only [hml]
    have hlt : n < S.length := by omega
    rw [promoN_succ ⟨u.cux, S⟩ n S[n] (by simp; omega) (by simp [hlt])]
    simp only
    rw [List.take_append_of_le_length (by simp; omega), List.take_take, Nat.min_self, hfin]

/-- The whole row. -/
theorem row_all (g : Gen) (hg : g.Ok) (u : Ule) (states : List TxState) (hu : RowOk u states) :
    ∃ ms, undoDo g u states = some ms ∧ ∀ h, ∃ V, runMsgs emptyUle (forKey h ms) = some V ∧ Wf V ∧
      ∀ acc, Closed acc (versionIds u) →
        snapshotRead acc V = look g h (snapshotRead acc (settled u states)) ∧
        ∀ p, p ≠ [] → p <+: openChain u states →
          snapshotRead acc (abortF V p) = look g h (snapshotRead acc (abortF (settled u states) p)) := by
  obtain ⟨c, cs, hcux⟩ : ∃ c cs, u.cux = c :: cs := by
    cases h : u.cux with
    | nil => exact absurd h hu.wf.cne
    | cons c cs => exact ⟨c, cs, rfl⟩
  obtain ⟨r0, rs, hrev⟩ : ∃ r0 rs, u.cux.reverse = r0 :: rs := by
    cases h : u.cux.reverse with
    | nil => rw [List.reverse_eq_nil_iff] at h; exact absurd h hu.wf.cne
    | cons a b => exact ⟨a, b, rfl⟩
  have hcuxr : u.cux = rs.reverse ++ [r0] := by
    have := congrArg List.reverse hrev; simpa using this
  have hids0 : ∀ q ∈ rs, q.xid ≠ 0 := by
    intro q hq
    apply hu.ids q
    rw [hcuxr]; simpa using hq
  obtain ⟨ms, e1, e2⟩ := committed_all g hg r0 rs (by
    intro q hq
    apply hu.wf.cnp q
    rw [← hrev] at hq; simpa using hq) hids0
  -- reading the committed part
  have hread : ∀ acc, Closed acc (u.cux.map (·.xid)) → ∀ h V,
      (∀ acc, snapshotRead acc V = hotFold g h acc r0.val (hotFirst g h acc r0) rs) →
      snapshotRead acc V = look g h (readC acc u.cux) ∧
      ((c.xid = 0 ∨ acc c.xid = true) → readC acc u.cux = c.val.read) := by
    intro acc hcl h V hV
    rw [hcuxr, List.map_append] at hcl
    obtain ⟨k1, k2⟩ := closedUp_of acc rs r0.xid [] hcl
    have k3 : r0.xid = 0 ∨ acc r0.xid = true := k2
    obtain ⟨m1, m2⟩ := folds_agree g h acc rs r0.xid r0.val r0.val.read (hotFirst g h acc r0) hids0 k1
      (fun _ => rfl) (by unfold hotFirst; rw [if_pos k3])
    have hrc : readC acc u.cux = srcFold acc r0.val.read rs := by
      rw [hcuxr, readC_fold acc rs [r0] (by simp)]; rfl
    rw [hV acc, hrc]
    refine ⟨m1, ?_⟩
    have hlast : ∀ (rs : List Uxr) (y : Uxr) , ∀ c cs, rs.reverse ++ [y] = c :: cs →
        lastRec y.xid y.val rs = (c.xid, c.val) := by
      intro rs
      induction rs with
      | nil => intro y c cs h; simp at h; simp [lastRec, h.1]
      | cons q rs ih =>
        intro y c cs h
        rw [List.reverse_cons, List.append_assoc] at h
        have : ∃ cs', rs.reverse ++ [q] = c :: cs' := by
          cases hr : rs.reverse with
          | nil => rw [hr] at h; simp at h; exact ⟨[], by simp [h.1]⟩
          | cons a b => rw [hr] at h; simp at h; exact ⟨b ++ [q], by simp [h.1]⟩
        obtain ⟨cs', h'⟩ := this
        exact ih q c cs' h'
    rw [hlast rs r0 c cs (by rw [← hcuxr, hcux])] at m2
    exact m2
  cases hpux : u.pux with
  | nil =>
    have hst : states = [] := by
      have := hu.len; rw [hpux] at this; exact List.eq_nil_of_length_eq_zero this
    subst hst
    refine ⟨ms, ?_, ?_⟩
    · unfold undoDo provisional
      rw [hrev, e1]; simp
    · intro h
      obtain ⟨V, a1, a2, a3, a4⟩ := e2 h
      refine ⟨V, a1, a2, fun acc hcl => ⟨?_, ?_⟩⟩
      · have hcl' : Closed acc (u.cux.map (·.xid)) := by simpa [versionIds, hpux] using hcl
        rw [(hread acc hcl' h V a4).1, settled, hpux, snapshotRead_eq _ _ (by exact hu.wf.cne)]
        simp [strip]
      · intro p hp hpp
        simp [openChain, hpux] at hpp
        exact absurd hpp hp
  | cons r ps =>
    cases hsts : states with
    | nil => have := hu.len; rw [hpux, hsts] at this; simp at this
    | cons st sts =>
      have hlen : sts.length = ps.length := by
        have := hu.len; rw [hpux, hsts] at this; simpa using this
      have hz : u.pux.zip states = (r, st) :: ps.zip sts := by rw [hpux, hsts]; rfl
      have hsnd : (ps.zip sts).map (·.2) = sts := by
        have := List.map_snd_zip (l₁ := ps) (l₂ := sts) (by omega)
        simpa using this
      have hidz : ids ((r, st) :: ps.zip sts) = u.pux.map (·.xid) := by
        rw [← hz]; exact ids_zip _ _ hu.len
      obtain ⟨ms2, ks, xs, f1, f2⟩ := prov_all g hg c (not_ph (hu.wf.cnp c (by rw [hcux]; simp))) r st
        (ps.zip sts) (by rw [hsnd, ← hsts]; exact hu.legal) (by
          have : r.xid :: ids (ps.zip sts) = u.pux.map (·.xid) := hidz
          rw [this]
          refine ⟨by rw [hpux]; simp, hu.wf.pnodup, ?_, by simpa using hu.wf.plen⟩
          intro y hy
          obtain ⟨q, hq, rfl⟩ := List.mem_map.mp hy
          exact hu.wf.p0 q hq)
      refine ⟨ms ++ (ms2 ++ commitMsgs xs ks), ?_, ?_⟩
      · unfold undoDo provisional
        rw [hrev, e1, hcux]
        simp only [Option.bind_some, ← hsts, hz]
        rw [f1]
        rfl
      · intro h
        obtain ⟨V, a1, a2, a3, a4⟩ := e2 h
        obtain ⟨V', b1, b2, b3, b4⟩ := f2 h V a2 a3
        refine ⟨V', ?_, b2, ?_⟩
        · rw [forKey_append, runMsgs_append, a1]; exact b1
        · intro acc hcl
          have hcl2 : (acc r.xid = true → c.xid = 0 ∨ acc c.xid = true) ∧ Closed acc (u.cux.map (·.xid)) := by
            simp only [versionIds, hpux, List.head?_cons, Option.map_some, Option.toList_some, hcux,
              List.map_cons, List.cons_append, List.nil_append] at hcl
            rw [hcux]
            exact hcl
          obtain ⟨k1, k2⟩ := hread acc hcl2.2 h V a4
          have hr : acc r.xid = true → snapshotRead acc V = look g h c.val.read := by
            intro ha
            rw [k1, k2 (hcl2.1 ha)]
          have hr' : acc r.xid = true → readC acc (c :: cs) = c.val.read := by
            intro ha
            rw [← hcux]; exact k2 (hcl2.1 ha)
          have hhead : ∀ m q, (u.pux.take m).head? = some q → q.xid = r.xid := by
            intro m q hq
            rw [hpux] at hq
            cases m with
            | zero => simp at hq
            | succ m => simp at hq; rw [← hq]
          refine ⟨?_, ?_⟩
          · rw [b3 acc hr, ← hz, finalVal_eq _ _ _ hu.len]
            unfold settled
            rw [hcux, ← hsts, read_part acc c cs r.xid _ (hhead _) hr', k1, hcux]
            split <;> rfl
          · intro p hp hpp
            obtain ⟨n, hn, rfl⟩ : ∃ n, n < (states.takeWhile isOpen).length ∧
                p = (u.pux.take (n + 1)).map (·.xid) := by
              have hop : openChain u states = (u.pux.take (states.takeWhile isOpen).length).map (·.xid) := rfl
              rw [hsts.symm, hop] at hpp
              have h1 := hpp.length_le
              have h2 := List.length_pos_iff.mpr hp
              rw [List.length_map, List.length_take] at h1
              refine ⟨p.length - 1, by omega, ?_⟩
              have h3 := List.prefix_iff_eq_take.mp hpp
              rw [h3, List.map_take, List.take_take, List.map_take]
              congr 1
              simp only [List.length_take, List.length_map]
              omega
            have hn2 : n < (states.takeWhile (· ≠ .aborting)).length := by
              refine Nat.lt_of_lt_of_le hn ?_
              clear hn
              generalize states = l
              induction l with
              | nil => simp
              | cons s l ih =>
                cases s <;> simp [isOpen] <;> simpa [isOpen] using ih
            have hm : (states.takeWhile (· ≠ .aborting)).length ≤ u.pux.length := by
              rw [← hu.len]
              exact (List.takeWhile_prefix _).length_le
            have hab := b4 n acc (by rw [hsnd, ← hsts]; exact hn) hr
            have e0 : ids (((r, st) :: ps.zip sts).take (n + 1)) = (u.pux.take (n + 1)).map (·.xid) := by
              rw [List.map_take, ← hidz]
              simp only [ids, List.map_take]
            rw [e0] at hab
            rw [hab]
            unfold settled
            rw [← hsts, abortF_part u n _ hn2 hm, hcux, read_part acc c cs r.xid _ (hhead _) hr', k1, hcux,
              ← hz]
            have hfv : finalVal c.val ((u.pux.zip states).take n) = lastNP c.val (u.pux.take n) := by
              rw [take_zip', finalVal_eq _ _ _ (by
                have := hu.len
                simp only [List.length_take]
                omega)]
              congr 1
              have hnl : n < states.length := Nat.lt_of_lt_of_le hn2 (List.takeWhile_prefix _).length_le
              have : ((states.take n).takeWhile (· ≠ .aborting)).length = n := by
                have hall : ∀ (l : List TxState) (n : Nat), n < (l.takeWhile (· ≠ .aborting)).length →
                    ((l.take n).takeWhile (· ≠ .aborting)).length = n := by
                  intro l
                  induction l with
                  | nil => intro n hn; simp at hn
                  | cons s l ih =>
                    intro n hn
                    by_cases hs : s = .aborting
                    · simp [hs] at hn
                    · cases n with
                      | zero => simp
                      | succ n =>
                        rw [List.takeWhile_cons_of_pos (by simpa using hs)] at hn
                        rw [List.take_succ_cons, List.takeWhile_cons_of_pos (by simpa using hs)]
                        simp only [List.length_cons] at hn ⊢
                        rw [ih n (by omega)]
                exact hall states n hn2
              rw [this, List.take_take, Nat.min_self]
            rw [hfv]
            split <;> rfl

end Verif.Hot
