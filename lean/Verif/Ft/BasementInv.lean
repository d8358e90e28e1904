import Verif.Ft.BasementLemmas

/-! The invariant of a basement node: keys strictly increase, every row is real, and the counters are exact. -/
namespace Verif.Ft
open Verif.Ule Verif.Txn Std

/-- A row at key `k`, or nothing. -/
def opt (k : Key) (o : Option Ule) : List (Key × Ule) := (o.map fun u => (k, u)).toList

@[simp] theorem opt_none (k : Key) : opt k none = [] := rfl
@[simp] theorem opt_some (k : Key) (u : Ule) : opt k (some u) = [(k, u)] := rfl

/-- Number of rows in an optional row. -/
def cnt (o : Option Ule) : Nat := o.toList.length

theorem findZero_spec (cmp : Key → Key → Ordering) [TransCmp cmp] (k : Key) (rows : List (Key × Ule))
    (hs : rows.Pairwise fun a b => cmp a.1 b.1 = .lt) :
    ∃ l t k', rows = l ++ opt k' ((findZero cmp k rows).2.map (·.2)) ++ t ∧
      (findZero cmp k rows).1 = l.length ∧ (∀ r ∈ l, cmp r.1 k = .lt) ∧ (∀ r ∈ t, cmp r.1 k = .gt) ∧ cmp k' k = .eq ∧
      (∀ r, (findZero cmp k rows).2 = some r → r.1 = k') ∧ ((findZero cmp k rows).2 = none → k' = k) := by
  induction rows with
  | nil => exact ⟨[], [], k, rfl, rfl, by simp, by simp, ReflCmp.compare_self, by simp [findZero], fun _ => rfl⟩
  | cons r rs ih =>
    obtain ⟨hr, hrs⟩ := List.pairwise_cons.mp hs
    unfold findZero
    cases hc : cmp r.1 k with
    | lt =>
      obtain ⟨l, t, k', h1, h2, h3, h4, h5, h6, h7⟩ := ih hrs
      simp only
      refine ⟨r :: l, t, k', ?_, by simp [h2], ?_, h4, h5, h6, h7⟩
      · simp only [List.cons_append]; rw [← h1]
      · intro x hx
        rcases List.mem_cons.mp hx with rfl | hx
        · exact hc
        · exact h3 x hx
    | eq =>
      refine ⟨[], rs, r.1, rfl, rfl, by simp, ?_, hc, by simp, by simp⟩
      intro x hx
      have h1 := hr x hx
      have h2 : cmp k x.1 = .lt := by
        have : cmp k r.1 = .eq := by simp [OrientedCmp.eq_comm (cmp := cmp) (a := k), hc]
        exact TransCmp.lt_of_eq_of_lt this h1
      exact OrientedCmp.gt_iff_lt.mpr h2
    | gt =>
      refine ⟨[], r :: rs, k, rfl, rfl, by simp, ?_, ReflCmp.compare_self, by simp, by simp⟩
      intro x hx
      rcases List.mem_cons.mp hx with rfl | hx
      · exact hc
      · exact OrientedCmp.gt_iff_lt.mpr (TransCmp.lt_trans (OrientedCmp.gt_iff_lt.mp hc) (hr x hx))

theorem findForInsert_eq (cmp : Key → Key → Ordering) [TransCmp cmp] (seq : Nat) (k : Key) (rows : List (Key × Ule))
    (hs : rows.Pairwise fun a b => cmp a.1 b.1 = .lt) : findForInsert cmp seq k rows = findZero cmp k rows := by
  unfold findForInsert
  split
  · split
    · rename_i r hl
      split
      · rename_i hlt
        obtain ⟨xs, rfl⟩ := List.getLast?_eq_some_iff.mp hl
        have hall : ∀ x ∈ xs ++ [r], cmp x.1 k = .lt := by
          intro x hx
          rcases List.mem_append.mp hx with hx | hx
          · exact TransCmp.lt_trans ((List.pairwise_append.mp hs).2.2 x hx r (by simp)) hlt
          · simp at hx; rw [hx]; exact hlt
        generalize xs ++ [r] = ys at hall
        clear hs hl
        symm
        induction ys with
        | nil => rfl
        | cons y ys ih =>
          unfold findZero
          rw [hall y (by simp)]
          simp only [ih (fun x hx => hall x (by simp [hx])), List.length_cons]
      · rfl
    · rfl
  · rfl

theorem insertIdx_append_length (l t : List (Key × Ule)) (x : Key × Ule) :
    (l ++ t).insertIdx l.length x = l ++ [x] ++ t := by
  induction l with
  | nil => simp
  | cons a l ih => simpa using ih

theorem store_spec {bn bn' : Bn} {key k : Key} {kl : Nat} {l t : List (Key × Ule)} {le new : Option Ule}
    (hrows : bn.rows = l ++ opt k le ++ t) (hk : le = none → k = key) (hkl : le ≠ none → kl = k.length)
    (h : store bn l.length key kl le new = some bn') :
    bn'.rows = l ++ opt k new ++ t ∧ bn'.numrows = bn.numrows ∧ bn'.numbytes = bn.numbytes ∧
    bn'.seqinsert = bn.seqinsert ∧
    bn'.keyBytes = bn.keyBytes + ((4 + k.length : Nat) : Int) * (cnt new - cnt le) := by
  unfold store at h
  split at h
  · simp only [opt_some] at hrows
    rw [hrows] at h
    simp at h
    rw [← h.2]
    simp [cnt]
  · simp only [opt_some] at hrows
    rw [hrows] at h
    simp at h
    rw [← h]
    have := hkl (by simp)
    subst this
    refine ⟨?_, rfl, rfl, rfl, ?_⟩
    · simp only [opt_none, List.append_nil]
      rw [List.eraseIdx_append_of_length_le (by simp)]
      simp
    · simp [cnt]; omega
  · simp only [opt_none, List.append_nil] at hrows
    have := hk rfl
    subst this
    split at h
    · simp at h
      rw [← h]
      refine ⟨?_, rfl, rfl, rfl, ?_⟩
      · simp only [opt_some, hrows]
        exact insertIdx_append_length l t _
      · simp [cnt]
    · simp at h
  · simp at h
    subst h
    exact ⟨hrows, rfl, rfl, rfl, by simp [cnt]⟩

theorem applyOnce_spec {bn bn' : Bn} {key k : Key} {kl : Nat} {l t : List (Key × Ule)} {le : Option Ule}
    {g g' : GcInfo} {xs : Xids} {op : Op} {d : Int}
    (hrows : bn.rows = l ++ opt k le ++ t) (hk : le = none → k = key) (hkl : le ≠ none → kl = k.length)
    (h : applyOnce bn key l.length kl le g xs op = some (bn', d, g')) :
    ∃ r, leApply g le key.length xs op = some r ∧ d = r.logicalDelta ∧ g' = r.gc ∧
      bn'.rows = l ++ opt k r.new ++ t ∧ bn'.numrows = bn.numrows + (cnt r.new - cnt le) ∧
      bn'.numbytes = bn.numbytes + r.bytesDelta ∧ bn'.seqinsert = bn.seqinsert ∧
      bn'.keyBytes = bn.keyBytes + ((4 + k.length : Nat) : Int) * (cnt r.new - cnt le) := by
  unfold applyOnce at h
  split at h
  · simp at h
  · rename_i r hr
    split at h
    · simp at h
    · rename_i b hb
      obtain ⟨h1, h2, h3, h4, h5⟩ := store_spec hrows hk hkl hb
      simp only [Option.some.injEq, Prod.mk.injEq] at h
      obtain ⟨he, hd, hg⟩ := h
      refine ⟨r, hr, hd.symm, hg.symm, ?_⟩
      subst he
      refine ⟨h1, ?_, ?_, h4, h5⟩
      · simp only [h2]
        cases le <;> cases r.new <;> simp [cnt]
      · simp only [h3]

/-- Key and newest-value bytes of the rows that have a value. -/
def sumBytes (rows : List (Key × Ule)) : Nat := (rows.map fun r => liveBytes r.1.length (latest r.2)).sum

/-- Storage for the keys. -/
def sumKeys (rows : List (Key × Ule)) : Nat := (rows.map fun r => 4 + r.1.length).sum

/-- Keys that the comparator takes for equal have the same length. -/
def EqLen (cmp : Key → Key → Ordering) : Prop := ∀ a b, cmp a b = .eq → a.length = b.length

structure BInv (cmp : Key → Key → Ordering) (bn : Bn) : Prop where
  sorted : bn.rows.Pairwise fun a b => cmp a.1 b.1 = .lt
  real : ∀ r ∈ bn.rows, Real r.2
  nrows : bn.numrows = bn.rows.length
  keys : bn.keyBytes = sumKeys bn.rows
  bytes : EqLen cmp → bn.numbytes = sumBytes bn.rows

theorem sumBytes_split (l t : List (Key × Ule)) (k : Key) (o : Option Ule) :
    sumBytes (l ++ opt k o ++ t) = sumBytes l + liveBytes k.length (valOf o) + sumBytes t := by
  unfold sumBytes
  cases o with
  | none => simp [valOf, liveBytes]
  | some u => simp [valOf, Nat.add_assoc]

theorem sumKeys_split (l t : List (Key × Ule)) (k : Key) (o : Option Ule) :
    sumKeys (l ++ opt k o ++ t) = sumKeys l + (4 + k.length) * cnt o + sumKeys t := by
  unfold sumKeys
  cases o <;> simp [cnt, Nat.add_assoc]

theorem len_split (l t : List (Key × Ule)) (k : Key) (o : Option Ule) :
    (l ++ opt k o ++ t).length = l.length + cnt o + t.length := by
  cases o <;> simp [cnt] <;> omega

theorem Sorted_replace {cmp : Key → Key → Ordering} {l t : List (Key × Ule)} {k : Key} {a b : Option Ule}
    (h : (l ++ opt k a ++ t).Pairwise fun a b => cmp a.1 b.1 = .lt)
    (hl : b ≠ none → ∀ r ∈ l, cmp r.1 k = .lt) (ht : b ≠ none → ∀ r ∈ t, cmp k r.1 = .lt) :
    (l ++ opt k b ++ t).Pairwise fun a b => cmp a.1 b.1 = .lt := by
  rw [List.append_assoc, List.pairwise_append, List.pairwise_append] at h ⊢
  obtain ⟨h1, ⟨h2, h3, h4⟩, h5⟩ := h
  refine ⟨h1, ⟨?_, h3, ?_⟩, ?_⟩
  · cases b <;> simp
  · cases b with
    | none => simp
    | some u =>
      intro x hx y hy
      simp at hx
      subst hx
      exact ht (by simp) y hy
  · intro x hx y hy
    rcases List.mem_append.mp hy with hy | hy
    · cases b with
      | none => simp at hy
      | some u => simp at hy; subst hy; exact hl (by simp) x hx
    · exact h5 x hx y (by simp [hy])

/-- Replacing one row, with the counters moved accordingly, keeps the invariant. -/
theorem BInv.replace {cmp : Key → Key → Ordering} [TransCmp cmp] {bn bn' : Bn} {key k : Key} {l t : List (Key × Ule)}
    {le new : Option Ule} (hb : BInv cmp bn) (hrows : bn.rows = l ++ opt k le ++ t)
    (hpos : le = none → (∀ r ∈ l, cmp r.1 k = .lt) ∧ (∀ r ∈ t, cmp r.1 k = .gt)) (hkk : cmp k key = .eq)
    (hreal : ∀ u, new = some u → Real u)
    (h1 : bn'.rows = l ++ opt k new ++ t) (h2 : bn'.numrows = bn.numrows + (cnt new - cnt le))
    (h3 : bn'.numbytes = bn.numbytes + ((liveBytes key.length (valOf new) : Int) - liveBytes key.length (valOf le)))
    (h4 : bn'.keyBytes = bn.keyBytes + ((4 + k.length : Nat) : Int) * (cnt new - cnt le)) : BInv cmp bn' := by
  have hord : (∀ r ∈ l, cmp r.1 k = .lt) ∧ (∀ r ∈ t, cmp k r.1 = .lt) := by
    cases hle : le with
    | none =>
      obtain ⟨ha, hc⟩ := hpos hle
      exact ⟨ha, fun r hr => OrientedCmp.gt_iff_lt.mp (hc r hr)⟩
    | some u =>
      have hs := hb.sorted
      rw [hrows, hle, List.append_assoc, List.pairwise_append, List.pairwise_append] at hs
      refine ⟨fun r hr => hs.2.2 r hr (k, u) (by simp), fun r hr => hs.2.1.2.2 (k, u) (by simp) r hr⟩
  constructor
  · rw [h1]
    have hs := hb.sorted
    rw [hrows] at hs
    exact Sorted_replace hs (fun _ => hord.1) (fun _ => hord.2)
  · rw [h1]
    intro r hr
    have hold := hb.real
    rw [hrows] at hold
    rcases List.mem_append.mp hr with hr | hr
    · rcases List.mem_append.mp hr with hr | hr
      · exact hold r (by simp [hr])
      · cases new with
        | none => simp at hr
        | some u => simp at hr; subst hr; exact hreal u rfl
    · exact hold r (by simp [hr])
  · rw [h2, hb.nrows, hrows, h1, len_split, len_split]
    omega
  · rw [h4, hb.keys, hrows, h1, sumKeys_split, sumKeys_split]
    generalize 4 + k.length = n
    rw [Int.mul_sub]
    push_cast
    omega
  · intro hlen
    rw [h3, hb.bytes hlen, hrows, h1, sumBytes_split, sumBytes_split, hlen _ _ hkk]
    omega

theorem applyOnce_inv {cmp : Key → Key → Ordering} [TransCmp cmp] {bn bn' : Bn} {key k : Key} {kl : Nat}
    {l t : List (Key × Ule)} {le : Option Ule} {g g' : GcInfo} {xs : Xids} {op : Op} {d : Int}
    (hb : BInv cmp bn) (hrows : bn.rows = l ++ opt k le ++ t) (hk : le = none → k = key)
    (hkl : le ≠ none → kl = k.length) (hkk : cmp k key = .eq)
    (hpos : le = none → (∀ r ∈ l, cmp r.1 k = .lt) ∧ (∀ r ∈ t, cmp r.1 k = .gt))
    (h : applyOnce bn key l.length kl le g xs op = some (bn', d, g')) : BInv cmp bn' := by
  obtain ⟨r, hr, _, _, h1, h2, h3, _, h4⟩ := applyOnce_spec hrows hk hkl h
  have hold : ∀ u, le = some u → Real u := by
    intro u hu
    exact hb.real (k, u) (by rw [hrows, hu]; simp)
  obtain ⟨hn, hd, _⟩ := leApply_spec hr hold
  exact hb.replace hrows hpos hkk hn h1 h2 (by rw [h3, hd]) h4

/-- The position of a row splits the list there. -/
theorem split_at {rows : List (Key × Ule)} {idx : Nat} {r : Key × Ule} (h : rows[idx]? = some r) :
    ∃ l t, rows = l ++ opt r.1 (some r.2) ++ t ∧ l.length = idx := by
  obtain ⟨hlt, he⟩ := List.getElem?_eq_some_iff.mp h
  refine ⟨rows.take idx, rows.drop (idx + 1), ?_, by simp; omega⟩
  simp only [opt_some, List.append_assoc, List.singleton_append]
  rw [← he, List.getElem_cons_drop, List.take_append_drop]

theorem eachRow_inv {P : Bn → Prop} {f : Bn → Nat → Key × Ule → GcInfo → Option (Bn × Int × GcInfo)}
    (hf : ∀ bn idx r g bn' d g', P bn → bn.rows[idx]? = some r → f bn idx r g = some (bn', d, g') → P bn')
    {fuel idx : Nat} {bn bn' : Bn} {d d' : Int} {g g' : GcInfo}
    (h : eachRow f fuel idx bn d g = some (bn', d', g')) (hp : P bn) : P bn' := by
  induction fuel generalizing idx bn d g with
  | zero => simp [eachRow] at h; rw [← h.1]; exact hp
  | succ n ih =>
    unfold eachRow at h
    split at h
    · simp at h; rw [← h.1]; exact hp
    · rename_i r hr
      split at h
      · simp at h
      · rename_i b' d1 g1 hb
        exact ih h (hf _ _ _ _ _ _ _ hp hr hb)

theorem applyRow_inv {cmp : Key → Key → Ordering} [TransCmp cmp] {bn bn' : Bn} {idx : Nat} {r : Key × Ule}
    {g g' : GcInfo} {xs : Xids} {op : Op} {d : Int} (hb : BInv cmp bn) (hr : bn.rows[idx]? = some r)
    (h : applyOnce bn r.1 idx r.1.length (some r.2) g xs op = some (bn', d, g')) : BInv cmp bn' := by
  obtain ⟨l, t, hs, rfl⟩ := split_at hr
  exact applyOnce_inv hb hs (by simp) (fun _ => rfl) ReflCmp.compare_self (by simp) h

theorem stepUnclean_inv {cmp : Key → Key → Ordering} [TransCmp cmp] {op : Op} {xs : Xids} :
    ∀ bn idx r g bn' d g', BInv cmp bn → bn.rows[idx]? = some r → stepUnclean op xs bn idx r g = some (bn', d, g') →
      BInv cmp bn' := by
  intro bn idx r g bn' d g' hb hr h
  unfold stepUnclean at h
  split at h
  · simp at h; rw [← h.1]; exact hb
  · exact applyRow_inv hb hr h

theorem stepTxn_inv {cmp : Key → Key → Ordering} [TransCmp cmp] {op : Op} {xs : Xids} :
    ∀ bn idx r g bn' d g', BInv cmp bn → bn.rows[idx]? = some r → stepTxn op xs bn idx r g = some (bn', d, g') →
      BInv cmp bn' := by
  intro bn idx r g bn' d g' hb hr h
  unfold stepTxn at h
  split at h
  · simp at h
  · exact applyRow_inv hb hr h
  · simp at h; rw [← h.1]; exact hb

theorem stepUpdate_inv {cmp : Key → Key → Ordering} [TransCmp cmp] {upd : Upd} {e : Bytes} {xs : Xids} :
    ∀ bn idx r g bn' d g', BInv cmp bn → bn.rows[idx]? = some r → stepUpdate upd e xs bn idx r g = some (bn', d, g') →
      BInv cmp bn' := by
  intro bn idx r g bn' d g' hb hr h
  unfold stepUpdate doUpdate at h
  split at h
  · simp at h; rw [← h.1]; exact hb
  · exact applyRow_inv hb hr h
  · exact applyRow_inv hb hr h

theorem leGc_spec {pb : Txnid} {st : GcState} {u : Ule} {k : Nat} {new : Option Ule} {db : Int}
    (h : leGc pb st u k = some (new, db)) (hr : Real u) :
    (∀ u', new = some u' → Real u') ∧ db = (liveBytes k (valOf new) : Int) - liveBytes k (latest u) ∧
    valOf new = latest u := by
  unfold leGc at h
  split at h
  · simp at h
  · rename_i ob hob
    have hob' := numBytes_real hr hob
    split at h
    · simp at h
    · rename_i u1 hu1
      have h1 := tryPromoteOutermost_top hu1
      split at h
      · simp at h
      · rename_i u2 hu2
        have h2 : top? u2 = top? u := by
          rw [← h1]
          split at hu2
          · exact fullGc_top hu2
          · simp at hu2; rw [hu2]
        have hr2 := hr.of_top h2
        have hl : latest u2 = latest u := by rw [latest_eq_top?, latest_eq_top?, h2]
        split at h
        · obtain ⟨nb, hnb, he⟩ := Option.map_eq_some_iff.mp h
          simp at he
          obtain ⟨rfl, rfl⟩ := he
          refine ⟨fun u' hu' => by simp at hu'; exact hu' ▸ hr2, ?_, hl⟩
          rw [numBytes_real hr2 hnb, hob']
          rfl
        · rename_i hi
          simp at h
          obtain ⟨rfl, rfl⟩ := h
          have hnone : latest u = none := by
            rw [← hl]; exact latest_none_of_no_insert (by simpa using hi)
          refine ⟨fun u' hu' => by simp at hu', ?_, by simp [valOf, hnone]⟩
          rw [hob']; simp [valOf, liveBytes]

theorem gcOnce_inv {cmp : Key → Key → Ordering} [TransCmp cmp] {pb : Txnid} {st : GcState} :
    ∀ bn idx r g bn' d g', BInv cmp bn → bn.rows[idx]? = some r → gcOnce pb st bn idx r g = some (bn', d, g') →
      BInv cmp bn' := by
  intro bn idx r g bn' d g' hb hr h
  unfold gcOnce at h
  split at h
  · split at h
    · simp at h
    · rename_i new db hg
      obtain ⟨b, hst, he⟩ := Option.map_eq_some_iff.mp h
      simp only [Prod.mk.injEq] at he
      obtain ⟨rfl, _, _⟩ := he
      obtain ⟨l, t, hs, rfl⟩ := split_at hr
      obtain ⟨h1, h2, h3, h4, h5⟩ := store_spec hs (by simp) (fun _ => rfl) hst
      obtain ⟨hn, hd, _⟩ := leGc_spec hg (hb.real r (List.mem_of_getElem? hr))
      refine hb.replace hs (by simp) (ReflCmp.compare_self (cmp := cmp) (a := r.1)) hn h1 ?_ ?_ h5
      · simp only [h2]
        cases new <;> simp [cnt]
      · simp only [h3, hd]; rfl
  · simp at h; rw [← h.1]; exact hb

theorem BInv.seq {cmp : Key → Key → Ordering} {bn : Bn} (h : BInv cmp bn) (n : Nat) : BInv cmp { bn with seqinsert := n } :=
  ⟨h.sorted, h.real, h.nrows, h.keys, h.bytes⟩

theorem applyMsg_inv {cmp : Key → Key → Ordering} [TransCmp cmp] {upd : Upd} {bn bn' : Bn} {m : Msg} {g g' : GcInfo} {d : Int}
    (hb : BInv cmp bn) (h : applyMsg cmp upd bn m g = some (bn', d, g')) : BInv cmp bn' := by
  have hb0 := hb.seq 0
  have hfz := findZero_spec cmp m.key bn.rows hb.sorted
  have hins : ∀ op, ((applyOnce { bn with seqinsert := 0 } m.key (findZero cmp m.key bn.rows).1
      (((findZero cmp m.key bn.rows).2.map (·.1.length)).getD 0) ((findZero cmp m.key bn.rows).2.map (·.2)) g m.xids op).map
      fun (b, d, g') => ({ b with seqinsert := nextSeq bn.seqinsert b.rows.length (findZero cmp m.key bn.rows).1 }, d, g'))
        = some (bn', d, g') → BInv cmp bn' := by
    intro op h
    obtain ⟨l, t, k', h1, h2, h3, h4, h5, h6, h7⟩ := hfz
    obtain ⟨⟨b, d', g''⟩, ha, he⟩ := Option.map_eq_some_iff.mp h
    simp only [Prod.mk.injEq] at he
    obtain ⟨rfl, _, _⟩ := he
    rw [h2] at ha
    refine (applyOnce_inv hb0 (k := k') h1 ?_ ?_ h5 ?_ ha).seq _
    · intro hn; exact h7 (by simpa using hn)
    · intro hn
      cases hf : (findZero cmp m.key bn.rows).2 with
      | none => simp [hf] at hn
      | some r => simp [h6 r hf]
    · intro hn
      have := h7 (by simpa using hn)
      subst this
      exact ⟨h3, h4⟩
  have hpoint : ∀ (idx : Nat) (r : Key × Ule) op, findZero cmp m.key bn.rows = (idx, some r) →
      applyOnce { bn with seqinsert := 0 } m.key idx r.1.length (some r.2) g m.xids op = some (bn', d, g') → BInv cmp bn' := by
    intro idx r op hf h
    obtain ⟨l, t, k', h1, h2, h3, h4, h5, h6, h7⟩ := hfz
    rw [hf] at h1 h2 h6
    simp only at h2
    have hk : r.1 = k' := h6 r rfl
    subst hk
    rw [h2] at h
    exact applyOnce_inv hb0 (k := r.1) h1 (by simp) (fun _ => rfl) h5 (by simp) h
  have hall : ∀ {f : Bn → Nat → Key × Ule → GcInfo → Option (Bn × Int × GcInfo)} {d},
      (∀ bn idx r g bn' d g', BInv cmp bn → bn.rows[idx]? = some r → f bn idx r g = some (bn', d, g') → BInv cmp bn') →
      eachRow f bn.rows.length 0 { bn with seqinsert := 0 } 0 g = some (bn', d, g') → BInv cmp bn' :=
    fun hf h => eachRow_inv hf h hb0
  unfold applyMsg at h
  simp only [findForInsert_eq cmp _ _ _ hb.sorted] at h
  have hpt : ∀ op, (match findZero cmp m.key bn.rows with
      | (_, none) => some ({ bn with seqinsert := 0 }, (0 : Int), g)
      | (idx, some r) => applyOnce { bn with seqinsert := 0 } m.key idx r.1.length (some r.2) g m.xids op)
      = some (bn', d, g') → BInv cmp bn' := by
    intro op h
    split at h
    · simp at h; rw [← h.1]; exact hb0
    · rename_i idx r hf
      exact hpoint idx r op hf h
  split at h
  · exact hins _ h
  · exact hins _ h
  · exact hpt _ h
  · exact hpt _ h
  · exact hpt _ h
  · exact hall stepUnclean_inv h
  · exact hall stepUnclean_inv h
  · exact hall stepUnclean_inv h
  · exact hall stepTxn_inv h
  · exact hall stepTxn_inv h
  · split at h
    · rename_i idx hf
      unfold doUpdate at h
      have hnone : ∀ op, applyOnce { bn with seqinsert := 0 } m.key idx 0 none g m.xids op = some (bn', d, g') →
          BInv cmp bn' := by
        intro op h
        obtain ⟨l, t, k', h1, h2, h3, h4, h5, h6, h7⟩ := hfz
        rw [hf] at h1 h2 h7
        have := h7 rfl
        subst this
        simp only at h2
        subst h2
        exact applyOnce_inv hb0 h1 (fun _ => rfl) (by simp) h5 (fun _ => ⟨h3, h4⟩) h
      split at h
      · simp at h; rw [← h.1]; exact hb0
      · exact hnone _ h
      · exact hnone _ h
    · rename_i idx r hf
      unfold doUpdate at h
      split at h
      · simp at h; rw [← h.1]; exact hb0
      · exact hpoint idx r _ hf h
      · exact hpoint idx r _ hf h
  · obtain ⟨⟨b, d', g''⟩, ha, he⟩ := Option.map_eq_some_iff.mp h
    simp only [Prod.mk.injEq] at he
    obtain ⟨rfl, _, rfl⟩ := he
    exact hall stepUpdate_inv ha
  · simp at h; rw [← h.1]; exact hb0

theorem gcAll_inv {cmp : Key → Key → Ordering} [TransCmp cmp] {pb : Txnid} {st : GcState} {bn bn' : Bn}
    (hb : BInv cmp bn) (h : gcAll pb st bn = some bn') : BInv cmp bn' := by
  unfold gcAll at h
  obtain ⟨⟨b, d', g''⟩, ha, he⟩ := Option.map_eq_some_iff.mp h
  simp only at he
  subst he
  exact eachRow_inv gcOnce_inv ha hb

theorem binv_empty (cmp : Key → Key → Ordering) : BInv cmp Bn.empty :=
  ⟨by simp [Bn.empty], by simp [Bn.empty], rfl, rfl, fun _ => rfl⟩

theorem runLeaf_inv {cmp : Key → Key → Ordering} [TransCmp cmp] {upd : Upd} {bn bn' : Bn} {es : List LeafEv} {d : Int}
    (hb : BInv cmp bn) (h : runLeaf cmp upd bn es = some (bn', d)) : BInv cmp bn' := by
  induction es generalizing bn d with
  | nil => simp [runLeaf] at h; rw [← h.1]; exact hb
  | cons e es ih =>
    cases e with
    | msg m g =>
      unfold runLeaf at h
      split at h
      · simp at h
      · rename_i b d1 g1 hm
        obtain ⟨⟨b2, d2⟩, hr, he⟩ := Option.map_eq_some_iff.mp h
        simp only [Prod.mk.injEq] at he
        obtain ⟨rfl, _⟩ := he
        exact ih (applyMsg_inv hb hm) hr
    | gc pb st =>
      unfold runLeaf at h
      split at h
      · simp at h
      · rename_i b hg
        exact ih (gcAll_inv hb hg) h

end Verif.Ft
