import Verif.Ule.PackLemmas
import Verif.Mvcc.Read

/-! Sizes and accessors of the packed leaf entry agree with the unpacked one. -/
namespace Verif.Ule
open Verif.Codec (le ofLe P ret fail andThen num skip rep each Reads le_length run_ret)

/-! ### Sizes -/

theorem packTypeLen_length (v : XrVal) (r : Uxr) (hr : r.val = v) :
    (packTypeLen v).length + (packData v).length = 1 + (if r.isInsert then 4 + r.val.vallen else 0) := by
  subst hr
  unfold Uxr.isInsert
  cases r.val <;> simp [packTypeLen, packData, XrVal.vallen] <;> omega

theorem packLenBit_length (v : XrVal) : (packLenBit v).length = 4 := by
  unfold packLenBit; split <;> simp

theorem packData_length (r : Uxr) : (packData r.val).length = if r.isInsert then r.val.vallen else 0 := by
  unfold Uxr.isInsert
  cases r.val <;> simp [packData, XrVal.vallen]

theorem flatMap_const {α} (l : List α) (f : α → Bytes) (k : Nat) (h : ∀ x, (f x).length = k) :
    (l.flatMap f).length = k * l.length := by
  induction l with
  | nil => simp
  | cons a l ih => rw [List.flatMap_cons, List.length_append, ih, h, List.length_cons, Nat.mul_succ, Nat.add_comm]

theorem flatMap_sum {α} (l : List α) (f : α → Bytes) : (l.flatMap f).length = (l.map fun x => (f x).length).sum := by
  induction l with
  | nil => simp
  | cons a l ih => rw [List.flatMap_cons, List.length_append, ih, List.map_cons, List.sum_cons]

theorem packTail_length (o : Uxr) (os : List Uxr) : (packTail (o :: os)).length =
    8 * os.length + os.length + ((o :: os).dropLast.map fun r => if r.isInsert then 4 + r.val.vallen else 0).sum := by
  cases os with
  | nil => rfl
  | cons m rest =>
    have hpt : packTail (o :: m :: rest) = packTypeLen o.val ++ packData o.val ++
      (m :: rest).dropLast.flatMap packMiddle ++ packTxnid ((m :: rest).getLast?.getD m).xid := rfl
    have hd : (o :: m :: rest).dropLast = o :: (m :: rest).dropLast := rfl
    rw [hpt, hd, List.map_cons, List.sum_cons]
    have hmid : ((m :: rest).dropLast.flatMap packMiddle).length =
        9 * (m :: rest).dropLast.length + ((m :: rest).dropLast.map fun r => if r.isInsert then 4 + r.val.vallen else 0).sum := by
      generalize (m :: rest).dropLast = l
      induction l with
      | nil => rfl
      | cons a l ih =>
        rw [List.flatMap_cons, List.length_append, ih, List.map_cons, List.sum_cons]
        have := packTypeLen_length a.val a rfl
        simp only [packMiddle, List.length_append, packTxnid, le_length, List.length_cons]
        omega
    have ho := packTypeLen_length o.val o rfl
    simp only [List.length_append, hmid, packTxnid, le_length]
    simp only [List.length_dropLast, List.length_cons]
    omega

theorem memsize_mvcc {u : Ule} (h : Packable u) (hm : Mv u) : memsizeFromUle u = some (packMvcc u).length := by
  have hcne := h.cne
  have e : memsizeFromUle u = match u.pux.getLast? with
    | none => some (1 + 4 + 1 + 4 * u.cux.length + 8 * (u.cux.length + u.pux.length - 1) +
      (u.cux.map fun r => if r.isInsert then r.val.vallen else 0).sum)
    | some i => some (1 + 4 + 1 + 4 * u.cux.length + 8 * (u.cux.length + u.pux.length - 1) +
      (u.cux.map fun r => if r.isInsert then r.val.vallen else 0).sum +
        (if i.isInsert then i.val.vallen else 0) + 4 + 1 * (u.pux.length - 1) +
        (u.pux.dropLast.map fun r => if r.isInsert then 4 + r.val.vallen else 0).sum) := by
    obtain ⟨cux, pux⟩ := u
    match cux, pux with
    | [], _ => simp at hcne
    | [c], [] => simp [Mv] at hm
    | [c], o :: os => rfl
    | c :: d :: cs, pux => rfl
  rw [e]
  have hcl : 0 < u.cux.length := List.length_pos_iff.mpr hcne
  have hids : ∀ l : List Uxr, (l.flatMap fun r => packTxnid r.xid).length = 8 * l.length :=
    fun l => flatMap_const l _ 8 (fun r => le_length ..)
  have hlens : ∀ l : List Uxr, (l.flatMap fun r => packLenBit r.val).length = 4 * l.length :=
    fun l => flatMap_const l _ 4 (fun r => packLenBit_length _)
  have hdat : ∀ l : List Uxr, (l.flatMap fun r => packData r.val).length =
      (l.map fun r => if r.isInsert then r.val.vallen else 0).sum := fun l => by
    rw [flatMap_sum]; congr 1; apply List.map_congr_left; intro r _; exact packData_length r
  simp only [packMvcc, List.length_append, le_length, hids, hlens, hdat]
  cases hp : u.pux with
  | nil =>
    simp only [inter, hp, List.getLast?_nil, List.nil_append, packTail, List.length_nil, List.length_dropLast,
      Option.some.injEq]
    omega
  | cons o os =>
    have hlast : (o :: os).getLast? = some ((o :: os).getLast?.getD o) := by rw [List.getLast?_cons]; rfl
    rw [packTail_length]
    rw [hlast]
    simp only [inter, hp, List.singleton_append, List.dropLast_cons_of_ne_nil hcne, List.length_cons,
      List.length_dropLast, List.map_cons, List.sum_cons, Option.some.injEq]
    generalize (o :: os).getLast?.getD o = i
    have : Uxr.isInsert ⟨o.xid, i.val⟩ = i.isInsert := rfl
    rw [this]
    omega

theorem memsize_clean {u : Ule} {v : Bytes} (hu : u = ⟨[⟨0, .insert v⟩], []⟩) :
    memsizeFromUle u = some (le 1 0 ++ (le 4 v.length ++ v)).length := by
  subst hu
  simp [memsizeFromUle, Uxr.isInsert, XrVal.vallen]
  omega

theorem data_skip (l : List Uxr) :
    (l.flatMap fun r => packData r.val).length = ((l.map fun r => tlOf r.val).map tlLen).sum := by
  induction l with
  | nil => rfl
  | cons r l ih =>
    simp only [List.flatMap_cons, List.length_append, ih, List.map_cons, List.sum_cons]
    congr 1
    cases r.val <;> rfl

/-! ### Headers -/

theorem inter_cons (u : Ule) (hne : u.cux ≠ []) : ∃ r L, inter u = r :: L := by
  unfold inter
  cases u.pux with
  | nil => cases hc : u.cux with
    | nil => exact absurd hc hne
    | cons c cs => exact ⟨c, cs, rfl⟩
  | cons o os => exact ⟨_, _, rfl⟩

theorem inter_dropLast_len (u : Ule) (hne : u.cux ≠ []) :
    ((inter u).dropLast.flatMap fun r => packTxnid r.xid).length =
      (if u.pux.length ≠ 0 then 8 else 0) + (u.cux.length - 1) * 8 := by
  have hcl : 0 < u.cux.length := List.length_pos_iff.mpr hne
  rw [flatMap_const _ (fun r : Uxr => packTxnid r.xid) 8 (fun r => le_length ..), List.length_dropLast, inter_length]
  split <;> omega

theorem skip_skip (a b : Nat) (e : Bytes) (h : e.length = a + b) (f : Unit → P α) (r : Bytes) :
    andThen (skip a) (fun _ => andThen (skip b) f) (e ++ r) = f () r := by
  have h1 : e = e.take a ++ e.drop a := (List.take_append_drop a e).symm
  have s1 := Reads.skip (e.take a)
  have s2 := Reads.skip (e.drop a)
  rw [List.length_take, Nat.min_eq_left (by omega)] at s1
  rw [List.length_drop, h, Nat.add_sub_cancel_left] at s2
  rw [h1, List.append_assoc, s1.run, s2.run]

theorem idskip {α} (u : Ule) (hne : u.cux ≠ []) (f : Unit → P α) (r : Bytes) :
    andThen (if u.pux.length ≠ 0 then skip 8 else ret ())
      (fun _ => andThen (skip ((u.cux.length - 1) * 8)) f)
      (((inter u).dropLast.flatMap fun r => packTxnid r.xid) ++ r) = f () r := by
  have hl := inter_dropLast_len u hne
  by_cases hp : u.pux.length ≠ 0
  · rw [if_pos hp] at hl ⊢
    exact skip_skip _ _ _ hl f r
  · rw [if_neg hp] at hl ⊢
    rw [run_ret]
    have := Reads.skip ((inter u).dropLast.flatMap fun r => packTxnid r.xid)
    rw [hl, Nat.zero_add] at this
    exact this.run f r

theorem mvccLens_run {α} {u : Ule} (h : Packable u) (f : Nat × Nat → P α) (r : Bytes) :
    andThen mvccLens f (le 4 u.cux.length ++ (le 1 u.pux.length ++
      (((inter u).dropLast.flatMap fun r => packTxnid r.xid) ++ r))) = f (u.cux.length, u.pux.length) r := by
  have hcl : 0 < u.cux.length := List.length_pos_iff.mpr h.cne
  have hclt := h.clen
  have hpl := h.plen
  have h4 : Reads (num 4) (le 4 u.cux.length) u.cux.length := Reads.num (by omega)
  have h1 : Reads (num 1) (le 1 u.pux.length) u.pux.length := Reads.num (by omega)
  have key : mvccLens (le 4 u.cux.length ++ (le 1 u.pux.length ++
      (((inter u).dropLast.flatMap fun r => packTxnid r.xid) ++ r))) = some ((u.cux.length, u.pux.length), r) := by
    unfold mvccLens
    rw [h4.run, if_neg (by omega), h1.run, idskip u h.cne]
    rfl
  unfold andThen
  rw [key]
  rfl

theorem reads_one : Reads (num 1) (le 1 1) 1 := Reads.num (by decide)
theorem reads_zero : Reads (num 1) (le 1 0) 0 := Reads.num (by decide)

/-! ### The newest record -/

theorem inter_head_val (u : Ule) (hc : u.cux ≠ []) (r : Uxr) (L : List Uxr) (h : inter u = r :: L) :
    ∃ i, innermost? u = some i ∧ i.val = r.val := by
  unfold inter at h
  unfold innermost?
  cases hp : u.pux with
  | nil =>
    rw [hp] at h
    simp only [List.nil_append] at h
    rw [h]
    exact ⟨r, rfl, rfl⟩
  | cons o os =>
    rw [hp] at h
    simp only [List.singleton_append, List.cons.injEq] at h
    obtain ⟨hr, -⟩ := h
    subst hr
    have hne : u.cux ≠ [] := hc
    cases hcc : u.cux with
    | nil => exact absurd hcc hne
    | cons c cs => exact ⟨_, by simp only; rw [List.getLast?_cons], by simp [List.getLast?_cons]⟩

theorem latest_inter (u : Ule) (hc : u.cux ≠ []) (r : Uxr) (L : List Uxr) (h : inter u = r :: L) : latest u = r.val.read := by
  obtain ⟨i, hi, hv⟩ := inter_head_val u hc r L h
  unfold latest
  rw [hi, Option.bind_some, hv]

theorem head_run {α} {u : Ule} (h : Packable u) {r : Uxr} {L : List Uxr} (hL : inter u = r :: L)
    (f : TL → P α) (rest : Bytes) :
    andThen unpackLenBit f (((inter u).flatMap fun r => packLenBit r.val) ++ rest) =
      f (tlOf r.val) ((L.flatMap fun r => packLenBit r.val) ++ rest) := by
  have hr := reads_lenBit (h.inter_val r (by rw [hL]; simp)) (h.inter_vlen r (by rw [hL]; simp))
  rw [hL, List.flatMap_cons, List.append_assoc, hr.run]

theorem tlOf_delete {v : XrVal} (h : v ≠ .placeholder) : decide (tlOf v = .delete) = (v.read).isNone := by
  cases v <;> simp_all [tlOf, XrVal.read]

theorem latestIsDel_mvcc {u : Ule} (h : Packable u) : leLatestIsDel (packMvcc u) = some (latest u).isNone := by
  obtain ⟨r, L, hL⟩ := inter_cons u h.cne
  unfold leLatestIsDel packMvcc
  rw [reads_one.run, if_neg (by decide), if_pos rfl, mvccLens_run h, head_run h hL, latest_inter u h.cne r L hL,
    ← tlOf_delete (h.inter_val r (by rw [hL]; simp))]
  rfl

theorem latestVallen_mvcc {u : Ule} (h : Packable u) :
    leLatestVallen (packMvcc u) = some ((latest u).getD []).length := by
  obtain ⟨r, L, hL⟩ := inter_cons u h.cne
  unfold leLatestVallen packMvcc
  rw [reads_one.run, if_neg (by decide), if_pos rfl, mvccLens_run h, head_run h hL, latest_inter u h.cne r L hL]
  have := h.inter_val r (by rw [hL]; simp)
  cases hv : r.val <;> simp_all [tlOf, XrVal.read, ret, tlLen]

theorem latestVal_mvcc {u : Ule} (h : Packable u) : leLatestVal (packMvcc u) = some (latest u) := by
  obtain ⟨r, L, hL⟩ := inter_cons u h.cne
  have hcl : 0 < u.cux.length := List.length_pos_iff.mpr h.cne
  unfold leLatestVal packMvcc
  rw [reads_one.run, if_neg (by decide), if_pos rfl, mvccLens_run h]
  simp only
  rw [head_run h hL, latest_inter u h.cne r L hL]
  have := h.inter_val r (by rw [hL]; simp)
  cases hv : r.val with
  | insert v =>
    have hlen : (L.flatMap fun r => packLenBit r.val).length =
        (u.cux.length - 1 + (if u.pux.length ≠ 0 then 1 else 0)) * 4 := by
      rw [flatMap_const _ _ 4 (fun r => packLenBit_length _)]
      have := inter_length u
      rw [hL, List.length_cons] at this
      omega
    have hs := Reads.skip (L.flatMap fun r => packLenBit r.val)
    rw [hlen] at hs
    rw [show tlOf (XrVal.insert v) = TL.insert v.length from rfl]
    simp only
    rw [hs.run, hL, List.flatMap_cons, hv, packData, List.append_assoc, (Reads.take v).run]
    rfl
  | delete => rfl
  | placeholder => exact absurd hv this

theorem outermost_mvcc {u : Ule} (h : Packable u) :
    leOutermostXid (packMvcc u) = some (u.pux.head?.elim 0 (·.xid)) := by
  have hclt := h.clen
  have hpl := h.plen
  have h4 : Reads (num 4) (le 4 u.cux.length) u.cux.length := Reads.num (by omega)
  have h1 : Reads (num 1) (le 1 u.pux.length) u.pux.length := Reads.num (by omega)
  unfold leOutermostXid packMvcc
  rw [reads_one.run, if_neg (by decide), if_pos rfl, h4.run, h1.run]
  cases hp : u.pux with
  | nil => simp [whenProv, ret, txnidNone]
  | cons o os =>
    rw [whenProv, if_neg (by simp)]
    simp only [inter, hp, List.singleton_append, List.dropLast_cons_of_ne_nil h.cne, List.flatMap_cons,
      List.append_assoc]
    rw [reads_txnid (h.xid o (by simp [hp]))]
    rfl

theorem worthGc_mvcc {u : Ule} (h : Packable u) (o : Txnid) : leWorthGc (packMvcc u) o =
    some (1 < u.cux.length ∨ ∃ r, u.pux.head? = some r ∧ r.xid < o : Bool) := by
  have hclt := h.clen
  have hpl := h.plen
  have h4 : Reads (num 4) (le 4 u.cux.length) u.cux.length := Reads.num (by omega)
  have h1 : Reads (num 1) (le 1 u.pux.length) u.pux.length := Reads.num (by omega)
  unfold leWorthGc packMvcc
  rw [reads_one.run, if_neg (by decide), h4.run, h1.run]
  by_cases hc : u.cux.length > 1
  · rw [if_pos hc]
    simp only [ret, Option.map_some, Option.some.injEq]
    symm; rw [decide_eq_true_iff]; exact Or.inl hc
  · rw [if_neg hc]
    cases hp : u.pux with
    | nil =>
      simp [ret, hc]
    | cons r os =>
      rw [if_neg (by simp)]
      simp only [inter, hp, List.singleton_append, List.dropLast_cons_of_ne_nil h.cne, List.flatMap_cons,
        List.append_assoc]
      rw [(reads_txnid (h.xid r (by simp [hp]))).run]
      simp [ret, hc]

/-! ### Size from the packed form -/

theorem restMemsize_run {u : Ule} (h : Packable u) (rest : Bytes) :
    restMemsize u.pux.length u.cux.length (((inter u).dropLast.flatMap fun r => packTxnid r.xid) ++
      (((inter u).flatMap fun r => packLenBit r.val) ++ (((inter u).flatMap fun r => packData r.val) ++
        (packTail u.pux ++ rest)))) = some ((), rest) := by
  unfold restMemsize
  rw [idskip u h.cne]
  have hls := Reads.rep (enc := fun r : Uxr => packLenBit r.val) (val := fun r => tlOf r.val) u.cux
    (fun r hr => reads_lenBit (h.cval r hr) (h.vlen r (List.mem_append_left _ hr)))
  cases hp : u.pux with
  | nil =>
    rw [show whenProv (List.length ([] : List Uxr)) unpackLenBit TL.delete = ret .delete from rfl, run_ret]
    simp only [inter, hp, List.nil_append]
    rw [hls.run]
    have hs := Reads.skip (u.cux.flatMap fun r => packData r.val)
    rw [data_skip] at hs
    rw [show tlLen TL.delete = 0 from rfl, Nat.zero_add, hs.run]
    rfl
  | cons o os =>
    have ht := reads_tail h o os hp
    have hmem : ∀ r, r ∈ o :: os → r ∈ u.cux ++ u.pux := fun r hr => by
      rw [hp]; exact List.mem_append_right _ hr
    have hlast : (o :: os).getLast? = some ((o :: os).getLast?.getD o) := by rw [List.getLast?_cons]; rfl
    rw [hp] at ht
    simp only [inter, hp, List.singleton_append, List.flatMap_cons, List.append_assoc]
    generalize (o :: os).getLast?.getD o = i at ht hlast ⊢
    have hi : i ∈ o :: os := List.mem_of_getLast? hlast
    rw [show whenProv (o :: os).length unpackLenBit TL.delete = unpackLenBit from rfl,
      (reads_lenBit (h.inn i (by rw [hp]; exact hlast)) (h.vlen i (hmem i hi))).run, hls.run]
    have hs := Reads.skip (packData i.val ++ u.cux.flatMap fun r => packData r.val)
    rw [List.length_append, data_skip, show (packData i.val).length = tlLen (tlOf i.val) from by cases i.val <;> rfl] at hs
    rw [← List.append_assoc (packData i.val), hs.run]
    by_cases h1 : (o :: os).length > 1
    · rw [if_pos h1]
      have h2 := ht rest
      rw [unpackTail, if_neg (by omega), if_neg (by omega)] at h2
      revert h2
      unfold andThen
      generalize packTail (o :: os) ++ rest = bs
      cases unpackTypeLen bs with
      | none => simp
      | some a =>
        simp only [Option.bind_some]
        cases unpackData a.1 a.2 with
        | none => simp
        | some a =>
          simp only [Option.bind_some]
          cases rep unpackMiddle ((o :: os).length - 2) a.2 with
          | none => simp
          | some a =>
            simp only [Option.bind_some]
            cases unpackTxnid a.2 with
            | none => simp
            | some a => simp only [Option.bind_some, ret, Option.some.injEq, Prod.mk.injEq]; grind
    · rw [if_neg h1]
      cases os with
      | nil => rfl
      | cons a as => simp at h1

theorem memsizeP_mvcc {u : Ule} (h : Packable u) : memsize (packMvcc u) = some (packMvcc u).length := by
  have hcl : 0 < u.cux.length := List.length_pos_iff.mpr h.cne
  have hclt := h.clen
  have hpl := h.plen
  have h4 : Reads (num 4) (le 4 u.cux.length) u.cux.length := Reads.num (by omega)
  have h1 : Reads (num 1) (le 1 u.pux.length) u.pux.length := Reads.num (by omega)
  have hr := restMemsize_run h []
  rw [List.append_nil] at hr
  unfold memsize
  generalize hlen : (packMvcc u).length = n
  unfold packMvcc
  rw [reads_one.run, if_neg (by decide), if_pos rfl, h4.run, if_neg (by omega), h1.run]
  unfold andThen
  rw [hr]
  simp [ret]

/-! ### Iterating -/

theorem acceptedIndex_le (f : Bool → Txnid → Bool) (b : Bool) (xs : List Txnid) : acceptedIndex f b xs ≤ xs.length := by
  induction xs generalizing b with
  | nil => simp [acceptedIndex]
  | cons x xs ih =>
    simp only [acceptedIndex]
    split
    · simp
    · have := ih false; simp only [List.length_cons]; omega

theorem committed_index (f : Bool → Txnid → Bool) (l : List Uxr) (hne : l ≠ []) :
    ∃ r, l[acceptedIndex f false (l.dropLast.map (·.xid))]? = some r ∧ Txn.readCommitted (f false) l = some r := by
  induction l with
  | nil => exact absurd rfl hne
  | cons c l ih =>
    cases hl : l with
    | nil => exact ⟨c, rfl, rfl⟩
    | cons d l' =>
      obtain ⟨r, h1, h2⟩ := ih (by simp [hl])
      rw [← hl]
      have hne' : l ≠ [] := by simp [hl]
      rw [List.dropLast_cons_of_ne_nil hne', List.map_cons]
      simp only [acceptedIndex]
      by_cases hf : f false c.xid = true
      · rw [if_pos hf]
        refine ⟨c, rfl, ?_⟩
        rw [hl]; simp [Txn.readCommitted, hf]
      · rw [if_neg hf]
        refine ⟨r, by simpa using h1, ?_⟩
        rw [hl] at h2 ⊢
        simp [Txn.readCommitted, hf, h2]

theorem readWith_inter (f : Bool → Txnid → Bool) (u : Ule) (hne : u.cux ≠ []) :
    ∃ r, (inter u)[acceptedIndex f (u.pux.length ≠ 0) ((inter u).dropLast.map (·.xid))]? = some r ∧
      readWith f u = r.val.read := by
  cases hp : u.pux with
  | nil =>
    obtain ⟨r, h1, h2⟩ := committed_index f u.cux hne
    refine ⟨r, ?_, ?_⟩
    · simpa [inter, hp] using h1
    · simp [readWith, hp, h2]
  | cons o os =>
    obtain ⟨r, h1, h2⟩ := committed_index f u.cux hne
    have hd : (inter u) = ⟨o.xid, ((o :: os).getLast?.getD o).val⟩ :: u.cux := by simp [inter, hp]
    rw [hd, List.dropLast_cons_of_ne_nil hne, List.map_cons]
    simp only [acceptedIndex, List.length_cons, ne_eq, Nat.add_one_ne_zero, not_false_eq_true, decide_true]
    by_cases hf : f true o.xid = true
    · rw [if_pos hf]
      refine ⟨_, rfl, ?_⟩
      simp only [readWith, hp, if_pos hf]
      exact latest_inter u hne ⟨o.xid, ((o :: os).getLast?.getD o).val⟩ u.cux hd
    · rw [if_neg hf]
      refine ⟨r, by simpa using h1, ?_⟩
      simp [readWith, hp, hf, h2]

theorem take_drop_at {α} (l : List α) (i : Nat) (r : α) (h : l[i]? = some r) :
    l = l.take i ++ r :: l.drop (i + 1) := by
  obtain ⟨hi, rfl⟩ := List.getElem?_eq_some_iff.mp h
  rw [List.getElem_cons_drop, List.take_append_drop]

theorem iterateVal_mvcc {u : Ule} (h : Packable u) (f : Bool → Txnid → Bool) :
    leIterateVal f (packMvcc u) = some (readWith f u) := by
  have hcl : 0 < u.cux.length := List.length_pos_iff.mpr h.cne
  have hclt := h.clen
  have hpl := h.plen
  have h4 : Reads (num 4) (le 4 u.cux.length) u.cux.length := Reads.num (by omega)
  have h1 : Reads (num 1) (le 1 u.pux.length) u.pux.length := Reads.num (by omega)
  obtain ⟨r, hr, hread⟩ := readWith_inter f u h.cne
  rw [hread]
  unfold leIterateVal packMvcc
  rw [reads_one.run, if_neg (by decide), if_pos rfl, h4.run, h1.run]
  simp only [← inter_length u]
  rw [h.ids_reads.run, h.lens_reads.run]
  simp only [List.getElem?_map, hr, Option.map_some]
  have hmem : r ∈ inter u := List.mem_of_getElem? hr
  have hval := h.inter_val r hmem
  generalize acceptedIndex f (decide (u.pux.length ≠ 0)) ((inter u).dropLast.map (·.xid)) = k at hr
  cases hv : r.val with
  | insert v =>
    have hs := Reads.skip (((inter u).take k).flatMap fun r => packData r.val)
    rw [data_skip, List.map_take] at hs
    have hsplit := take_drop_at _ _ _ hr
    have he : (inter u).flatMap (fun r => packData r.val) =
        ((inter u).take k).flatMap (fun r => packData r.val) ++ (v ++
          ((inter u).drop (k + 1)).flatMap (fun r => packData r.val)) := by
      conv => lhs; rw [hsplit]
      rw [List.flatMap_append, List.flatMap_cons, hv, packData]
    rw [show tlOf (XrVal.insert v) = TL.insert v.length from rfl]
    simp only
    rw [he, List.append_assoc, hs.run, List.append_assoc, (Reads.take v).run]
    rfl
  | delete => rfl
  | placeholder => exact absurd hv hval

theorem iterateIsDel_mvcc {u : Ule} (h : Packable u) (f : Bool → Txnid → Bool) :
    leIterateIsDel f (packMvcc u) = some (readWith f u).isNone := by
  have hcl : 0 < u.cux.length := List.length_pos_iff.mpr h.cne
  have hclt := h.clen
  have hpl := h.plen
  have h4 : Reads (num 4) (le 4 u.cux.length) u.cux.length := Reads.num (by omega)
  have h1 : Reads (num 1) (le 1 u.pux.length) u.pux.length := Reads.num (by omega)
  obtain ⟨r, hr, hread⟩ := readWith_inter f u h.cne
  rw [hread]
  unfold leIterateIsDel packMvcc
  rw [reads_one.run, if_neg (by decide), if_pos rfl, h4.run, h1.run]
  simp only [← inter_length u]
  rw [h.ids_reads.run]
  have hmem : r ∈ inter u := List.mem_of_getElem? hr
  have hval := h.inter_val r hmem
  generalize acceptedIndex f (decide (u.pux.length ≠ 0)) ((inter u).dropLast.map (·.xid)) = k at hr
  have hsplit := take_drop_at _ _ _ hr
  have he : (inter u).flatMap (fun r => packLenBit r.val) =
      ((inter u).take k).flatMap (fun r => packLenBit r.val) ++ (packLenBit r.val ++
        ((inter u).drop (k + 1)).flatMap (fun r => packLenBit r.val)) := by
    conv => lhs; rw [hsplit]
    rw [List.flatMap_append, List.flatMap_cons]
  have hs := Reads.skip (((inter u).take k).flatMap fun r => packLenBit r.val)
  have hk : k < (inter u).length := (List.getElem?_eq_some_iff.mp hr).1
  rw [flatMap_const _ _ 4 (fun r => packLenBit_length _), List.length_take, Nat.min_eq_left (by omega)] at hs
  rw [he, List.append_assoc, hs.run, List.append_assoc,
    (reads_lenBit hval (h.inter_vlen r hmem)).run, ← tlOf_delete hval]
  rfl

end Verif.Ule
