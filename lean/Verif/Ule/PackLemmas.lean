import Verif.Ule.Pack

/-! Lemmas about the packed leaf entry. -/
namespace Verif.Ule
open Verif.Codec (le ofLe P ret fail andThen num skip rep each Reads le_length run_ret)

/-- The length word of a value. -/
def tlOf : XrVal → TL
  | .insert b => .insert b.length
  | .delete => .delete
  | .placeholder => .placeholder

theorem insertLength_eq {n : Nat} (h : n < 2 ^ 31) : insertLength n = 2 ^ 31 + n := by
  unfold insertLength
  exact (Nat.two_pow_add_eq_or_of_lt h 1 |>.symm)

theorem getLength_eq {n : Nat} (h : n < 2 ^ 31) : getLength (insertLength n) = n := by
  unfold getLength
  rw [insertLength_eq h, Nat.and_two_pow_sub_one_eq_mod]
  omega

theorem isInsertLen_insert {n : Nat} (h : n < 2 ^ 31) : isInsertLen (insertLength n) = true := by
  unfold isInsertLen
  simp only [decide_not, Bool.not_eq_true', decide_eq_false_iff_not]
  intro h0
  have : (insertLength n &&& 2 ^ 31).testBit 31 = true := by
    unfold insertLength
    rw [Nat.testBit_and, Nat.testBit_or, Nat.testBit_two_pow_self]
    rfl
  rw [h0] at this
  simp at this

theorem isInsertLen_zero : isInsertLen 0 = false := by decide

theorem reads_txnid {x : Txnid} (h : x < 2 ^ 64) : Reads unpackTxnid (packTxnid x) x :=
  Reads.num (by simpa using h)

theorem reads_lenBit {v : XrVal} (hv : v ≠ .placeholder) (h : v.vallen < 2 ^ 31) :
    Reads unpackLenBit (packLenBit v) (tlOf v) := by
  cases v with
  | insert b =>
    simp only [XrVal.vallen] at h
    refine Reads.bindRet (a := insertLength b.length) (Reads.num ?_) ?_
    · rw [insertLength_eq h]; omega
    · intro r
      simp only [isInsertLen_insert h, getLength_eq h, if_true, tlOf]
      rfl
  | delete =>
    refine Reads.bindRet (a := 0) (Reads.num (by decide)) ?_
    intro r; rfl
  | placeholder => exact absurd rfl hv

theorem reads_data (v : XrVal) : Reads (unpackData (tlOf v)) (packData v) v := by
  cases v with
  | insert b =>
    have : Reads (andThen (Codec.take b.length) fun b => ret (XrVal.insert b)) b (.insert b) :=
      (Reads.take b).bindRet (Reads.ret _)
    exact this
  | delete => exact Reads.ret _
  | placeholder => exact Reads.ret _

theorem reads_typeLen {v : XrVal} (h : v.vallen < 2 ^ 31) : Reads unpackTypeLen (packTypeLen v) (tlOf v) := by
  cases v with
  | insert b =>
    simp only [XrVal.vallen] at h
    have h1 : Reads (num 1) (le 1 1) 1 := Reads.num (by decide)
    have h2 : Reads (andThen (num 4) fun n => ret (TL.insert n)) (le 4 b.length) (.insert b.length) :=
      (Reads.num (n := 4) (v := b.length) (by omega)).bindRet (Reads.ret _)
    exact h1.andThen h2
  | delete =>
    exact (Reads.num (n := 1) (v := 2) (by decide)).bindRet (Reads.ret _)
  | placeholder =>
    exact (Reads.num (n := 1) (v := 3) (by decide)).bindRet (Reads.ret _)

theorem reads_middle {r : Uxr} (hx : r.xid < 2 ^ 64) (h : r.val.vallen < 2 ^ 31) :
    Reads unpackMiddle (packMiddle r) r := by
  unfold packMiddle unpackMiddle
  rw [List.append_assoc]
  exact (reads_txnid hx).andThen ((reads_typeLen h).andThen ((reads_data _).bindRet (Reads.ret _)))

/-- The records whose ids, lengths and data come first in the packed form: the provisional one, with the
outermost id and the innermost value, then the committed ones. -/
def inter (u : Ule) : List Uxr :=
  (match u.pux with
    | [] => []
    | o :: os => [⟨o.xid, ((o :: os).getLast?.getD o).val⟩]) ++ u.cux

theorem Packable.cne {u : Ule} (h : Packable u) : u.cux ≠ [] := by
  obtain ⟨b, hb, -⟩ := h.bottom
  intro h0; simp [h0] at hb

theorem inter_length (u : Ule) : (inter u).length = u.cux.length + (if u.pux.length ≠ 0 then 1 else 0) := by
  unfold inter
  cases u.pux <;> simp <;> omega

theorem Packable.inter_val {u : Ule} (h : Packable u) : ∀ r ∈ inter u, r.val ≠ .placeholder := by
  intro r hr
  unfold inter at hr
  rcases List.mem_append.mp hr with hr | hr
  · cases hp : u.pux with
    | nil => simp [hp] at hr
    | cons o os =>
      simp only [hp, List.mem_singleton] at hr
      subst hr
      exact h.inn ((o :: os).getLast?.getD o) (by rw [hp, List.getLast?_cons]; rfl)
  · exact h.cval r hr

theorem Packable.inter_xid {u : Ule} (h : Packable u) : ∀ r ∈ inter u, r.xid < 2 ^ 64 := by
  intro r hr
  unfold inter at hr
  rcases List.mem_append.mp hr with hr | hr
  · cases hp : u.pux with
    | nil => simp [hp] at hr
    | cons o os =>
      simp only [hp, List.mem_singleton] at hr
      subst hr
      exact h.xid o (by simp [hp])
  · exact h.xid r (List.mem_append_left _ hr)

theorem Packable.inter_vlen {u : Ule} (h : Packable u) : ∀ r ∈ inter u, r.val.vallen < 2 ^ 31 := by
  intro r hr
  unfold inter at hr
  rcases List.mem_append.mp hr with hr | hr
  · cases hp : u.pux with
    | nil => simp [hp] at hr
    | cons o os =>
      simp only [hp, List.mem_singleton] at hr
      subst hr
      refine h.vlen ((o :: os).getLast?.getD o) (List.mem_append_right _ ?_)
      rw [hp, List.getLast?_cons, Option.getD_some]
      exact List.mem_of_getLast? (l := o :: os) (by rw [List.getLast?_cons])
  · exact h.vlen r (List.mem_append_left _ hr)

/-- The MVCC form, written with `inter`. -/
def packMvcc (u : Ule) : Bytes :=
  le 1 1 ++ (le 4 u.cux.length ++ (le 1 u.pux.length ++
    ((inter u).dropLast.flatMap (fun r => packTxnid r.xid) ++ ((inter u).flatMap (fun r => packLenBit r.val) ++
      ((inter u).flatMap (fun r => packData r.val) ++ packTail u.pux)))))

/-- The row holds some insert. -/
def HasInsert (u : Ule) : Prop := ∃ r ∈ u.cux ++ u.pux, r.isInsert = true

theorem hasInsert_iff (u : Ule) : HasInsert u ↔ (u.cux.any Uxr.isInsert ∨ u.pux.any Uxr.isInsert) := by
  unfold HasInsert
  simp only [List.mem_append, List.any_eq_true]
  constructor
  · rintro ⟨r, h | h, hi⟩
    · exact Or.inl ⟨r, h, hi⟩
    · exact Or.inr ⟨r, h, hi⟩
  · rintro (⟨r, h, hi⟩ | ⟨r, h, hi⟩)
    · exact ⟨r, Or.inl h, hi⟩
    · exact ⟨r, Or.inr h, hi⟩

theorem pack_none {u : Ule} (h : Packable u) (hn : ¬ HasInsert u) : pack u = some none := by
  obtain ⟨b, hb, hz⟩ := h.bottom
  unfold pack
  rw [hb]
  simp only [hz, txnidNone, ne_eq, not_true, if_false]
  rw [if_pos (by rw [← hasInsert_iff]; exact hn)]

theorem pack_clean {u : Ule} (h : Packable u) {v : Bytes} (hu : u = ⟨[⟨0, .insert v⟩], []⟩) :
    pack u = some (some (le 1 0 ++ (le 4 v.length ++ v))) := by
  subst hu
  simp [pack, txnidNone, Uxr.isInsert, packData, XrVal.vallen, Codec.le_one]

/-- Not of the clean shape. -/
def Mv (u : Ule) : Prop := 1 < u.cux.length ∨ u.pux ≠ []

theorem clean_or_mv {u : Ule} (h : Packable u) (hi : HasInsert u) : (∃ v, u = ⟨[⟨0, .insert v⟩], []⟩) ∨ Mv u := by
  obtain ⟨b, hb, hz⟩ := h.bottom
  obtain ⟨cux, pux⟩ := u
  unfold Mv
  match cux, pux, hb, hi with
  | [], _, hb, _ => simp at hb
  | [c], [], hb, hi =>
    simp at hb
    subst hb
    obtain ⟨r, hr, hir⟩ := hi
    simp at hr
    subst hr
    obtain ⟨x, v⟩ := r
    simp at hz
    subst hz
    cases v <;> simp_all [Uxr.isInsert]
  | [c], o :: os, _, _ => simp
  | c :: d :: cs, _, _, _ => simp

theorem pack_mvcc {u : Ule} (h : Packable u) (hi : HasInsert u) (hm : Mv u) :
    pack u = some (some (packMvcc u)) := by
  obtain ⟨b, hb, hz⟩ := h.bottom
  have hcne := h.cne
  have hpl := h.plen
  unfold pack
  rw [hb]
  simp only [hz, txnidNone, ne_eq, not_true, if_false]
  rw [if_neg (by rw [← hasInsert_iff]; exact fun hn => hn hi)]
  have hmax : u.pux.length < maxTransactionRecords := by unfold maxTransactionRecords; omega
  obtain ⟨cux, pux⟩ := u
  have key : ∀ cux pux, cux ≠ [] →
    (1 :: le 4 cux.length ++ le 1 pux.length ++
      (pux.head?.elim [] fun o => packTxnid o.xid) ++
      cux.dropLast.flatMap (fun r => packTxnid r.xid) ++
      ((pux.getLast?.map (·.val)).elim [] packLenBit) ++ cux.flatMap (fun r => packLenBit r.val) ++
      ((pux.getLast?.map (·.val)).elim [] packData) ++ cux.flatMap (fun r => packData r.val) ++
      packTail pux) = packMvcc ⟨cux, pux⟩ := by
    intro cux pux hne
    unfold packMvcc inter
    cases pux with
    | nil => simp [Codec.le_one]
    | cons o os =>
      simp [Codec.le_one, List.dropLast_cons_of_ne_nil hne, List.getLast?_cons]
  match cux, pux with
  | [], _ => simp at hcne
  | [c], [] => simp [Mv] at hm
  | [c], o :: os => simp only; rw [if_pos hmax, key _ _ (by simp)]
  | c :: d :: cs, pux => simp only; rw [if_pos hmax, key _ _ (by simp)]

theorem reads_tail {u : Ule} (h : Packable u) (o : Uxr) (os : List Uxr) (hp : u.pux = o :: os) :
    Reads (unpackTail u.pux.length o.xid ((o :: os).getLast?.getD o).val) (packTail u.pux) u.pux := by
  rw [hp]
  have hx : ∀ r ∈ o :: os, r.xid < 2 ^ 64 ∧ r.val.vallen < 2 ^ 31 := fun r hr =>
    ⟨h.xid r (by simp only [hp, List.mem_append]; exact Or.inr hr),
     h.vlen r (by simp only [hp, List.mem_append]; exact Or.inr hr)⟩
  cases os with
  | nil => exact Reads.ret _
  | cons m rest =>
    obtain ⟨ms, l, hl⟩ : ∃ ms l, m :: rest = ms ++ [l] :=
      ⟨(m :: rest).dropLast, (m :: rest).getLast (by simp), (List.dropLast_concat_getLast (by simp)).symm⟩
    have hpt : packTail (o :: m :: rest) = packTypeLen o.val ++ packData o.val ++
      (m :: rest).dropLast.flatMap packMiddle ++ packTxnid ((m :: rest).getLast?.getD m).xid := rfl
    rw [hpt]
    unfold unpackTail
    have hlen : (o :: (ms ++ [l])).length = ms.length + 2 := by simp
    rw [hl] at hx ⊢
    have e1 : (o :: (ms ++ [l])).getLast?.getD o = l := by
      rw [← List.cons_append, List.getLast?_concat]; rfl
    have e2 : (ms ++ [l]).getLast?.getD m = l := by rw [List.getLast?_concat]; rfl
    rw [e1, e2, hlen, if_neg (by omega), if_neg (by omega), List.dropLast_concat, Nat.add_sub_cancel]
    have ho := hx o (List.mem_cons_self ..)
    have hm : ∀ r ∈ ms, r.xid < 2 ^ 64 ∧ r.val.vallen < 2 ^ 31 := fun r hr => hx r (by simp [hr])
    have hl' := hx l (by simp)
    rw [List.append_assoc, List.append_assoc]
    have hrep := Reads.rep (enc := packMiddle) (val := id) ms
      (fun r hr => reads_middle (hm r hr).1 (hm r hr).2)
    rw [List.map_id] at hrep
    refine (reads_typeLen ho.2).andThen ((reads_data _).andThen (hrep.andThen
      ((reads_txnid hl'.1).bindRet ?_)))
    exact Reads.ret _

theorem Packable.ids_reads {u : Ule} (h : Packable u) :
    Reads (rep unpackTxnid ((inter u).length - 1)) ((inter u).dropLast.flatMap fun r => packTxnid r.xid)
      ((inter u).dropLast.map (·.xid)) := by
  have := Reads.rep (p := unpackTxnid) (enc := fun r : Uxr => packTxnid r.xid) (val := (·.xid)) (inter u).dropLast
    (fun r hr => reads_txnid (h.inter_xid r (List.dropLast_subset _ hr)))
  rwa [List.length_dropLast] at this

theorem Packable.lens_reads {u : Ule} (h : Packable u) :
    Reads (rep unpackLenBit (inter u).length) ((inter u).flatMap fun r => packLenBit r.val)
      ((inter u).map fun r => tlOf r.val) :=
  Reads.rep (enc := fun r : Uxr => packLenBit r.val) (val := fun r => tlOf r.val) (inter u)
    (fun r hr => reads_lenBit (h.inter_val r hr) (h.inter_vlen r hr))

theorem zip_back {l : List Uxr} {b : Uxr} (hb : l.getLast? = some b) (hz : b.xid = 0) :
    List.zipWith Uxr.mk (l.dropLast.map (·.xid) ++ [txnidNone]) (l.map (·.val)) = l := by
  have hne : l ≠ [] := by intro h0; simp [h0] at hb
  have hl : l = l.dropLast ++ [b] := by
    have := (List.dropLast_concat_getLast hne).symm
    rw [List.getLast?_eq_some_getLast hne] at hb
    simp only [Option.some.injEq] at hb
    rwa [hb] at this
  generalize hd : l.dropLast = d at hl
  subst hl
  rw [List.map_append, List.zipWith_append (by simp)]
  have : List.zipWith Uxr.mk (d.map (·.xid)) (d.map (·.val)) = d := by
    rw [List.zipWith_map]
    induction d with
    | nil => rfl
    | cons x d ih => simp
  rw [this]
  simp [txnidNone, ← hz]

theorem unpack_mvcc {u : Ule} (h : Packable u) : Reads unpack (packMvcc u) u := by
  obtain ⟨b, hb, hz⟩ := h.bottom
  have hcne := h.cne
  have hcl : 0 < u.cux.length := List.length_pos_iff.mpr hcne
  have hclt := h.clen
  have hpl := h.plen
  unfold unpack packMvcc
  refine (Reads.num (n := 1) (v := 1) (by decide)).andThen ?_
  simp only [Nat.one_ne_zero, if_false, if_true]
  refine (Reads.num (n := 4) (v := u.cux.length) (by omega)).andThen ?_
  rw [if_neg (by omega)]
  refine (Reads.num (n := 1) (v := u.pux.length) (by omega)).andThen ?_
  have hxs := Reads.rep (p := unpackTxnid) (enc := fun r : Uxr => packTxnid r.xid) (val := (·.xid)) u.cux.dropLast
    (fun r hr => reads_txnid (h.xid r (List.mem_append_left _ (List.dropLast_subset _ hr))))
  rw [List.length_dropLast] at hxs
  have hls := Reads.rep (enc := fun r : Uxr => packLenBit r.val) (val := fun r => tlOf r.val) u.cux
    (fun r hr => reads_lenBit (h.cval r hr) (h.vlen r (List.mem_append_left _ hr)))
  have hds := Reads.each (f := unpackData) (enc := fun r : Uxr => packData r.val) (val := (·.val))
    (key := fun r : Uxr => tlOf r.val) u.cux (fun r _ => reads_data r.val)
  cases hp : u.pux with
  | nil =>
    simp only [inter, hp, List.nil_append, List.length_nil]
    refine Reads.andThen (e1 := []) (a := 0) (Reads.ret _) ?_
    refine hxs.andThen ?_
    refine Reads.andThen (e1 := []) (a := TL.delete) (Reads.ret _) ?_
    refine hls.andThen ?_
    refine Reads.andThen (e1 := []) (a := XrVal.delete) (Reads.ret _) ?_
    refine hds.andThen ?_
    refine Reads.bindRet (a := []) (Reads.ret _) ?_
    rw [zip_back hb hz, ← hp]
    exact Reads.ret _
  | cons o os =>
    have ht := reads_tail h o os hp
    have hmem : ∀ r, r ∈ o :: os → r ∈ u.cux ++ u.pux := fun r hr => by
      rw [hp]; exact List.mem_append_right _ hr
    have hlast : (o :: os).getLast? = some ((o :: os).getLast?.getD o) := by rw [List.getLast?_cons]; rfl
    rw [hp] at ht
    simp only [inter, hp, List.singleton_append, List.dropLast_cons_of_ne_nil hcne, List.flatMap_cons,
      List.append_assoc]
    generalize (o :: os).getLast?.getD o = i at ht hlast ⊢
    have hi : i ∈ o :: os := List.mem_of_getLast? hlast
    refine Reads.andThen (a := o.xid) ?_ ?_
    · rw [whenProv, if_neg (by simp)]; exact reads_txnid (h.xid o (hmem o (List.mem_cons_self ..)))
    refine hxs.andThen ?_
    refine Reads.andThen (a := tlOf i.val) ?_ ?_
    · rw [whenProv, if_neg (by simp)]
      exact reads_lenBit (h.inn i (by rw [hp]; exact hlast)) (h.vlen i (hmem i hi))
    refine hls.andThen ?_
    refine Reads.andThen (a := i.val) ?_ ?_
    · rw [whenProv, if_neg (by simp)]; exact reads_data _
    refine hds.andThen ?_
    refine ht.bindRet ?_
    rw [zip_back hb hz, ← hp]
    exact Reads.ret _

theorem unpack_clean {v : Bytes} (h : v.length < 2 ^ 31) :
    Reads unpack (le 1 0 ++ (le 4 v.length ++ v)) ⟨[⟨0, .insert v⟩], []⟩ := by
  unfold unpack
  refine (Reads.num (n := 1) (v := 0) (by decide)).andThen ?_
  rw [if_pos rfl]
  exact (Reads.num (n := 4) (by omega)).andThen ((Reads.take v).bindRet (Reads.ret _))

end Verif.Ule
