import Verif.Rec.Ghost
/-! One more record: every row takes its messages, and what is known about it stays true. -/
namespace Verif.Rec
open Verif.Rec.Spec
open Verif.Ule (Ule Bytes Op emptyUle msgModifyU runMsgs R R_step latest)
set_option linter.unusedVariables false
set_option linter.unusedSimpArgs false

abbrev HasRow (acts : List Act) (f : File) (k : Key) : Prop := ∃ a ∈ acts, a.file = f ∧ a.key = k

theorem prefix_dropLast {d c : List Nat} (h : d <+: c) (hne : d ≠ c) : d <+: c.dropLast := by
  rcases List.eq_nil_or_concat c with rfl | ⟨b, x, rfl⟩
  · exact h
  · rw [List.concat_eq_append] at *
    rw [List.dropLast_concat]
    rcases List.prefix_concat_iff.mp h with h | h
    · exact absurd h hne
    · exact h

/-- Every beginning of the ids of a live transaction is that of a live one. -/
theorem TxWf.prefixLive {T : Txns} (wf : TxWf T) {e : Xid × Txn} (he : e ∈ T) {d : List Nat} (hd : d <+: e.2.chain) (hne : d ≠ []) : ∃ e' ∈ T, e'.2.chain = d := by
  suffices H : ∀ n, ∀ e ∈ T, e.1.child = n → d <+: e.2.chain → ∃ e' ∈ T, e'.2.chain = d from H _ e he rfl hd
  intro n
  induction n using Nat.strongRecOn with
  | _ n ih =>
    intro e he hn hd
    by_cases heq : d = e.2.chain
    · exact ⟨e, he, heq.symm⟩
    · have hdl := prefix_dropLast hd heq
      cases hq : e.2.parent with
      | none =>
        rw [(wf.root e he hq).2] at hdl
        simp at hdl; exact absurd hdl hne
      | some q =>
        obtain ⟨-, -, hqc, u, hu, -, hch⟩ := wf.child e he q hq
        rw [hch, List.dropLast_concat] at hdl
        exact ih q.child (by omega) (q, u) (get_mem hu) rfl hdl

/-- A live transaction whose ids begin with those of an innermost one. -/
theorem TxWf.inner {T : Txns} (wf : TxWf T) {p : Xid} {t : Txn} (hp : T.get p = some t) (hc : T.childOf p = none) {e : Xid × Txn} (he : e ∈ T)
    (h : t.chain <+: e.2.chain) : e = (p, t) := by
  have hpm := get_mem hp
  have h1 := wf.head hpm
  have h2 := wf.head he
  have hr : e.1.root = p.root := by
    obtain ⟨x, hx⟩ := h
    have hne := wf.chain_ne hpm
    rw [← hx, List.head?_append, h1] at h2
    simp at h2; exact h2.symm
  have hle := wf.deepest hpm hc e he hr
  have := wf.fam he hpm hr hle
  exact wf.inj he hpm (this.eq_of_length (Nat.le_antisymm this.length_le h.length_le))

section
variable {log : List Rec} {T T' : Txns} {f : File} {k : Key} {u u' : Ule} {s s1 : Verif.Ule.Spec.Row} {r : Rec}

theorem lineage_rest (hr : ∀ p q, r ≠ .xbegin p q) : lineage (log ++ [r]) = lineage log := by
  rw [lineage_snoc]; cases r <;> first | rfl | exact absurd rfl (hr _ _)

/-- Nothing about ids and rollback entries changes. -/
theorem GInv.same (h : GInv log T f k u s) (hr : ∀ p q, r ≠ .xbegin p q) (hw : Spec.writes f k (log ++ [r]) = Spec.writes f k log)
    (h1 : ∀ e ∈ T, ∃ e' ∈ T', e'.2.chain = e.2.chain ∧ (HasRow e.2.acts f k → HasRow e'.2.acts f k))
    (h2 : ∀ e' ∈ T', ∃ e ∈ T, e.2.chain = e'.2.chain ∧ (HasRow e'.2.acts f k → HasRow e.2.acts f k)) : GInv (log ++ [r]) T' f k u s := by
  refine ⟨h.r, h.mode, ?_, ?_, ?_, ?_, ?_, ?_, ?_, ?_⟩
  · refine h.live.imp id ?_
    rintro ⟨e, he, hc⟩
    obtain ⟨e', a1, a2, -⟩ := h1 e he
    exact ⟨e', a1, a2.trans hc⟩
  · intro e' he' ha
    obtain ⟨e, a1, a2, a3⟩ := h2 e' he'
    rw [← a2]; exact h.acts e a1 (a3 ha)
  · intro w hw v' hv' hp
    obtain ⟨v, a1, a2, -⟩ := h2 v' hv'
    obtain ⟨e, b1, b2, b3, b4⟩ := h.own w hw v a1 (by rw [a2]; exact hp)
    obtain ⟨e', c1, c2, c3⟩ := h1 e b1
    exact ⟨e', c1, c3 b2, by rw [c2, ← a2]; exact b3, by rw [c2]; exact b4⟩
  · intro d hd; obtain ⟨q, hq⟩ := h.begun d hd; exact ⟨q, List.mem_append_left _ hq⟩
  · intro d hd e' he' hc
    obtain ⟨e, a1, a2, -⟩ := h2 e' he'
    exact h.used d hd e a1 (a2.trans hc)
  · intro hne
    obtain ⟨q, ops, o, a1, a2⟩ := h.lock hne
    exact ⟨q, ops, o, List.mem_append_left _ a1, a2⟩
  · rw [hw, lineage_rest hr]; exact h.writes
  · rw [hw]; intro w hw; obtain ⟨q, hq⟩ := h.wbegun w hw; exact ⟨q, List.mem_append_left _ hq⟩

/-- The end of an innermost transaction. -/
theorem GInv.finish (wf : TxWf T) (h : GInv log T f k u s) (hr : ∀ p q, r ≠ .xbegin p q) {p : Xid} {t : Txn} (hp : T.get p = some t) (hc : T.childOf p = none)
    (hsub : ∀ e' ∈ T', ∃ e ∈ T, e.1 ≠ p ∧ e.2.chain = e'.2.chain ∧ (HasRow e'.2.acts f k → HasRow e.2.acts f k ∨ (HasRow t.acts f k ∧ e.2.chain = t.chain.dropLast)))
    (hsup : ∀ e ∈ T, e.1 ≠ p → ∃ e' ∈ T', e'.2.chain = e.2.chain ∧ (HasRow e.2.acts f k → HasRow e'.2.acts f k))
    (hR : R none u' s1) (hs1 : s1.chain = s.chain) (hused : s1.used = s.used) (hws : ∀ w ∈ s1.writes, w ∈ s.writes) (hmode : s.chain ≠ t.chain → s1.mode = .active)
    (hown : (∀ w ∈ s1.writes, ¬ t.chain <+: w.chain) ∨ (HasRow t.acts f k → t.chain.dropLast = [] ∨ ∃ e' ∈ T', e'.2.chain = t.chain.dropLast ∧ HasRow e'.2.acts f k))
    (hwr : s1.writes = (Spec.writes f k (log ++ [r])).map fun w => ⟨(lineage log w.1).map idOf, w.2⟩) (hwb : ∀ w ∈ Spec.writes f k (log ++ [r]), w ∈ Spec.writes f k log) :
    ∃ s', GInv (log ++ [r]) T' f k u' s' := by
  have hpm := get_mem hp
  have hcne := wf.chain_ne hpm
  simp only at hcne
  have hne_of : ∀ e ∈ T, e.1 ≠ p → e.2.chain ≠ t.chain := by
    intro e he hne hch
    have := wf.inj he hpm hch; rw [this] at hne; exact hne rfl
  have hpos : t.chain <+: s.chain → s.chain = t.chain := by
    intro hpre
    rcases h.live with h0 | ⟨e, he, hch⟩
    · rw [h0] at hpre; simp at hpre; exact absurd hpre hcne
    · rw [← hch] at hpre
      have := wf.inner hp hc he hpre
      rw [this] at hch; exact hch.symm
  -- the parent, in T'
  have hparent : t.chain.dropLast = [] ∨ ∃ e' ∈ T', e'.2.chain = t.chain.dropLast := by
    cases hq : t.parent with
    | none => left; rw [(wf.root _ hpm hq).2]; rfl
    | some q =>
      right
      obtain ⟨-, -, hlt, tq, htq, -, hch⟩ := wf.child _ hpm q hq
      simp only at hch hlt
      obtain ⟨e', a1, a2, -⟩ := hsup (q, tq) (get_mem htq) (by rintro rfl; simp only at hlt; omega)
      exact ⟨e', a1, by rw [a2, hch, List.dropLast_concat]⟩
  -- what does not depend on where the row is
  have own' : ∀ w ∈ s1.writes, ∀ v ∈ T', v.2.chain <+: w.chain → ∃ e ∈ T', HasRow e.2.acts f k ∧ v.2.chain <+: e.2.chain ∧ e.2.chain <+: w.chain := by
    intro w hw v' hv' hpre
    obtain ⟨v, a1, a2, a3, -⟩ := hsub v' hv'
    obtain ⟨e, b1, b2, b3, b4⟩ := h.own w (hws w hw) v a1 (by rw [a3]; exact hpre)
    by_cases hep : e.1 = p
    · have hee : e = (p, t) := wf.same b1 hpm hep
      subst hee
      simp only at b2 b3 b4
      have hvd := prefix_dropLast b3 (hne_of v a1 a2)
      rcases hown with hno | hrow
      · exact absurd b4 (hno w hw)
      · rcases hrow b2 with h0 | ⟨e', c1, c2, c3⟩
        · rw [h0] at hvd; simp at hvd; exact absurd hvd (wf.chain_ne a1)
        · exact ⟨e', c1, c3, by rw [c2, ← a3]; exact hvd, by rw [c2]; exact (List.dropLast_prefix _).trans b4⟩
    · obtain ⟨e', c1, c2, c3⟩ := hsup e b1 hep
      exact ⟨e', c1, c3 b2, by rw [c2, ← a3]; exact b3, by rw [c2]; exact b4⟩
  have begun' : ∀ d ∈ s1.used, ∃ q, Rec.xbegin (code d) q ∈ log ++ [r] := by
    intro d hd; obtain ⟨q, hq⟩ := h.begun d (by rw [← hused]; exact hd); exact ⟨q, List.mem_append_left _ hq⟩
  have writes' : s1.writes = (Spec.writes f k (log ++ [r])).map fun w => ⟨(lineage (log ++ [r]) w.1).map idOf, w.2⟩ := by rw [lineage_rest hr]; exact hwr
  have wbegun' : ∀ w ∈ Spec.writes f k (log ++ [r]), ∃ q, Rec.xbegin w.1 q ∈ log ++ [r] := by
    intro w hw; obtain ⟨q, hq⟩ := h.wbegun w (hwb w hw); exact ⟨q, List.mem_append_left _ hq⟩
  by_cases hA : s.chain = t.chain
  · have hR' := finishRun hR (by rw [hs1, hA]; exact hcne)
    refine ⟨_, hR', rfl, ?_, ?_, own', begun', ?_, ?_, writes', wbegun'⟩
    · simp only [hs1, hA]; exact hparent
    · intro e' he' ha
      simp only [hs1, hA]
      obtain ⟨e, a1, a2, a3, a4⟩ := hsub e' he'
      rw [← a3]
      rcases a4 ha with h' | ⟨-, h'⟩
      · have := h.acts e a1 h'
        rw [hA] at this
        exact prefix_dropLast this (hne_of e a1 a2)
      · rw [h']; exact List.prefix_refl _
    · intro d hd e' he' hch
      simp only [hs1, hA]
      obtain ⟨e, a1, a2, a3, -⟩ := hsub e' he'
      have := h.used d (by rw [← hused]; exact hd) e a1 (a3.trans hch)
      rw [hA] at this
      refine prefix_dropLast this ?_
      rw [← hch, ← a3]; exact hne_of e a1 a2
    · intro hne
      simp only [hs1] at hne ⊢
      obtain ⟨q, ops, o, a1, a2, a3, a4, a5⟩ := h.lock (by rw [hA]; exact hcne)
      refine ⟨q, ops, o, List.mem_append_left _ a1, a2, a3, a4, ?_⟩
      obtain ⟨x, hx⟩ := List.dropLast_prefix s.chain
      rw [← hx, List.head?_append] at a5
      cases hd : s.chain.dropLast with
      | nil => exact absurd hd hne
      | cons y ys => rw [hd] at a5; simpa using a5
  · refine ⟨s1, hR, hmode hA, ?_, ?_, own', begun', ?_, ?_, writes', wbegun'⟩
    · rw [hs1]
      rcases h.live with h0 | ⟨e, he, hch⟩
      · exact .inl h0
      · obtain ⟨e', a1, a2, -⟩ := hsup e he (by
          intro hep
          have := wf.same he hpm hep
          subst this
          exact hA hch.symm)
        exact .inr ⟨e', a1, a2.trans hch⟩
    · intro e' he' ha
      rw [hs1]
      obtain ⟨e, a1, a2, a3, a4⟩ := hsub e' he'
      rw [← a3]
      rcases a4 ha with h' | ⟨h', -⟩
      · exact h.acts e a1 h'
      · exact absurd (hpos (h.acts _ hpm h')) hA
    · intro d hd e' he' hch
      rw [hs1]
      obtain ⟨e, a1, a2, a3, -⟩ := hsub e' he'
      exact h.used d (by rw [← hused]; exact hd) e a1 (a3.trans hch)
    · intro hne
      rw [hs1] at hne ⊢
      obtain ⟨q, ops, o, a1, a2⟩ := h.lock hne
      exact ⟨q, ops, o, List.mem_append_left _ a1, a2⟩

/-- A transaction begins. -/
theorem GInv.begin (h : GInv log T f k u s) {p : Xid} {parent : Option Xid} {t : Txn} (hfresh : ∀ q, Rec.xbegin p q ∉ log) (hcode : code t.chain = p) (hne : t.chain ≠ []) (hacts : t.acts = [])
    (hlin : ∀ q, q ≠ p → lineage (log ++ [.xbegin p parent]) q = lineage log q) : GInv (log ++ [.xbegin p parent]) (T.ins p t) f k u s := by
  have hno : t.chain ∉ s.used := by
    intro hm; obtain ⟨q, hq⟩ := h.begun _ hm; rw [hcode] at hq; exact hfresh q hq
  have hw : Spec.writes f k (log ++ [.xbegin p parent]) = Spec.writes f k log := by rw [writes_snoc]; rfl
  refine ⟨h.r, h.mode, ?_, ?_, ?_, ?_, ?_, ?_, ?_, ?_⟩
  · refine h.live.imp id ?_
    rintro ⟨e, he, hc⟩; exact ⟨e, mem_ins.mpr (.inr he), hc⟩
  · intro e he ha
    rcases mem_ins.mp he with rfl | he
    · simp [hacts] at ha
    · exact h.acts e he ha
  · intro w hw v hv hp
    rcases mem_ins.mp hv with rfl | hv
    · exact absurd (h.r.inv.wsub w hw _ hne hp) hno
    · obtain ⟨e, a1, a2⟩ := h.own w hw v hv hp
      exact ⟨e, mem_ins.mpr (.inr a1), a2⟩
  · intro d hd; obtain ⟨q, hq⟩ := h.begun d hd; exact ⟨q, List.mem_append_left _ hq⟩
  · intro d hd e he hc
    rcases mem_ins.mp he with rfl | he
    · simp only at hc; rw [← hc] at hd; exact absurd hd hno
    · exact h.used d hd e he hc
  · intro hne
    obtain ⟨q, ops, o, a1, a2⟩ := h.lock hne
    exact ⟨q, ops, o, List.mem_append_left _ a1, a2⟩
  · rw [hw, h.writes]
    apply List.map_congr_left
    intro w hw'
    obtain ⟨q, hq⟩ := h.wbegun w hw'
    rw [hlin _ (by rintro e; rw [e] at hq; exact hfresh q hq)]
  · rw [hw]; intro w hw; obtain ⟨q, hq⟩ := h.wbegun w hw; exact ⟨q, List.mem_append_left _ hq⟩

theorem rowMsgs_replicate {ms : List Msg} {c : List Nat} {op : Op} (h : ∀ m ∈ ms, m.chain = c ∧ m.op = op) :
    ∃ n, rowMsgs f k ms = List.replicate n (c, op) ∧ (n ≠ 0 ↔ ∃ m ∈ ms, m.file = f ∧ m.key = k) := by
  refine ⟨(rowMsgs f k ms).length, ?_, ?_⟩
  · refine List.eq_replicate_iff.mpr ⟨rfl, ?_⟩
    intro b hb
    obtain ⟨m, hm, rfl⟩ := List.mem_map.mp hb
    obtain ⟨h1, h2⟩ := h m (List.mem_filter.mp hm).1
    rw [h1, h2]
  · simp only [rowMsgs, List.length_map, ne_eq, List.length_eq_zero_iff, List.filter_eq_nil_iff]
    simp

theorem foldl_mine {β : Type} (g : β → Wr → β) (ops : List RowWr) (b : β) :
    ops.foldl (fun b o => if o.file = f ∧ o.key = k then g b o.wr else b) b = ((ops.filter fun o => o.file = f ∧ o.key = k).map (·.wr)).foldl g b := by
  induction ops generalizing b with
  | nil => rfl
  | cons o ops ih =>
    by_cases ho : o.file = f ∧ o.key = k
    · simp only [List.foldl_cons, ho, and_self, if_true, List.filter_cons, decide_true, List.map_cons, ih]
    · simp only [List.foldl_cons, List.filter_cons, ho, decide_false, if_false, ih, Bool.false_eq_true]

end

/-- One more record. -/
theorem ghost_step {files : List File} {log : List Rec} {T T' : Txns} {r : Rec} {f : File} {k : Key} {u : Ule} {s : Verif.Ule.Spec.Row} (wf : TxWf T) (ids : Ids log T) (life : Life log T)
    (hok : Ok files log T r) (eff : Eff log T r T') (life' : Life (log ++ [r]) T') (h : GInv log T f k u s) :
    ∃ u' s', runMsgs u (rowMsgs f k (msgs T r)) = some u' ∧ GInv (log ++ [r]) T' f k u' s' := by
  cases eff with
  | keep h1 h2 h3 h4 h5 =>
    refine ⟨u, s, ?_, h.same h1 ?_ (fun e he => ⟨e, he, rfl, id⟩) (fun e he => ⟨e, he, rfl, id⟩)⟩
    · have : msgs T r = [] := by cases r <;> first | rfl | exact absurd rfl (h2 _ _) | exact absurd rfl (h3 _) | exact absurd rfl (h4 _)
      rw [this]; rfl
    · rw [writes_snoc]; cases r <;> first | rfl | exact absurd rfl (h2 _ _) | exact absurd rfl (h4 _)
  | @root p h0 hlt hn =>
    have hmem : (p, (⟨none, [p.root], [], false⟩ : Txn)) ∈ T.ins p ⟨none, [p.root], [], false⟩ := mem_ins.mpr (.inl rfl)
    refine ⟨u, s, rfl, h.begin (fun q hq => by have := ids.root _ _ hq; omega) ?_ (by simp) rfl ?_⟩
    · exact Xid.eq_of _ _ rfl h0.symm
    · intro q hq; rw [lineage_snoc]; simp [lin, upd, hq]
  | @child p q t hr hc0 hcr ht htp htl hch hnew hn =>
    have hb : Rec.xbegin p (some q) ∈ log ++ [.xbegin p (some q)] := by simp
    refine ⟨u, s, rfl, h.begin (fun q hq => by have := hnew _ _ hq rfl; omega) ?_ (by simp) rfl ?_⟩
    · have := life'.live (p, ⟨some q, t.chain ++ [p.child], [], false⟩) (mem_ins.mpr (.inl rfl))
      simp only at this ⊢
      rw [this]; exact life'.code_eq hb
    · intro q' hq; rw [lineage_snoc]; simp [lin, upd, hq]
  | @enq p ops t ht htp hc =>
    obtain ⟨-, -, hops, hlock⟩ := hok
    have hpm := get_mem ht
    have hpb := ids.begun _ hpm
    have hcl := life.live _ hpm
    simp only at hpb hcl
    have hcne := wf.chain_ne hpm
    simp only at hcne
    have hmsgs : rowMsgs f k (msgs T (.enq p ops)) = ((ops.filter fun o => o.file = f ∧ o.key = k).map (·.wr)).map fun w => (t.chain, w.op) := by
      simp only [msgs, ht, rowMsgs, List.filter_map, List.map_map]; rfl
    have hwr : Spec.writes f k (log ++ [.enq p ops]) = ((ops.filter fun o => o.file = f ∧ o.key = k).map (·.wr)).foldl (Spec.write p) (Spec.writes f k log) := by
      rw [writes_snoc]; exact foldl_mine _ _ _
    have hrest : ∀ p' q', Rec.enq p ops ≠ .xbegin p' q' := by simp
    have hsup : ∀ e ∈ T, ∃ e' ∈ T.set p { t with acts := t.acts ++ ops.map RowWr.act }, e'.1 = e.1 ∧ e'.2.chain = e.2.chain ∧ (HasRow e.2.acts f k → HasRow e'.2.acts f k) := by
      intro e he
      by_cases hep : e.1 = p
      · have := wf.same he hpm hep
        subst this
        refine ⟨(p, { t with acts := t.acts ++ ops.map RowWr.act }), ?_, rfl, rfl, ?_⟩
        · refine List.mem_map.mpr ⟨(p, t), he, by simp⟩
        · rintro ⟨a, ha, hb⟩; exact ⟨a, List.mem_append_left _ ha, hb⟩
      · exact ⟨e, List.mem_map.mpr ⟨e, he, by simp [hep]⟩, rfl, rfl, id⟩
    rw [hmsgs]
    cases hmine : (ops.filter fun o => o.file = f ∧ o.key = k) with
    | nil =>
      refine ⟨u, s, rfl, h.same hrest (by rw [hwr, hmine]; rfl) (fun e he => by obtain ⟨e', a1, -, a2, a3⟩ := hsup e he; exact ⟨e', a1, a2, a3⟩) ?_⟩
      intro e' he'
      rcases mem_set he' with ⟨rfl, -⟩ | ⟨he, -⟩
      · refine ⟨(p, t), hpm, rfl, ?_⟩
        rintro ⟨a, ha, hb1, hb2⟩
        rcases List.mem_append.mp ha with ha | ha
        · exact ⟨a, ha, hb1, hb2⟩
        · obtain ⟨o, ho, rfl⟩ := List.mem_map.mp ha
          have := List.filter_eq_nil_iff.mp hmine o ho
          simp only [RowWr.act] at hb1 hb2
          simp [hb1, hb2] at this
      · exact ⟨e', he, rfl, id⟩
    | cons o mine =>
      have ho : o ∈ ops ∧ o.file = f ∧ o.key = k := by
        have : o ∈ ops.filter fun o => o.file = f ∧ o.key = k := by rw [hmine]; simp
        have := List.mem_filter.mp this
        simpa using this
      obtain ⟨ho, hof, hok'⟩ := ho
      -- the row is locked by nobody else
      have hpre : s.chain <+: t.chain := by
        rcases h.live with h0 | ⟨e, he, hch⟩
        · rw [h0]; exact List.nil_prefix
        · have hne : s.chain ≠ [] := by rw [← hch]; exact wf.chain_ne he
          obtain ⟨q, ops', o', a1, a2, a3, a4, a5⟩ := h.lock hne
          have her : e.1.root = q.root := by
            have := wf.head he; rw [hch, a5] at this; injection this with this; exact this.symm
          have hroot : e.1.root = p.root := by
            by_cases hqp : q.root = p.root
            · rw [her, hqp]
            · have := hlock o ho q ops' o' a1 a2 (by rw [a3, hof]) (by rw [a4, hok']) hqp
              rw [← her] at this
              exact absurd this (life.notEnded wf he)
          have hle := wf.deepest hpm hc e he hroot
          rw [← hch]; exact wf.fam he hpm hroot hle
      obtain ⟨hnd, hnz⟩ := life.chain_nodup ids hpb
      rw [← hcl] at hnd hnz
      obtain ⟨s1, b1, b2, b3, b4, b5⟩ := begins hnd hnz (by rw [hcl]; simpa using life.len _ _ hpb) (t.chain.length - s.chain.length) s h.r h.mode hpre
        (by have := hpre.length_le; omega) (by
          intro d hd hl hmem
          obtain ⟨e, he, hch⟩ := wf.prefixLive hpm hd (by rintro rfl; simp at hl)
          have := (h.used d hmem e he hch).length_le
          omega)
      obtain ⟨u', s', c1, c2, c3, c4, c5, c6, c7⟩ := writesRun hcne p (fun x => (lineage log x).map idOf) hcl.symm ((o :: mine).map (·.wr)) (by
          intro w hw v hv
          obtain ⟨o', ho', rfl⟩ := List.mem_map.mp hw
          rw [← hmine] at ho'
          exact (hops o' (List.mem_filter.mp ho').1).2 v hv) s1 b1 b2 b3 (Spec.writes f k log) (by rw [b4]; exact h.writes)
      have hpm' : (p, { t with acts := t.acts ++ ops.map RowWr.act }) ∈ T.set p { t with acts := t.acts ++ ops.map RowWr.act } := List.mem_map.mpr ⟨(p, t), hpm, by simp⟩
      have hrow' : HasRow (t.acts ++ ops.map RowWr.act) f k := ⟨o.act, List.mem_append_right _ (List.mem_map.mpr ⟨o, ho, rfl⟩), hof, hok'⟩
      rw [hmine] at hwr
      refine ⟨u', s', c1, c2, c3, ?_, ?_, ?_, ?_, ?_, ?_, ?_, ?_⟩
      · exact .inr ⟨_, hpm', c4.symm⟩
      · intro e he ha
        rw [c4]
        rcases mem_set he with ⟨rfl, -⟩ | ⟨he, -⟩
        · exact List.prefix_refl _
        · exact (h.acts e he ha).trans hpre
      · intro w hw v' hv' hvp
        rw [c6] at hw
        obtain ⟨x, hx, rfl⟩ := List.mem_map.mp hw
        rcases c7 x hx with hx | hx
        · have hv : ∃ v ∈ T, v.2.chain = v'.2.chain := by
            rcases mem_set hv' with ⟨rfl, -⟩ | ⟨hv, -⟩
            · exact ⟨(p, t), hpm, rfl⟩
            · exact ⟨v', hv, rfl⟩
          obtain ⟨v, hv, hvc⟩ := hv
          obtain ⟨e, d1, d2, d3, d4⟩ := h.own ⟨(lineage log x.1).map idOf, x.2⟩ (by rw [h.writes]; exact List.mem_map.mpr ⟨x, hx, rfl⟩) v hv (by rw [hvc]; exact hvp)
          obtain ⟨e', g1, -, g2, g3⟩ := hsup e d1
          exact ⟨e', g1, g3 d2, by rw [g2, ← hvc]; exact d3, by rw [g2]; exact d4⟩
        · simp only [hx, ← hcl] at hvp ⊢
          exact ⟨_, hpm', hrow', hvp, List.prefix_refl _⟩
      · intro d hd
        rw [c5] at hd
        rcases b5 d hd with h' | ⟨h1, h2⟩
        · obtain ⟨q, hq⟩ := h.begun d h'; exact ⟨q, List.mem_append_left _ hq⟩
        · obtain ⟨e, he, hch⟩ := wf.prefixLive hpm h1 h2
          have hb := ids.begun e he
          refine ⟨e.2.parent, List.mem_append_left _ ?_⟩
          rw [← hch, life.live e he, life.code_eq hb]; exact hb
      · intro d hd e' he' hch
        rw [c4]
        rw [c5] at hd
        rcases b5 d hd with h' | ⟨h1, h2⟩
        · have he : ∃ e ∈ T, e.2.chain = e'.2.chain := by
            rcases mem_set he' with ⟨rfl, -⟩ | ⟨he, -⟩
            · exact ⟨(p, t), hpm, rfl⟩
            · exact ⟨e', he, rfl⟩
          obtain ⟨e, he, hec⟩ := he
          exact (h.used d h' e he (hec.trans hch)).trans hpre
        · exact h1
      · intro _
        refine ⟨p, ops, o, by simp, ho, hof, hok', ?_⟩
        rw [c4]; exact wf.head hpm
      · rw [hwr, lineage_rest hrest, c6]
      · rw [hwr]
        intro w hw
        rcases c7 w hw with h' | h'
        · obtain ⟨q, hq⟩ := h.wbegun w h'; exact ⟨q, List.mem_append_left _ hq⟩
        · rw [h']; exact ⟨_, List.mem_append_left _ hpb⟩
  | @commitRoot p t ht hc hp =>
    have hpm := get_mem ht
    have hw : Spec.writes f k (log ++ [.xcommit p]) = Spec.writes f k log := by rw [writes_snoc]; rfl
    have hmsgs : msgs T (.xcommit p) = t.acts.reverse.filterMap (Act.commitMsg t.chain) := by simp only [msgs, ht, hp, if_true]
    have hall : ∀ m ∈ t.acts.reverse.filterMap (Act.commitMsg t.chain), m.chain = t.chain ∧ m.op = .commit := by
      intro m hm
      obtain ⟨a, -, ha⟩ := List.mem_filterMap.mp hm
      unfold Act.commitMsg at ha
      split at ha
      · injection ha with ha; subst ha; exact ⟨rfl, rfl⟩
      · simp at ha
    obtain ⟨n, hn1, hn2⟩ := rowMsgs_replicate (f := f) (k := k) hall
    have hsub : ∀ e' ∈ T.erase p, ∃ e ∈ T, e.1 ≠ p ∧ e.2.chain = e'.2.chain ∧ (HasRow e'.2.acts f k → HasRow e.2.acts f k ∨ (HasRow t.acts f k ∧ e.2.chain = t.chain.dropLast)) :=
      fun e' he' => ⟨e', (mem_erase.mp he').1, (mem_erase.mp he').2, rfl, .inl⟩
    have hsup : ∀ e ∈ T, e.1 ≠ p → ∃ e' ∈ T.erase p, e'.2.chain = e.2.chain ∧ (HasRow e.2.acts f k → HasRow e'.2.acts f k) :=
      fun e he hne => ⟨e, mem_erase.mpr ⟨he, hne⟩, rfl, id⟩
    have hdl : t.chain.dropLast = [] := by rw [(wf.root _ hpm hp).2]; rfl
    rw [hmsgs, hn1]
    by_cases hA : s.chain = t.chain
    · obtain ⟨u', s1, a1, a2, a3, a4, a5⟩ := commitRun (wf.chain_ne hpm) n s h.r (by rw [h.mode]; simp) hA
      obtain ⟨s', hs'⟩ := h.finish wf (r := .xcommit p) (by simp) ht hc hsub hsup a2 (by rw [a3, hA]) a4 (by rw [a5]; exact fun _ h => h) (fun hne => absurd hA hne)
        (.inr fun _ => .inl hdl) (by rw [hw, a5]; exact h.writes) (by rw [hw]; exact fun _ h => h)
      exact ⟨u', s', a1, hs'⟩
    · have hn0 : n = 0 := by
        rcases Nat.eq_zero_or_pos n with h0 | h0
        · exact h0
        · exfalso
          obtain ⟨m, hm, hmf, hmk⟩ := hn2.mp (by omega)
          obtain ⟨a, ha, hae⟩ := List.mem_filterMap.mp hm
          unfold Act.commitMsg at hae
          split at hae
          · injection hae with hae; subst hae
            have := h.acts _ hpm ⟨a, List.mem_reverse.mp ha, hmf, hmk⟩
            rcases h.live with h0 | ⟨e, he, hch⟩
            · rw [h0] at this; simp at this; exact wf.chain_ne hpm this
            · rw [← hch] at this
              have := wf.inner ht hc he this
              subst this; exact hA hch.symm
          · simp at hae
      subst hn0
      obtain ⟨s', hs'⟩ := h.finish wf (r := .xcommit p) (by simp) ht hc hsub hsup h.r rfl rfl (fun _ h => h) (fun _ => h.mode)
        (.inr fun _ => .inl hdl) (by rw [hw]; exact h.writes) (by rw [hw]; exact fun _ h => h)
      exact ⟨u, s', rfl, hs'⟩
  | @commitChild p t q tq ht hc hp hq hpq =>
    have hpm := get_mem ht
    have hw : Spec.writes f k (log ++ [.xcommit p]) = Spec.writes f k log := by rw [writes_snoc]; rfl
    have hmsgs : msgs T (.xcommit p) = [] := by simp [msgs, ht, hp]
    obtain ⟨-, -, -, tq', htq', -, hch⟩ := wf.child _ hpm q hp
    rw [hq] at htq'; injection htq' with htq'; subst htq'
    simp only at hch
    have hdl : t.chain.dropLast = tq.chain := by rw [hch, List.dropLast_concat]
    have hqm : (q, { tq with acts := tq.acts ++ t.acts }) ∈ (T.set q { tq with acts := tq.acts ++ t.acts }).erase p :=
      mem_erase.mpr ⟨List.mem_map.mpr ⟨(q, tq), get_mem hq, by simp⟩, fun h => hpq h.symm⟩
    obtain ⟨s', hs'⟩ := h.finish wf (r := .xcommit p) (T' := (T.set q { tq with acts := tq.acts ++ t.acts }).erase p) (by simp) ht hc (by
        intro e' he'
        obtain ⟨he', hne⟩ := mem_erase.mp he'
        rcases mem_set he' with ⟨rfl, -⟩ | ⟨he, -⟩
        · refine ⟨(q, tq), get_mem hq, fun h => hpq h.symm, rfl, ?_⟩
          rintro ⟨a, ha, hb⟩
          rcases List.mem_append.mp ha with ha | ha
          · exact .inl ⟨a, ha, hb⟩
          · exact .inr ⟨⟨a, ha, hb⟩, hdl.symm⟩
        · exact ⟨e', he, hne, rfl, .inl⟩) (by
        intro e he hne
        by_cases heq : e.1 = q
        · have := wf.same he (get_mem hq) heq
          subst this
          exact ⟨_, hqm, rfl, fun ⟨a, ha, hb⟩ => ⟨a, List.mem_append_left _ ha, hb⟩⟩
        · exact ⟨e, mem_erase.mpr ⟨List.mem_map.mpr ⟨e, he, by simp [heq]⟩, hne⟩, rfl, id⟩) h.r rfl rfl (fun _ h => h) (fun _ => h.mode)
        (.inr fun ⟨a, ha, hb⟩ => .inr ⟨_, hqm, hdl.symm, a, List.mem_append_right _ ha, hb⟩) (by rw [hw]; exact h.writes) (by rw [hw]; exact fun _ h => h)
    exact ⟨u, s', by rw [hmsgs]; rfl, hs'⟩
  | @abort p t ht hc =>
    have hpm := get_mem ht
    have hpb := ids.begun _ hpm
    have hcl := life.live _ hpm
    simp only at hpb hcl
    have hw : Spec.writes f k (log ++ [.xabort p]) = (Spec.writes f k log).filter fun w => p ∉ lineage log w.1 := by rw [writes_snoc]; rfl
    have hmsgs : msgs T (.xabort p) = t.acts.reverse.map (Act.abortMsg t.chain) := by simp only [msgs, ht]
    have hall : ∀ m ∈ t.acts.reverse.map (Act.abortMsg t.chain), m.chain = t.chain ∧ m.op = .abort := by
      intro m hm
      obtain ⟨a, -, rfl⟩ := List.mem_map.mp hm
      exact ⟨rfl, rfl⟩
    obtain ⟨n, hn1, hn2⟩ := rowMsgs_replicate (f := f) (k := k) hall
    have hn2 : n ≠ 0 ↔ HasRow t.acts f k := by
      rw [hn2]
      constructor
      · rintro ⟨m, hm, hmf, hmk⟩
        obtain ⟨a, ha, rfl⟩ := List.mem_map.mp hm
        exact ⟨a, List.mem_reverse.mp ha, hmf, hmk⟩
      · rintro ⟨a, ha, hb⟩
        exact ⟨_, List.mem_map.mpr ⟨a, List.mem_reverse.mpr ha, rfl⟩, hb⟩
    have hsub : ∀ e' ∈ T.erase p, ∃ e ∈ T, e.1 ≠ p ∧ e.2.chain = e'.2.chain ∧ (HasRow e'.2.acts f k → HasRow e.2.acts f k ∨ (HasRow t.acts f k ∧ e.2.chain = t.chain.dropLast)) :=
      fun e' he' => ⟨e', (mem_erase.mp he').1, (mem_erase.mp he').2, rfl, .inl⟩
    have hsup : ∀ e ∈ T, e.1 ≠ p → ∃ e' ∈ T.erase p, e'.2.chain = e.2.chain ∧ (HasRow e.2.acts f k → HasRow e'.2.acts f k) :=
      fun e he hne => ⟨e, mem_erase.mpr ⟨he, hne⟩, rfl, id⟩
    -- what undoing means
    have hundo : Verif.Ule.Spec.undo t.chain s.writes = (Spec.writes f k (log ++ [.xabort p])).map fun w => ⟨(lineage log w.1).map idOf, w.2⟩ := by
      rw [hw, h.writes]
      unfold Verif.Ule.Spec.undo
      rw [List.filter_map]
      congr 1
      apply List.filter_congr
      intro w hw'
      obtain ⟨q, hq⟩ := h.wbegun w hw'
      have := life.prefix_iff hpb hq
      rw [← hcl] at this
      simp only [Function.comp_apply, decide_not]
      congr 1
      rw [Bool.eq_iff_iff, List.isPrefixOf_iff_prefix, this]; simp
    have hunder : ∀ w ∈ Verif.Ule.Spec.undo t.chain s.writes, ¬ t.chain <+: w.chain := by
      intro w hw' hpre
      have := (List.mem_filter.mp hw').2
      rw [List.isPrefixOf_iff_prefix.mpr hpre] at this; simp at this
    have hwb : ∀ w ∈ Spec.writes f k (log ++ [.xabort p]), w ∈ Spec.writes f k log := by
      rw [hw]; intro w hw'; exact (List.mem_filter.mp hw').1
    rw [hmsgs, hn1]
    cases n with
    | zero =>
      have hno : ¬ HasRow t.acts f k := fun h' => hn2.mpr h' rfl
      have hnone : ∀ w ∈ s.writes, ¬ t.chain <+: w.chain := by
        intro w hw' hpre
        obtain ⟨e, he, hrow, h1, -⟩ := h.own w hw' (p, t) hpm hpre
        have := wf.inner ht hc he h1
        subst this; exact hno hrow
      have hsame : Verif.Ule.Spec.undo t.chain s.writes = s.writes := by
        unfold Verif.Ule.Spec.undo
        rw [List.filter_eq_self]
        intro w hw'
        cases hpf : t.chain.isPrefixOf w.chain with
        | false => rfl
        | true => exact absurd (List.isPrefixOf_iff_prefix.mp hpf) (hnone w hw')
      obtain ⟨s', hs'⟩ := h.finish wf (r := .xabort p) (by simp) ht hc hsub hsup h.r rfl rfl (fun _ h => h) (fun _ => h.mode)
        (.inl hnone) (by rw [← hundo, hsame]) hwb
      exact ⟨u, s', rfl, hs'⟩
    | succ n =>
      have hrow := hn2.mp (by omega)
      have hA : s.chain = t.chain := by
        have := h.acts _ hpm hrow
        rcases h.live with h0 | ⟨e, he, hch⟩
        · rw [h0] at this; simp at this; exact absurd this (wf.chain_ne hpm)
        · rw [← hch] at this
          have := wf.inner ht hc he this
          subst this; exact hch.symm
      obtain ⟨u', s1, a1, a2, a3, a4, a5⟩ := abortRun (wf.chain_ne hpm) n s h.r (by rw [h.mode]; simp) hA
      obtain ⟨s', hs'⟩ := h.finish wf (r := .xabort p) (by simp) ht hc hsub hsup a2 (by rw [a3, hA]) a4
        (by rw [a5]; exact fun w hw => (List.mem_filter.mp hw).1) (fun hne => absurd hA hne)
        (.inl (by rw [a5]; exact hunder)) (by rw [a5]; exact hundo) hwb
      exact ⟨u', s', a1, hs'⟩
  | @prepare p t ht hp htp hc =>
    have hpm := get_mem ht
    refine ⟨u, s, rfl, h.same (by simp) (by rw [writes_snoc]; rfl) ?_ ?_⟩
    · intro e he
      by_cases hep : e.1 = p
      · have := wf.same he hpm hep
        subst this
        exact ⟨(p, { t with prepared := true }), List.mem_map.mpr ⟨(p, t), he, by simp⟩, rfl, id⟩
      · exact ⟨e, List.mem_map.mpr ⟨e, he, by simp [hep]⟩, rfl, id⟩
    · intro e' he'
      rcases mem_set he' with ⟨rfl, -⟩ | ⟨he, -⟩
      · exact ⟨(p, t), hpm, rfl, id⟩
      · exact ⟨e', he, rfl, id⟩

/-- Along every log, each row is understood; and the next record is always carried out. -/
theorem ghost_next {files : List File} {log : List Rec} {r : Rec} (hv : Valid files log) (hG : ∀ f k, ∃ s, GInv log (W log).txns f k ((W log).rows f k) s)
    (hok : Ok files log (W log).txns r) :
    ∃ w, (W log).step noSkip r = some w ∧ ∀ f k, ∃ s, GInv (log ++ [r]) w.txns f k (w.rows f k) s := by
  obtain ⟨wf, ids⟩ := hv.txwf
  have life := hv.life
  obtain ⟨T', h1, h2⟩ := eff_some wf ids hok
  have life' := life.step wf ids h2
  have hrow : ∀ f k, ∃ u' s', runMsgs ((W log).rows f k) (rowMsgs f k (msgs (W log).txns r)) = some u' ∧ GInv (log ++ [r]) T' f k u' s' := by
    intro f k
    obtain ⟨s, hs⟩ := hG f k
    exact ghost_step wf ids life hok h2 life' hs
  obtain ⟨R', e1, e2⟩ := sendAll_rows (msgs (W log).txns r) (W log).rows fun f k => by
    obtain ⟨u', s', a, -⟩ := hrow f k; exact ⟨u', a⟩
  refine ⟨⟨R', T'⟩, World.step_some.mpr ⟨h1, e1⟩, ?_⟩
  intro f k
  obtain ⟨u', s', a, b⟩ := hrow f k
  rw [e2 f k] at a; injection a with a; subst a
  exact ⟨s', b⟩

theorem Valid.ghost {files log} (h : Valid files log) : ∀ f k, ∃ s, GInv log (W log).txns f k ((W log).rows f k) s := by
  induction h with
  | nil => exact fun f k => ⟨_, GInv.init f k⟩
  | @snoc log r w hv hok hst ih =>
    obtain ⟨w', h1, h2⟩ := ghost_next hv ih hok
    rw [hst] at h1; injection h1 with h1; subst h1
    rw [W_snoc, hst]
    exact h2

/-- The value of a row. -/
theorem Valid.value {files log} (h : Valid files log) (f : File) (k : Key) : latest ((W log).rows f k) = Spec.valueOf (Spec.writes f k log) := by
  obtain ⟨s, hs⟩ := h.ghost f k
  rw [hs.r.val, Verif.Ule.Spec.Row.value, hs.writes]
  cases Spec.writes f k log <;> rfl

end Verif.Rec
