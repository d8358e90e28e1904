import Verif.Rec.SysInv
/-! Lives of transactions: from the begin record to the end. -/
namespace Verif.Rec
open Verif.Rec.Spec
set_option linter.unusedVariables false
set_option linter.unusedSimpArgs false

/-- What a record does to the live transactions. -/
inductive Eff (log : List Rec) (T : Txns) : Rec → Txns → Prop
  | keep {r} : (∀ p q, r ≠ .xbegin p q) → (∀ p ops, r ≠ .enq p ops) → (∀ p, r ≠ .xcommit p) → (∀ p, r ≠ .xabort p) → (∀ p, r ≠ .xprepare p) → Eff log T r T
  | root {p} : p.child = 0 → lastXid log < p.root → T.get p = none → Eff log T (.xbegin p none) (T.ins p ⟨none, [p.root], [], false⟩)
  | child {p q t} : p.root = q.root → p.child ≠ 0 → p.child ≠ p.root → T.get q = some t → t.prepared = false → t.chain.length < Verif.Ule.Spec.maxDepth → T.childOf q = none →
      (∀ p' q', Rec.xbegin p' q' ∈ log → p'.root = p.root → p'.child < p.child) → T.get p = none → Eff log T (.xbegin p (some q)) (T.ins p ⟨some q, t.chain ++ [p.child], [], false⟩)
  | enq {p ops t} : T.get p = some t → t.prepared = false → T.childOf p = none → Eff log T (.enq p ops) (T.set p { t with acts := t.acts ++ ops.map RowWr.act })
  | commitRoot {p t} : T.get p = some t → T.childOf p = none → t.parent = none → Eff log T (.xcommit p) (T.erase p)
  | commitChild {p t q tq} : T.get p = some t → T.childOf p = none → t.parent = some q → T.get q = some tq → p ≠ q →
      Eff log T (.xcommit p) ((T.set q { tq with acts := tq.acts ++ t.acts }).erase p)
  | abort {p t} : T.get p = some t → T.childOf p = none → Eff log T (.xabort p) (T.erase p)
  | prepare {p t} : T.get p = some t → t.parent = none → t.prepared = false → T.childOf p = none → Eff log T (.xprepare p) (T.set p { t with prepared := true })

theorem eff_some {files : List File} {log : List Rec} {T : Txns} {r : Rec} (wf : TxWf T) (ids : Ids log T) (hok : Ok files log T r) :
    ∃ T', txStep T r = some T' ∧ Eff log T r T' := by
  by_cases hck : r.isCk = true
  · refine ⟨T, by cases r <;> simp [Rec.isCk] at hck <;> rfl, .keep ?_ ?_ ?_ ?_ ?_⟩ <;> (intros; rintro rfl; simp [Rec.isCk] at hck)
  · cases r with
    | xbegin p parent =>
      cases parent with
      | none =>
        obtain ⟨h0, hlt⟩ := hok
        have hn : T.get p = none := get_none_iff.mpr fun e he hr => by
          have := ids.root _ _ (ids.begun e he); rw [hr] at this; omega
        exact ⟨_, by simp only [txStep]; rw [if_pos ⟨h0, hn⟩], .root h0 hlt hn⟩
      | some q =>
        obtain ⟨hr, hc0, hcr, ⟨t, ht, htp, htl⟩, hch, hnew⟩ := hok
        have hn : T.get p = none := get_none_iff.mpr fun e he hr => by
          have := hnew _ _ (ids.begun e he) (by rw [hr]); rw [hr] at this; omega
        exact ⟨_, by simp only [txStep, ht]; rw [if_pos ⟨hr.symm, hn⟩], .child hr hc0 hcr ht htp htl hch hnew hn⟩
    | enq p ops =>
      obtain ⟨⟨t, ht, htp⟩, hc, -⟩ := hok
      exact ⟨_, by simp only [txStep, ht], .enq ht htp hc⟩
    | xcommit p =>
      obtain ⟨hne, hc⟩ := hok
      obtain ⟨t, ht⟩ := get_some_of_ne hne
      cases hp : t.parent with
      | none => exact ⟨_, by simp only [txStep, ht, hc, hp, if_true], .commitRoot ht hc hp⟩
      | some q =>
        obtain ⟨-, -, hlt, tq, hq, -, -⟩ := wf.child _ (get_mem ht) q hp
        exact ⟨_, by simp only [txStep, ht, hc, hp, if_true, hq], .commitChild ht hc hp hq (by rintro rfl; simp only at hlt; omega)⟩
    | xabort p =>
      obtain ⟨hne, hc⟩ := hok
      obtain ⟨t, ht⟩ := get_some_of_ne hne
      exact ⟨_, by simp only [txStep, ht, hc, if_true], .abort ht hc⟩
    | xprepare p =>
      obtain ⟨⟨t, ht, htp, htn⟩, hc⟩ := hok
      refine ⟨_, ?_, .prepare ht htn htp hc⟩
      simp [txStep, ht, htn, htp]
    | comment => exact ⟨T, rfl, .keep (by simp) (by simp) (by simp) (by simp) (by simp)⟩
    | ckBegin _ => simp [Rec.isCk] at hck
    | fassoc _ => simp [Rec.isCk] at hck
    | fassocRb => simp [Rec.isCk] at hck
    | stillOpen _ _ => simp [Rec.isCk] at hck
    | stillPrep _ => simp [Rec.isCk] at hck
    | ckEnd _ _ _ => simp [Rec.isCk] at hck

theorem Valid.eff {files log r} (h : Valid files (log ++ [r])) : Eff log (W log).txns r (W (log ++ [r])).txns := by
  obtain ⟨hv, hok, hst⟩ := h.inv
  obtain ⟨wf, ids⟩ := hv.txwf
  obtain ⟨T', h1, h2⟩ := eff_some wf ids hok
  rw [(World.step_some.mp hst).1] at h1
  injection h1 with h1; rw [h1]; exact h2

/-! ### Lineages -/

theorem lineage_snoc (log : List Rec) (r : Rec) : lineage (log ++ [r]) = lin (lineage log) r := by simp [lineage, List.foldl_append]

theorem writes_fst (f : File) (k : Key) (log : List Rec) :
    (log.foldl (fun (s : (Xid → List Xid) × List Spec.Write) r => (lin s.1 r, stepWrites f k s.1 s.2 r)) (fun _ => [], [])).1 = lineage log := by
  have : ∀ (m : Xid → List Xid) (ws : List Spec.Write), (log.foldl (fun (s : (Xid → List Xid) × List Spec.Write) r => (lin s.1 r, stepWrites f k s.1 s.2 r)) (m, ws)).1 = log.foldl lin m := by
    induction log with
    | nil => intro m ws; rfl
    | cons r log ih => intro m ws; exact ih _ _
  exact this _ _

theorem writes_snoc (f : File) (k : Key) (log : List Rec) (r : Rec) : writes f k (log ++ [r]) = stepWrites f k (lineage log) (writes f k log) r := by
  simp only [writes, List.foldl_append, List.foldl_cons, List.foldl_nil, writes_fst]

/-- The id a transaction has in the list of ids. -/
def idOf (q : Xid) : Nat := if q.child = 0 then q.root else q.child

/-- Which transactions have begun, which are alive. -/
structure Life (log : List Rec) (T : Txns) : Prop where
  lin0 : ∀ p, (∀ q, Rec.xbegin p q ∉ log) → lineage log p = []
  linl : ∀ p q, Rec.xbegin p q ∈ log → ∃ l, lineage log p = ⟨p.root, 0⟩ :: l ∧ (∀ r ∈ l, r.child ≠ 0 ∧ r.root = p.root ∧ r.child ≠ r.root) ∧
    l.Pairwise (fun a b => a.child < b.child)
  last : ∀ p q, Rec.xbegin p q ∈ log → (lineage log p).getLast? = some p
  mem : ∀ p q, Rec.xbegin p q ∈ log → ∀ r ∈ lineage log p, (∃ q', Rec.xbegin r q' ∈ log) ∧ lineage log r <+: lineage log p
  len : ∀ p q, Rec.xbegin p q ∈ log → (lineage log p).length ≤ Verif.Ule.Spec.maxDepth
  live : ∀ e ∈ T, e.2.chain = (lineage log e.1).map idOf
  st1 : ∀ p q, Rec.xbegin p q ∈ log → (∃ t, T.get p = some t) ∨ Rec.xcommit p ∈ log ∨ Rec.xabort p ∈ log
  st2 : ∀ p, Rec.xcommit p ∈ log ∨ Rec.xabort p ∈ log ∨ Rec.xprepare p ∈ log → ∃ q, Rec.xbegin p q ∈ log
  st3 : ∀ p t, T.get p = some t → Rec.xcommit p ∉ log ∧ Rec.xabort p ∉ log ∧ (Rec.xprepare p ∈ log ↔ t.prepared = true)

theorem Life.nil : Life [] [] := by
  refine ⟨fun _ _ => rfl, ?_, ?_, ?_, ?_, ?_, ?_, ?_, ?_⟩ <;> simp [Txns.get]

theorem mem_snoc {r x : Rec} {log : List Rec} : x ∈ log ++ [r] ↔ x ∈ log ∨ x = r := by simp

/-- No begin record: lineages stay. -/
theorem Life.rest {log : List Rec} {T T' : Txns} {r : Rec} (h : Life log T) (hr : ∀ p q, r ≠ .xbegin p q)
    (live : ∀ e ∈ T', ∃ t, (e.1, t) ∈ T ∧ t.chain = e.2.chain)
    (st1 : ∀ p t, T.get p = some t → (∃ t', T'.get p = some t') ∨ r = .xcommit p ∨ r = .xabort p)
    (st2 : ∀ p, r = .xcommit p ∨ r = .xabort p ∨ r = .xprepare p → ∃ t, T.get p = some t) (hb : ∀ e ∈ T, ∃ q, Rec.xbegin e.1 q ∈ log)
    (st3 : ∀ p t', T'.get p = some t' → r ≠ .xcommit p ∧ r ≠ .xabort p ∧ ∃ t, T.get p = some t ∧ (t'.prepared = true ↔ t.prepared = true ∨ r = .xprepare p)) :
    Life (log ++ [r]) T' := by
  have hx : ∀ p q, Rec.xbegin p q ∈ log ++ [r] ↔ Rec.xbegin p q ∈ log := by
    intro p q; rw [mem_snoc]
    exact ⟨fun h => h.resolve_right fun h => hr p q h.symm, Or.inl⟩
  have hl : lineage (log ++ [r]) = lineage log := by
    rw [lineage_snoc]; cases r <;> first | rfl | exact absurd rfl (hr _ _)
  refine ⟨?_, ?_, ?_, ?_, ?_, ?_, ?_, ?_, ?_⟩
  · intro p hp; rw [hl]; exact h.lin0 p fun q hq => hp q ((hx p q).mpr hq)
  · intro p q hp; rw [hl]; exact h.linl p q ((hx p q).mp hp)
  · intro p q hp; rw [hl]; exact h.last p q ((hx p q).mp hp)
  · intro p q hp r' hr'
    rw [hl] at hr' ⊢
    obtain ⟨⟨q', h1⟩, h2⟩ := h.mem p q ((hx p q).mp hp) r' hr'
    exact ⟨⟨q', (hx _ _).mpr h1⟩, h2⟩
  · intro p q hp; rw [hl]; exact h.len p q ((hx p q).mp hp)
  · intro e he; obtain ⟨t, h1, h2⟩ := live e he; rw [hl, ← h2]; exact h.live _ h1
  · intro p q hp
    rcases h.st1 p q ((hx p q).mp hp) with ⟨t, ht⟩ | h' | h'
    · rcases st1 p t ht with h' | h' | h'
      · exact .inl h'
      · exact .inr (.inl (by rw [h']; simp))
      · exact .inr (.inr (by rw [h']; simp))
    · exact .inr (.inl (List.mem_append_left _ h'))
    · exact .inr (.inr (List.mem_append_left _ h'))
  · intro p hp
    have key : (∃ t, T.get p = some t) → ∃ q, Rec.xbegin p q ∈ log ++ [r] := by
      rintro ⟨t, ht⟩
      obtain ⟨q, hq⟩ := hb _ (get_mem ht)
      exact ⟨q, (hx _ _).mpr hq⟩
    have old : (Rec.xcommit p ∈ log ∨ Rec.xabort p ∈ log ∨ Rec.xprepare p ∈ log) → ∃ q, Rec.xbegin p q ∈ log ++ [r] := by
      intro h'; obtain ⟨q, hq⟩ := h.st2 p h'; exact ⟨q, (hx _ _).mpr hq⟩
    simp only [mem_snoc] at hp
    rcases hp with (hp | hp) | (hp | hp) | (hp | hp)
    · exact old (.inl hp)
    · exact key (st2 p (.inl hp.symm))
    · exact old (.inr (.inl hp))
    · exact key (st2 p (.inr (.inl hp.symm)))
    · exact old (.inr (.inr hp))
    · exact key (st2 p (.inr (.inr hp.symm)))
  · intro p t' ht'
    obtain ⟨h1, h2, t, ht, h3⟩ := st3 p t' ht'
    obtain ⟨g1, g2, g3⟩ := h.st3 p t ht
    simp only [mem_snoc, not_or]
    refine ⟨⟨g1, fun h => h1 h.symm⟩, ⟨g2, fun h => h2 h.symm⟩, ?_⟩
    rw [h3, g3]
    exact ⟨fun h => h.imp id Eq.symm, fun h => h.imp id Eq.symm⟩

theorem idOf_root (n : Nat) : idOf ⟨n, 0⟩ = n := by simp [idOf]

/-- A begin record. -/
theorem Life.begin {log : List Rec} {T : Txns} {p : Xid} {parent : Option Xid} {ln : List Xid} {t : Txn} (h : Life log T) (hs : Sorted T) (hn : T.get p = none)
    (hfresh : ∀ q, Rec.xbegin p q ∉ log) (hb : ∀ e ∈ T, ∃ q, Rec.xbegin e.1 q ∈ log)
    (hlin : lineage (log ++ [.xbegin p parent]) = upd (lineage log) p (ln ++ [p]))
    (hln : (ln = [] ∧ p.child = 0) ∨ ∃ q q', Rec.xbegin q q' ∈ log ∧ ln = lineage log q ∧ p.root = q.root ∧ p.child ≠ 0 ∧ p.child ≠ p.root ∧
      (∀ p' q', Rec.xbegin p' q' ∈ log → p'.root = p.root → p'.child < p.child) ∧ ln.length < Verif.Ule.Spec.maxDepth)
    (hch : t.chain = (ln ++ [p]).map idOf) (hpr : t.prepared = false) : Life (log ++ [.xbegin p parent]) (T.ins p t) := by
  have hx : ∀ p' q', Rec.xbegin p' q' ∈ log ++ [.xbegin p parent] ↔ Rec.xbegin p' q' ∈ log ∨ (p' = p ∧ q' = parent) := by
    intro p' q'; rw [mem_snoc]; simp
  have hne : ∀ p' q', Rec.xbegin p' q' ∈ log → p' ≠ p := by rintro p' q' h1 rfl; exact hfresh _ h1
  have hl : ∀ p' q', Rec.xbegin p' q' ∈ log → lineage (log ++ [.xbegin p parent]) p' = lineage log p' := by
    intro p' q' h1; rw [hlin]; simp only [upd]; rw [if_neg (hne p' q' h1)]
  have hlp : lineage (log ++ [.xbegin p parent]) p = ln ++ [p] := by rw [hlin]; simp [upd]
  refine ⟨?_, ?_, ?_, ?_, ?_, ?_, ?_, ?_, ?_⟩
  · intro p' hp'
    rw [hlin]; simp only [upd]
    rw [if_neg (by rintro rfl; exact hp' parent ((hx _ _).mpr (.inr ⟨rfl, rfl⟩)))]
    exact h.lin0 p' fun q hq => hp' q ((hx _ _).mpr (.inl hq))
  · intro p' q' hp'
    rcases (hx _ _).mp hp' with h1 | ⟨rfl, rfl⟩
    · rw [hl _ _ h1]; exact h.linl _ _ h1
    · rw [hlp]
      rcases hln with ⟨rfl, h0⟩ | ⟨q, q', hq, hlq, hr, hc0, hcr, hnew, -⟩
      · refine ⟨[], ?_, by simp, by simp⟩
        have : p' = ⟨p'.root, 0⟩ := by cases p'; simp only at h0; rw [h0]
        rw [← this]; rfl
      · obtain ⟨l, e1, e2, e3⟩ := h.linl q q' hq
        refine ⟨l ++ [p'], by rw [hlq, e1, hr]; rfl, ?_, ?_⟩
        · intro r hr'
          rcases List.mem_append.mp hr' with h' | h'
          · rw [hr]; exact e2 r h'
          · rw [List.mem_singleton] at h'; subst h'; exact ⟨hc0, rfl, hcr⟩
        · rw [List.pairwise_append]
          refine ⟨e3, by simp, ?_⟩
          intro a ha b hb
          rw [List.mem_singleton] at hb; subst hb
          obtain ⟨⟨qa, hqa⟩, -⟩ := h.mem q q' hq a (by rw [e1]; simp [ha])
          exact hnew _ _ hqa (by rw [hr]; exact (e2 a ha).2.1)
  · intro p' q' hp'
    rcases (hx _ _).mp hp' with h1 | ⟨rfl, rfl⟩
    · rw [hl _ _ h1]; exact h.last _ _ h1
    · rw [hlp]; simp
  · intro p' q' hp' r hr
    rcases (hx _ _).mp hp' with h1 | ⟨rfl, rfl⟩
    · rw [hl _ _ h1] at hr ⊢
      obtain ⟨⟨q2, h2⟩, h3⟩ := h.mem _ _ h1 r hr
      exact ⟨⟨q2, (hx _ _).mpr (.inl h2)⟩, by rw [hl _ _ h2]; exact h3⟩
    · rw [hlp] at hr ⊢
      rcases List.mem_append.mp hr with hr | hr
      · rcases hln with ⟨rfl, -⟩ | ⟨q, q', hq, hlq, -⟩
        · simp at hr
        · rw [hlq] at hr
          obtain ⟨⟨q2, h2⟩, h3⟩ := h.mem _ _ hq r hr
          refine ⟨⟨q2, (hx _ _).mpr (.inl h2)⟩, ?_⟩
          rw [hl _ _ h2, hlq]; exact h3.trans (List.prefix_append _ _)
      · rw [List.mem_singleton] at hr; subst hr
        exact ⟨⟨_, hp'⟩, by rw [hlp]; exact List.prefix_refl _⟩
  · intro p' q' hp'
    rcases (hx _ _).mp hp' with h1 | ⟨rfl, rfl⟩
    · rw [hl _ _ h1]; exact h.len _ _ h1
    · rw [hlp]
      rcases hln with ⟨rfl, -⟩ | ⟨q, q', hq, hlq, -, -, -, -, hlen⟩
      · simp [Verif.Ule.Spec.maxDepth]
      · simp; omega
  · intro e he
    rcases mem_ins.mp he with rfl | he
    · rw [hlp]; exact hch
    · obtain ⟨q, hq⟩ := hb e he
      rw [hl _ _ hq]; exact h.live e he
  · intro p' q' hp'
    rw [get_ins hs hn]
    rcases (hx _ _).mp hp' with h1 | ⟨rfl, rfl⟩
    · rw [if_neg (hne _ _ h1)]
      rcases h.st1 _ _ h1 with h' | h' | h'
      · exact .inl h'
      · exact .inr (.inl (List.mem_append_left _ h'))
      · exact .inr (.inr (List.mem_append_left _ h'))
    · simp
  · intro p' hp'
    obtain ⟨q, hq⟩ := h.st2 p' (by simpa [mem_snoc] using hp')
    exact ⟨q, (hx _ _).mpr (.inl hq)⟩
  · intro p' t' ht'
    rw [get_ins hs hn] at ht'
    split at ht'
    · rename_i he; subst he
      injection ht' with ht'; subst ht'
      have hno : ¬ (Rec.xcommit p' ∈ log ∨ Rec.xabort p' ∈ log ∨ Rec.xprepare p' ∈ log) := fun h' => by
        obtain ⟨q, hq⟩ := h.st2 _ h'; exact hfresh q hq
      simp only [not_or] at hno
      refine ⟨by simpa [mem_snoc] using hno.1, by simpa [mem_snoc] using hno.2.1, ?_⟩
      simp [mem_snoc, hno.2.2, hpr]
    · obtain ⟨g1, g2, g3⟩ := h.st3 p' t' ht'
      exact ⟨by simpa [mem_snoc] using g1, by simpa [mem_snoc] using g2, by simpa [mem_snoc] using g3⟩

theorem Life.step {log : List Rec} {T T' : Txns} {r : Rec} (h : Life log T) (wf : TxWf T) (ids : Ids log T) (he : Eff log T r T') : Life (log ++ [r]) T' := by
  have hb : ∀ e ∈ T, ∃ q, Rec.xbegin e.1 q ∈ log := fun e he => ⟨_, ids.begun e he⟩
  cases he with
  | keep h1 h2 h3 h4 h5 =>
    refine h.rest h1 (fun e he => ⟨e.2, he, rfl⟩) (fun p t ht => .inl ⟨t, ht⟩) ?_ hb ?_
    · rintro p (h' | h' | h')
      · exact absurd h' (h3 p)
      · exact absurd h' (h4 p)
      · exact absurd h' (h5 p)
    · intro p t ht; exact ⟨h3 p, h4 p, t, ht, by simp [h5 p]⟩
  | @root p h0 hlt hn =>
    refine h.begin (ln := []) wf.sorted hn ?_ hb ?_ (.inl ⟨rfl, h0⟩) ?_ rfl
    · intro q hq; have := ids.root _ _ hq; omega
    · rw [lineage_snoc]; rfl
    · simp [idOf, h0]
  | @child p q t hr hc0 hcr ht htp htl hch hnew hn =>
    have hq := ids.begun _ (get_mem ht)
    refine h.begin (ln := lineage log q) wf.sorted hn ?_ hb ?_ (.inr ⟨q, _, hq, rfl, hr, hc0, hcr, hnew, ?_⟩) ?_ rfl
    · intro q' hq'; have := hnew _ _ hq' rfl; omega
    · rw [lineage_snoc]; rfl
    · rw [h.live _ (get_mem ht)] at htl; simpa using htl
    · rw [List.map_append, ← h.live _ (get_mem ht)]; simp [idOf, hc0]
  | @enq p ops t ht htp hc =>
    refine h.rest (by simp) ?_ ?_ (by simp) hb ?_
    · intro e he
      rcases mem_set he with ⟨rfl, -⟩ | ⟨he, -⟩
      · exact ⟨t, get_mem ht, rfl⟩
      · exact ⟨e.2, he, rfl⟩
    · intro p' t' ht'
      rw [get_set]
      split
      · rename_i e; subst e; rw [ht]; simp
      · exact .inl ⟨t', ht'⟩
    · intro p' t' ht'
      refine ⟨by simp, by simp, ?_⟩
      rw [get_set] at ht'
      split at ht'
      · rename_i e; subst e; rw [ht] at ht'; simp at ht'; subst ht'; exact ⟨t, ht, by simp⟩
      · exact ⟨t', ht', by simp⟩
  | @commitRoot p t ht hc hp =>
    refine h.rest (by simp) (fun e he => ⟨e.2, (mem_erase.mp he).1, rfl⟩) ?_ ?_ hb ?_
    · intro p' t' ht'
      rw [get_erase]
      split
      · rename_i e; subst e; simp
      · exact .inl ⟨t', ht'⟩
    · rintro p' (h' | h' | h') <;> simp at h'
      subst h'; exact ⟨t, ht⟩
    · intro p' t' ht'
      rw [get_erase] at ht'
      split at ht'
      · simp at ht'
      · rename_i hne
        exact ⟨by simp; exact fun h => hne h.symm, by simp, t', ht', by simp⟩
  | @commitChild p t q tq ht hc hp hq hpq =>
    refine h.rest (by simp) ?_ ?_ ?_ hb ?_
    · intro e he
      rcases mem_set (mem_erase.mp he).1 with ⟨rfl, -⟩ | ⟨he, -⟩
      · exact ⟨tq, get_mem hq, rfl⟩
      · exact ⟨e.2, he, rfl⟩
    · intro p' t' ht'
      rw [get_erase, get_set]
      split
      · rename_i e; subst e; simp
      · split
        · rename_i e; subst e; rw [hq]; simp
        · exact .inl ⟨t', ht'⟩
    · rintro p' (h' | h' | h') <;> simp at h'
      subst h'; exact ⟨t, ht⟩
    · intro p' t' ht'
      rw [get_erase, get_set] at ht'
      split at ht'
      · simp at ht'
      · rename_i hne
        refine ⟨by simp; exact fun h => hne h.symm, by simp, ?_⟩
        split at ht'
        · rename_i e; subst e; rw [hq] at ht'; simp at ht'; subst ht'; exact ⟨tq, hq, by simp⟩
        · exact ⟨t', ht', by simp⟩
  | @abort p t ht hc =>
    refine h.rest (by simp) (fun e he => ⟨e.2, (mem_erase.mp he).1, rfl⟩) ?_ ?_ hb ?_
    · intro p' t' ht'
      rw [get_erase]
      split
      · rename_i e; subst e; simp
      · exact .inl ⟨t', ht'⟩
    · rintro p' (h' | h' | h') <;> simp at h'
      subst h'; exact ⟨t, ht⟩
    · intro p' t' ht'
      rw [get_erase] at ht'
      split at ht'
      · simp at ht'
      · rename_i hne
        exact ⟨by simp, by simp; exact fun h => hne h.symm, t', ht', by simp⟩
  | @prepare p t ht hp htp hc =>
    refine h.rest (by simp) ?_ ?_ ?_ hb ?_
    · intro e he
      rcases mem_set he with ⟨rfl, -⟩ | ⟨he, -⟩
      · exact ⟨t, get_mem ht, rfl⟩
      · exact ⟨e.2, he, rfl⟩
    · intro p' t' ht'
      rw [get_set]
      split
      · rename_i e; subst e; rw [ht]; simp
      · exact .inl ⟨t', ht'⟩
    · rintro p' (h' | h' | h') <;> simp at h'
      subst h'; exact ⟨t, ht⟩
    · intro p' t' ht'
      refine ⟨by simp, by simp, ?_⟩
      rw [get_set] at ht'
      split at ht'
      · rename_i e; subst e; rw [ht] at ht'; simp at ht'; subst ht'; exact ⟨t, ht, by simp⟩
      · rename_i hne
        exact ⟨t', ht', by simp; exact fun h => absurd h.symm hne⟩

theorem Valid.life {files log} (h : Valid files log) : Life log (W log).txns := by
  induction h with
  | nil => exact Life.nil
  | @snoc log r w hv hok hst ih =>
    obtain ⟨wf, ids⟩ := hv.txwf
    exact ih.step wf ids (Valid.eff (hv.snoc hok hst))

/-! ### Consequences -/

theorem Life.chain_head {log T} (h : Life log T) {p : Xid} {q : Option Xid} (hp : Rec.xbegin p q ∈ log) : ((lineage log p).map idOf).head? = some p.root := by
  obtain ⟨l, h1, -⟩ := h.linl p q hp
  rw [h1]; simp [idOf]

theorem Life.chain_ne {log T} (h : Life log T) {p : Xid} {q : Option Xid} (hp : Rec.xbegin p q ∈ log) : (lineage log p).map idOf ≠ [] := by
  obtain ⟨l, h1, -⟩ := h.linl p q hp
  rw [h1]; simp

theorem Life.chain_nodup {log T} (h : Life log T) (ids : Ids log T) {p : Xid} {q : Option Xid} (hp : Rec.xbegin p q ∈ log) :
    ((lineage log p).map idOf).Nodup ∧ ∀ x ∈ (lineage log p).map idOf, x ≠ 0 := by
  obtain ⟨l, h1, h2, h3⟩ := h.linl p q hp
  have hm : l.map idOf = l.map (·.child) := List.map_congr_left fun r hr => by simp [idOf, (h2 r hr).1]
  rw [h1, List.map_cons, hm]
  refine ⟨List.nodup_cons.mpr ⟨?_, ?_⟩, ?_⟩
  · rw [idOf_root]
    intro hmem
    obtain ⟨r, hr, he⟩ := List.mem_map.mp hmem
    obtain ⟨-, h5, h6⟩ := h2 r hr
    exact h6 (he.trans h5.symm)
  · rw [List.Nodup, List.pairwise_map]
    exact h3.imp fun h => Nat.ne_of_lt h
  · intro x hx
    rcases List.mem_cons.mp hx with rfl | hx
    · rw [idOf_root]; exact ids.pos _ _ hp
    · obtain ⟨r, hr, rfl⟩ := List.mem_map.mp hx
      exact (h2 r hr).1

/-- Nesting shows in the ids. -/
theorem Life.prefix_iff {log T} (h : Life log T) {p q : Xid} {p' q' : Option Xid} (hp : Rec.xbegin p p' ∈ log) (hq : Rec.xbegin q q' ∈ log) :
    (lineage log p).map idOf <+: (lineage log q).map idOf ↔ p ∈ lineage log q := by
  constructor
  · intro hpre
    obtain ⟨lp, a1, a2, a3⟩ := h.linl p p' hp
    obtain ⟨lq, b1, b2, b3⟩ := h.linl q q' hq
    rw [a1, b1] at hpre
    simp only [List.map_cons, idOf_root, List.cons_prefix_cons] at hpre
    obtain ⟨hroot, hpre⟩ := hpre
    have hlast := h.last p p' hp
    rw [a1] at hlast
    cases lp using List.reverseRecOn' with
    | nil =>
      simp at hlast
      rw [b1, ← hlast, hroot]; simp
    | snoc lp x =>
      have hx : x = p := by
        rw [← List.cons_append, List.getLast?_append] at hlast; simpa using hlast
      subst hx
      obtain ⟨hc0, -, -⟩ := a2 x (by simp)
      have hmem : idOf x ∈ lq.map idOf := hpre.subset (by simp)
      obtain ⟨y, hy, he⟩ := List.mem_map.mp hmem
      obtain ⟨hy0, hyr, -⟩ := b2 y hy
      simp only [idOf, hc0, hy0, if_false] at he
      have : y = x := Xid.eq_of _ _ (by rw [hyr, hroot]) he
      subst this
      rw [b1]; simp [hy]
  · intro hm
    exact List.IsPrefix.map idOf (h.mem q q' hq p hm).2
where
  List.reverseRecOn' {α : Type} {motive : List α → Prop} (l : List α) (nil : motive []) (snoc : ∀ b r, motive (b ++ [r])) : motive l := by
    rcases List.eq_nil_or_concat l with rfl | ⟨b, r, rfl⟩
    · exact nil
    · rw [List.concat_eq_append]; exact snoc b r

/-- The transaction with these ids. -/
def code (d : List Nat) : Xid := match d with
  | [] => ⟨0, 0⟩
  | [r] => ⟨r, 0⟩
  | r :: d => ⟨r, d.getLast?.getD 0⟩

theorem Life.code_eq {log T} (h : Life log T) {p : Xid} {q : Option Xid} (hp : Rec.xbegin p q ∈ log) : code ((lineage log p).map idOf) = p := by
  obtain ⟨l, h1, h2, h3⟩ := h.linl p q hp
  have hlast := h.last p q hp
  rw [h1] at hlast ⊢
  rcases List.eq_nil_or_concat l with rfl | ⟨b, r, rfl⟩
  · simp at hlast; simp [code, idOf]; exact hlast
  · rw [List.concat_eq_append] at *
    have hr : r = p := by
      rw [← List.cons_append, List.getLast?_append] at hlast; simpa using hlast
    subst hr
    obtain ⟨hc, -, -⟩ := h2 r (by simp)
    cases b with
    | nil => simp [code, idOf, hc]
    | cons x b => simp [code, idOf, hc]; rw [← List.cons_append, List.getLast?_concat]; rfl

/-- The root of a live transaction is alive. -/
theorem TxWf.rootLive {T : Txns} (wf : TxWf T) {e : Xid × Txn} (he : e ∈ T) : ∃ t, T.get ⟨e.1.root, 0⟩ = some t := by
  suffices H : ∀ n, ∀ e ∈ T, e.1.child = n → ∃ t, T.get ⟨e.1.root, 0⟩ = some t from H _ e he rfl
  intro n
  induction n using Nat.strongRecOn with
  | _ n ih =>
    intro e he hn
    cases hq : e.2.parent with
    | none =>
      have h0 := (wf.root e he hq).1
      have : e.1 = ⟨e.1.root, 0⟩ := Xid.eq_of _ _ rfl h0
      exact ⟨e.2, by rw [← this]; exact get_of_mem wf.sorted he⟩
    | some q =>
      obtain ⟨-, hqr, hqc, u, hu, -, -⟩ := wf.child e he q hq
      have := ih q.child (by omega) (q, u) (get_mem hu) rfl
      rw [← hqr]; exact this

theorem Life.notEnded {log T} (h : Life log T) (wf : TxWf T) {e : Xid × Txn} (he : e ∈ T) : ¬ Ended log e.1.root := by
  obtain ⟨t, ht⟩ := wf.rootLive he
  obtain ⟨h1, h2, -⟩ := h.st3 _ _ ht
  rintro (h' | h')
  · exact h1 h'
  · exact h2 h'

end Verif.Rec
