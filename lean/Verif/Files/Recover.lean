import Verif.Files.Run

/-! Recovery, without renamed files. -/
namespace Verif.Files

/-- Created by a transaction that committed, and no removal committed. -/
def Alive (L : List Rec) (f : File) : Prop :=
  (∃ c d, Rec.create c d f ∈ L ∧ Rec.commit c ∈ L) ∧ ∀ t d, Rec.remove t d f ∈ L → Rec.commit t ∉ L

structure RInv (Q : List Rec) (k : Nat) (x : Disk) : Prop where
  opn : ∀ f o, x.opn f = some o → o.name = f ∧ o.tup = f ∧ openL (Q.take k) f = true ∧ (o.doom = true ↔ Doomed (Q.take k) f) ∧
    x.fs f ≠ none
  id : ∀ f m, x.fs f = some m → m.id = f
  rows : ∀ f, Alive Q f → Created (Q.take k) f →
    ∃ m, x.fs f = some m ∧ m.rows = rowsOf (Q.take (max k m.lsn)) f ∧ m.lsn ≤ Q.length
  shut : ∀ f, Created (Q.take k) f → x.opn f = none → (openL (Q.take k) f = true → x.fs f = none) ∧
    (Doomed (Q.take k) f → x.fs f = none)

theorem take_succ' {Q : List Rec} {k r} (h : Q[k]? = some r) : Q.take (k + 1) = Q.take k ++ [r] := by
  rw [List.take_add_one, h]; rfl

theorem rows_adv {Q : List Rec} {k r f} (h : Q[k]? = some r) (hr : rowOf f r = none) (n : Nat) :
    rowsOf (Q.take (max k n)) f = rowsOf (Q.take (max (k + 1) n)) f := by
  rcases Nat.lt_or_ge k n with hn | hn
  · rw [show max k n = n by omega, show max (k + 1) n = n by omega]
  · rw [show max k n = k by omega, show max (k + 1) n = k + 1 by omega, take_succ' h, rowsOf_snoc hr]

theorem RInv.append {Q k x r} (h : RInv Q k x) (hr : Q[k]? = some r) (opn : File → Option Open)
    (hrow : ∀ f, rowOf f r = none) (hc : ∀ f, Created (Q.take k ++ [r]) f ↔ Created (Q.take k) f)
    (ho : ∀ f o, opn f = some o → o.name = f ∧ o.tup = f ∧ openL (Q.take k ++ [r]) f = true ∧
      (o.doom = true ↔ Doomed (Q.take k ++ [r]) f) ∧ x.fs f ≠ none)
    (hs : ∀ f, Created (Q.take k) f → opn f = none → (openL (Q.take k ++ [r]) f = true → x.fs f = none) ∧
      (Doomed (Q.take k ++ [r]) f → x.fs f = none)) : RInv Q (k + 1) ⟨x.fs, opn⟩ := by
  refine ⟨?_, h.id, ?_, ?_⟩
  · rw [take_succ' hr]; exact ho
  · rw [take_succ' hr]; intro f hf hcf
    obtain ⟨m, h1, h2, h3⟩ := h.rows f hf ((hc f).mp hcf)
    exact ⟨m, h1, by rw [h2, rows_adv hr (hrow f)], h3⟩
  · rw [take_succ' hr]; intro f hcf hof; exact hs f ((hc f).mp hcf) hof

theorem recAssoc_later {l x} (hi : ∀ f i u, (f, i, u) ∈ l → i = f) (ho : ∀ f o, x.opn f = some o → o.tup = f) :
    recAssoc false l x = some x := by
  induction l with
  | nil => rfl
  | cons a l ih =>
    obtain ⟨f, i, u⟩ := a
    have ih' := ih fun f i u h => hi f i u (List.mem_cons_of_mem _ h)
    simp only [recAssoc, Bool.false_eq_true, if_false]
    rcases hof : x.opn f with _ | o
    · exact ih'
    · simp only [ho f o hof, hi f i u List.mem_cons_self, if_true]; exact ih'

theorem recAssoc_first {l x} (hn : (l.map (·.1)).Nodup) (hi : ∀ f i u, (f, i, u) ∈ l → i = f)
    (ho : ∀ f, f ∈ l.map (·.1) → x.opn f = none) :
    ∃ y, recAssoc true l x = some y ∧ y.fs = x.fs ∧
      (∀ f i u, (f, i, u) ∈ l → y.opn f = if x.fs f = none then none else some ⟨f, f, u, false⟩) ∧
      ∀ f, f ∉ l.map (·.1) → y.opn f = x.opn f := by
  induction l generalizing x with
  | nil => exact ⟨x, rfl, rfl, by simp, fun _ _ => rfl⟩
  | cons a l ih =>
    obtain ⟨f, i, u⟩ := a
    obtain rfl := hi f i u List.mem_cons_self
    rw [List.map_cons, List.nodup_cons] at hn
    have hf := ho i (by simp)
    let x1 : Disk := if x.fs i = none then x else { x with opn := upd x.opn i (some ⟨i, i, u, false⟩) }
    have hfs : x1.fs = x.fs := by simp only [x1]; split <;> rfl
    have hop : ∀ g, g ≠ i → x1.opn g = x.opn g := by
      intro g hg; simp only [x1]; split
      · rfl
      · simp [upd, hg]
    have hopi : x1.opn i = if x.fs i = none then none else some ⟨i, i, u, false⟩ := by
      simp only [x1]; split
      · exact hf
      · simp [upd]
    obtain ⟨y, h1, h2, h3, h4⟩ := ih (x := x1) hn.2 (fun f i u h => hi f i u (List.mem_cons_of_mem _ h)) (by
      intro g hg
      rw [hop g (by rintro rfl; exact hn.1 hg)]
      exact ho g (by simp only [List.map_cons, List.mem_cons]; exact Or.inr hg))
    refine ⟨y, ?_, by rw [h2, hfs], ?_, ?_⟩
    · simp only [recAssoc, if_true, hf, ne_eq, not_true, if_false]; exact h1
    · intro g j v hm
      rcases List.mem_cons.mp hm with hm | hm
      · simp only [Prod.mk.injEq] at hm; obtain ⟨rfl, rfl, rfl⟩ := hm
        rw [h4 _ hn.1, hopi]
      · rw [h3 g j v hm, hfs]
    · intro g hg
      simp only [List.map_cons, List.mem_cons, not_or] at hg
      rw [h4 g hg.2, hop g hg.1]

theorem RInv.step {Q : List Rec} (hQ : Good Q) {ck k x r} (h : RInv Q k x) (hr : Q[k]? = some r) (hck : k = ck → ck = 0) :
    ∃ y, recover1 (Q.take k) ck k x r = some y ∧ RInv Q (k + 1) y := by
  have hok := hQ.ok_at k r hr
  have hT := hQ.take k
  have hF := hT.facts
  have hkl : k < Q.length := by
    rcases Nat.lt_or_ge k Q.length with h' | h'
    · exact h'
    · rw [List.getElem?_eq_none h'] at hr; cases hr
  generalize hTd : Q.take k = T at *
  have hstill : still r = true → (∀ f, rowOf f r = none) → RInv Q (k + 1) x := by
    intro hs hrow
    have hD : ∀ f, Doomed (T ++ [r]) f ↔ Doomed T f := fun f => doomed_keep hF hok (by cases r <;> simp_all [Files.still])
    have hO : ∀ f, openL (T ++ [r]) f = openL T f := fun f => by
      rw [openL_snoc]; cases r <;> first | rfl | (simp [Files.still] at hs)
    refine h.append hr x.opn hrow (fun f => ?_) ?_ ?_
    · refine created_iff fun t d => ?_
      rintro rfl; simp [Files.still] at hs
    · rw [hTd]; intro f o ho; rw [hO, hD]; have := h.opn f o ho; rwa [hTd] at this
    · rw [hTd]; intro f hc ho; rw [hO, hD]; have := h.shut f (by rwa [hTd]) ho; rwa [hTd] at this
  cases r with
  | «begin» t => exact ⟨x, rfl, hstill rfl fun _ => rfl⟩
  | rename t d d' i => exact ⟨x, rfl, hstill rfl fun _ => rfl⟩
  | remove t d f => exact ⟨x, rfl, hstill rfl fun _ => rfl⟩
  | frename => exact hok.elim
  | create t d f =>
    obtain ⟨hl, hf, hv, hn⟩ := hok
    have hof : x.opn f = none := by
      rcases ho : x.opn f with _ | o
      · rfl
      · have := (h.opn f o ho).2.2.1
        rw [hTd] at this; exact absurd (hF.opened f this) hn
    refine ⟨_, by simp only [recover1, hof, ne_eq, not_true, if_false]; rfl, ?_⟩
    have hD : ∀ g, Doomed (T ++ [.create t d f]) g ↔ Doomed T g := fun g =>
      doomed_keep hF (r := .create t d f) ⟨hl, hf, hv, hn⟩ trivial
    refine ⟨?_, ?_, ?_, ?_⟩
    · rw [take_succ' hr, hTd]; intro g o ho
      rw [openL_snoc, hD]
      by_cases hg : g = f
      · subst hg; simp [upd] at ho; subst ho
        exact ⟨rfl, rfl, by simp [openStep], by simp; exact fun hd => hn (hd.created hF), by simp [upd]⟩
      · simp only [upd, if_neg hg] at ho ⊢
        have := h.opn g o ho
        rw [hTd] at this
        simpa [openStep, Ne.symm hg] using this
    · intro g m hm
      by_cases hg : g = f
      · subst hg; simp [upd] at hm; subst hm; rfl
      · simp only [upd, if_neg hg] at hm; exact h.id g m hm
    · rw [take_succ' hr, hTd]; intro g hag hcg
      by_cases hg : g = f
      · subst hg
        refine ⟨⟨g, [], 0⟩, by simp [upd], ?_, Nat.zero_le _⟩
        rw [← rows_adv hr rfl, show max k 0 = k by omega, hTd, rowsOf_unborn hF hn]
      · simp only [upd, if_neg hg]
        have hcg' : Created T g := (created_iff (by
          rintro t' d' h'; injection h' with _ _ h'; exact hg h'.symm)).mp hcg
        obtain ⟨m, h1, h2, h3⟩ := h.rows g hag (by rwa [hTd])
        exact ⟨m, h1, by rw [h2, rows_adv hr rfl], h3⟩
    · rw [take_succ' hr, hTd]; intro g hcg ho
      rw [openL_snoc, hD]
      by_cases hg : g = f
      · subst hg; simp [upd] at ho
      · simp only [upd, if_neg hg] at ho ⊢
        have hcg' : Created T g := (created_iff (by
          rintro t' d' h'; injection h' with _ _ h'; exact hg h'.symm)).mp hcg
        have := h.shut g (by rwa [hTd]) ho
        rw [hTd] at this
        simpa [openStep, Ne.symm hg] using this
  | fopen f i =>
    obtain ⟨rfl, hcl, t, d, hl, hlf, hv⟩ := hok
    have hok : ok T (.fopen i i) := ⟨rfl, hcl, t, d, hl, hlf, hv⟩
    obtain ⟨hcf, hnd⟩ := hF.seen hl hv
    have hof : x.opn i = none := by
      rcases ho : x.opn i with _ | o
      · rfl
      · have := (h.opn i o ho).2.2.1
        rw [hTd, hcl] at this; cases this
    refine ⟨_, by simp only [recover1, hof, ne_eq, not_true, if_false]; rfl, ?_⟩
    have hD : ∀ g, Doomed (T ++ [.fopen i i]) g ↔ Doomed T g := fun g => doomed_keep hF hok trivial
    by_cases hx : x.fs i = none
    · rw [if_pos hx]
      refine h.append hr x.opn (fun _ => rfl) (fun g => created_iff (by simp)) ?_ ?_
      · rw [hTd]; intro g o ho
        rw [openL_snoc, hD]
        have := h.opn g o ho
        rw [hTd] at this
        have hg : i ≠ g := by rintro rfl; rw [hof] at ho; cases ho
        simpa [openStep, hg] using this
      · rw [hTd]; intro g hcg ho
        rw [openL_snoc, hD]
        have := h.shut g (by rwa [hTd]) ho
        rw [hTd] at this
        by_cases hg : g = i
        · subst hg; exact ⟨fun _ => hx, fun _ => hx⟩
        · simpa [openStep, Ne.symm hg] using this
    · rw [if_neg hx]
      refine h.append hr _ (fun _ => rfl) (fun g => created_iff (by simp)) ?_ ?_
      · rw [hTd]; intro g o ho
        rw [openL_snoc, hD]
        by_cases hg : g = i
        · subst hg; simp [upd] at ho; subst ho
          exact ⟨rfl, rfl, by simp [openStep], by simp [hnd], hx⟩
        · simp only [upd, if_neg hg] at ho
          have := h.opn g o ho
          rw [hTd] at this
          simpa [openStep, Ne.symm hg] using this
      · rw [hTd]; intro g hcg ho
        rw [openL_snoc, hD]
        by_cases hg : g = i
        · subst hg; simp [upd] at ho
        · simp only [upd, if_neg hg] at ho
          have := h.shut g (by rwa [hTd]) ho
          rw [hTd] at this
          simpa [openStep, Ne.symm hg] using this
  | fclose f i =>
    obtain ⟨rfl, hop, hh⟩ := hok
    have hok : ok T (.fclose i i) := ⟨rfl, hop, hh⟩
    have hD : ∀ g, Doomed (T ++ [.fclose i i]) g ↔ Doomed T g := fun g => doomed_keep hF hok trivial
    rcases hof : x.opn i with _ | o
    · refine ⟨x, by simp only [recover1, hof], ?_⟩
      have hci := hF.opened i hop
      refine h.append hr x.opn (fun _ => rfl) (fun g => created_iff (by simp)) ?_ ?_
      · rw [hTd]; intro g o ho
        rw [openL_snoc, hD]
        have := h.opn g o ho
        rw [hTd] at this
        have hg : i ≠ g := by rintro rfl; rw [hof] at ho; cases ho
        simpa [openStep, hg] using this
      · rw [hTd]; intro g hcg ho
        rw [openL_snoc, hD]
        have := h.shut g (by rwa [hTd]) ho
        rw [hTd] at this
        by_cases hg : g = i
        · subst hg; exact ⟨fun _ => this.1 hop, this.2⟩
        · simpa [openStep, Ne.symm hg] using this
    · obtain ⟨h1, h2, h3, h4, h5⟩ := h.opn i o hof
      rw [hTd] at h3 h4
      refine ⟨_, by simp only [recover1, hof, h2, ne_eq, not_true, if_false]; rfl, ?_⟩
      rw [h1]
      refine ⟨?_, ?_, ?_, ?_⟩
      · rw [take_succ' hr, hTd]; intro g o' ho'
        rw [openL_snoc, hD]
        by_cases hg : g = i
        · subst hg; simp [upd] at ho'
        · simp only [upd, if_neg hg] at ho' ⊢
          have := h.opn g o' ho'
          rw [hTd] at this
          simpa [openStep, Ne.symm hg] using this
      · intro g m hm
        by_cases hg : g = i
        · subst hg; simp only [upd, if_true] at hm
          split at hm
          · cases hm
          · rcases hm' : x.fs g with _ | m'
            · rw [hm'] at hm; cases hm
            · rw [hm'] at hm; simp at hm; subst hm; exact h.id g m' hm'
        · simp only [upd, if_neg hg] at hm; exact h.id g m hm
      · rw [take_succ' hr, hTd]; intro g hag hcg
        have hcg' : Created T g := (created_iff (by simp)).mp hcg
        obtain ⟨m, h6, h7, h8⟩ := h.rows g hag (by rwa [hTd])
        by_cases hg : g = i
        · subst hg
          have hdf : o.doom = false := by
            rcases hd : o.doom with _ | _
            · rfl
            · exfalso
              obtain ⟨⟨c, d, h9, h10⟩, h11⟩ := hag
              rcases h4.mp hd with ⟨c', d', h12, h13⟩ | ⟨t', d', h12, h13⟩
              · have hsub : ∀ a, a ∈ T → a ∈ Q := fun a ha => List.mem_of_mem_take (hTd ▸ ha)
                have := hQ.facts.dir.creator _ _ _ _ _ (hsub _ h12) h9
                subst this; exact hQ.facts.once _ h10 (hsub _ h13)
              · have hsub : ∀ a, a ∈ T → a ∈ Q := fun a ha => List.mem_of_mem_take (hTd ▸ ha)
                exact h11 _ _ (hsub _ h12) (hsub _ h13)
          simp only [upd, if_true, hdf, Bool.false_eq_true, if_false, h6, Option.map_some]
          refine ⟨_, rfl, ?_, ?_⟩
          · dsimp only
            rw [h7, rows_adv hr rfl, show max (k + 1) m.lsn = max (k + 1) (max m.lsn (k + 1)) by omega]
          · dsimp only; omega
        · simp only [upd, if_neg hg]
          exact ⟨m, h6, by rw [h7, rows_adv hr rfl], h8⟩
      · rw [take_succ' hr, hTd]; intro g hcg ho'
        rw [openL_snoc, hD]
        have hcg' : Created T g := (created_iff (by simp)).mp hcg
        by_cases hg : g = i
        · subst hg
          refine ⟨by simp [openStep], fun hd => ?_⟩
          rw [← h4] at hd; simp [upd, hd]
        · simp only [upd, if_neg hg] at ho' ⊢
          have := h.shut g (by rwa [hTd]) ho'
          rw [hTd] at this
          simpa [openStep, Ne.symm hg] using this
  | put t f v =>
    obtain ⟨hl, _, hop⟩ := _root_.id hok
    have hD : ∀ g, Doomed (T ++ [.put t f v]) g ↔ Doomed T g := fun g => doomed_keep hF hok trivial
    have hO : ∀ g, openL (T ++ [.put t f v]) g = openL T g := fun g => by rw [openL_snoc]; rfl
    have hC : ∀ g, Created (T ++ [.put t f v]) g ↔ Created T g := fun g => created_iff (by simp)
    have hadv : ∀ g, g ≠ f → ∀ n, rowsOf (Q.take (max k n)) g = rowsOf (Q.take (max (k + 1) n)) g :=
      fun g hg n => rows_adv hr (by simp [rowOf, Ne.symm hg]) n
    rcases hof : x.opn f with _ | o
    · refine ⟨x, by simp only [recover1, hof], ?_, h.id, ?_, ?_⟩
      · rw [take_succ' hr, hTd]; intro g o ho; rw [hO, hD]; have := h.opn g o ho; rwa [hTd] at this
      · rw [take_succ' hr, hTd]; intro g hag hcg
        obtain ⟨m, h6, h7, h8⟩ := h.rows g hag (by rw [hTd]; exact (hC g).mp hcg)
        by_cases hg : g = f
        · subst hg
          have := (h.shut g (by rw [hTd]; exact (hC g).mp hcg) hof).1 (by rw [hTd]; exact hop)
          rw [this] at h6; cases h6
        · exact ⟨m, h6, by rw [h7, hadv g hg], h8⟩
      · rw [take_succ' hr, hTd]; intro g hcg ho; rw [hO, hD]
        have := h.shut g (by rw [hTd]; exact (hC g).mp hcg) ho; rwa [hTd] at this
    · obtain ⟨h1, h2, h3, h4, h5⟩ := h.opn f o hof
      refine ⟨_, by simp only [recover1, hof]; rfl, ?_⟩
      rw [h1]
      refine ⟨?_, ?_, ?_, ?_⟩
      · rw [take_succ' hr, hTd]; intro g o' ho'; rw [hO, hD]
        have := h.opn g o' ho'
        rw [hTd] at this
        refine ⟨this.1, this.2.1, this.2.2.1, this.2.2.2.1, ?_⟩
        by_cases hg : g = f
        · subst hg; simpa [upd] using h5
        · simp only [upd, if_neg hg]; exact this.2.2.2.2
      · intro g m hm
        by_cases hg : g = f
        · subst hg; simp only [upd, if_true] at hm
          rcases hm' : x.fs g with _ | m'
          · rw [hm'] at hm; cases hm
          · rw [hm'] at hm; simp at hm; subst hm
            split <;> exact h.id g m' hm'
        · simp only [upd, if_neg hg] at hm; exact h.id g m hm
      · rw [take_succ' hr, hTd]; intro g hag hcg
        obtain ⟨m, h6, h7, h8⟩ := h.rows g hag (by rw [hTd]; exact (hC g).mp hcg)
        by_cases hg : g = f
        · subst hg
          simp only [upd, if_true, h6, Option.map_some]
          by_cases hlt : k < m.lsn
          · rw [if_pos hlt]
            exact ⟨m, rfl, by rw [h7, show max k m.lsn = max (k + 1) m.lsn by omega], h8⟩
          · rw [if_neg hlt]
            refine ⟨_, rfl, ?_, h8⟩
            dsimp only
            rw [h7, show max k m.lsn = k by omega, show max (k + 1) m.lsn = k + 1 by omega, take_succ' hr, rowsOf_append]
            simp [rowsOf, rowOf]
        · simp only [upd, if_neg hg]
          exact ⟨m, h6, by rw [h7, hadv g hg], h8⟩
      · rw [take_succ' hr, hTd]; intro g hcg ho'; rw [hO, hD]
        have := h.shut g (by rw [hTd]; exact (hC g).mp hcg) ho'
        rw [hTd] at this
        by_cases hg : g = f
        · subst hg; dsimp only at ho'; rw [hof] at ho'; cases ho'
        · simp only [upd, if_neg hg]; exact this
  | assoc l =>
    refine ⟨x, ?_, hstill rfl fun _ => rfl⟩
    simp only [recover1]
    by_cases hk : k = ck
    · have hz := hck hk
      have hTn : T = [] := by rw [← hTd, hk, hz]; rfl
      have hl : l = [] := by
        rcases l with _ | ⟨⟨f, i, u⟩, l⟩
        · rfl
        · have := (hok.1 f i u List.mem_cons_self).2.1
          rw [hTn] at this; cases this
      subst hl; rfl
    · simp only [hk, decide_false]
      exact recAssoc_later (fun f i u hm => (hok.1 f i u hm).1) fun f o ho => (h.opn f o ho).2.1
  | commit t =>
    obtain ⟨y, h1, h2, h3⟩ := commitAll_spec t T x hT.apart (by
      intro f o hf ho
      obtain ⟨d, hd⟩ := isRem_iff.mp hf
      have := hF.remFresh hok hd
      rw [← hTd, ← (h.opn f o ho).2.2.2.1] at this; simpa using this)
    refine ⟨y, h1, ?_⟩
    obtain ⟨fs, opn⟩ := y
    dsimp only at h2 h3; subst h2
    have hO : ∀ f, openL (T ++ [Rec.commit t]) f = openL T f := fun f => by rw [openL_snoc]; rfl
    refine h.append hr opn (fun _ => rfl) (fun g => created_iff (by simp)) ?_ ?_
    · rw [hTd]; intro f o ho
      rw [h3 f] at ho
      rcases hof : x.opn f with _ | o'
      · rw [hof] at ho; cases ho
      · rw [hof] at ho; simp only [Option.map_some, Option.some.injEq] at ho
        obtain ⟨h4, h5, h6, h7, h8⟩ := h.opn f o' hof
        rw [hTd] at h6 h7
        rw [hO, doomed_commit hF hok]
        by_cases hrm : T.any (isRem t f) = true
        · rw [if_pos hrm] at ho; subst ho
          exact ⟨h4, h5, h6, by simp [hrm], h8⟩
        · rw [if_neg hrm] at ho; subst ho
          exact ⟨h4, h5, h6, by rw [h7]; simp [hrm], h8⟩
    · rw [hTd]; intro f hcf hof
      have hof' : x.opn f = none := by rw [h3 f] at hof; simpa using hof
      have := h.shut f (by rwa [hTd]) hof'
      rw [hTd] at this
      rw [hO, doomed_commit hF hok]
      refine ⟨this.1, ?_⟩
      rintro (hd | hd)
      · exact this.2 hd
      · obtain ⟨d, hd⟩ := isRem_iff.mp hd
        exact this.1 (hF.held t d f (Or.inr hd) hok)
  | abort t =>
    obtain ⟨y, h1, h2, h3⟩ := abortAll_spec t T x hT.apart hT.noFren (by
      intro f o hf ho
      obtain ⟨d, hd⟩ := isCre_iff.mp hf
      have := hF.creFresh hok hd
      rw [← hTd, ← (h.opn f o ho).2.2.2.1] at this; simpa using this)
    refine ⟨y, h1, ?_⟩
    obtain ⟨fs, opn⟩ := y
    dsimp only at h2 h3; subst h2
    have hO : ∀ f, openL (T ++ [Rec.abort t]) f = openL T f := fun f => by rw [openL_snoc]; rfl
    refine h.append hr opn (fun _ => rfl) (fun g => created_iff (by simp)) ?_ ?_
    · rw [hTd]; intro f o ho
      rw [h3 f] at ho
      rcases hof : x.opn f with _ | o'
      · rw [hof] at ho; cases ho
      · rw [hof] at ho; simp only [Option.map_some, Option.some.injEq] at ho
        obtain ⟨h4, h5, h6, h7, h8⟩ := h.opn f o' hof
        rw [hTd] at h6 h7
        rw [hO, doomed_abort hF hok]
        by_cases hrm : T.any (isCre t f) = true
        · rw [if_pos hrm] at ho; subst ho
          exact ⟨h4, h5, h6, by simp [hrm], h8⟩
        · rw [if_neg hrm] at ho; subst ho
          exact ⟨h4, h5, h6, by rw [h7]; simp [hrm], h8⟩
    · rw [hTd]; intro f hcf hof
      have hof' : x.opn f = none := by rw [h3 f] at hof; simpa using hof
      have := h.shut f (by rwa [hTd]) hof'
      rw [hTd] at this
      rw [hO, doomed_abort hF hok]
      refine ⟨this.1, ?_⟩
      rintro (hd | hd)
      · exact this.2 hd
      · obtain ⟨d, hd⟩ := isCre_iff.mp hd
        exact this.1 (hF.held t d f (Or.inl hd) hok)

theorem RInv.run {Q : List Rec} (hQ : Good Q) {ck} : ∀ (rs : List Rec) (k : Nat) (x : Disk), rs = Q.drop k → k ≤ Q.length →
    RInv Q k x → (k = ck → ck = 0) → ck ≤ k → ∃ y, replay ck (Q.take k) k rs x = some y ∧ RInv Q Q.length y := by
  intro rs
  induction rs with
  | nil =>
    intro k x hrs hk h _ _
    have : Q.length ≤ k := by
      rw [eq_comm, List.drop_eq_nil_iff] at hrs; exact hrs
    obtain rfl : k = Q.length := by omega
    exact ⟨x, rfl, h⟩
  | cons r rs ih =>
    intro k x hrs hk h hck hle
    have hr : Q[k]? = some r := by
      have := congrArg (·[0]?) hrs
      simpa using this.symm
    have hkl : k < Q.length := by
      rcases Nat.lt_or_ge k Q.length with h' | h'
      · exact h'
      · rw [List.getElem?_eq_none h'] at hr; cases hr
    obtain ⟨y, h1, h2⟩ := h.step hQ hr hck
    obtain ⟨z, h3, h4⟩ := ih (k + 1) y (by rw [← List.tail_drop, ← hrs]; rfl) hkl h2 (by omega) (by omega)
    refine ⟨z, ?_, h4⟩
    simp only [replay, h1, Option.bind_some]
    rw [← take_succ' hr]; exact h3

/-- The transactions still open can be aborted one after another. -/
theorem Good.abortLive {P : List Rec} (hP : Good P) : ∀ L, (∀ t, Rec.begin t ∈ L → Rec.begin t ∈ P) →
    L.Pairwise (fun a b => ∀ t, a = .begin t → b ≠ .begin t) → Good (P ++ liveList L P) := by
  suffices H : ∀ (l : List Tx) (P : List Rec), Good P → l.Nodup → (∀ t ∈ l, Live P t) → Good (P ++ l.map Rec.abort) by
    intro L hL hp
    have hl : liveList L P = (L.filterMap fun r => match r with
        | .begin t => if Live P t then some t else none
        | _ => none).map Rec.abort := by
      unfold liveList
      rw [List.map_filterMap]
      congr 1; funext r
      cases r <;> simp
    rw [hl]
    refine H _ P hP ?_ ?_
    · refine List.Pairwise.filterMap _ ?_ hp
      intro a b hab c hc d hd
      cases a <;> simp at hc
      cases b <;> simp at hd
      rename_i t u
      rintro rfl
      exact hab t rfl (by rw [hd.2, hc.2])
    · intro t ht
      rw [List.mem_filterMap] at ht
      obtain ⟨r, hr, h⟩ := ht
      cases r <;> simp at h
      rw [← h.2]; exact h.1
  intro l
  induction l with
  | nil => intro P hP _ _; simpa using hP
  | cons t l ih =>
    intro P hP hn hl
    rw [List.nodup_cons] at hn
    have := ih (P ++ [.abort t]) (Good.snoc _ (.abort t) hP (hl t List.mem_cons_self)) hn.2 (by
      intro u hu
      have hut : u ≠ t := by rintro rfl; exact hn.1 hu
      obtain ⟨h1, h2, h3⟩ := hl u (List.mem_cons_of_mem _ hu)
      exact ⟨by simp [h1], by simp [h2], by simp [h3, hut]⟩)
    simpa using this

theorem Good.beginOnce {L} (h : Good L) : L.Pairwise (fun a b => ∀ t, a = .begin t → b ≠ .begin t) := by
  induction h with
  | nil => exact .nil
  | snoc L r h ho ih =>
    rw [List.pairwise_append]
    refine ⟨ih, List.pairwise_singleton _ _, ?_⟩
    intro a ha b hb t hat hbt
    simp only [List.mem_singleton] at hb; subst hb; subst hat; subst hbt
    exact ho ha

theorem liveList_eq {L P r} (h : r ∈ liveList L P) : ∃ t, r = .abort t ∧ Live P t := by
  unfold liveList at h
  rw [List.mem_filterMap] at h
  obtain ⟨a, _, h⟩ := h
  cases a <;> simp at h
  exact ⟨_, h.2.symm, h.1⟩

/-- The first record of recovery is the checkpoint's. -/
theorem RInv.first {w : World} (h : WInv w) {n} (h1 : w.synced ≤ n) (_h2 : n ≤ w.log.length) {Q R} (hQ : Good Q)
    (hq : Q = w.log.take n ++ R) (hR : ∀ r ∈ R, ∃ t, r = Rec.abort t) (hck : w.ck < w.synced) (hs : Settled w.log w.ck w.disk.fs) :
    ∃ y, replay w.ck (Q.take w.ck) w.ck (Q.drop w.ck) ⟨w.disk.fs, fun _ => none⟩ = some y ∧ RInv Q Q.length y := by
  obtain ⟨l, hl, hset⟩ := hs
  have hlen := h.len
  have hQk : Q[w.ck]? = some (.assoc l) := by
    rw [hq, List.getElem?_append_left (by rw [List.length_take]; omega), List.getElem?_take_of_lt (by omega)]; exact hl
  have hQt : Q.take w.ck = w.log.take w.ck := by
    rw [hq, List.take_append_of_le_length (by rw [List.length_take]; omega), List.take_take, Nat.min_eq_left (by omega)]
  have hok := hQ.ok_at _ _ hQk
  have hkl : w.ck < Q.length := by
    rcases Nat.lt_or_ge w.ck Q.length with h' | h'
    · exact h'
    · rw [List.getElem?_eq_none h'] at hQk; cases hQk
  obtain ⟨y, hy1, hy2, hy3, hy4⟩ := recAssoc_first (x := ⟨w.disk.fs, fun _ => none⟩) hok.2 (fun f i u hm => (hok.1 f i u hm).1)
    fun _ _ => rfl
  have hF := (hQ.take w.ck).facts
  have hD : ∀ g, Doomed (Q.take w.ck ++ [.assoc l]) g ↔ Doomed (Q.take w.ck) g := fun g => doomed_keep hF hok trivial
  have hO : ∀ g, openL (Q.take w.ck ++ [.assoc l]) g = openL (Q.take w.ck) g := fun g => by rw [openL_snoc]; rfl
  have hC : ∀ g, Created (Q.take w.ck ++ [.assoc l]) g ↔ Created (Q.take w.ck) g := fun g => created_iff (by simp)
  obtain ⟨fs, opn⟩ := y
  dsimp only at hy2 hy3 hy4; subst hy2
  have hinv : RInv Q (w.ck + 1) ⟨w.disk.fs, opn⟩ := by
    refine ⟨?_, fun f m hm => (h.img f m hm).1, ?_, ?_⟩
    · rw [take_succ' hQk]; intro f o ho
      rw [hO, hD]
      by_cases hf : f ∈ l.map (·.1)
      · rw [List.mem_map] at hf
        obtain ⟨⟨f', i, u⟩, hm, rfl⟩ := hf
        dsimp only at ho ⊢
        rw [hy3 _ _ _ hm] at ho
        obtain ⟨h3, h4, h5⟩ := hok.1 _ _ _ hm
        by_cases hx : w.disk.fs f' = none
        · rw [if_pos hx] at ho; cases ho
        · rw [if_neg hx] at ho; injection ho with ho; subst ho
          exact ⟨rfl, rfl, h4, h5, hx⟩
      · dsimp only at ho; rw [hy4 f hf] at ho; cases ho
    · rw [take_succ' hQk]; intro f ha hc
      rw [hC, hQt] at hc
      rcases hm : w.disk.fs f with _ | m
      · exfalso
        obtain ⟨⟨c, d, h3, h4⟩, h5⟩ := ha
        have hsub : ∀ t, Rec.commit t ∈ Q → Rec.commit t ∈ w.log := by
          intro t ht; rw [hq] at ht
          rcases List.mem_append.mp ht with ht | ht
          · exact List.mem_of_mem_take ht
          · obtain ⟨t', h'⟩ := hR _ ht; cases h'
        have hsub' : ∀ t, Rec.create t d f ∈ Q → Rec.create t d f ∈ w.log := by
          intro t ht; rw [hq] at ht
          rcases List.mem_append.mp ht with ht | ht
          · exact List.mem_of_mem_take ht
          · obtain ⟨t', h'⟩ := hR _ ht; cases h'
        have hin : ∀ a, a ∈ w.log.take w.synced → a ∈ Q := by
          intro a ha; rw [hq]; exact List.mem_append_left _ ((List.take_prefix_take_left h1).subset ha)
        rcases h.gone f hc.of_take hm with ⟨c', d', h6, h7⟩ | ⟨t, d', h6, h7⟩
        · have := h.good.facts.dir.creator _ _ _ _ _ h6 (hsub' _ h3)
          subst this; exact h.good.facts.once _ (hsub _ h4) h7
        · exact h5 _ _ (hin _ h6) (hin _ h7)
      · obtain ⟨h3, h4, h5⟩ := h.img f m hm
        refine ⟨m, rfl, ?_, ?_⟩
        · rw [← rows_adv hQk rfl]
          rcases Nat.lt_or_ge w.ck m.lsn with hlt | hge
          · rw [show max w.ck m.lsn = m.lsn by omega, h5, hq, List.take_append_of_le_length (by rw [List.length_take]; omega),
              List.take_take, Nat.min_eq_left (by omega)]
          · rw [show max w.ck m.lsn = w.ck by omega, hQt, h.ckRows f m hm hge]
        · rw [hq, List.length_append, List.length_take]; omega
    · rw [take_succ' hQk]; intro f hc ho
      rw [hO, hD]; rw [hC] at hc
      by_cases hf : f ∈ l.map (·.1)
      · rw [List.mem_map] at hf
        obtain ⟨⟨f', i, u⟩, hm, rfl⟩ := hf
        dsimp only at ho ⊢
        rw [hy3 _ _ _ hm] at ho
        by_cases hx : w.disk.fs f' = none
        · exact ⟨fun _ => hx, fun _ => hx⟩
        · rw [if_neg hx] at ho; cases ho
      · rw [hQt] at hc ⊢
        exact ⟨fun h' => hset f hc hf (Or.inl h'), fun h' => hset f hc hf (Or.inr h')⟩
  obtain ⟨z, hz1, hz2⟩ := RInv.run hQ (ck := w.ck) (Q.drop (w.ck + 1)) (w.ck + 1) _ rfl hkl hinv (by omega) (by omega)
  refine ⟨z, ?_, hz2⟩
  have hdrop : Q.drop w.ck = .assoc l :: Q.drop (w.ck + 1) := by
    rw [List.drop_eq_getElem_cons hkl]
    congr 1
    rw [List.getElem?_eq_getElem hkl] at hQk; injection hQk
  rw [hdrop]
  simp only [replay, recover1, decide_true, hy1, Option.bind_some]
  rw [← take_succ' hQk]; exact hz1

/-- Recovery succeeds, and what it leaves. -/
theorem recover_spec {w : World} (h : WInv w) {n} (h1 : w.synced ≤ n) (h2 : n ≤ w.log.length) :
    ∃ fs, recover w.disk.fs (w.log.take n) w.ck = some fs ∧
      (∀ f, Alive (w.log.take n) f → fs f = some (rowsOf (w.log.take n) f)) ∧
      ∀ f, Created (w.log.take n) f → ¬ Alive (w.log.take n) f → fs f = none := by
  have hP := h.good.take n
  have hlen := h.len
  generalize hPd : w.log.take n = P at *
  have hQ : Good (P ++ liveList P P) := hP.abortLive P (fun _ h => h) hP.beginOnce
  generalize hQd : P ++ liveList P P = Q at *
  have hR : ∀ r ∈ liveList P P, ∃ t, r = Rec.abort t := fun r hr => (liveList_eq hr).imp fun t h => h.1
  have hPl : P.length = n := by rw [← hPd, List.length_take]; omega
  have hrun : ∃ y, replay w.ck (Q.take w.ck) w.ck (Q.drop w.ck) ⟨w.disk.fs, fun _ => none⟩ = some y ∧ RInv Q Q.length y := by
    rcases h.ckSet with h0 | ⟨h0, h0'⟩
    · refine RInv.run hQ (Q.drop w.ck) w.ck _ rfl (by omega) ?_ (fun _ => h0) (Nat.le_refl _)
      rw [h0]
      refine ⟨fun f o ho => (by cases ho), fun f m hm => (h.img f m hm).1, ?_, ?_⟩
      · rintro f _ ⟨t, d, h'⟩; simp at h'
      · rintro f ⟨t, d, h'⟩; simp at h'
    · exact RInv.first h h1 h2 hQ (hQd.symm.trans (by rw [hPd])) hR h0 h0'
  obtain ⟨y, hy1, hy⟩ := hrun
  have htk : Q.take w.ck = P.take w.ck := by rw [← hQd, List.take_append_of_le_length (by omega)]
  have hdr : Q.drop w.ck = P.drop w.ck ++ liveList P P := by rw [← hQd, List.drop_append_of_le_length (by omega)]
  refine ⟨y.closeAll, ?_, ?_⟩
  · unfold recover; rw [← htk, ← hdr, hy1]; rfl
  have hcr : ∀ t d f, Rec.create t d f ∈ Q ↔ Rec.create t d f ∈ P := by
    intro t d f; rw [← hQd, List.mem_append]
    exact ⟨fun h' => h'.elim _root_.id fun h' => (by obtain ⟨u, h'⟩ := hR _ h'; cases h'), Or.inl⟩
  have hrm : ∀ t d f, Rec.remove t d f ∈ Q ↔ Rec.remove t d f ∈ P := by
    intro t d f; rw [← hQd, List.mem_append]
    exact ⟨fun h' => h'.elim _root_.id fun h' => (by obtain ⟨u, h'⟩ := hR _ h'; cases h'), Or.inl⟩
  have hcm : ∀ t, Rec.commit t ∈ Q ↔ Rec.commit t ∈ P := by
    intro t; rw [← hQd, List.mem_append]
    exact ⟨fun h' => h'.elim _root_.id fun h' => (by obtain ⟨u, h'⟩ := hR _ h'; cases h'), Or.inl⟩
  have hAl : ∀ f, Alive Q f ↔ Alive P f := by
    intro f; unfold Alive; simp only [hcr, hrm, hcm]
  have hCr : ∀ f, Created P f → Created Q f := fun f ⟨t, d, h'⟩ => ⟨t, d, (hcr _ _ _).mpr h'⟩
  have hrows : ∀ f, rowsOf Q f = rowsOf P f := by
    intro f; rw [← hQd, rowsOf_append]
    have : rowsOf (liveList P P) f = [] := by
      unfold rowsOf; rw [List.filterMap_eq_nil_iff]
      intro r hr; obtain ⟨t, rfl⟩ := hR r hr; rfl
    rw [this, List.append_nil]
  have hopn := hy.opn
  have hshut := hy.shut
  have hrw := hy.rows
  rw [List.take_length] at hopn hshut hrw
  have hdoom : ∀ f, Created Q f → (¬ Alive Q f ↔ Doomed Q f) := by
    intro f ⟨c, d, hc⟩
    constructor
    · intro hna
      by_cases hcc : Rec.commit c ∈ Q
      · refine Or.inr ?_
        rcases Classical.em (∃ t d, Rec.remove t d f ∈ Q ∧ Rec.commit t ∈ Q) with h' | h'
        · exact h'
        · exact absurd ⟨⟨c, d, hc, hcc⟩, fun t d' h3 h4 => h' ⟨t, d', h3, h4⟩⟩ hna
      · refine Or.inl ⟨c, d, hc, ?_⟩
        have hb : Rec.begin c ∈ P := hP.facts.dir.begun c d _ ((hcr _ _ _).mp hc) (by simp [touches])
        by_cases ha : Rec.abort c ∈ P
        · rw [← hQd]; exact List.mem_append_left _ ha
        · have hl : Live P c := ⟨hb, fun h' => hcc ((hcm _).mpr h'), ha⟩
          rw [← hQd]; refine List.mem_append_right _ ?_
          unfold liveList; rw [List.mem_filterMap]
          exact ⟨_, hb, by simp [hl]⟩
    · rintro (⟨c', d', h3, h4⟩ | ⟨t, d', h3, h4⟩) ⟨⟨c2, d2, h5, h6⟩, h7⟩
      · have := hQ.facts.dir.creator _ _ _ _ _ h3 h5
        subst this; exact hQ.facts.once _ h6 h4
      · exact h7 _ _ h3 h4
  constructor
  · intro f hf
    have hf' := (hAl f).mpr hf
    have hc : Created Q f := by obtain ⟨⟨c, d, h3, _⟩, _⟩ := hf'; exact ⟨c, d, h3⟩
    obtain ⟨m, h3, h4, h5⟩ := hrw f hf' hc
    have hid := hy.id f m h3
    rw [show max Q.length m.lsn = Q.length by omega, List.take_length, hrows] at h4
    unfold Disk.closeAll
    rw [h3]; dsimp only
    rw [hid]
    rcases ho : y.opn f with _ | o
    · rw [← h4]
    · have hd : ¬ o.doom = true := by
        rw [(hopn f o ho).2.2.2.1, ← hdoom f hc]; exact fun h' => h' hf'
      dsimp only
      rw [if_neg fun h' => hd h'.1, ← h4]
  · intro f hc hna
    have hna' : Doomed Q f := (hdoom f (hCr f hc)).mp fun h' => hna ((hAl f).mp h')
    unfold Disk.closeAll
    rcases hm : y.fs f with _ | m
    · rfl
    · dsimp only
      rw [hy.id f m hm]
      rcases ho : y.opn f with _ | o
      · have := (hshut f (hCr f hc) ho).2 hna'
        rw [hm] at this; cases this
      · dsimp only
        obtain ⟨h3, _, _, h4, _⟩ := hopn f o ho
        rw [if_pos ⟨h4.mpr hna', h3⟩]

/-- In the directory, and under one name: the files that are alive. -/
theorem directory_iff {P : List Rec} (h : Good P) (f : File) : (∃ d, directory P d = some f) ↔ Alive P f := by
  have hF := h.facts
  have hs : Sees P (isCom P) :=
    ⟨fun u hu => by simp [isCom, hu], fun u hu => by simp [isCom]; exact fun hc => hF.once u hc hu⟩
  constructor
  · rintro ⟨d, hd⟩
    obtain ⟨⟨c, d0, h1, h2⟩, h3⟩ := hF.dir.dirA _ hs d f hd
    refine ⟨⟨c, d0, h1, by simpa [isCom] using h2⟩, fun t d' h4 h5 => ?_⟩
    have := h3 t d' h4
    simp [isCom, h5] at this
  · rintro ⟨⟨c, d0, h1, h2⟩, h3⟩
    exact hF.dir.dirB _ hs c d0 f h1 (by simp [isCom, h2]) fun t d' h4 => by simp [isCom]; exact h3 t d' h4

end Verif.Files
