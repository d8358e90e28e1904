import Verif.Desc.Hist

/-!
# Descriptor changes: invariants of runs
-/

namespace Verif.Desc

variable {D : Type}

/-! ## What an abort during recovery leaves alone -/

/-- The same committed descriptor and the same prepared transactions. -/
structure Same (S T : Spec D) : Prop where
  base : T.base = S.base
  prep : T.prep = S.prep
  pend : ∀ r, S.prep r = true → T.pend r = S.pend r

theorem Same.refl (S : Spec D) : Same S S := ⟨rfl, rfl, fun _ _ => rfl⟩

theorem Same.trans {S T U : Spec D} (a : Same S T) (b : Same T U) : Same S U :=
  ⟨b.base.trans a.base, b.prep.trans a.prep,
    fun r h => (b.pend r (by rw [a.prep]; exact h)).trans (a.pend r h)⟩

theorem Same.symm {S T : Spec D} (a : Same S T) : Same T S :=
  ⟨a.base.symm, a.prep.symm, fun r h => (a.pend r (by rw [← a.prep]; exact h)).symm⟩

theorem Same.survives {S T : Spec D} (a : Same S T) {d : D} (h : S.Survives d) : T.Survives d := by
  rcases h with ⟨r, h1, h2⟩ | ⟨h1, h2⟩
  · refine Or.inl ⟨r, by rw [a.prep]; exact h1, ?_⟩
    unfold Spec.cur at h2 ⊢
    rw [a.pend r h1]; exact h2
  · refine Or.inr ⟨fun r hr => ?_, by rw [a.base]; exact h2⟩
    rw [a.prep] at hr
    have := h1 r hr
    unfold Spec.cur at this ⊢
    rw [a.pend r hr]; exact this

theorem Same.abort (S : Spec D) {r : Nat} (h : S.prep r = false) : Same S (S.step (.abort r)) := by
  match hp : S.pend r with
  | [] =>
    have h1 : S.step (.abort r) = S := by simp only [Spec.step, hp]
    rw [h1]; exact Same.refl S
  | [_] =>
    simp only [Spec.step, hp]
    refine ⟨rfl, ?_, fun i hi => ?_⟩
    · funext i
      show put S.prep r false i = S.prep i
      by_cases hir : i = r
      · subst hir; rw [put_same]; exact h.symm
      · rw [put_other _ _ hir]
    · refine put_other _ _ (fun hir => ?_)
      subst hir; rw [h] at hi; cases hi
  | _ :: q :: ps =>
    simp only [Spec.step, hp]
    refine ⟨rfl, rfl, fun i hi => ?_⟩
    refine put_other _ _ (fun hir => ?_)
    subst hir; rw [h] at hi; cases hi

/-- When only prepared transactions are live, what must survive is what is shown. -/
theorem survives_iff {d0 : D} {l : List (Rec D)} (h : Legal d0 l)
    (hp : ∀ r, (hist d0 l).tx.undo r ≠ [] → (hist d0 l).tx.prep r = true) (d : D) :
    (Spec.run d0 (ops l)).Survives d ↔ d = (hist d0 l).v := by
  obtain ⟨r0, a⟩ := agrees h
  have hcur := a.lv.cur
  have hoth : ∀ i, i ≠ r0 → (Spec.run d0 (ops l)).cur i = none := fun i hi => by
    unfold Spec.cur; rw [a.triv i hi]; exact replicate_findSome _
  have hlive : ∀ x, (Spec.run d0 (ops l)).cur r0 = some x →
      (Spec.run d0 (ops l)).prep r0 = true := by
    intro x hx
    rw [a.prep]
    refine hp r0 (fun hu => ?_)
    have h1 := a.lv.triv (by rw [hu]; intro l hl; simp at hl)
    unfold Spec.cur at hx
    rw [h1.2, replicate_findSome] at hx
    cases hx
  constructor
  · rintro (⟨r, h1, h2⟩ | ⟨h1, h2⟩)
    · by_cases hr : r = r0
      · subst hr
        unfold Spec.cur at h2
        rw [h2] at hcur
        exact hcur
      · rw [hoth r hr] at h2; cases h2
    · have h3 : (Spec.run d0 (ops l)).cur r0 = none := by
        cases hc : (Spec.run d0 (ops l)).cur r0 with
        | none => rfl
        | some x => rw [h1 r0 (hlive x hc)] at hc; cases hc
      unfold Spec.cur at h3
      rw [h3] at hcur
      exact h2.trans hcur
  · rintro rfl
    cases hc : (Spec.run d0 (ops l)).cur r0 with
    | none =>
      refine Or.inr ⟨fun i _ => ?_, ?_⟩
      · by_cases hi : i = r0
        · subst hi; exact hc
        · exact hoth i hi
      · unfold Spec.cur at hc
        rw [hc] at hcur
        exact hcur.symm
    | some x =>
      refine Or.inl ⟨r0, hlive x hc, ?_⟩
      have hc' := hc
      unfold Spec.cur at hc'
      rw [hc'] at hcur
      rw [hc]
      exact congrArg some hcur

/-- What is shown, in the specification's terms. -/
theorem shows_iff {d0 : D} {l : List (Rec D)} (h : Legal d0 l) (d : D) :
    (Spec.run d0 (ops l)).Shows d ↔ d = (hist d0 l).v := by
  obtain ⟨r0, a⟩ := agrees h
  have hcur := a.lv.cur
  have hoth : ∀ i, i ≠ r0 → (Spec.run d0 (ops l)).cur i = none := fun i hi => by
    unfold Spec.cur; rw [a.triv i hi]; exact replicate_findSome _
  constructor
  · rintro (⟨r, h2⟩ | ⟨h1, h2⟩)
    · by_cases hr : r = r0
      · subst hr
        unfold Spec.cur at h2
        rw [h2] at hcur
        exact hcur
      · rw [hoth r hr] at h2; cases h2
    · have h3 := h1 r0
      unfold Spec.cur at h3
      rw [h3] at hcur
      exact h2.trans hcur
  · rintro rfl
    cases hc : (Spec.run d0 (ops l)).cur r0 with
    | none =>
      refine Or.inr ⟨fun i => ?_, ?_⟩
      · by_cases hi : i = r0
        · subst hi; exact hc
        · exact hoth i hi
      · unfold Spec.cur at hc
        rw [hc] at hcur
        exact hcur.symm
    | some x =>
      refine Or.inl ⟨r0, ?_⟩
      have hc' := hc
      unfold Spec.cur at hc'
      rw [hc'] at hcur
      rw [hc]
      exact congrArg some hcur

/-! ## Entries -/

/-- `r` has an entry. -/
def Tx.Non (t : Tx D) (r : Nat) : Prop := ∃ l ∈ t.undo r, l ≠ []

theorem clean_iff (t : Tx D) : t.Clean ↔ ∀ r, ¬ t.Non r := by
  constructor
  · rintro h r ⟨l, h1, h2⟩; exact h2 (h r l h1)
  · intro h r l hl
    cases l with
    | nil => rfl
    | cons a l => exact absurd ⟨a :: l, hl, by simp⟩ (h r)

theorem only_iff (t : Tx D) (r : Nat) : t.Only r ↔ ∀ i, t.Non i → i = r := by
  constructor
  · rintro h i ⟨l, h1, h2⟩
    by_cases hi : i = r
    · exact hi
    · exact absurd (h i hi l h1) h2
  · intro h i hi l hl
    cases l with
    | nil => rfl
    | cons a l => exact absurd (h i ⟨a :: l, hl, by simp⟩) hi

theorem Tx.Non.ne {t : Tx D} {r : Nat} (h : t.Non r) : t.undo r ≠ [] := by
  obtain ⟨l, h1, _⟩ := h
  intro hu; rw [hu] at h1; simp at h1

theorem begin_non {t : Tx D} {i r : Nat} (h : (t.begin i).Non r) : t.Non r := by
  obtain ⟨l, h1, h2⟩ := h
  change l ∈ put t.undo i ([] :: t.undo i) r at h1
  by_cases hr : r = i
  · subst hr
    rw [put_same] at h1
    rcases List.mem_cons.1 h1 with h1 | h1
    · exact absurd h1 h2
    · exact ⟨l, h1, h2⟩
  · rw [put_other _ _ hr] at h1; exact ⟨l, h1, h2⟩

theorem commit_other (t : Tx D) {i r : Nat} (h : r ≠ i) : (t.commit i).undo r = t.undo r := by
  unfold Tx.commit
  split
  · rfl
  · exact put_other _ _ h
  · exact put_other _ _ h

theorem abort_other (t : Tx D) {i r : Nat} (h : r ≠ i) : (t.abort i).undo r = t.undo r := by
  unfold Tx.abort
  split
  · rfl
  · exact put_other _ _ h
  · exact put_other _ _ h

theorem commit_non {t : Tx D} {i r : Nat} (h : (t.commit i).Non r) : t.Non r := by
  obtain ⟨l, h1, h2⟩ := h
  by_cases hr : r = i
  · subst hr
    match hu : t.undo r with
    | [] =>
      have h3 : t.commit r = t := by unfold Tx.commit; rw [hu]
      rw [h3] at h1; exact ⟨l, h1, h2⟩
    | [m] =>
      have h3 : (t.commit r).undo r = [] := by
        unfold Tx.commit; rw [hu]; exact put_same _ _ _
      rw [h3] at h1; simp at h1
    | a :: m :: ls =>
      have h3 : (t.commit r).undo r = (a ++ m) :: ls := by
        unfold Tx.commit; rw [hu]; exact put_same _ _ _
      rw [h3] at h1
      rcases List.mem_cons.1 h1 with h1 | h1
      · subst h1
        cases a with
        | nil => exact ⟨m, by rw [hu]; simp, by simpa using h2⟩
        | cons b a => exact ⟨b :: a, by rw [hu]; simp, by simp⟩
      · exact ⟨l, by rw [hu]; simp [h1], h2⟩
  · rw [commit_other _ hr] at h1; exact ⟨l, h1, h2⟩

theorem abort_non {t : Tx D} {i r : Nat} (h : (t.abort i).Non r) : t.Non r := by
  obtain ⟨l, h1, h2⟩ := h
  by_cases hr : r = i
  · subst hr
    match hu : t.undo r with
    | [] =>
      have h3 : t.abort r = t := by unfold Tx.abort; rw [hu]
      rw [h3] at h1; exact ⟨l, h1, h2⟩
    | [m] =>
      have h3 : (t.abort r).undo r = [] := by
        unfold Tx.abort; rw [hu]; exact put_same _ _ _
      rw [h3] at h1; simp at h1
    | a :: m :: ls =>
      have h3 : (t.abort r).undo r = m :: ls := by
        unfold Tx.abort; rw [hu]; exact put_same _ _ _
      rw [h3] at h1
      exact ⟨l, by rw [hu]; exact List.mem_cons_of_mem _ h1, h2⟩
  · rw [abort_other _ hr] at h1; exact ⟨l, h1, h2⟩

theorem save_other (t : Tx D) {i r : Nat} (d : D) (h : r ≠ i) :
    (t.save i d).undo r = t.undo r := by
  unfold Tx.save
  split
  · rfl
  · exact put_other _ _ h

theorem top_non {t : Tx D} {r : Nat} (h : t.top r ≠ []) : t.Non r := by
  unfold Tx.top at h
  match hu : t.undo r with
  | [] => rw [hu] at h; simp at h
  | l :: ls => exact ⟨l, by rw [hu]; simp, by rw [hu] at h; simpa using h⟩

/-- While a transaction has an entry, the file is open. -/
theorem open_of_non {d0 : D} {l : List (Rec D)} (h : Legal d0 l) (r : Nat)
    (hn : (hist d0 l).tx.Non r) : (hist d0 l).isOpen = true := by
  induction h with
  | nil => obtain ⟨x, h1, _⟩ := hn; simp [hist, Tx.none] at h1
  | @snoc l e h1 h2 ih =>
    rw [hist_snoc] at hn ⊢
    cases e with
    | begin i => exact ih (begin_non hn)
    | change i old new c => exact h2.1
    | prepare i => exact ih hn
    | commit i => exact ih (commit_non hn)
    | abort i => exact ih (abort_non hn)
    | fopen => rfl
    | fclose => exact absurd hn ((clean_iff _).1 h2.2 r)
    | settled o =>
      cases o with
      | true => rfl
      | false => exact absurd hn ((clean_iff _).1 (h2.2 rfl) r)

/-! ## Files -/

theorem rollbackFt_desc (f : Ft D) (l : List D) : (rollbackFt f l).desc = restore f.desc l := by
  unfold rollbackFt restore
  induction l generalizing f with
  | nil => rfl
  | cons a l ih => exact ih (updateDesc f a)

theorem rollbackFt_dirty (f : Ft D) (l : List D) (hl : l ≠ []) : (rollbackFt f l).dirty = true := by
  have h1 : ∀ (l : List D) (f : Ft D), f.dirty = true → (rollbackFt f l).dirty = true := by
    intro l
    induction l with
    | nil => intro f hf; exact hf
    | cons a l ih => intro f _; exact ih (updateDesc f a) rfl
  cases l with
  | nil => exact absurd rfl hl
  | cons a l => exact h1 l (updateDesc f a) rfl

theorem changeFt_desc (f : Ft D) (d : D) (c : Bool) : (changeFt f d c).desc = d := by
  cases c <;> rfl

theorem changeFt_dirty (f : Ft D) (d : D) (c : Bool) : (changeFt f d c).dirty = true := by
  cases c <;> rfl

theorem restore_ne (v w : D) (l : List D) (hl : l ≠ []) : restore v l = restore w l := by
  cases l with
  | nil => exact absurd rfl hl
  | cons a l => rfl

/-- What a file shows: from memory if it is open, else from its header. -/
def showing (ft : Option (Ft D)) (hdr : D) : D :=
  match ft with
  | some f => f.desc
  | none => hdr

/-! ## Replaying -/

/-- `d` is what the log stood for at `q` or later, or what has to survive. -/
def OkAt (d0 : D) (log : List (Rec D)) (d : D) (q : Nat) : Prop :=
  (∃ p, q ≤ p ∧ p ≤ log.length ∧ d = (hist d0 (log.take p)).v) ∨
    (Spec.run d0 (ops log)).Survives d

theorem OkAt.mono {d0 : D} {log : List (Rec D)} {d : D} {q s : Nat} (h : OkAt d0 log d q)
    (hs : s ≤ q) : OkAt d0 log d s := by
  rcases h with ⟨p, h1, h2, h3⟩ | h
  · exact Or.inl ⟨p, by omega, h2, h3⟩
  · exact Or.inr h

theorem take_hist {d0 : D} {log : List (Rec D)} {q : Nat} (hq : q < log.length) :
    hist d0 (log.take (q + 1)) = (hist d0 (log.take q)).step log[q] := by
  rw [List.take_succ_eq_append_getElem hq, hist_snoc]

theorem OkAt.next {d0 : D} {log : List (Rec D)} {d : D} {q : Nat} (h : OkAt d0 log d q)
    (hq : q < log.length)
    (hv : (hist d0 (log.take (q + 1))).v = (hist d0 (log.take q)).v) : OkAt d0 log d (q + 1) := by
  rcases h with ⟨p, h1, h2, h3⟩ | h
  · by_cases hp : p = q
    · subst hp; exact Or.inl ⟨p + 1, Nat.le_refl _, by omega, by rw [hv]; exact h3⟩
    · exact Or.inl ⟨p, by omega, h2, h3⟩
  · exact Or.inr h

theorem OkAt.here {d0 : D} {log : List (Rec D)} {d : D} {q : Nat} (hq : q ≤ log.length)
    (h : d = (hist d0 (log.take q)).v) : OkAt d0 log d q :=
  Or.inl ⟨q, Nat.le_refl _, hq, h⟩

/-- The state of a replay that has reached `q`, having started at `s`. -/
structure RInv (d0 : D) (log : List (Rec D)) (s q : Nat) (st : RSt D) : Prop where
  tx : st.tx = (hist d0 (log.take q)).tx
  isOpen : st.ft.isSome = (hist d0 (log.take q)).isOpen
  val : OkAt d0 log (showing st.ft st.hdr) q
  clean : ∀ f, st.ft = some f → f.dirty = false → st.hdr = f.desc
  hdr : OkAt d0 log st.hdr s

theorem RInv.next {d0 : D} {log : List (Rec D)} {s q : Nat} {st : RSt D}
    (hl : Legal d0 log) (i : RInv d0 log s q st) (hs : s ≤ q) (hq : q < log.length)
    (hns : ∀ o, log[q] ≠ .settled o) : RInv d0 log s (q + 1) (replay1 st log[q]) := by
  have hok := hl.at hq
  have hth := take_hist (d0 := d0) hq
  have htx := i.tx
  obtain ⟨ft, hdr, tx⟩ := st
  change tx = _ at htx
  generalize log[q] = e at hok hth hns
  cases e with
  | settled o => exact absurd rfl (hns o)
  | begin r =>
    refine ⟨?_, ?_, ?_, i.clean, i.hdr⟩
    · rw [hth]; show tx.begin r = _; rw [htx]; rfl
    · rw [hth]; exact i.isOpen
    · exact i.val.next hq (by rw [hth]; rfl)
  | prepare r =>
    refine ⟨?_, ?_, ?_, i.clean, i.hdr⟩
    · rw [hth]; show tx.prepare r = _; rw [htx]; rfl
    · rw [hth]; exact i.isOpen
    · exact i.val.next hq (by rw [hth]; rfl)
  | commit r =>
    refine ⟨?_, ?_, ?_, i.clean, i.hdr⟩
    · rw [hth]; show tx.commit r = _; rw [htx]; rfl
    · rw [hth]; exact i.isOpen
    · exact i.val.next hq (by rw [hth]; rfl)
  | fopen =>
    have hno : ft.isSome = false := i.isOpen.trans hok
    cases ft with
    | some f => cases hno
    | none =>
      refine ⟨?_, ?_, ?_, ?_, i.hdr⟩
      · rw [hth]; exact i.tx
      · rw [hth]; rfl
      · exact i.val.next hq (by rw [hth]; rfl)
      · intro f hf _
        cases hf; rfl
  | fclose =>
    have hyes : ft.isSome = true := i.isOpen.trans hok.1
    cases ft with
    | none => cases hyes
    | some f =>
      have hx : closedHdr hdr f = f.desc := by
        unfold closedHdr
        split
        · rfl
        · rename_i hd; exact i.clean f rfl (by simpa using hd)
      refine ⟨?_, ?_, ?_, ?_, ?_⟩
      · rw [hth]; exact i.tx
      · rw [hth]; rfl
      · show OkAt d0 log (closedHdr hdr f) (q + 1)
        rw [hx]
        exact OkAt.next i.val hq (by rw [hth]; rfl)
      · intro f hf; cases hf
      · show OkAt d0 log (closedHdr hdr f) s
        rw [hx]
        exact OkAt.mono i.val hs
  | change r old new c =>
    have hyes : ft.isSome = true := i.isOpen.trans hok.1
    cases ft with
    | none => cases hyes
    | some f =>
      refine ⟨?_, ?_, ?_, ?_, i.hdr⟩
      · rw [hth]; show tx.save r old = _; rw [htx]; rfl
      · rw [hth]; exact i.isOpen
      · refine OkAt.here (by omega) ?_
        rw [hth]; exact changeFt_desc f new c
      · intro f' hf' hd
        have hf' : some (changeFt f new c) = some f' := hf'
        injection hf' with hf'
        subst hf'
        rw [changeFt_dirty] at hd; cases hd
  | abort r =>
    have htop : tx.top r = (hist d0 (log.take q)).tx.top r := by rw [htx]
    refine ⟨?_, ?_, ?_, ?_, i.hdr⟩
    · rw [hth]; show tx.abort r = _; rw [htx]; rfl
    · rw [hth]
      show (ft.map _).isSome = _
      rw [Option.isSome_map]; exact i.isOpen
    · by_cases ht : tx.top r = []
      · have hsame : showing (ft.map (rollbackFt · (tx.top r))) hdr = showing ft hdr := by
          rw [ht]; cases ft <;> rfl
        show OkAt d0 log (showing (ft.map (rollbackFt · (tx.top r))) hdr) (q + 1)
        rw [hsame]
        refine OkAt.next i.val hq ?_
        rw [hth]
        show restore _ ((hist d0 (log.take q)).tx.top r) = _
        rw [← htop, ht]; rfl
      · have hop := open_of_non (hl.take q) r (top_non (by rw [← htop]; exact ht))
        have hyes : ft.isSome = true := i.isOpen.trans hop
        cases ft with
        | none => cases hyes
        | some f =>
          refine OkAt.here (by omega) ?_
          rw [hth]
          show (rollbackFt f (tx.top r)).desc = restore _ ((hist d0 (log.take q)).tx.top r)
          rw [rollbackFt_desc, ← htop]
          exact restore_ne _ _ _ ht
    · intro f' hf' hd
      have hf' : ft.map (rollbackFt · (tx.top r)) = some f' := hf'
      cases ft with
      | none => cases hf'
      | some f =>
        injection hf' with hf'
        subst hf'
        by_cases ht : tx.top r = []
        · rw [ht] at hd ⊢; exact i.clean f rfl hd
        · rw [rollbackFt_dirty _ _ ht] at hd; cases hd

theorem RInv.run {d0 : D} {log : List (Rec D)} {s : Nat} {st : RSt D}
    (hl : Legal d0 log) (i : RInv d0 log s s st) (hns : ∀ e ∈ log.drop s, ∀ o, e ≠ .settled o) :
    ∀ k, s + k ≤ log.length → RInv d0 log s (s + k) (replay st ((log.drop s).take k))
  | 0, _ => by simpa [replay] using i
  | k + 1, hk => by
    have ih := RInv.run hl i hns k (by omega)
    have hlt : k < (log.drop s).length := by rw [List.length_drop]; omega
    have hget : (log.drop s)[k] = log[s + k] := by simp
    rw [List.take_succ_eq_append_getElem hlt]
    have hrep : replay st ((log.drop s).take k ++ [(log.drop s)[k]])
        = replay1 (replay st ((log.drop s).take k)) log[s + k] := by
      unfold replay; rw [List.foldl_append, hget]; rfl
    rw [hrep]
    refine RInv.next hl ih (by omega) (by omega) ?_
    rw [← hget]
    exact hns _ (List.getElem_mem hlt)

/-! ## Whole runs -/

/-- What holds in every mode. -/
structure Inv (d0 : D) (w : World D) : Prop where
  leg : Legal d0 w.log
  len : w.synced ≤ w.log.length
  pos : w.last.pos ≤ w.synced
  ltx : w.last.tx = (hist d0 (w.log.take w.last.pos)).tx
  lop : w.last.isOpen = (hist d0 (w.log.take w.last.pos)).isOpen
  nos : ∀ e ∈ w.log.drop w.last.pos, ∀ o, e ≠ .settled o
  hdr : (∃ p, w.last.pos ≤ p ∧ p ≤ w.synced ∧ w.hdr = (hist d0 (w.log.take p)).v) ∨
    w.mode ≠ .up ∧ (Spec.run d0 (ops w.log)).Survives w.hdr

/-- In normal use and in the later part of recovery, memory agrees with the log. -/
structure Mem (d0 : D) (w : World D) : Prop where
  tx : w.tx = (hist d0 w.log).tx
  isOpen : w.ft.isSome = (hist d0 w.log).isOpen

/-- A checkpoint in progress. -/
structure CkInv (d0 : D) (w : World D) (c : CkRun D) : Prop where
  lo : w.last.pos ≤ c.ck.pos
  hi : c.ck.pos ≤ w.log.length
  tx : c.ck.tx = (hist d0 (w.log.take c.ck.pos)).tx
  isOpen : c.ck.isOpen = (hist d0 (w.log.take c.ck.pos)).isOpen
  some : ∀ d, c.todo = some d → d = (hist d0 (w.log.take c.ck.pos)).v ∧ c.ck.isOpen = true ∧
    w.ft.isSome = true
  none : c.todo = none →
    ∃ p, c.ck.pos ≤ p ∧ p ≤ w.log.length ∧ w.hdr = (hist d0 (w.log.take p)).v

/-- What a clean header in memory means. -/
def CleanOk (w : World D) (f : Ft D) : Prop :=
  match w.ck with
  | none => w.hdr = f.desc
  | some c => match c.todo with
    | none => w.hdr = f.desc
    | some d => f.desc = d

structure UpInv (d0 : D) (w : World D) : Prop where
  mem : Mem d0 w
  val : showing w.ft w.hdr = (hist d0 w.log).v
  clean : ∀ f, w.ft = some f → f.dirty = false → CleanOk w f
  ck : ∀ c, w.ck = some c → CkInv d0 w c
  lock : ∀ r, w.tx.Non r → w.lock = some r ∨ w.old r = true

/-- What recovery appends changes nothing that has to survive. -/
structure TailInv (d0 : D) (w : World D) : Prop where
  ck : w.ck = none
  tail : ∀ n, w.synced ≤ n → Same (Spec.run d0 (ops (w.log.take n))) (Spec.run d0 (ops w.log))

structure AbInv (d0 : D) (w : World D) : Prop where
  mem : Mem d0 w
  tail : TailInv d0 w
  val : showing w.ft w.hdr = (hist d0 w.log).v ∨
    (Spec.run d0 (ops w.log)).Survives (showing w.ft w.hdr)
  clean : ∀ f, w.ft = some f → f.dirty = false → w.hdr = f.desc

structure ClInv (d0 : D) (w : World D) : Prop where
  tx : w.tx = (hist d0 w.log).tx
  tail : TailInv d0 w
  live : ∀ r, w.tx.undo r ≠ [] → w.tx.prep r = true
  val : showing w.ft w.hdr = (hist d0 w.log).v
  clean : ∀ f, w.ft = some f → f.dirty = false → w.hdr = f.desc
  yes : w.ft.isSome = true → (hist d0 w.log).isOpen = true
  no : w.ft = none → w.tx.Clean

def ModeInv (d0 : D) (w : World D) : Prop :=
  match w.mode with
  | .up => UpInv d0 w
  | .down => TailInv d0 w ∧ w.synced = w.log.length
  | .aborting => AbInv d0 w
  | .closed => ClInv d0 w

theorem take_snoc {α : Type} (l : List α) (e : α) {p : Nat} (h : p ≤ l.length) :
    (l ++ [e]).take p = l.take p := List.take_append_of_le_length h

theorem take_all {α : Type} (l : List α) : l.take l.length = l := List.take_length

/-- Appending a record keeps what concerns the disk. -/
theorem Inv.snoc {d0 : D} {w w' : World D} (i : Inv d0 w) {e : Rec D} (hlog : w'.log = w.log ++ [e])
    (hsy : w'.synced = w.synced) (hla : w'.last = w.last) (hh : w'.hdr = w.hdr)
    (hns : ∀ o, e ≠ .settled o) (hok : (hist d0 w.log).Ok e)
    (hm : w'.mode = w.mode)
    (hs : (Spec.run d0 (ops w.log)).Survives w.hdr → w.mode ≠ .up →
      (Spec.run d0 (ops w'.log)).Survives w.hdr) : Inv d0 w' := by
  have h1 := i.len
  have h2 := i.pos
  refine ⟨?_, ?_, ?_, ?_, ?_, ?_, ?_⟩
  · rw [hlog]; exact Legal.snoc i.leg hok
  · rw [hlog, hsy, List.length_append]; omega
  · rw [hsy, hla]; exact h2
  · rw [hla, hlog, take_snoc _ _ (by omega)]; exact i.ltx
  · rw [hla, hlog, take_snoc _ _ (by omega)]; exact i.lop
  · rw [hla, hlog, List.drop_append_of_le_length (by omega)]
    intro x hx
    rcases List.mem_append.1 hx with hx | hx
    · exact i.nos x hx
    · simp only [List.mem_singleton] at hx
      subst hx; exact hns
  · rw [hsy, hla, hh]
    rcases i.hdr with ⟨p, h3, h4, h5⟩ | ⟨h3, h4⟩
    · refine Or.inl ⟨p, h3, h4, ?_⟩
      rw [hlog, take_snoc _ _ (by omega)]; exact h5
    · exact Or.inr ⟨by rw [hm]; exact h3, hs h4 h3⟩

theorem CkInv.snoc {d0 : D} {w w' : World D} {c : CkRun D} (i : CkInv d0 w c) {e : Rec D}
    (hlog : w'.log = w.log ++ [e]) (hla : w'.last = w.last) (hh : w'.hdr = w.hdr)
    (hf : w.ft.isSome = true → w'.ft.isSome = true) : CkInv d0 w' c := by
  have h1 := i.hi
  refine ⟨?_, ?_, ?_, ?_, ?_, ?_⟩
  · rw [hla]; exact i.lo
  · rw [hlog, List.length_append]; omega
  · rw [hlog, take_snoc _ _ h1]; exact i.tx
  · rw [hlog, take_snoc _ _ h1]; exact i.isOpen
  · intro d hd
    have := i.some d hd
    rw [hlog, take_snoc _ _ h1]
    exact ⟨this.1, this.2.1, hf this.2.2⟩
  · intro hd
    obtain ⟨p, h2, h3, h4⟩ := i.none hd
    refine ⟨p, h2, ?_, ?_⟩
    · rw [hlog, List.length_append]; omega
    · rw [hh, hlog, take_snoc _ _ h3]; exact h4

theorem unlock_ne {w : World D} {t : Tx D} {r i : Nat} (h : w.lock = some i) (hi : i ≠ r) :
    unlock w t r = some i := by
  unfold unlock
  rw [if_neg (fun hc => hi (Option.some.inj (h.symm.trans hc.2)))]
  exact h

theorem ended_lock {w : World D} {t : Tx D} {r i : Nat} (hn : t.Non i)
    (h : w.lock = some i ∨ w.old i = true) :
    unlock w t r = some i ∨ resolve w t r i = true := by
  by_cases hi : i = r
  · subst hi
    have hu : unlock w t i = w.lock := if_neg fun hc => hn.ne hc.1
    have ho : resolve w t i = w.old := if_neg hn.ne
    rw [hu, ho]; exact h
  · rcases h with h | h
    · exact Or.inl (unlock_ne h hi)
    · right
      unfold resolve
      split
      · rw [put_other _ _ hi]; exact h
      · exact h

theorem cleanOk_same {w w' : World D} {f : Ft D} (h : CleanOk w f) (hc : w'.ck = w.ck)
    (hh : w'.hdr = w.hdr) : CleanOk w' f := by
  unfold CleanOk at h ⊢
  rw [hc, hh]; exact h

theorem OkAt.last {d0 : D} {log : List (Rec D)} {d : D} (h : OkAt d0 log d log.length) :
    d = (hist d0 log).v ∨ (Spec.run d0 (ops log)).Survives d := by
  rcases h with ⟨p, h1, h2, h3⟩ | h
  · have : p = log.length := by omega
    subst this
    rw [take_all] at h3
    exact Or.inl h3
  · exact Or.inr h

/-- What recovery starts with. -/
theorem start_inv {d0 : D} {w : World D} (i : Inv d0 w) :
    RInv d0 w.log w.last.pos w.last.pos w.start := by
  have hl := i.len
  have hok : OkAt d0 w.log w.hdr w.last.pos := by
    rcases i.hdr with ⟨p, h1, h2, h3⟩ | ⟨_, h⟩
    · exact Or.inl ⟨p, h1, by omega, h3⟩
    · exact Or.inr h
  refine ⟨i.ltx, ?_, ?_, ?_, hok⟩
  · rw [← i.lop]; unfold World.start; cases w.last.isOpen <;> rfl
  · have : showing w.start.ft w.start.hdr = w.hdr := by
      unfold World.start; cases w.last.isOpen <;> rfl
    rw [this]; exact hok
  · intro f hf _
    unfold World.start at hf ⊢
    cases h : w.last.isOpen with
    | true => rw [h] at hf; cases hf; rfl
    | false => rw [h] at hf; cases hf

/-- Every step of an application that keeps to the rule preserves the invariants. -/
theorem step_inv {good : D → Prop} {d0 : D} {w w' : World D} (st : Step true good w w')
    (i : Inv d0 w) (m : ModeInv d0 w) : Inv d0 w' ∧ ModeInv d0 w' := by
  have hlen := i.len
  have hpos := i.pos
  cases st with
  | begin r hm hp =>
    unfold ModeInv at m ⊢
    simp only [hm] at m ⊢
    have hok : (hist d0 w.log).Ok (.begin r) := by
      show (hist d0 w.log).tx.prep r = false
      rw [← m.mem.tx]; exact hp
    refine ⟨i.snoc rfl rfl rfl rfl (fun o h => by cases h) hok hm.symm (fun _ h => absurd hm h), ?_⟩
    refine ⟨⟨?_, ?_⟩, ?_, ?_, ?_, ?_⟩
    · show w.tx.begin r = _; rw [hist_snoc, m.mem.tx]; rfl
    · show w.ft.isSome = _; rw [hist_snoc]; exact m.mem.isOpen
    · show showing w.ft w.hdr = _; rw [hist_snoc]; exact m.val
    · intro f hf hd; exact cleanOk_same (m.clean f hf hd) rfl rfl
    · intro c hc; exact (m.ck c hc).snoc rfl rfl rfl id
    · intro i hi; exact m.lock i (begin_non hi)
  | prepare r l hm hu =>
    unfold ModeInv at m ⊢
    simp only [hm] at m ⊢
    have hok : (hist d0 w.log).Ok (.prepare r) := by
      show ∃ l, (hist d0 w.log).tx.undo r = [l]
      rw [← m.mem.tx]; exact ⟨l, hu⟩
    refine ⟨i.snoc rfl rfl rfl rfl (fun o h => by cases h) hok hm.symm (fun _ h => absurd hm h), ?_⟩
    refine ⟨⟨?_, ?_⟩, ?_, ?_, ?_, ?_⟩
    · show w.tx.prepare r = _; rw [hist_snoc, m.mem.tx]; rfl
    · show w.ft.isSome = _; rw [hist_snoc]; exact m.mem.isOpen
    · show showing w.ft w.hdr = _; rw [hist_snoc]; exact m.val
    · intro f hf hd; exact cleanOk_same (m.clean f hf hd) rfl rfl
    · intro c hc; exact (m.ck c hc).snoc rfl rfl rfl id
    · intro i hi; exact m.lock i hi
  | commit r hm hu =>
    unfold ModeInv at m ⊢
    simp only [hm] at m ⊢
    have hok : (hist d0 w.log).Ok (.commit r) := by
      show (hist d0 w.log).tx.undo r ≠ []
      rw [← m.mem.tx]; exact hu
    refine ⟨i.snoc rfl rfl rfl rfl (fun o h => by cases h) hok hm.symm (fun _ h => absurd hm h), ?_⟩
    refine ⟨⟨?_, ?_⟩, ?_, ?_, ?_, ?_⟩
    · show w.tx.commit r = _; rw [hist_snoc, m.mem.tx]; rfl
    · show w.ft.isSome = _; rw [hist_snoc]; exact m.mem.isOpen
    · show showing w.ft w.hdr = _; rw [hist_snoc]; exact m.val
    · intro f hf hd; exact cleanOk_same (m.clean f hf hd) rfl rfl
    · intro c hc; exact (m.ck c hc).snoc rfl rfl rfl id
    · intro i hi; exact ended_lock hi (m.lock i (commit_non hi))
  | change r f new c hm hf hl hu hp ho hg =>
    unfold ModeInv at m ⊢
    simp only [hm] at m ⊢
    have hv : f.desc = (hist d0 w.log).v := by have := m.val; rw [hf] at this; exact this
    have honly : w.tx.Only r := by
      rw [only_iff]
      intro j hj
      rcases m.lock j hj with h | h
      · rcases hl with hl | hl
        · rw [hl] at h; cases h
        · rw [hl] at h; injection h with h; exact h.symm
      · rw [ho rfl j] at h; cases h
    have hok : (hist d0 w.log).Ok (.change r f.desc new c) := by
      refine ⟨?_, hv, ?_, ?_, ?_⟩
      · rw [← m.mem.isOpen, hf]; rfl
      · rw [← m.mem.tx]; exact hu
      · rw [← m.mem.tx]; exact hp
      · rw [← m.mem.tx]; exact honly
    refine ⟨i.snoc rfl rfl rfl rfl (fun o h => by cases h) hok hm.symm (fun _ h => absurd hm h), ?_⟩
    refine ⟨⟨?_, ?_⟩, ?_, ?_, ?_, ?_⟩
    · show w.tx.save r f.desc = _; rw [hist_snoc, m.mem.tx]; rfl
    · rw [hist_snoc]
      show true = (hist d0 w.log).isOpen
      rw [← m.mem.isOpen, hf]; rfl
    · rw [hist_snoc]; exact changeFt_desc f new c
    · intro f' hf' hd
      have hf' : some (changeFt f new c) = some f' := hf'
      injection hf' with hf'
      subst hf'
      rw [changeFt_dirty] at hd; cases hd
    · intro k hk
      exact (m.ck k hk).snoc rfl rfl rfl (fun _ => rfl)
    · intro j hj
      left
      show some r = some j
      by_cases hjr : j = r
      · rw [hjr]
      · obtain ⟨l, h1, h2⟩ := hj
        have h1 : l ∈ (w.tx.save r f.desc).undo j := h1
        rw [save_other _ _ hjr] at h1
        exact absurd (honly j hjr l h1) h2
  | abort r hm hu =>
    have hend : ∀ (mem : Mem d0 w), (hist d0 w.log).Ok (.abort r) := fun mem => by
      show (hist d0 w.log).tx.undo r ≠ []
      rw [← mem.tx]; exact hu
    have hsome : (w.ft.map (rollbackFt · (w.tx.top r))).isSome = w.ft.isSome := Option.isSome_map
    have hval : ∀ (mem : Mem d0 w), w.tx.top r ≠ [] →
        showing (w.ft.map (rollbackFt · (w.tx.top r))) w.hdr
          = (hist d0 (w.log ++ [.abort r])).v := fun mem ht => by
      have hop := open_of_non i.leg r (top_non (by rw [← mem.tx]; exact ht))
      rw [← mem.isOpen] at hop
      rw [hist_snoc]
      cases hft : w.ft with
      | none => rw [hft] at hop; cases hop
      | some f =>
        show (rollbackFt f (w.tx.top r)).desc = restore _ ((hist d0 w.log).tx.top r)
        rw [rollbackFt_desc, ← mem.tx]
        exact restore_ne _ _ _ ht
    have hsame : w.tx.top r = [] →
        (w.ft.map (rollbackFt · (w.tx.top r))) = w.ft := fun ht => by
      rw [ht]; cases w.ft <;> rfl
    have hvsame : ∀ (mem : Mem d0 w), w.tx.top r = [] →
        (hist d0 (w.log ++ [.abort r])).v = (hist d0 w.log).v := fun mem ht => by
      rw [hist_snoc]
      show restore _ ((hist d0 w.log).tx.top r) = _
      rw [← mem.tx, ht]; rfl
    rcases hm with hm | ⟨hm, hp⟩
    · unfold ModeInv at m ⊢
      simp only [hm] at m ⊢
      refine ⟨i.snoc rfl rfl rfl rfl (fun o h => by cases h) (hend m.mem) hm.symm
        (fun _ h => absurd hm h), ?_⟩
      refine ⟨⟨?_, ?_⟩, ?_, ?_, ?_, ?_⟩
      · show w.tx.abort r = _; rw [hist_snoc, m.mem.tx]; rfl
      · rw [hist_snoc]; exact hsome.trans m.mem.isOpen
      · by_cases ht : w.tx.top r = []
        · rw [hvsame m.mem ht]
          show showing (w.ft.map (rollbackFt · (w.tx.top r))) w.hdr = _
          rw [hsame ht]; exact m.val
        · exact hval m.mem ht
      · intro f' hf' hd
        have hf' : w.ft.map (rollbackFt · (w.tx.top r)) = some f' := hf'
        by_cases ht : w.tx.top r = []
        · rw [hsame ht] at hf'
          exact cleanOk_same (m.clean f' hf' hd) rfl rfl
        · cases hft : w.ft with
          | none => rw [hft] at hf'; cases hf'
          | some f =>
            rw [hft] at hf'
            injection hf' with hf'
            subst hf'
            rw [rollbackFt_dirty _ _ ht] at hd; cases hd
      · intro c hc
        exact (m.ck c hc).snoc rfl rfl rfl (fun h => hsome.trans h)
      · intro j hj; exact ended_lock hj (m.lock j (abort_non hj))
    · unfold ModeInv at m ⊢
      simp only [hm] at m ⊢
      obtain ⟨r0, ag⟩ := agrees i.leg
      have hs : Same (Spec.run d0 (ops w.log)) (Spec.run d0 (ops (w.log ++ [Rec.abort r]))) := by
        rw [ops_snoc]
        exact Same.abort _ (by rw [ag.prep, ← m.mem.tx]; exact hp)
      refine ⟨i.snoc rfl rfl rfl rfl (fun o h => by cases h) (hend m.mem) hm.symm
        (fun h _ => hs.survives h), ?_⟩
      refine ⟨⟨?_, ?_⟩, ⟨m.tail.ck, ?_⟩, ?_, ?_⟩
      · show w.tx.abort r = _; rw [hist_snoc, m.mem.tx]; rfl
      · rw [hist_snoc]; exact hsome.trans m.mem.isOpen
      · intro n hn
        show Same (Spec.run d0 (ops ((w.log ++ [Rec.abort r]).take n))) _
        by_cases hle : n ≤ w.log.length
        · rw [take_snoc _ _ hle]
          exact (m.tail.tail n hn).trans hs
        · rw [List.take_of_length_le (by simp; omega)]
          exact Same.refl _
      · by_cases ht : w.tx.top r = []
        · rw [hvsame m.mem ht]
          show showing (w.ft.map (rollbackFt · (w.tx.top r))) w.hdr = _ ∨
            (Spec.run d0 (ops (w.log ++ [Rec.abort r]))).Survives
              (showing (w.ft.map (rollbackFt · (w.tx.top r))) w.hdr)
          rw [hsame ht]
          exact m.val.imp id hs.survives
        · exact Or.inl (hval m.mem ht)
      · intro f' hf' hd
        have hf' : w.ft.map (rollbackFt · (w.tx.top r)) = some f' := hf'
        by_cases ht : w.tx.top r = []
        · rw [hsame ht] at hf'
          exact m.clean f' hf' hd
        · cases hft : w.ft with
          | none => rw [hft] at hf'; cases hf'
          | some f =>
            rw [hft] at hf'
            injection hf' with hf'
            subst hf'
            rw [rollbackFt_dirty _ _ ht] at hd; cases hd
  | fopen hm hf =>
    unfold ModeInv at m ⊢
    simp only [hm] at m ⊢
    have hok : (hist d0 w.log).Ok .fopen := by
      show (hist d0 w.log).isOpen = false
      rw [← m.mem.isOpen, hf]; rfl
    refine ⟨i.snoc rfl rfl rfl rfl (fun o h => by cases h) hok hm.symm (fun _ h => absurd hm h), ?_⟩
    refine ⟨⟨?_, ?_⟩, ?_, ?_, ?_, ?_⟩
    · rw [hist_snoc]; exact m.mem.tx
    · rw [hist_snoc]; rfl
    · rw [hist_snoc]
      have := m.val
      rw [hf] at this
      exact this
    · intro f' hf' _
      have hf' : some (openFt w.hdr) = some f' := hf'
      injection hf' with hf'
      subst hf'
      show CleanOk _ _
      unfold CleanOk
      show (match w.ck with | none => _ | some c => _)
      cases hc : w.ck with
      | none => rfl
      | some c =>
        show (match c.todo with | none => _ | some d => _)
        cases ht : c.todo with
        | none => rfl
        | some d =>
          have := (m.ck c hc).some d ht
          rw [hf] at this
          cases this.2.2
    · intro c hc; exact (m.ck c hc).snoc rfl rfl rfl (fun _ => rfl)
    · intro j hj; exact m.lock j hj
  | fclose f hm hf hcl hk =>
    unfold ModeInv at m ⊢
    simp only [hm] at m ⊢
    have hok : (hist d0 w.log).Ok .fclose := by
      refine ⟨?_, ?_⟩
      · rw [← m.mem.isOpen, hf]; rfl
      · rw [← m.mem.tx]; exact hcl
    have hv : f.desc = (hist d0 w.log).v := by have := m.val; rw [hf] at this; exact this
    have htodo : ∀ c, w.ck = some c → c.todo = none := fun c hc => by
      cases ht : c.todo with
      | none => rfl
      | some d =>
        have h1 := ((m.ck c hc).some d ht).2.1
        rw [hk c hc] at h1; cases h1
    have hx : closedHdr w.hdr f = f.desc := by
      unfold closedHdr
      split
      · rfl
      · rename_i hd
        have h1 := m.clean f hf (by simpa using hd)
        unfold CleanOk at h1
        cases hc : w.ck with
        | none => rw [hc] at h1; exact h1
        | some c =>
          rw [hc] at h1
          simp only [htodo c hc] at h1
          exact h1
    have hend : (hist d0 (w.log ++ [.fclose])).v = (hist d0 w.log).v := by rw [hist_snoc]; rfl
    have hfull : (w.log ++ [Rec.fclose]).take (w.log.length + 1) = w.log ++ [.fclose] :=
      List.take_of_length_le (by simp)
    refine ⟨⟨Legal.snoc i.leg hok, ?_, ?_, ?_, ?_, ?_, ?_⟩, ?_⟩
    · show (if f.dirty then w.log.length + 1 else w.synced) ≤ (w.log ++ [Rec.fclose]).length
      rw [List.length_append]
      split <;> simp <;> omega
    · show w.last.pos ≤ (if f.dirty then w.log.length + 1 else w.synced)
      split <;> omega
    · show w.last.tx = (hist d0 ((w.log ++ [Rec.fclose]).take w.last.pos)).tx
      rw [take_snoc _ _ (by omega)]; exact i.ltx
    · show w.last.isOpen = (hist d0 ((w.log ++ [Rec.fclose]).take w.last.pos)).isOpen
      rw [take_snoc _ _ (by omega)]; exact i.lop
    · show ∀ e ∈ (w.log ++ [Rec.fclose]).drop w.last.pos, _
      rw [List.drop_append_of_le_length (by omega)]
      intro x hx
      rcases List.mem_append.1 hx with hx | hx
      · exact i.nos x hx
      · simp only [List.mem_singleton] at hx
        subst hx; intro o h; cases h
    · left
      show ∃ p, w.last.pos ≤ p ∧ p ≤ (if f.dirty then w.log.length + 1 else w.synced) ∧
        closedHdr w.hdr f = (hist d0 ((w.log ++ [Rec.fclose]).take p)).v
      cases hd : f.dirty with
      | true =>
        refine ⟨w.log.length + 1, by omega, by simp, ?_⟩
        rw [hfull, hend, hx, hv]
      | false =>
        rcases i.hdr with ⟨p, h3, h4, h5⟩ | ⟨h3, _⟩
        · refine ⟨p, h3, by simpa using h4, ?_⟩
          rw [take_snoc _ _ (by omega)]
          unfold closedHdr
          rw [hd]; exact h5
        · exact absurd hm h3
    · refine ⟨⟨?_, ?_⟩, ?_, ?_, ?_, ?_⟩
      · rw [hist_snoc]; exact m.mem.tx
      · rw [hist_snoc]; rfl
      · show closedHdr w.hdr f = _
        rw [hend, hx, hv]
      · intro f' hf'; cases hf'
      · intro c hc
        have hc : w.ck = some c := hc
        have k := m.ck c hc
        have hhi := k.hi
        refine ⟨k.lo, ?_, ?_, ?_, ?_, ?_⟩
        · show c.ck.pos ≤ (w.log ++ [Rec.fclose]).length
          rw [List.length_append]; omega
        · show c.ck.tx = (hist d0 ((w.log ++ [Rec.fclose]).take c.ck.pos)).tx
          rw [take_snoc _ _ hhi]; exact k.tx
        · show c.ck.isOpen = (hist d0 ((w.log ++ [Rec.fclose]).take c.ck.pos)).isOpen
          rw [take_snoc _ _ hhi]; exact k.isOpen
        · intro d hd; rw [htodo c hc] at hd; cases hd
        · intro _
          refine ⟨w.log.length + 1, by omega, by simp, ?_⟩
          show closedHdr w.hdr f = (hist d0 ((w.log ++ [Rec.fclose]).take (w.log.length + 1))).v
          rw [hfull, hend, hx, hv]
      · intro j hj; exact m.lock j hj
  | ckBegin hm hc =>
    unfold ModeInv at m ⊢
    simp only [hm] at m ⊢
    refine ⟨⟨i.leg, i.len, i.pos, i.ltx, i.lop, i.nos, ?_⟩, ?_⟩
    · rcases i.hdr with h | ⟨h, _⟩
      · exact Or.inl h
      · exact absurd hm h
    have hsome : (w.ft.map (fun f => { f with dirty := false })).isSome = w.ft.isSome :=
      Option.isSome_map
    refine ⟨⟨m.mem.tx, hsome.trans m.mem.isOpen⟩, ?_, ?_, ?_, m.lock⟩
    · have := m.val
      show showing (w.ft.map (fun f => { f with dirty := false })) w.hdr = _
      cases hft : w.ft with
      | none => rw [hft] at this; exact this
      | some f => rw [hft] at this; exact this
    · intro f' hf' _
      have hf' : w.ft.map (fun f => { f with dirty := false }) = some f' := hf'
      unfold CleanOk
      cases hft : w.ft with
      | none => rw [hft] at hf'; cases hf'
      | some f =>
        rw [hft] at hf'
        injection hf' with hf'
        subst hf'
        cases hd : f.dirty with
        | true => simp [hd]
        | false =>
          have h1 := m.clean f hft hd
          unfold CleanOk at h1
          rw [hc] at h1
          simpa [hd] using h1
    · intro c hcc
      have hcc : some _ = some c := hcc
      injection hcc with hcc
      subst hcc
      refine ⟨by show w.last.pos ≤ w.log.length; omega, Nat.le_refl _, ?_, ?_, ?_, ?_⟩
      · show w.tx = (hist d0 (w.log.take w.log.length)).tx
        rw [take_all]; exact m.mem.tx
      · show w.ft.isSome = (hist d0 (w.log.take w.log.length)).isOpen
        rw [take_all]; exact m.mem.isOpen
      · intro d hd
        show d = (hist d0 (w.log.take w.log.length)).v ∧ w.ft.isSome = true ∧
          (w.ft.map _).isSome = true
        rw [take_all, hsome]
        have hv := m.val
        cases hft : w.ft with
        | none => rw [hft] at hd; cases hd
        | some f =>
          rw [hft] at hd hv
          simp only [Option.bind_some] at hd
          split at hd
          · injection hd with hd
            subst hd
            exact ⟨hv, rfl, rfl⟩
          · cases hd
      · intro hd
        refine ⟨w.log.length, Nat.le_refl _, Nat.le_refl _, ?_⟩
        show w.hdr = (hist d0 (w.log.take w.log.length)).v
        rw [take_all]
        have hv := m.val
        cases hft : w.ft with
        | none => rw [hft] at hv; exact hv
        | some f =>
          rw [hft] at hd hv
          simp only [Option.bind_some] at hd
          split at hd
          · cases hd
          · rename_i hnd
            have h1 := m.clean f hft (by simpa using hnd)
            unfold CleanOk at h1
            rw [hc] at h1
            exact h1.trans hv
  | ckWrite c d hm hc hd =>
    unfold ModeInv at m ⊢
    simp only [hm] at m ⊢
    have k := m.ck c hc
    obtain ⟨kd, kop, kft⟩ := k.some d hd
    have klo := k.lo
    have khi := k.hi
    refine ⟨⟨i.leg, ?_, ?_, i.ltx, i.lop, i.nos, Or.inl ⟨c.ck.pos, klo, ?_, kd⟩⟩, ?_⟩
    · show max w.synced c.ck.pos ≤ w.log.length; omega
    · show w.last.pos ≤ max w.synced c.ck.pos; omega
    · show c.ck.pos ≤ max w.synced c.ck.pos; omega
    refine ⟨⟨m.mem.tx, m.mem.isOpen⟩, ?_, ?_, ?_, m.lock⟩
    · have hv := m.val
      show showing w.ft d = _
      cases hft : w.ft with
      | none => rw [hft] at kft; cases kft
      | some f => rw [hft] at hv; exact hv
    · intro f hf hdf
      have h1 := m.clean f hf hdf
      unfold CleanOk at h1
      rw [hc] at h1
      simp only [hd] at h1
      unfold CleanOk
      exact h1.symm
    · intro c' hc'
      have hc' : some _ = some c' := hc'
      injection hc' with hc'
      subst hc'
      exact ⟨klo, khi, k.tx, k.isOpen, fun d' h => (by cases h),
        fun _ => ⟨c.ck.pos, Nat.le_refl _, khi, kd⟩⟩
  | ckEnd c hm hc hd =>
    unfold ModeInv at m ⊢
    simp only [hm] at m ⊢
    have k := m.ck c hc
    have klo := k.lo
    have khi := k.hi
    obtain ⟨p, h1, h2, h3⟩ := k.none hd
    refine ⟨⟨i.leg, Nat.le_refl _, khi, k.tx, k.isOpen, ?_, Or.inl ⟨p, h1, h2, h3⟩⟩, ?_⟩
    · intro e he
      have he : e ∈ w.log.drop c.ck.pos := he
      refine i.nos e ?_
      have h4 : w.log.drop c.ck.pos = (w.log.drop w.last.pos).drop (c.ck.pos - w.last.pos) := by
        rw [List.drop_drop]; congr 1; omega
      rw [h4] at he
      exact List.mem_of_mem_drop he
    refine ⟨⟨m.mem.tx, m.mem.isOpen⟩, m.val, ?_, fun c' h => (by cases h), m.lock⟩
    intro f hf hdf
    have h1 := m.clean f hf hdf
    unfold CleanOk at h1
    rw [hc] at h1
    simp only [hd] at h1
    unfold CleanOk
    exact h1
  | sync hm =>
    refine ⟨⟨i.leg, Nat.le_refl _, by show w.last.pos ≤ w.log.length; omega, i.ltx, i.lop, i.nos,
      ?_⟩, ?_⟩
    · rcases i.hdr with ⟨p, h1, h2, h3⟩ | h
      · exact Or.inl ⟨p, h1, by show p ≤ w.log.length; omega, h3⟩
      · exact Or.inr h
    · unfold ModeInv at m ⊢
      have ht : ∀ mo, TailInv d0 w →
          TailInv d0 { w with synced := w.log.length, mode := mo } := fun _ t =>
        ⟨t.ck, fun n hn => t.tail n (by have : w.log.length ≤ n := hn; omega)⟩
      cases hmode : w.mode with
      | up =>
        simp only [hmode] at m ⊢
        exact ⟨⟨m.mem.tx, m.mem.isOpen⟩, m.val, m.clean,
          fun c hc => let k := m.ck c hc
            ⟨k.lo, k.hi, k.tx, k.isOpen, k.some, k.none⟩, m.lock⟩
      | down => exact absurd hmode hm
      | aborting =>
        simp only [hmode] at m ⊢
        exact ⟨⟨m.mem.tx, m.mem.isOpen⟩, ht _ m.tail, m.val, m.clean⟩
      | closed =>
        simp only [hmode] at m ⊢
        exact ⟨m.tx, ht _ m.tail, m.live, m.val, m.clean, m.yes, m.no⟩
  | crash n hn hl =>
    have hnl : (w.log.take n).length = n := by rw [List.length_take]; omega
    have htt : ∀ p, p ≤ n → (w.log.take n).take p = w.log.take p := fun p hp => by
      rw [List.take_take]; congr 1; omega
    refine ⟨⟨i.leg.take n, ?_, ?_, ?_, ?_, ?_, ?_⟩, ?_⟩
    · show n ≤ (w.log.take n).length; omega
    · show w.last.pos ≤ n; omega
    · show w.last.tx = (hist d0 ((w.log.take n).take w.last.pos)).tx
      rw [htt _ (by omega)]; exact i.ltx
    · show w.last.isOpen = (hist d0 ((w.log.take n).take w.last.pos)).isOpen
      rw [htt _ (by omega)]; exact i.lop
    · intro e he
      have he : e ∈ (w.log.take n).drop w.last.pos := he
      rw [List.drop_take] at he
      exact i.nos e (List.mem_of_mem_take he)
    · rcases i.hdr with ⟨p, h1, h2, h3⟩ | ⟨h1, h2⟩
      · refine Or.inl ⟨p, h1, by show p ≤ n; omega, ?_⟩
        show w.hdr = (hist d0 ((w.log.take n).take p)).v
        rw [htt _ (by omega)]; exact h3
      · refine Or.inr ⟨by simp, ?_⟩
        have ht : TailInv d0 w := by
          unfold ModeInv at m
          cases hmode : w.mode with
          | up => exact absurd hmode h1
          | down => simp only [hmode] at m; exact m.1
          | aborting => simp only [hmode] at m; exact m.tail
          | closed => simp only [hmode] at m; exact m.tail
        exact (ht.tail n hn).symm.survives h2
    · unfold ModeInv
      refine ⟨⟨rfl, fun k hk => ?_⟩, hnl.symm⟩
      have hk : n ≤ k := hk
      show Same (Spec.run d0 (ops ((w.log.take n).take k))) _
      rw [List.take_of_length_le (by omega)]
      exact Same.refl _
  | partly k hm =>
    unfold ModeInv at m ⊢
    simp only [hm] at m ⊢
    have hsy : w.synced = w.log.length ∨ w.synced < w.log.length := by omega
    have key : ∀ k, w.last.pos + k ≤ w.log.length →
        OkAt d0 w.log (replay w.start ((w.log.drop w.last.pos).take k)).hdr w.last.pos :=
      fun k hk => ((start_inv i).run i.leg i.nos k hk).hdr
    have hok : OkAt d0 w.log (replay w.start ((w.log.drop w.last.pos).take k)).hdr w.last.pos := by
      by_cases hk : w.last.pos + k ≤ w.log.length
      · exact key k hk
      · have h1 := key (w.log.length - w.last.pos) (by omega)
        rw [List.take_of_length_le (by rw [List.length_drop]; omega)] at h1 ⊢
        exact h1
    refine ⟨⟨i.leg, i.len, i.pos, i.ltx, i.lop, i.nos, ?_⟩, ⟨m.1.ck, m.1.tail⟩, m.2⟩
    rcases hok with ⟨p, h1, h2, h3⟩ | h
    · exact Or.inl ⟨p, h1, by show p ≤ w.synced; omega, h3⟩
    · exact Or.inr ⟨by simp, h⟩
  | replayed hm =>
    unfold ModeInv at m
    simp only [hm] at m
    have hfull := (start_inv i).run i.leg i.nos (w.log.length - w.last.pos) (by omega)
    rw [List.take_of_length_le (by rw [List.length_drop]; omega)] at hfull
    have hsum : w.last.pos + (w.log.length - w.last.pos) = w.log.length := by omega
    rw [hsum] at hfull
    have h1 := hfull.tx
    have h2 := hfull.isOpen
    rw [take_all] at h1 h2
    refine ⟨⟨i.leg, i.len, i.pos, i.ltx, i.lop, i.nos, ?_⟩, ?_⟩
    · rcases hfull.hdr with ⟨p, h3, h4, h5⟩ | h
      · exact Or.inl ⟨p, h3, by show p ≤ w.synced; omega, h5⟩
      · exact Or.inr ⟨by simp, h⟩
    · exact ⟨⟨h1, h2⟩, ⟨m.1.ck, m.1.tail⟩, hfull.val.last, hfull.clean⟩
  | recClose hm hu hc =>
    unfold ModeInv at m
    simp only [hm] at m
    have hsv := survives_iff i.leg (by rw [← m.mem.tx]; exact hu)
    have hv : showing w.ft w.hdr = (hist d0 w.log).v := m.val.elim id (fun h => (hsv _).1 h)
    have hx : (match w.ft with | some f => closedHdr w.hdr f | none => w.hdr)
        = (hist d0 w.log).v := by
      rw [← hv]
      cases hft : w.ft with
      | none => rfl
      | some f =>
        show closedHdr w.hdr f = f.desc
        unfold closedHdr
        split
        · rfl
        · rename_i hd; exact m.clean f hft (by simpa using hd)
    refine ⟨⟨i.leg, i.len, i.pos, i.ltx, i.lop, i.nos, Or.inr ⟨by simp, (hsv _).2 hx⟩⟩, ?_⟩
    exact ⟨m.mem.tx, ⟨m.tail.ck, m.tail.tail⟩, hu, hx, fun f h => (by cases h),
      fun h => (by cases h), fun _ => hc⟩
  | recKeep hm hu hc =>
    unfold ModeInv at m
    simp only [hm] at m
    have hsv := survives_iff i.leg (by rw [← m.mem.tx]; exact hu)
    have hv : showing w.ft w.hdr = (hist d0 w.log).v := m.val.elim id (fun h => (hsv _).1 h)
    refine ⟨⟨i.leg, i.len, i.pos, i.ltx, i.lop, i.nos, ?_⟩, ?_⟩
    · rcases i.hdr with h | ⟨_, h⟩
      · exact Or.inl h
      · exact Or.inr ⟨by simp, h⟩
    · refine ⟨m.mem.tx, ⟨m.tail.ck, m.tail.tail⟩, hu, hv, m.clean,
        fun h => m.mem.isOpen.symm.trans h, fun hf => ?_⟩
      have hf : w.ft = none := hf
      rw [clean_iff]
      intro r hn
      have h1 := open_of_non i.leg r (by rw [← m.mem.tx]; exact hn)
      rw [← m.mem.isOpen, hf] at h1; cases h1
  | recWrite f hm hf =>
    unfold ModeInv at m ⊢
    simp only [hm] at m ⊢
    have hsv := survives_iff i.leg (by rw [← m.tx]; exact m.live)
    have hv : f.desc = (hist d0 w.log).v := by have := m.val; rw [hf] at this; exact this
    have hx : closedHdr w.hdr f = f.desc := by
      unfold closedHdr
      split
      · rfl
      · rename_i hd; exact m.clean f hf (by simpa using hd)
    refine ⟨⟨i.leg, i.len, i.pos, i.ltx, i.lop, i.nos, Or.inr ⟨by simp, (hsv _).2 (hx.trans hv)⟩⟩, ?_⟩
    refine ⟨m.tx, ⟨m.tail.ck, m.tail.tail⟩, m.live, hv, ?_, fun _ => m.yes (by rw [hf]; rfl),
      fun h => (by cases h)⟩
    intro f' hf' _
    have hf' : some _ = some f' := hf'
    injection hf' with hf'
    subst hf'
    exact hx
  | recDone hm hd =>
    unfold ModeInv at m ⊢
    simp only [hm] at m ⊢
    have hok : (hist d0 w.log).Ok (.settled w.ft.isSome) := by
      refine ⟨m.yes, fun h => ?_⟩
      rw [← m.tx]
      refine m.no ?_
      cases hft : w.ft with
      | none => rfl
      | some f => rw [hft] at h; cases h
    have hend : (hist d0 (w.log ++ [.settled w.ft.isSome])).v = (hist d0 w.log).v := by
      rw [hist_snoc]; rfl
    have hfull : (w.log ++ [Rec.settled w.ft.isSome]).take (w.log.length + 1)
        = w.log ++ [.settled w.ft.isSome] := List.take_of_length_le (by simp)
    have hh : w.hdr = (hist d0 w.log).v := by
      have hv := m.val
      cases hft : w.ft with
      | none => rw [hft] at hv; exact hv
      | some f => rw [hft] at hv; exact (m.clean f hft (hd f hft)).trans hv
    refine ⟨⟨Legal.snoc i.leg hok, ?_, Nat.le_refl _, ?_, ?_, ?_, Or.inl ⟨w.log.length + 1,
      Nat.le_refl _, Nat.le_refl _, ?_⟩⟩, ?_⟩
    · show w.log.length + 1 ≤ (w.log ++ [Rec.settled w.ft.isSome]).length
      simp
    · show w.tx = (hist d0 ((w.log ++ [Rec.settled w.ft.isSome]).take (w.log.length + 1))).tx
      rw [hfull, hist_snoc]; exact m.tx
    · show w.ft.isSome
        = (hist d0 ((w.log ++ [Rec.settled w.ft.isSome]).take (w.log.length + 1))).isOpen
      rw [hfull, hist_snoc]; rfl
    · intro e he
      have he : e ∈ (w.log ++ [Rec.settled w.ft.isSome]).drop (w.log.length + 1) := he
      rw [List.drop_of_length_le (by simp)] at he
      simp at he
    · show w.hdr = (hist d0 ((w.log ++ [Rec.settled w.ft.isSome]).take (w.log.length + 1))).v
      rw [hfull, hend]; exact hh
    · refine ⟨⟨?_, ?_⟩, ?_, ?_, ?_, ?_⟩
      · rw [hist_snoc]; exact m.tx
      · rw [hist_snoc]; rfl
      · rw [hend]; exact m.val
      · intro f hf hdf
        have h1 := m.clean f hf hdf
        unfold CleanOk
        show (match w.ck with | none => _ | some c => _)
        rw [m.tail.ck]; exact h1
      · intro c hc
        have hc : w.ck = some c := hc
        rw [m.tail.ck] at hc; cases hc
      · intro r hr
        exact Or.inr (m.live r hr.ne)

/-- Both invariants hold of every state reached. -/
theorem reach_inv {good : D → Prop} {d0 : D} {w : World D} (h : Reach true good d0 w) :
    Inv d0 w ∧ ModeInv d0 w := by
  induction h with
  | init =>
    refine ⟨⟨Legal.nil, Nat.le_refl _, Nat.le_refl _, rfl, rfl, fun e he => (by cases he),
      Or.inl ⟨0, Nat.le_refl _, Nat.le_refl _, rfl⟩⟩, ?_⟩
    exact ⟨⟨rfl, rfl⟩, rfl, fun f h => (by cases h), fun c h => (by cases h),
      fun r ⟨l, h1, _⟩ => (by cases h1)⟩
  | step h1 h2 ih => exact step_inv h2 ih.1 ih.2

end Verif.Desc
