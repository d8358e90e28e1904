import Verif.Desc.Model

/-!
# The value a log stands for

`hist d0 l`: the file's openness, its descriptor and the transactions after the records of `l`,
when nothing crashes.  `Legal`: the logs that runs produce.  `agrees`: for these, `hist` is the
specification's state in another form.
-/

namespace Verif.Desc

variable {D : Type}

structure H (D : Type) where
  isOpen : Bool
  v : D
  tx : Tx D

/-- What restoring the entries of a level leaves. -/
def restore (v : D) (l : List D) : D := l.foldl (fun _ o => o) v

def H.step (h : H D) : Rec D → H D
  | .begin r => { h with tx := h.tx.begin r }
  | .change r old new _ => { h with v := new, tx := h.tx.save r old }
  | .prepare r => { h with tx := h.tx.prepare r }
  | .commit r => { h with tx := h.tx.commit r }
  | .abort r => { h with v := restore h.v (h.tx.top r), tx := h.tx.abort r }
  | .fopen => { h with isOpen := true }
  | .fclose => { h with isOpen := false }
  | .settled o => { h with isOpen := o }

def hist (d0 : D) (l : List (Rec D)) : H D := l.foldl H.step ⟨false, d0, Tx.none⟩

theorem hist_snoc (d0 : D) (l : List (Rec D)) (e : Rec D) :
    hist d0 (l ++ [e]) = (hist d0 l).step e := by
  simp [hist, List.foldl_append]

/-- No other transaction has an entry. -/
def Tx.Only (t : Tx D) (r : Nat) : Prop := ∀ i, i ≠ r → ∀ l ∈ t.undo i, l = []

def H.Ok (h : H D) : Rec D → Prop
  | .begin r => h.tx.prep r = false
  | .change r old _ _ => h.isOpen = true ∧ old = h.v ∧ h.tx.undo r ≠ [] ∧ h.tx.prep r = false ∧
      h.tx.Only r
  | .prepare r => ∃ l, h.tx.undo r = [l]
  | .commit r => h.tx.undo r ≠ []
  | .abort r => h.tx.undo r ≠ []
  | .fopen => h.isOpen = false
  | .fclose => h.isOpen = true ∧ h.tx.Clean
  | .settled o => (o = true → h.isOpen = true) ∧ (o = false → h.tx.Clean)

inductive Legal (d0 : D) : List (Rec D) → Prop where
  | nil : Legal d0 []
  | snoc {l : List (Rec D)} {e : Rec D} : Legal d0 l → (hist d0 l).Ok e → Legal d0 (l ++ [e])

theorem Legal.left {d0 : D} {l : List (Rec D)} {e : Rec D} (h : Legal d0 (l ++ [e])) :
    Legal d0 l ∧ (hist d0 l).Ok e := by
  generalize hx : l ++ [e] = x at h
  cases h with
  | nil => simp at hx
  | snoc h1 h2 =>
    have := List.append_inj' hx rfl
    obtain ⟨rfl, he⟩ := this
    injection he with he _
    subst he
    exact ⟨h1, h2⟩

theorem Legal.take {d0 : D} {l : List (Rec D)} (h : Legal d0 l) (n : Nat) :
    Legal d0 (l.take n) := by
  induction h with
  | nil => simpa using Legal.nil
  | @snoc l e h1 h2 ih =>
    by_cases hn : n ≤ l.length
    · rw [List.take_append_of_le_length hn]; exact ih
    · rw [List.take_of_length_le (by simp; omega)]
      exact Legal.snoc h1 h2

theorem Legal.at {d0 : D} {l : List (Rec D)} (h : Legal d0 l) {q : Nat} (hq : q < l.length) :
    (hist d0 (l.take q)).Ok l[q] := by
  have h1 := h.take (q + 1)
  rw [List.take_succ_eq_append_getElem hq] at h1
  exact h1.left.2

theorem put_same {α : Type} (f : Nat → α) (r : Nat) (x : α) : put f r x r = x := by simp [put]

theorem put_other {α : Type} (f : Nat → α) {r i : Nat} (x : α) (h : i ≠ r) :
    put f r x i = f i := by simp [put, h]

/-! ## Each level of nesting -/

/-- `v` is shown, `u` are the entries of the open levels, `p` what is pending at each, and `b` is
what is committed. -/
inductive Lv : D → List (List D) → List (Option D) → D → Prop where
  | nil (v : D) : Lv v [] [] v
  | emp {v : D} {ls : List (List D)} {ps : List (Option D)} {b : D} :
      Lv v ls ps b → Lv v ([] :: ls) (none :: ps) b
  | ch {v o : D} {l : List D} {ls : List (List D)} {ps : List (Option D)} {b : D} :
      Lv o ls ps b → Lv v ((l ++ [o]) :: ls) (some v :: ps) b

theorem restore_snoc (v o : D) (l : List D) : restore v (l ++ [o]) = o := by
  simp [restore, List.foldl_append]

theorem Lv.cur {v : D} {u : List (List D)} {p : List (Option D)} {b : D} (h : Lv v u p b) :
    (p.findSome? id).getD b = v := by
  induction h with
  | nil => rfl
  | emp h ih => simpa using ih
  | ch h ih => simp

theorem Lv.triv {v : D} {u : List (List D)} {p : List (Option D)} {b : D} (h : Lv v u p b)
    (ht : ∀ l ∈ u, l = []) : b = v ∧ p = List.replicate u.length none := by
  induction h with
  | nil => exact ⟨rfl, rfl⟩
  | emp h ih =>
    have := ih (fun l hl => ht l (List.mem_cons_of_mem _ hl))
    exact ⟨this.1, by rw [this.2]; simp [List.replicate_succ]⟩
  | @ch v o l ls ps b h ih =>
    have := ht (l ++ [o]) List.mem_cons_self
    simp at this

theorem Lv.ofTriv (v : D) : ∀ (u : List (List D)), (∀ l ∈ u, l = []) →
    Lv v u (List.replicate u.length none) v
  | [], _ => Lv.nil v
  | l :: u, h => by
    have h1 := h l List.mem_cons_self
    subst h1
    simpa [List.replicate_succ] using
      Lv.emp (Lv.ofTriv v u fun l hl => h l (List.mem_cons_of_mem _ hl))

theorem Lv.none {v : D} {u : List (List D)} {p : List (Option D)} {b : D} (h : Lv v u p b)
    (hn : p.findSome? id = Option.none) : ∀ l ∈ u, l = [] := by
  induction h with
  | nil => intro l hl; simp at hl
  | emp h ih =>
    intro l hl
    rcases List.mem_cons.1 hl with rfl | hl
    · rfl
    · exact ih (by simpa using hn) l hl
  | ch h ih => simp at hn

/-- The specification's state `S` is `h` in another form; `r0` is the one transaction that may have
entries. -/
structure Agree (h : H D) (S : Spec D) (r0 : Nat) : Prop where
  prep : S.prep = h.tx.prep
  lv : Lv h.v (h.tx.undo r0) (S.pend r0) S.base
  only : h.tx.Only r0
  triv : ∀ i, i ≠ r0 → S.pend i = List.replicate (h.tx.undo i).length none

/-- Of a transaction without entries nothing is pending, whether or not it is `r0`. -/
theorem Agree.any {h : H D} {S : Spec D} {r0 : Nat} (a : Agree h S r0) {r : Nat}
    (hr : ∀ l ∈ h.tx.undo r0, l = []) : Agree h S r := by
  have ht := a.lv.triv hr
  have hall : ∀ i, ∀ l ∈ h.tx.undo i, l = [] := by
    intro i
    by_cases hi : i = r0
    · subst hi; exact hr
    · exact a.only i hi
  have hpend : ∀ i, S.pend i = List.replicate (h.tx.undo i).length none := by
    intro i
    by_cases hi : i = r0
    · subst hi; exact ht.2
    · exact a.triv i hi
  refine ⟨a.prep, ?_, fun i _ => hall i, fun i _ => hpend i⟩
  rw [hpend r, ht.1]
  exact Lv.ofTriv _ _ (hall r)

theorem replicate_findSome (n : Nat) :
    (List.replicate n (none : Option D)).findSome? id = none := by
  induction n with
  | zero => rfl
  | succ n ih => simp [List.replicate_succ, ih]

/-- One record: the forms keep agreeing. -/
theorem Agree.step {h : H D} {S : Spec D} {r0 : Nat} (a : Agree h S r0) {e : Rec D} (ok : h.Ok e) :
    ∃ r1, Agree (h.step e) (match e.ev with | some x => S.step x | none => S) r1 := by
  obtain ⟨op, v, ⟨undo, prep⟩⟩ := h
  obtain ⟨base, pend, sprep⟩ := S
  have hprep : sprep = prep := a.prep
  subst hprep
  cases e with
  | fopen => exact ⟨r0, a.prep, a.lv, a.only, a.triv⟩
  | fclose => exact ⟨r0, a.prep, a.lv, a.only, a.triv⟩
  | settled o => exact ⟨r0, a.prep, a.lv, a.only, a.triv⟩
  | prepare r => exact ⟨r0, rfl, a.lv, a.only, a.triv⟩
  | begin r =>
    refine ⟨r0, rfl, ?_, ?_, ?_⟩
    · show Lv v (put undo r ([] :: undo r) r0) (put pend r (none :: pend r) r0) base
      by_cases hr : r0 = r
      · subst hr; rw [put_same, put_same]; exact Lv.emp a.lv
      · rw [put_other _ _ hr, put_other _ _ hr]; exact a.lv
    · intro i hi
      show ∀ l ∈ put undo r ([] :: undo r) i, l = []
      by_cases hr : i = r
      · subst hr; rw [put_same]
        intro l hl
        rcases List.mem_cons.1 hl with rfl | hl
        · rfl
        · exact a.only i hi l hl
      · rw [put_other _ _ hr]; exact a.only i hi
    · intro i hi
      show put pend r (none :: pend r) i = List.replicate (put undo r ([] :: undo r) i).length none
      by_cases hr : i = r
      · subst hr; rw [put_same, put_same, List.length_cons, List.replicate_succ]
        exact congrArg _ (a.triv i hi)
      · rw [put_other _ _ hr, put_other _ _ hr]; exact a.triv i hi
  | change r old new c =>
    obtain ⟨hop, hold, hne, hpr, honly⟩ := ok
    have hold : old = v := hold
    subst hold
    have a1 : Agree (⟨op, old, ⟨undo, sprep⟩⟩ : H D) ⟨base, pend, sprep⟩ r := by
      by_cases hr : r0 = r
      · subst hr; exact a
      · exact a.any (honly r0 hr)
    refine ⟨r, ?_⟩
    have hlv : Lv old (undo r) (pend r) base := a1.lv
    change undo r ≠ [] at hne
    show Agree ⟨op, new, (⟨undo, sprep⟩ : Tx D).save r old⟩ (Spec.step ⟨base, pend, sprep⟩ (.change r new)) r
    match hu : undo r, hp : pend r, hlv with
    | [], _, _ => exact absurd hu hne
    | l :: ls, p :: ps, hlv =>
      simp only [Tx.save, hu, Spec.step, hp]
      refine ⟨rfl, ?_, ?_, ?_⟩
      · show Lv new (put undo r ((old :: l) :: ls) r) (put pend r (some new :: ps) r) base
        rw [put_same, put_same]
        cases hlv with
        | emp h => exact Lv.ch (l := []) h
        | ch h => exact Lv.ch (l := old :: _) h
      · intro i hi
        show ∀ l' ∈ put undo r ((old :: l) :: ls) i, l' = []
        rw [put_other _ _ hi]; exact a1.only i hi
      · intro i hi
        show put pend r (some new :: ps) i = List.replicate (put undo r ((old :: l) :: ls) i).length none
        rw [put_other _ _ hi, put_other _ _ hi]; exact a1.triv i hi
  | commit r =>
    change undo r ≠ [] at ok
    show ∃ r1, Agree ⟨op, v, (⟨undo, sprep⟩ : Tx D).commit r⟩ (Spec.step ⟨base, pend, sprep⟩ (.commit r)) r1
    by_cases hr : r = r0
    · subst hr
      have hlv : Lv v (undo r) (pend r) base := a.lv
      refine ⟨r, ?_⟩
      match hu : undo r, hp : pend r, hlv with
      | [], _, _ => exact absurd hu ok
      | [l], [p], hlv =>
        simp only [Tx.commit, hu, Spec.step, hp]
        refine ⟨rfl, ?_, ?_, ?_⟩
        · show Lv v (put undo r [] r) (put pend r [] r) (p.getD base)
          rw [put_same, put_same]
          cases hlv with
          | emp h => cases h; exact Lv.nil _
          | ch h => exact Lv.nil _
        · intro i hi
          show ∀ l' ∈ put undo r [] i, l' = []
          rw [put_other _ _ hi]; exact a.only i hi
        · intro i hi
          show put pend r [] i = List.replicate (put undo r [] i).length none
          rw [put_other _ _ hi, put_other _ _ hi]; exact a.triv i hi
      | l :: m :: ls, p :: q :: ps, hlv =>
        simp only [Tx.commit, hu, Spec.step, hp]
        refine ⟨rfl, ?_, ?_, ?_⟩
        · show Lv v (put undo r ((l ++ m) :: ls) r) (put pend r ((p <|> q) :: ps) r) base
          rw [put_same, put_same]
          cases hlv with
          | emp h =>
            cases h with
            | emp h => exact Lv.emp h
            | ch h => exact Lv.ch h
          | @ch _ o l' _ _ _ h =>
            cases h with
            | emp h => rw [List.append_nil]; exact Lv.ch h
            | @ch _ o' m' _ _ _ h =>
              rw [← List.append_assoc]; exact Lv.ch h
        · intro i hi
          show ∀ l' ∈ put undo r ((l ++ m) :: ls) i, l' = []
          rw [put_other _ _ hi]; exact a.only i hi
        · intro i hi
          show put pend r ((p <|> q) :: ps) i
            = List.replicate (put undo r ((l ++ m) :: ls) i).length none
          rw [put_other _ _ hi, put_other _ _ hi]; exact a.triv i hi
      | [_], _ :: _ :: _, hlv => cases hlv <;> (rename_i h; cases h)
      | _ :: _ :: _, [_], hlv => cases hlv <;> (rename_i h; cases h)
    · refine ⟨r0, ?_⟩
      have hr' : r0 ≠ r := fun h => hr h.symm
      have htr : pend r = List.replicate (undo r).length none := a.triv r hr
      have hon : ∀ l ∈ undo r, l = [] := a.only r hr
      match hu : undo r with
      | [] => exact absurd hu ok
      | [l] =>
        rw [hu] at htr hon
        have htr : pend r = [none] := htr
        simp only [Tx.commit, hu, Spec.step, htr]
        refine ⟨rfl, ?_, ?_, ?_⟩
        · show Lv v (put undo r [] r0) (put pend r [] r0) base
          rw [put_other _ _ hr', put_other _ _ hr']; exact a.lv
        · intro i hi
          show ∀ l' ∈ put undo r [] i, l' = []
          by_cases hir : i = r
          · subst hir; rw [put_same]; intro l' hl'; simp at hl'
          · rw [put_other _ _ hir]; exact a.only i hi
        · intro i hi
          show put pend r [] i = List.replicate (put undo r [] i).length none
          by_cases hir : i = r
          · subst hir; rw [put_same, put_same]; rfl
          · rw [put_other _ _ hir, put_other _ _ hir]; exact a.triv i hi
      | l :: m :: ls =>
        rw [hu] at htr hon
        have htr : pend r = none :: none :: List.replicate ls.length none := htr
        have hl : l = [] := hon l List.mem_cons_self
        have hm : m = [] := hon m (List.mem_cons_of_mem _ List.mem_cons_self)
        subst hl hm
        simp only [Tx.commit, hu, Spec.step, htr]
        refine ⟨rfl, ?_, ?_, ?_⟩
        · show Lv v (put undo r (([] ++ []) :: ls) r0)
            (put pend r ((none <|> none) :: List.replicate ls.length none) r0) base
          rw [put_other _ _ hr', put_other _ _ hr']; exact a.lv
        · intro i hi
          show ∀ l' ∈ put undo r (([] ++ []) :: ls) i, l' = []
          by_cases hir : i = r
          · subst hir; rw [put_same]
            intro l' hl'
            rcases List.mem_cons.1 hl' with rfl | hl'
            · rfl
            · exact hon l' (List.mem_cons_of_mem _ (List.mem_cons_of_mem _ hl'))
          · rw [put_other _ _ hir]; exact a.only i hi
        · intro i hi
          show put pend r ((none <|> none) :: List.replicate ls.length none) i
            = List.replicate (put undo r (([] ++ []) :: ls) i).length none
          by_cases hir : i = r
          · subst hir; rw [put_same, put_same]; rfl
          · rw [put_other _ _ hir, put_other _ _ hir]; exact a.triv i hi
  | abort r =>
    change undo r ≠ [] at ok
    show ∃ r1, Agree ⟨op, restore v ((⟨undo, sprep⟩ : Tx D).top r), (⟨undo, sprep⟩ : Tx D).abort r⟩
      (Spec.step ⟨base, pend, sprep⟩ (.abort r)) r1
    by_cases hr : r = r0
    · subst hr
      have hlv : Lv v (undo r) (pend r) base := a.lv
      refine ⟨r, ?_⟩
      match hu : undo r, hp : pend r, hlv with
      | [], _, _ => exact absurd hu ok
      | [l], [p], hlv =>
        simp only [Tx.abort, Tx.top, hu, Spec.step, hp]
        refine ⟨rfl, ?_, ?_, ?_⟩
        · show Lv (restore v l) (put undo r [] r) (put pend r [] r) base
          rw [put_same, put_same]
          cases hlv with
          | emp h => exact h
          | ch h => rw [restore_snoc]; exact h
        · intro i hi
          show ∀ l' ∈ put undo r [] i, l' = []
          rw [put_other _ _ hi]; exact a.only i hi
        · intro i hi
          show put pend r [] i = List.replicate (put undo r [] i).length none
          rw [put_other _ _ hi, put_other _ _ hi]; exact a.triv i hi
      | l :: m :: ls, p :: q :: ps, hlv =>
        simp only [Tx.abort, Tx.top, hu, Spec.step, hp]
        refine ⟨rfl, ?_, ?_, ?_⟩
        · show Lv (restore v l) (put undo r (m :: ls) r) (put pend r (q :: ps) r) base
          rw [put_same, put_same]
          cases hlv with
          | emp h => exact h
          | ch h => rw [restore_snoc]; exact h
        · intro i hi
          show ∀ l' ∈ put undo r (m :: ls) i, l' = []
          rw [put_other _ _ hi]; exact a.only i hi
        · intro i hi
          show put pend r (q :: ps) i = List.replicate (put undo r (m :: ls) i).length none
          rw [put_other _ _ hi, put_other _ _ hi]; exact a.triv i hi
      | [_], _ :: _ :: _, hlv => cases hlv <;> (rename_i h; cases h)
      | _ :: _ :: _, [_], hlv => cases hlv <;> (rename_i h; cases h)
    · refine ⟨r0, ?_⟩
      have hr' : r0 ≠ r := fun h => hr h.symm
      have htr : pend r = List.replicate (undo r).length none := a.triv r hr
      have hon : ∀ l ∈ undo r, l = [] := a.only r hr
      match hu : undo r with
      | [] => exact absurd hu ok
      | [l] =>
        rw [hu] at htr hon
        have htr : pend r = [none] := htr
        have hl : l = [] := hon l List.mem_cons_self
        subst hl
        simp only [Tx.abort, Tx.top, hu, Spec.step, htr]
        refine ⟨rfl, ?_, ?_, ?_⟩
        · show Lv v (put undo r [] r0) (put pend r [] r0) base
          rw [put_other _ _ hr', put_other _ _ hr']; exact a.lv
        · intro i hi
          show ∀ l' ∈ put undo r [] i, l' = []
          by_cases hir : i = r
          · subst hir; rw [put_same]; intro l' hl'; simp at hl'
          · rw [put_other _ _ hir]; exact a.only i hi
        · intro i hi
          show put pend r [] i = List.replicate (put undo r [] i).length none
          by_cases hir : i = r
          · subst hir; rw [put_same, put_same]; rfl
          · rw [put_other _ _ hir, put_other _ _ hir]; exact a.triv i hi
      | l :: m :: ls =>
        rw [hu] at htr hon
        have htr : pend r = none :: none :: List.replicate ls.length none := htr
        have hl : l = [] := hon l List.mem_cons_self
        subst hl
        simp only [Tx.abort, Tx.top, hu, Spec.step, htr]
        refine ⟨rfl, ?_, ?_, ?_⟩
        · show Lv v (put undo r (m :: ls) r0)
            (put pend r (none :: List.replicate ls.length none) r0) base
          rw [put_other _ _ hr', put_other _ _ hr']; exact a.lv
        · intro i hi
          show ∀ l' ∈ put undo r (m :: ls) i, l' = []
          by_cases hir : i = r
          · subst hir; rw [put_same]
            intro l' hl'
            exact hon l' (List.mem_cons_of_mem _ hl')
          · rw [put_other _ _ hir]; exact a.only i hi
        · intro i hi
          show put pend r (none :: List.replicate ls.length none) i
            = List.replicate (put undo r (m :: ls) i).length none
          by_cases hir : i = r
          · subst hir; rw [put_same, put_same]; rfl
          · rw [put_other _ _ hir, put_other _ _ hir]; exact a.triv i hi

theorem ops_snoc (l : List (Rec D)) (e : Rec D) (d0 : D) :
    Spec.run d0 (ops (l ++ [e]))
      = (match e.ev with
        | some x => (Spec.run d0 (ops l)).step x
        | none => Spec.run d0 (ops l)) := by
  unfold ops Spec.run
  rw [List.filterMap_append, List.foldl_append]
  cases h : e.ev with
  | none => simp [h]
  | some x => simp [h]

/-- For legal logs the two forms agree. -/
theorem agrees {d0 : D} {l : List (Rec D)} (h : Legal d0 l) :
    ∃ r0, Agree (hist d0 l) (Spec.run d0 (ops l)) r0 := by
  induction h with
  | nil => exact ⟨0, rfl, Lv.nil _, fun i _ l hl => by simp [hist, Tx.none] at hl, fun i _ => rfl⟩
  | snoc h1 h2 ih =>
    obtain ⟨r0, a⟩ := ih
    rw [hist_snoc, ops_snoc]
    exact a.step h2

end Verif.Desc
