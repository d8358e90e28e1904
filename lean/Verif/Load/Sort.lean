import Verif.Load.Spec
/-! Lemmas: sorting of a row set. -/
set_option autoImplicit false
set_option linter.unusedVariables false
set_option linter.unusedSimpArgs false

namespace Verif.Load
open Spec

variable {K V : Type} {cmp : K → K → Int}

theorem Spec.Order.lt_trans (ho : Order cmp) {a b c : K} (h1 : cmp a b < 0) (h2 : cmp b c < 0) : cmp a c < 0 := by
  have h3 := ho.trans a b c (by omega) (by omega)
  by_cases h : cmp a c = 0
  · have h4 := ho.anti a b
    have h5 := ho.anti c a
    have h5' := ho.anti a c
    have h6 := ho.trans b c a (by omega) (by omega)
    omega
  · omega

theorem Spec.Order.lt_of_le_of_lt (ho : Order cmp) {a b c : K} (h1 : cmp a b ≤ 0) (h2 : cmp b c < 0) : cmp a c < 0 := by
  have h3 := ho.trans a b c (by omega) (by omega)
  have h5 := ho.anti c a
  have h5' := ho.anti a c
  have h4 := ho.anti b c
  by_cases h : cmp a c = 0
  · have h6 := ho.trans c a b (by omega) (by omega)
    omega
  · omega

theorem Spec.Order.lt_of_lt_of_le (ho : Order cmp) {a b c : K} (h1 : cmp a b < 0) (h2 : cmp b c ≤ 0) : cmp a c < 0 := by
  have h3 := ho.trans a b c (by omega) (by omega)
  have h5 := ho.anti c a
  have h5' := ho.anti a c
  have h4 := ho.anti a b
  by_cases h : cmp a c = 0
  · have h6 := ho.trans b c a (by omega) (by omega)
    omega
  · omega

theorem Spec.Order.gt (ho : Order cmp) {a b : K} (h : 0 < cmp a b) : cmp b a < 0 := (ho.anti b a).2 h

theorem Spec.Order.comm0 (ho : Order cmp) {a b : K} (h : cmp a b = 0) : cmp b a = 0 := by
  have h1 := ho.anti a b
  have h2 := ho.anti b a
  omega

theorem Spec.Twice.perm {r : Row K V} {l l' : List (Row K V)} (h : Twice cmp r l) (hp : l.Perm l') : Twice cmp r l' := by
  obtain ⟨r', t, h1, h2⟩ := h
  exact ⟨r', t, hp.symm.trans h1, h2⟩

theorem Spec.Twice.left {r : Row K V} {l : List (Row K V)} (h : Twice cmp r l) (l' : List (Row K V)) : Twice cmp r (l ++ l') := by
  obtain ⟨r', t, h1, h2⟩ := h
  exact ⟨r', t ++ l', h1.append_right l', h2⟩

theorem Spec.Twice.right {r : Row K V} {l : List (Row K V)} (h : Twice cmp r l) (l' : List (Row K V)) : Twice cmp r (l' ++ l) :=
  (h.left l').perm List.perm_append_comm

theorem Spec.Twice.cons {r x : Row K V} {l : List (Row K V)} (h : Twice cmp r l) : Twice cmp r (x :: l) :=
  h.right [x]

theorem Spec.Twice.of_sub {r : Row K V} {l l' : List (Row K V)} (h : Twice cmp r l) (x : List (Row K V)) (hp : (l ++ x).Perm l') :
    Twice cmp r l' := (h.left x).perm hp

theorem Spec.Twice.of_mem {r r' : Row K V} {l l' : List (Row K V)} (h : r ∈ l) (h' : r' ∈ l') (hc : cmp r.1 r'.1 = 0) :
    Twice cmp r (l ++ l') := by
  obtain ⟨a, b, rfl⟩ := List.append_of_mem h
  obtain ⟨c, d, rfl⟩ := List.append_of_mem h'
  refine ⟨r', a ++ b ++ c ++ d, ?_, hc⟩
  have h1 : (a ++ r :: b).Perm (r :: (a ++ b)) := List.perm_middle
  have h2 : (c ++ r' :: d).Perm (r' :: (c ++ d)) := List.perm_middle
  refine (h1.append h2).trans ?_
  simp only [List.cons_append]
  refine List.Perm.cons _ ?_
  refine List.perm_middle.trans ?_
  simp only [List.append_assoc]
  exact List.Perm.refl _

/-- Rows with distinct keys have no duplicate. -/
theorem Spec.Twice.not_distinct (ho : Order cmp) {r : Row K V} {l : List (Row K V)} (h : Twice cmp r l) : ¬ Distinct cmp l := by
  obtain ⟨r', t, h1, h2⟩ := h
  intro hd
  have : Distinct cmp (r :: r' :: t) :=
    (h1.pairwise_iff (R := fun a b : Row K V => cmp a.1 b.1 ≠ 0) (fun {a b} h h' => h (ho.comm0 (a := b.1) (b := a.1) h'))).1 hd
  unfold Distinct at this
  rw [List.pairwise_cons] at this
  exact this.1 r' (by simp) h2

theorem Spec.Sorted.distinct {l : List (Row K V)} (h : Sorted cmp l) : Distinct cmp l :=
  List.Pairwise.imp (fun h => by omega) h

theorem Spec.Distinct.perm (ho : Order cmp) {l l' : List (Row K V)} (h : Distinct cmp l) (hp : l.Perm l') : Distinct cmp l' :=
  (hp.pairwise_iff (R := fun a b : Row K V => cmp a.1 b.1 ≠ 0) (fun {a b} h h' => h (ho.comm0 (a := b.1) (b := a.1) h'))).1 h

/-- The result is the rows sorted, or a duplicate. -/
def Good (cmp : K → K → Int) (l : List (Row K V)) : R K V (List (Row K V)) → Prop
  | .ok d => Sorted cmp d ∧ d.Perm l
  | .err (.exist r) => Twice cmp r l
  | .err _ => False
  | .crash => False

theorem Good.perm {l l' : List (Row K V)} {x : R K V (List (Row K V))} (h : Good cmp l x) (hp : l.Perm l') : Good cmp l' x := by
  unfold Good at *
  split at h
  · exact ⟨h.1, h.2.trans hp⟩
  · exact h.perm hp
  · exact h
  · exact h

theorem mergeLoop_good (ho : Order cmp) : ∀ (n : Nat) (a b : List (Row K V)), a.length + b.length ≤ n → Sorted cmp a → Sorted cmp b →
    Good cmp (a ++ b) (mergeLoop cmp n a b) := by
  intro n
  induction n with
  | zero =>
    intro a b hn ha hb
    have h1 : a = [] := List.eq_nil_of_length_eq_zero (by omega)
    have h2 : b = [] := List.eq_nil_of_length_eq_zero (by omega)
    subst h1; subst h2
    exact ⟨List.Pairwise.nil, List.Perm.refl _⟩
  | succ n ih =>
    intro a b hn ha hb
    match a, b with
    | [], b => simp only [mergeLoop]; exact ⟨hb, by simp⟩
    | x :: a, [] => simp only [mergeLoop]; exact ⟨ha, by simp⟩
    | x :: a, y :: b =>
      simp only [mergeLoop]
      have ha' := (List.pairwise_cons.1 ha)
      have hb' := (List.pairwise_cons.1 hb)
      split
      · rename_i hc
        exact Twice.of_mem (l := x :: a) (l' := y :: b) (by simp) (r' := y) (by simp) hc
      · split
        · rename_i h0 hc
          have hi := ih a (y :: b) (by simp at *; omega) ha'.2 hb
          cases hm : mergeLoop cmp n a (y :: b) with
          | ok d =>
            rw [hm] at hi
            refine ⟨?_, ?_⟩
            · refine List.pairwise_cons.2 ⟨fun z hz => ?_, hi.1⟩
              have hz' := hi.2.mem_iff.1 hz
              rcases List.mem_append.1 hz' with h | h
              · exact ha'.1 z h
              · rcases List.mem_cons.1 h with rfl | h
                · exact hc
                · exact ho.lt_trans hc (hb'.1 z h)
            · exact List.Perm.cons _ hi.2
          | err c =>
            rw [hm] at hi
            cases c with
            | exist r => exact Twice.cons hi
            | _ => exact hi.elim
          | crash => rw [hm] at hi; exact hi.elim
        · rename_i h0 hc
          have hc' : cmp y.1 x.1 < 0 := ho.gt (by omega)
          have hi := ih (x :: a) b (by simp at *; omega) ha hb'.2
          cases hm : mergeLoop cmp n (x :: a) b with
          | ok d =>
            rw [hm] at hi
            refine ⟨?_, ?_⟩
            · refine List.pairwise_cons.2 ⟨fun z hz => ?_, hi.1⟩
              have hz' := hi.2.mem_iff.1 hz
              rcases List.mem_append.1 hz' with h | h
              · rcases List.mem_cons.1 h with rfl | h
                · exact hc'
                · exact ho.lt_trans hc' (ha'.1 z h)
              · exact hb'.1 z h
            · exact (List.Perm.cons y hi.2).trans List.perm_middle.symm
          | err c =>
            rw [hm] at hi
            cases c with
            | exist r => exact (Twice.cons (x := y) hi).perm List.perm_middle.symm
            | _ => exact hi.elim
          | crash => rw [hm] at hi; exact hi.elim

theorem mergeBase_good (ho : Order cmp) (a b : List (Row K V)) (ha : Sorted cmp a) (hb : Sorted cmp b) :
    Good cmp (a ++ b) (mergeBase cmp a b) := mergeLoop_good ho _ a b (Nat.le_refl _) ha hb

/-- What `binary_search` finds. -/
def Place (cmp : K → K → Int) (key : K) (a : List (Row K V)) (before : Nat) : R K V Nat → Prop
  | .ok p => ∃ j, p = before + j ∧ j ≤ a.length ∧ (∀ x ∈ a.take j, cmp x.1 key < 0) ∧ (∀ x ∈ a.drop j, cmp key x.1 < 0)
  | .err (.exist r) => r ∈ a ∧ cmp key r.1 = 0
  | .err _ => False
  | .crash => False

theorem sorted_take_drop {a : List (Row K V)} (h : Sorted cmp a) (n : Nat) :
    Sorted cmp (a.take n) ∧ Sorted cmp (a.drop n) ∧ ∀ x ∈ a.take n, ∀ y ∈ a.drop n, cmp x.1 y.1 < 0 := by
  have h' : (a.take n ++ a.drop n).Pairwise (fun a b => cmp a.1 b.1 < 0) := by rw [List.take_append_drop]; exact h
  exact List.pairwise_append.1 h'

theorem binSearch_place (ho : Order cmp) (key : K) : ∀ (n : Nat) (a : List (Row K V)) (before : Nat), a.length < n → Sorted cmp a →
    Place cmp key a before (binSearch cmp key n a before) := by
  intro n
  induction n with
  | zero => intro a before h; omega
  | succ n ih =>
    intro a before hn hs
    simp only [binSearch]
    split
    · rename_i h0
      exact ⟨0, by omega, by omega, by simp, by
        have := List.eq_nil_of_length_eq_zero h0
        subst this; simp⟩
    · rename_i h0
      have hlt : a.length / 2 < a.length := by omega
      rw [List.getElem?_eq_getElem hlt]
      simp only
      have hs' := sorted_take_drop hs (a.length / 2)
      have hd : a.drop (a.length / 2) = a[a.length / 2] :: a.drop (a.length / 2 + 1) := List.drop_eq_getElem_cons hlt
      have hmid : a[a.length / 2] ∈ a.drop (a.length / 2) := by rw [List.drop_eq_getElem_cons hlt]; exact List.mem_cons_self
      have hs2 := hs'.2.1
      rw [hd] at hs2
      have hs3 := List.pairwise_cons.1 hs2
      split
      · rename_i hc
        exact ⟨List.getElem_mem hlt, hc⟩
      · split
        · rename_i hc0 hc
          have hall : ∀ x ∈ a.drop (a.length / 2), cmp key x.1 < 0 := by
            rw [hd]
            intro x hx
            rcases List.mem_cons.1 hx with rfl | hx
            · exact hc
            · exact ho.lt_trans hc (hs3.1 x hx)
          split
          · rename_i h1
            refine ⟨0, by omega, by omega, by simp, ?_⟩
            rw [h1] at hall
            exact hall
          · have hi := ih (a.take (a.length / 2)) before (by simp; omega) hs'.1
            revert hi
            cases binSearch cmp key n (a.take (a.length / 2)) before with
            | ok p =>
              rintro ⟨j, hp, hj, h1, h2⟩
              simp only [List.length_take] at hj
              refine ⟨j, hp, by omega, ?_, ?_⟩
              · rw [List.take_take] at h1
                rw [show min j (a.length / 2) = j by omega] at h1
                exact h1
              · intro x hx
                have : a.drop j = (a.take (a.length / 2)).drop j ++ a.drop (a.length / 2) := by
                  conv => lhs; rw [← List.take_append_drop (a.length / 2) a]
                  rw [List.drop_append_of_le_length (by simp; omega)]
                rw [this] at hx
                rcases List.mem_append.1 hx with hx | hx
                · exact h2 x hx
                · exact hall x hx
            | err c =>
              cases c with
              | exist r => rintro ⟨h1, h2⟩; exact ⟨List.mem_of_mem_take h1, h2⟩
              | _ => exact id
            | crash => exact id
        · rename_i hc0 hc
          have hc' : cmp a[a.length / 2].1 key < 0 := ho.gt (by omega)
          split
          · rename_i h1
            refine ⟨1, by omega, by omega, ?_, ?_⟩
            · match a, h1 with
              | [x], _ => simpa using hc'
            · match a, h1 with
              | [x], _ => simp
          · have hi := ih (a.drop (a.length / 2)) (before + a.length / 2) (by simp; omega) hs'.2.1
            revert hi
            cases binSearch cmp key n (a.drop (a.length / 2)) (before + a.length / 2) with
            | ok p =>
              rintro ⟨j, hp, hj, h1, h2⟩
              simp only [List.length_drop] at hj
              refine ⟨a.length / 2 + j, by omega, by omega, ?_, ?_⟩
              · intro x hx
                rw [List.take_add] at hx
                rcases List.mem_append.1 hx with hx | hx
                · exact ho.lt_trans (hs'.2.2 x hx a[a.length / 2] hmid) hc'
                · exact h1 x hx
              · rw [← List.drop_drop]
                exact h2
            | err c =>
              cases c with
              | exist r => rintro ⟨h1, h2⟩; exact ⟨List.mem_of_mem_drop h1, h2⟩
              | _ => exact id
            | crash => exact id

/-- Two merged halves. -/
theorem both_good (ho : Order cmp) {l l' : List (Row K V)} {x y : R K V (List (Row K V))} (h : Good cmp l x) (h' : Good cmp l' y)
    (hlt : ∀ a ∈ l, ∀ b ∈ l', cmp a.1 b.1 < 0) : Good cmp (l ++ l') (both x y) := by
  cases x with
  | ok d =>
    cases y with
    | ok d' =>
      refine ⟨List.pairwise_append.2 ⟨h.1, h'.1, fun a ha b hb => hlt a (h.2.mem_iff.1 ha) b (h'.2.mem_iff.1 hb)⟩, h.2.append h'.2⟩
    | err c =>
      cases c with
      | exist r => exact Twice.right h' l
      | _ => exact h'.elim
    | crash => exact h'.elim
  | err c =>
    cases c with
    | exist r =>
      cases y with
      | crash => exact h'.elim
      | _ => exact Twice.left h l'
    | _ => exact h.elim
  | crash => exact h.elim

theorem mergeRows_good (ho : Order cmp) {thr : Nat} (ht : 3 ≤ thr) : ∀ (n : Nat) (a b : List (Row K V)), a.length + b.length < n →
    Sorted cmp a → Sorted cmp b → Good cmp (a ++ b) (mergeRows cmp thr n a b) := by
  intro n
  induction n with
  | zero => intro a b h; omega
  | succ n ih =>
    intro a' b' hn ha hb
    simp only [mergeRows]
    split
    · exact mergeBase_good ho a' b' ha hb
    · rename_i hthr
      have key : ∀ (a b : List (Row K V)), Sorted cmp a → Sorted cmp b → b.length ≤ a.length → a.length + b.length = a'.length + b'.length →
          Good cmp (a ++ b) (match a[a.length / 2]? with
            | none => .crash
            | some x =>
              match binSearch cmp x.1 (b.length + 1) b 0 with
              | .err e => .err e
              | .crash => .crash
              | .ok b2 =>
                both (mergeRows cmp thr n (a.take (a.length / 2)) (b.take b2))
                  (mergeRows cmp thr n (a.drop (a.length / 2)) (b.drop b2))) := by
        intro a b ha hb hle hlen
        have hlt : a.length / 2 < a.length := by omega
        rw [List.getElem?_eq_getElem hlt]
        simp only
        have hsa := sorted_take_drop ha (a.length / 2)
        have hd : a.drop (a.length / 2) = a[a.length / 2] :: a.drop (a.length / 2 + 1) := List.drop_eq_getElem_cons hlt
        have hmid : a[a.length / 2] ∈ a.drop (a.length / 2) := by rw [List.drop_eq_getElem_cons hlt]; exact List.mem_cons_self
        have hs2 := hsa.2.1
        rw [hd] at hs2
        have hs3 := List.pairwise_cons.1 hs2
        have hp := binSearch_place ho a[a.length / 2].1 (b.length + 1) b 0 (by omega) hb
        revert hp
        cases binSearch cmp a[a.length / 2].1 (b.length + 1) b 0 with
        | crash => exact fun h => h.elim
        | err c =>
          cases c with
          | exist r =>
            rintro ⟨h1, h2⟩
            exact (Twice.of_mem (l := b) (l' := a) h1 (List.getElem_mem hlt) (ho.comm0 h2)).perm List.perm_append_comm
          | _ => exact fun h => h.elim
        | ok p =>
          rintro ⟨j, hp, hj, h1, h2⟩
          have : p = j := by omega
          subst this
          have hsb := sorted_take_drop hb p
          have g1 := ih (a.take (a.length / 2)) (b.take p) (by simp; omega) hsa.1 hsb.1
          have g2 := ih (a.drop (a.length / 2)) (b.drop p) (by simp; omega) hsa.2.1 hsb.2.1
          have g := both_good ho g1 g2 ?_
          · refine g.perm ?_
            have e1 : (a.take (a.length / 2) ++ b.take p ++ (a.drop (a.length / 2) ++ b.drop p)).Perm
                (a.take (a.length / 2) ++ a.drop (a.length / 2) ++ (b.take p ++ b.drop p)) := by
              simp only [List.append_assoc]
              refine List.Perm.append_left _ ?_
              simp only [← List.append_assoc]
              refine List.Perm.append_right _ ?_
              exact List.perm_append_comm
            rw [List.take_append_drop, List.take_append_drop] at e1
            exact e1
          · intro x hx y hy
            have hx' : cmp x.1 a[a.length / 2].1 < 0 := by
              rcases List.mem_append.1 hx with hx | hx
              · exact hsa.2.2 x hx a[a.length / 2] hmid
              · exact h1 x hx
            have hy' : cmp a[a.length / 2].1 y.1 ≤ 0 := by
              rcases List.mem_append.1 hy with hy | hy
              · rw [hd] at hy
                rcases List.mem_cons.1 hy with rfl | hy
                · have := ho.refl a[a.length / 2].1; omega
                · have := hs3.1 y hy; omega
              · have := h2 y hy; omega
            exact ho.lt_of_lt_of_le hx' hy'
      by_cases hab : a'.length < b'.length
      · simp only [if_pos hab]
        exact (key b' a' hb ha (by omega) (by omega)).perm List.perm_append_comm
      · simp only [if_neg hab]
        exact key a' b' ha hb (by omega) (by omega)

theorem mergeSort_good (ho : Order cmp) {thr : Nat} (ht : 3 ≤ thr) : ∀ (n : Nat) (l : List (Row K V)), l.length < n →
    Good cmp l (mergeSort cmp thr n l) := by
  intro n
  induction n with
  | zero => intro l h; omega
  | succ n ih =>
    intro l hn
    simp only [mergeSort]
    split
    · rename_i h1
      refine ⟨?_, List.Perm.refl _⟩
      match l, h1 with
      | [], _ => exact List.Pairwise.nil
      | [x], _ => exact List.pairwise_singleton _ _
    · rename_i h1
      have g1 := ih (l.take (l.length / 2)) (by simp; omega)
      have g2 := ih (l.drop (l.length / 2)) (by simp; omega)
      have hl : (l.take (l.length / 2) ++ l.drop (l.length / 2)).Perm l := by rw [List.take_append_drop]
      revert g1 g2
      cases mergeSort cmp thr n (l.take (l.length / 2)) with
      | crash => exact fun h => h.elim
      | err c =>
        cases c with
        | exist r =>
          intro g1
          cases mergeSort cmp thr n (l.drop (l.length / 2)) with
          | crash => exact fun h => h.elim
          | _ => intro _; exact g1.of_sub _ hl
        | _ => exact fun h => h.elim
      | ok a =>
        intro g1
        cases mergeSort cmp thr n (l.drop (l.length / 2)) with
        | crash => exact fun h => h.elim
        | err c =>
          cases c with
          | exist r => intro g2; exact (g2.right _).perm hl
          | _ => exact fun h => h.elim
        | ok b =>
          intro g2
          exact (mergeRows_good ho ht _ a b (by omega) g1.1 g2.1).perm ((g1.2.append g2.2).trans hl)

theorem sortRows_good {e : Env K V} (he : EnvOk e) (l : List (Row K V)) : Good e.cmp l (sortRows e l) :=
  mergeSort_good he.order he.thr _ l (by omega)

end Verif.Load
