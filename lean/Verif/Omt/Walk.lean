import Verif.Omt.Edit
import Verif.Omt.Spec
/-!
Iteration and marks.
-/
namespace Verif.Omt
open Spec (S vals visit visited range setMarks markedOnes change)

set_option linter.unusedVariables false
set_option linter.unusedSimpArgs false

variable {α β σ : Type}

/-- The values picked by index and mark, with their indexes. -/
def sel (p : Nat → Bool → Bool) : S α → Nat → List (α × Nat)
  | [], _ => []
  | (v, m) :: l, i => if p i m then (v, i) :: sel p l (i + 1) else sel p l (i + 1)

theorem sel_append (p : Nat → Bool → Bool) (A B : S α) (i : Nat) : sel p (A ++ B) i = sel p A i ++ sel p B (i + A.length) := by
  induction A generalizing i with
  | nil => simp [sel]
  | cons x A ih =>
    obtain ⟨v, m⟩ := x
    simp only [List.cons_append, sel, ih, List.length_cons]
    have : i + 1 + A.length = i + (A.length + 1) := by omega
    rw [this]
    split <;> simp

theorem sel_none {p : Nat → Bool → Bool} {A : S α} {i : Nat} (h : ∀ j m, i ≤ j → j < i + A.length → p j m = false) : sel p A i = [] := by
  induction A generalizing i with
  | nil => rfl
  | cons x A ih =>
    obtain ⟨v, m⟩ := x
    simp only [List.length_cons] at h
    simp only [sel, h i m (Nat.le_refl _) (by omega), Bool.false_eq_true, if_false]
    exact ih (fun j m h1 h2 => h j m (by omega) (by omega))

theorem visit_append (f : α → Nat → σ → σ × Int) (A B : List (α × Nat)) (s : σ) : visit f (A ++ B) s = if (visit f A s).2 ≠ 0 then visit f A s else visit f B (visit f A s).1 := by
  induction A generalizing s with
  | nil => simp [visit]
  | cons x A ih =>
    obtain ⟨v, i⟩ := x
    simp only [List.cons_append, visit]
    by_cases h : (f v i s).2 = 0
    · simp only [h, ih]; simp
    · simp only [ne_eq, h, not_false_eq_true, if_true]

/-- The range. -/
def inR (left right : Nat) : Nat → Bool → Bool := fun i _ => left ≤ i && i < right

theorem range_eq (s : S α) (left right k : Nat) : sel (inR left right) s k = (((vals s).zipIdx k).take (right - k)).drop (left - k) := by
  induction s generalizing k with
  | nil => simp [sel, vals]
  | cons x s ih =>
    obtain ⟨v, m⟩ := x
    simp only [sel, vals, List.map_cons, List.zipIdx_cons]
    have hv : List.map (·.1) s = vals s := rfl
    rw [hv]
    by_cases h1 : right ≤ k
    · have e0 : right - k = 0 := by omega
      have hp : inR left right k m = false := by simp [inR]; omega
      rw [hp, e0, ih]
      have : right - (k + 1) = 0 := by omega
      rw [this]; simp
    · obtain ⟨d, hd⟩ : ∃ d, right - k = d + 1 := ⟨right - k - 1, by omega⟩
      have hd' : right - (k + 1) = d := by omega
      rw [hd, ih, hd', List.take_succ_cons]
      by_cases h2 : k < left
      · have hp : inR left right k m = false := by simp [inR]; omega
        obtain ⟨c, hc⟩ : ∃ c, left - k = c + 1 := ⟨left - k - 1, by omega⟩
        have hc' : left - (k + 1) = c := by omega
        rw [hp, hc, hc', List.drop_succ_cons]; simp
      · have hp : inR left right k m = true := by simp [inR]; omega
        have e0 : left - k = 0 := by omega
        have e1 : left - (k + 1) = 0 := by omega
        rw [hp, e0, e1]; simp

theorem range_sel (s : S α) (left right : Nat) : sel (inR left right) s 0 = range s left right := by
  rw [range_eq]; rfl

theorem iterI_ok {f : α → Nat → σ → σ × Int} {left right : Nat} {t : T α} (ho : t.OK) (idx : Nat) (s : σ) : iterI f left right t idx s = visit f (sel (inR left right) t.toL idx) s := by
  induction t generalizing idx s with
  | nil => rfl
  | node w m b l x r ihl ihr =>
    obtain ⟨hw, hb, hl, hr⟩ := ho
    rw [toL_node, sel_append, visit_append]
    simp only [iterI, weight_eq hl, sel]
    have e1 : (if left < idx + l.toL.length then iterI f left right l idx s else (s, 0)) = visit f (sel (inR left right) l.toL idx) s := by
      split
      · exact ihl hl idx s
      · rw [sel_none (by intro j m h1 h2; simp [inR]; omega)]; rfl
    rw [e1]
    generalize visit f (sel (inR left right) l.toL idx) s = x1
    obtain ⟨s1, c1⟩ := x1
    simp only
    split
    · rfl
    · have e2 : ∀ s, (if idx + l.toL.length + 1 < right then iterI f left right r (idx + l.toL.length + 1) s else (s, 0)) = visit f (sel (inR left right) r.toL (idx + l.toL.length + 1)) s := by
        intro s
        split
        · exact ihr hr _ s
        · rw [sel_none (by intro j m h1 h2; simp [inR]; omega)]; rfl
      simp only [e2]
      by_cases hp : left ≤ idx + l.toL.length ∧ idx + l.toL.length < right
      · have : inR left right (idx + l.toL.length) m = true := by simp [inR, hp]
        simp only [if_pos hp, this, if_true, visit]
      · have : inR left right (idx + l.toL.length) m = false := by simp [inR]; omega
        simp only [if_neg hp, this, Bool.false_eq_true, if_false, ne_eq, not_true_eq_false]

theorem iterA_ok {rd : Nat → Option α} {start : Nat} {f : α → Nat → σ → σ × Int} {L : List α} {i : Nat} (H : Holds rd (start + i) L) (s : σ) : iterA rd start f L.length i s = some (visit f (L.zipIdx i) s) := by
  induction L generalizing i s with
  | nil => rfl
  | cons v L ih =>
    have h0 := H 0 (by simp)
    simp at h0
    have H' : Holds rd (start + (i + 1)) L := by
      intro j hj
      have := H (j + 1) (by simp; omega)
      simp at this
      rw [← this]; congr 1; omega
    simp only [List.length_cons, iterA, h0, bind, Option.bind, List.zipIdx_cons, visit]
    split
    · rfl
    · exact ih H' _

theorem iterate_ok {sm : Bool} {l : S α} {o : O α} (h : Rep sm l o) (f : α → Nat → σ → σ × Int) {left right : Nat} (hlr : left ≤ right) (s : σ) :
    iterate o f left right s = some (if right > l.length then .error .inval else .ok (visit f (range l left right) s)) := by
  simp only [iterate, rep_size h]
  split
  · rfl
  · rename_i hr
    by_cases he : left = right
    · rw [if_pos he, he]
      have : range l right right = [] := by
        simp only [range]
        apply List.drop_eq_nil_of_le
        simp; omega
      rw [this]; rfl
    · rw [if_neg he]
      cases o with
      | arr a =>
        have H := h.2.2.2.2
        have H' : Holds a.read (a.start + left) (((vals l).take right).drop left) := by
          intro i hi
          simp [vals] at hi
          rw [List.getElem?_drop, List.getElem?_take, if_pos (by omega), Nat.add_assoc]
          exact H (left + i) (by simp; omega)
        have := iterA_ok (f := f) H' s
        have hlen : (((vals l).take right).drop left).length = right - left := by simp [vals]; omega
        rw [hlen] at this
        simp only [this, Option.map_some]
        congr 3
        simp only [range]
        apply List.ext_getElem?
        intro i
        rw [List.getElem?_zipIdx, List.getElem?_drop, List.getElem?_drop, List.getElem?_take, List.getElem?_take, List.getElem?_zipIdx]
        split <;> simp
      | tree t =>
        simp only [iterI_ok h.1, h.2.1, range_sel]

theorem markedOnes_sel (s : S α) (k : Nat) : sel (fun _ m => m) s k = ((s.zipIdx k).filter (fun x => x.1.2)).map (fun x => (x.1.1, x.2)) := by
  induction s generalizing k with
  | nil => rfl
  | cons x s ih =>
    obtain ⟨v, m⟩ := x
    simp only [sel, ih, List.zipIdx_cons, List.filter_cons]
    cases m <;> simp

theorem sel_unmarked {A : S α} (h : marked A = false) (i : Nat) : sel (fun _ m => m) A i = [] := by
  induction A generalizing i with
  | nil => rfl
  | cons x A ih =>
    obtain ⟨v, m⟩ := x
    rw [marked_cons, Bool.or_eq_false_iff] at h
    simp only at h
    simp only [sel, h.1, ih h.2]; simp

theorem markedI_ok {f : α → Nat → σ → σ × Int} {t : T α} (ho : t.OK) (idx : Nat) (s : σ) : markedI f t idx s = visit f (sel (fun _ m => m) t.toL idx) s := by
  induction t generalizing idx s with
  | nil => rfl
  | node w m b l x r ihl ihr =>
    obtain ⟨hw, hb, hl, hr⟩ := ho
    rw [toL_node, sel_append, visit_append]
    simp only [markedI, weight_eq hl, sel]
    have hb' : b = false → marked l.toL = false ∧ marked r.toL = false := by
      intro e; rw [e] at hb; simpa using hb.symm
    have e1 : (if b = true then markedI f l idx s else (s, 0)) = visit f (sel (fun _ m => m) l.toL idx) s := by
      cases b with
      | true => exact ihl hl idx s
      | false => rw [sel_unmarked (hb' rfl).1]; rfl
    rw [e1]
    generalize visit f (sel (fun _ m => m) l.toL idx) s = x1
    obtain ⟨s1, c1⟩ := x1
    simp only
    split
    · rfl
    · have e2 : ∀ s, (if b = true then markedI f r (idx + l.toL.length + 1) s else (s, 0)) = visit f (sel (fun _ m => m) r.toL (idx + l.toL.length + 1)) s := by
        intro s
        cases b with
        | true => exact ihr hr _ s
        | false => rw [sel_unmarked (hb' rfl).2]; rfl
      simp only [e2]
      cases m with
      | true => simp only [if_true, visit]
      | false => simp only [Bool.false_eq_true, if_false, ne_eq, not_true_eq_false]

theorem iterateMarked_ok {l : S α} {o : O α} (h : Rep true l o) (f : α → Nat → σ → σ × Int) (s : σ) : iterateMarked o f s = some (visit f (markedOnes l) s) := by
  cases o with
  | arr a => cases h.1
  | tree t =>
    simp only [iterateMarked, markedI_ok h.1, h.2.1, markedOnes_sel]
    rfl

/-- The list after marking in a range. -/
def mw (f : α → Nat → σ → σ × Int) (left right : Nat) : S α → Nat → σ → S α
  | [], _, _ => []
  | (v, m) :: l, i, s =>
    if inR left right i m then (v, true) :: (if (f v i s).2 ≠ 0 then l else mw f left right l (i + 1) (f v i s).1)
    else (v, m) :: mw f left right l (i + 1) s

theorem mw_append (f : α → Nat → σ → σ × Int) (left right : Nat) (A B : S α) (i : Nat) (s : σ) :
    mw f left right (A ++ B) i s = mw f left right A i s ++ (if (visit f (sel (inR left right) A i) s).2 ≠ 0 then B else mw f left right B (i + A.length) (visit f (sel (inR left right) A i) s).1) := by
  induction A generalizing i s with
  | nil => simp [mw, sel, visit]
  | cons x A ih =>
    obtain ⟨v, m⟩ := x
    have e : i + 1 + A.length = i + (A.length + 1) := by omega
    simp only [List.cons_append, mw, sel, List.length_cons]
    by_cases hp : inR left right i m = true
    · simp only [if_pos hp, visit]
      by_cases hf : (f v i s).2 = 0
      · simp only [hf, ne_eq, not_true_eq_false, if_false, ih, e, List.cons_append]
      · simp only [ne_eq, hf, not_false_eq_true, if_true, List.cons_append]
    · simp only [if_neg hp, ih, e, List.cons_append]

theorem mw_none {f : α → Nat → σ → σ × Int} {left right : Nat} {A : S α} {i : Nat} (h : ∀ j m, i ≤ j → j < i + A.length → inR left right j m = false) (s : σ) : mw f left right A i s = A := by
  induction A generalizing i with
  | nil => rfl
  | cons x A ih =>
    obtain ⟨v, m⟩ := x
    simp only [List.length_cons] at h
    simp only [mw, h i m (Nat.le_refl _) (by omega), Bool.false_eq_true, if_false]
    rw [ih (fun j m h1 h2 => h j m (by omega) (by omega))]

theorem mw_length (f : α → Nat → σ → σ × Int) (left right : Nat) (A : S α) (i : Nat) (s : σ) : (mw f left right A i s).length = A.length := by
  induction A generalizing i s with
  | nil => rfl
  | cons x A ih =>
    obtain ⟨v, m⟩ := x
    simp only [mw]
    split
    · simp only [List.length_cons]
      split
      · rfl
      · rw [ih]
    · simp only [List.length_cons, ih]

theorem mw_marked (f : α → Nat → σ → σ × Int) {left right : Nat} (hlr : left < right) (A : S α) {i : Nat} (s : σ) (h1 : i < right) (h2 : left < i + A.length) (h3 : 0 < A.length) : marked (mw f left right A i s) = true := by
  induction A generalizing i s with
  | nil => simp at h3
  | cons x A ih =>
    obtain ⟨v, m⟩ := x
    simp only [mw]
    split
    · rw [marked_cons]; rfl
    · rename_i hp
      simp only [inR, Bool.and_eq_true, decide_eq_true_eq] at hp
      simp only [List.length_cons] at h2
      rw [marked_cons, ih s (by omega) (by omega) (by omega)]
      simp

theorem markI_ok {f : α → Nat → σ → σ × Int} {left right : Nat} (hlr : left < right) {t : T α} (ho : t.OK) {idx : Nat} (h1 : idx < right) (h2 : left < idx + t.toL.length) (s : σ) :
    ∃ t', markI f left right t idx s = (t', visit f (sel (inR left right) t.toL idx) s) ∧ t'.OK ∧ t'.toL = mw f left right t.toL idx s := by
  induction t generalizing idx s with
  | nil => exact ⟨.nil, rfl, trivial, rfl⟩
  | node w m b l x r ihl ihr =>
    obtain ⟨hw, hb, hl, hr⟩ := ho
    rw [toL_node] at h2
    simp only [List.length_append, List.length_cons] at h2
    -- the left part
    obtain ⟨l', el, ol, cl, gl⟩ : ∃ l', (if (left < idx + l.toL.length && !l.isNil) = true then markI f left right l idx s else (l, s, 0)) = (l', visit f (sel (inR left right) l.toL idx) s) ∧ l'.OK ∧ l'.toL = mw f left right l.toL idx s ∧ ((left < idx + l.toL.length && !l.isNil) = true → marked l'.toL = true) := by
      by_cases hg : (left < idx + l.toL.length && !l.isNil) = true
      · rw [if_pos hg]
        simp only [Bool.and_eq_true, decide_eq_true_eq, Bool.not_eq_true'] at hg
        obtain ⟨l', e, o, c⟩ := ihl hl h1 hg.1 s
        refine ⟨l', e, o, c, fun _ => ?_⟩
        rw [c]
        apply mw_marked f hlr _ s h1 hg.1
        have : l.toL ≠ [] := fun e => by rw [isNil_iff.mpr e] at hg; simp at hg
        exact List.length_pos_iff.mpr this
      · rw [if_neg hg]
        have hout : ∀ j m, idx ≤ j → j < idx + l.toL.length → inR left right j m = false := by
          intro j m a1 a2
          simp only [Bool.and_eq_true, decide_eq_true_eq, Bool.not_eq_true', not_and, Bool.not_eq_false] at hg
          simp only [inR, Bool.and_eq_false_iff, decide_eq_false_iff_not]
          by_cases hx : left < idx + l.toL.length
          · rw [isNil_iff.mp (hg hx)] at a2; simp at a2; omega
          · omega
        exact ⟨l, by rw [sel_none hout]; rfl, hl, (mw_none hout s).symm, fun h => absurd h hg⟩
    have er : ∀ s, ∃ r', (if (idx + l.toL.length + 1 < right && !r.isNil) = true then markI f left right r (idx + l.toL.length + 1) s else (r, s, 0)) = (r', visit f (sel (inR left right) r.toL (idx + l.toL.length + 1)) s) ∧ r'.OK ∧ r'.toL = mw f left right r.toL (idx + l.toL.length + 1) s ∧ ((idx + l.toL.length + 1 < right && !r.isNil) = true → marked r'.toL = true) := by
      intro s
      by_cases hg : (idx + l.toL.length + 1 < right && !r.isNil) = true
      · rw [if_pos hg]
        simp only [Bool.and_eq_true, decide_eq_true_eq, Bool.not_eq_true'] at hg
        obtain ⟨r', e, o, c⟩ := ihr hr hg.1 (by omega) s
        refine ⟨r', e, o, c, fun _ => ?_⟩
        rw [c]
        apply mw_marked f hlr _ s hg.1 (by omega)
        have : r.toL ≠ [] := fun e => by rw [isNil_iff.mpr e] at hg; simp at hg
        exact List.length_pos_iff.mpr this
      · rw [if_neg hg]
        have hout : ∀ j m, idx + l.toL.length + 1 ≤ j → j < idx + l.toL.length + 1 + r.toL.length → inR left right j m = false := by
          intro j m a1 a2
          simp only [Bool.and_eq_true, decide_eq_true_eq, Bool.not_eq_true', not_and, Bool.not_eq_false] at hg
          simp only [inR, Bool.and_eq_false_iff, decide_eq_false_iff_not]
          by_cases hx : idx + l.toL.length + 1 < right
          · rw [isNil_iff.mp (hg hx)] at a2; simp at a2; omega
          · omega
        exact ⟨r, by rw [sel_none hout]; rfl, hr, (mw_none hout s).symm, fun h => absurd h hg⟩
    rw [toL_node, sel_append, visit_append, mw_append]
    unfold markI
    simp only [weight_eq hl]
    generalize hgL : (left < idx + l.toL.length && !l.isNil) = goL at el gl ⊢
    generalize hgR : (idx + l.toL.length + 1 < right && !r.isNil) = goR at er ⊢
    rw [el]
    have ll : l'.toL.length = l.toL.length := by rw [cl, mw_length]
    generalize hx1 : visit f (sel (inR left right) l.toL idx) s = x1 at el ⊢
    obtain ⟨s1, c1⟩ := x1
    simp only
    have hbl : (b || goL) = (marked l'.toL || marked r.toL) := by
      cases goL with
      | true => rw [gl rfl]; simp
      | false =>
        simp only [Bool.false_eq_true, if_false, Prod.mk.injEq] at el
        rw [← el.1, Bool.or_false]; exact hb
    by_cases hc1 : c1 = 0
    · subst hc1
      simp only [ne_eq, not_true_eq_false, if_false]
      have hin : inR left right (idx + l.toL.length) m = (left ≤ idx + l.toL.length && idx + l.toL.length < right) := rfl
      simp only [sel, mw, hin]
      generalize (left ≤ idx + l.toL.length && idx + l.toL.length < right) = here
      have key : ∀ s2, ∃ t', (if goR = true then (T.node w (m || here) true l' x (markI f left right r (idx + l.toL.length + 1) s2).1, (markI f left right r (idx + l.toL.length + 1) s2).2) else (T.node w (m || here) (b || goL) l' x r, s2, 0)) = (t', visit f (sel (inR left right) r.toL (idx + l.toL.length + 1)) s2) ∧ t'.OK ∧ t'.toL = mw f left right l.toL idx s ++ (x, m || here) :: mw f left right r.toL (idx + l.toL.length + 1) s2 := by
        intro s2
        obtain ⟨r', e, o, c, g⟩ := er s2
        have rl : r'.toL.length = r.toL.length := by rw [c, mw_length]
        cases goR with
        | true =>
          simp only [if_true] at e ⊢
          rw [e]
          exact ⟨_, rfl, ⟨by rw [ll, rl]; exact hw, by rw [g rfl]; simp, ol, o⟩, by rw [toL_node, cl, c]⟩
        | false =>
          simp only [Bool.false_eq_true, if_false, Prod.mk.injEq] at e ⊢
          obtain ⟨e1, e2⟩ := e
          subst e1
          exact ⟨_, ⟨rfl, e2⟩, ⟨by rw [ll]; exact hw, hbl, ol, o⟩, by rw [toL_node, cl, ← c]⟩
      cases here with
      | false =>
        simp only [Bool.false_eq_true, if_false, not_true_eq_false]
        have := key s1
        simp only [Bool.or_false] at this
        obtain ⟨t', e, o, c⟩ := this
        exact ⟨t', by simpa only [Bool.or_false] using e, o, c⟩
      | true =>
        simp only [if_true, visit]
        by_cases hf : (f x (idx + l.toL.length) s1).2 = 0
        · simp only [hf, not_true_eq_false, if_false]
          have := key (f x (idx + l.toL.length) s1).1
          simp only [Bool.or_true] at this ⊢
          exact this
        · simp only [ne_eq, hf, not_false_eq_true, if_true, if_pos hf]
          exact ⟨.node w (m || true) (b || goL) l' x r, rfl, ⟨by rw [ll]; exact hw, hbl, ol, hr⟩, by rw [toL_node, cl]; simp⟩
    · simp only [ne_eq, hc1, not_false_eq_true, if_true]
      have hg : goL = true := by
        cases goL with
        | true => rfl
        | false => simp at el; exact absurd el.2.2.symm hc1
      exact ⟨_, rfl, ⟨by rw [ll]; exact hw, by rw [gl hg]; simp, ol, hr⟩, by rw [toL_node, cl]⟩

theorem mw_setMarks (f : α → Nat → σ → σ × Int) (left right : Nat) (A : S α) (i : Nat) (s : σ) :
    mw f left right A i s = (A.zipIdx i).map (fun x => (x.1.1, x.1.2 || (max left i ≤ x.2 && x.2 < max left i + visited f (sel (inR left right) A i) s))) := by
  induction A generalizing i s with
  | nil => rfl
  | cons x A ih =>
    obtain ⟨v, m⟩ := x
    have hid : ∀ A : S α, ∀ k n, n ≤ k → A = (A.zipIdx k).map (fun x => (x.1.1, x.1.2 || (i ≤ x.2 && x.2 < n))) := by
      intro A
      induction A with
      | nil => intro k n _; rfl
      | cons y A ih =>
        intro k n hn
        simp only [List.zipIdx_cons, List.map_cons]
        rw [← ih (k + 1) n (by omega)]
        have : decide (k < n) = false := by simp; omega
        simp [this]
    simp only [mw, sel, List.zipIdx_cons, List.map_cons]
    by_cases hp : inR left right i m = true
    · have hi : left ≤ i ∧ i < right := by simpa [inR] using hp
      have hmax : max left i = i := by omega
      simp only [if_pos hp, hmax, visited]
      by_cases hf : (f v i s).2 = 0
      · simp only [hf, ne_eq, not_true_eq_false, if_false, ih]
        congr 1
        · simp; omega
        · apply List.map_congr_left
          rintro ⟨⟨u, m'⟩, j⟩ hj
          have hj := List.le_snd_of_mem_zipIdx hj
          simp only at hj ⊢
          have hm2 : max left (i + 1) = i + 1 := by omega
          rw [hm2]
          congr 3
          · simp; omega
          · congr 1; simp; omega
      · simp only [ne_eq, hf, not_false_eq_true, if_true]
        congr 1
        · simp
        · exact hid A (i + 1) (i + 1) (by omega)
    · simp only [if_neg hp, ih]
      have hi : ¬ (left ≤ i ∧ i < right) := by simpa [inR] using hp
      by_cases hl : left ≤ i
      · have hnone : sel (inR left right) A (i + 1) = [] := sel_none (by intro j m h1 h2; simp [inR]; omega)
        rw [hnone]
        simp only [visited, Nat.add_zero]
        congr 1
        · have : max left i = i := by omega
          rw [this]; simp
        · apply List.map_congr_left
          rintro ⟨⟨u, m'⟩, j⟩ hj
          congr 2
          have a1 : ∀ a : Nat, (decide (a ≤ j) && decide (j < a)) = false := by intro a; simp
          exact (a1 _).trans (a1 _).symm
      · have e1 : max left (i + 1) = left := by omega
        have e2 : max left i = left := by omega
        rw [e1, e2]
        congr 1
        have : decide (left ≤ i) = false := by simp; omega
        simp [this]

theorem iterateMark_ok {l : S α} {o : O α} (h : Rep true l o) (f : α → Nat → σ → σ × Int) {left right : Nat} (hlr : left ≤ right) (s : σ) :
    ∃ o', iterateMark o f left right s = some (if right > l.length then .error .inval else .ok (visit f (range l left right) s), o') ∧
      Rep true (if right > l.length then l else setMarks l left (visited f (range l left right) s)) o' := by
  cases o with
  | arr a => cases h.1
  | tree t =>
    have hsz := rep_size h
    simp only [iterateMark, hsz]
    by_cases hr : right > l.length
    · simp only [if_pos hr]
      exact ⟨_, rfl, h⟩
    · simp only [if_neg hr]
      by_cases he : left = right
      · have hnil : range l left right = [] := by
          rw [he]
          simp only [range]
          apply List.drop_eq_nil_of_le
          simp; omega
        simp only [if_pos he, hnil]
        refine ⟨_, rfl, ?_⟩
        have : setMarks l left 0 = l := by
          simp only [setMarks, Nat.add_zero]
          have e : ∀ A : S α, ∀ k, (A.zipIdx k).map (fun x => (x.1.1, x.1.2 || (left ≤ x.2 && x.2 < left))) = A := by
            intro A
            induction A with
            | nil => intro k; rfl
            | cons y A ih =>
              intro k
              simp only [List.zipIdx_cons, List.map_cons, ih]
              have : (decide (left ≤ k) && decide (k < left)) = false := by simp
              simp [this]
          exact e l 0
        simp only [visited, this]
        exact h
      · have hne : t.root.isNil = false := by
          cases hn : t.root.isNil with
          | false => rfl
          | true =>
            have := isNil_iff.mp hn
            rw [h.2.1] at this
            rw [this] at hr; simp at hr; omega
        simp only [if_neg he, hne, Bool.false_eq_true, if_false]
        obtain ⟨t', e, o, c⟩ := markI_ok (f := f) (left := left) (right := right) (by omega) h.1 (idx := 0) (by omega) (by rw [h.2.1]; omega) s
        rw [e]
        rw [h.2.1, range_sel]
        refine ⟨_, rfl, o, ?_, by intro h; cases h⟩
        rw [c, h.2.1, mw_setMarks, range_sel]
        simp [setMarks]

end Verif.Omt
