import Verif.Omt.Walk
/-!
Deleting what is marked, changes in place, splitting and merging.
-/
namespace Verif.Omt
open Spec (S vals visit visited range setMarks markedOnes change fresh noMarks)

set_option linter.unusedVariables false
set_option linter.unusedSimpArgs false

variable {α β σ : Type}

/-- The indexes of what is marked. -/
def marksOf : S α → Nat → List Nat
  | [], _ => []
  | (_, m) :: l, i => if m then i :: marksOf l (i + 1) else marksOf l (i + 1)

theorem marksOf_append (A B : S α) (i : Nat) : marksOf (A ++ B) i = marksOf A i ++ marksOf B (i + A.length) := by
  induction A generalizing i with
  | nil => simp [marksOf]
  | cons x A ih =>
    obtain ⟨v, m⟩ := x
    simp only [List.cons_append, marksOf, ih, List.length_cons]
    have : i + 1 + A.length = i + (A.length + 1) := by omega
    rw [this]
    split <;> simp

theorem marksOf_none {A : S α} (h : marked A = false) (i : Nat) : marksOf A i = [] := by
  induction A generalizing i with
  | nil => rfl
  | cons x A ih =>
    obtain ⟨v, m⟩ := x
    rw [marked_cons, Bool.or_eq_false_iff] at h
    simp only at h
    simp only [marksOf, h.1, ih h.2]; simp

theorem fresh_vals {l : S α} (h : marked l = false) : fresh (vals l) = l := unmarked_map h

theorem fresh_append (a b : List α) : fresh (a ++ b) = fresh a ++ fresh b := by simp [fresh]
theorem vals_append (a b : S α) : vals (a ++ b) = vals a ++ vals b := by simp [vals]
theorem vals_fresh (a : List α) : vals (fresh a) = a := by simp [vals, fresh, Function.comp_def]
theorem marked_fresh (a : List α) : marked (fresh a) = false := marked_map a

theorem unmarkI_ok {t : T α} (ho : t.OK) (idx : Nat) : ∃ t', unmarkI t idx = (t', marksOf t.toL idx) ∧ t'.OK ∧ t'.toL = fresh (vals t.toL) := by
  induction t generalizing idx with
  | nil => exact ⟨.nil, rfl, trivial, rfl⟩
  | node w m b l x r ihl ihr =>
    obtain ⟨hw, hb, hl, hr⟩ := ho
    have hb' : b = false → marked l.toL = false ∧ marked r.toL = false := by
      intro e; rw [e] at hb; simpa using hb.symm
    obtain ⟨l', el, ol, cl⟩ : ∃ l', (if b = true then unmarkI l idx else (l, [])) = (l', marksOf l.toL idx) ∧ l'.OK ∧ l'.toL = fresh (vals l.toL) := by
      cases b with
      | true => exact ihl hl idx
      | false => exact ⟨l, by rw [marksOf_none (hb' rfl).1]; rfl, hl, (fresh_vals (hb' rfl).1).symm⟩
    obtain ⟨r', er, or, cr⟩ : ∃ r', (if b = true then unmarkI r (idx + l.toL.length + 1) else (r, [])) = (r', marksOf r.toL (idx + l.toL.length + 1)) ∧ r'.OK ∧ r'.toL = fresh (vals r.toL) := by
      cases b with
      | true => exact ihr hr _
      | false => exact ⟨r, by rw [marksOf_none (hb' rfl).2]; rfl, hr, (fresh_vals (hb' rfl).2).symm⟩
    refine ⟨.node w false false l' x r', ?_, ⟨?_, ?_, ol, or⟩, ?_⟩
    · simp only [unmarkI, weight_eq hl, el, er]
      rw [toL_node, marksOf_append]
      simp only [marksOf]
      cases m <;> simp
    · rw [cl, cr]; simp [fresh, vals]; exact hw
    · rw [cl, cr, marked_fresh, marked_fresh]; rfl
    · rw [toL_node, toL_node, cl, cr, vals_append, fresh_append]; rfl

theorem deleteAll_ok {l2 : S α} {k : Nat} {l1 : List α} {o : O α} (h : Rep true (fresh (l1 ++ vals l2)) o) :
    ∃ o', deleteAll true (marksOf l2 (l1.length + k)) k o = some o' ∧ Rep true (fresh (l1 ++ vals (l2.filter (fun x => !x.2)))) o' := by
  induction l2 generalizing k l1 o with
  | nil => exact ⟨o, rfl, h⟩
  | cons x l2 ih =>
    obtain ⟨v, m⟩ := x
    cases m with
    | false =>
      have h' : Rep true (fresh ((l1 ++ [v]) ++ vals l2)) o := by simpa [vals] using h
      obtain ⟨o', e, r⟩ := ih (k := k) h'
      refine ⟨o', ?_, by simpa [vals] using r⟩
      simp only [marksOf, Bool.false_eq_true, if_false]
      rw [← e]
      congr 2
      simp; omega
    | true =>
      simp only [marksOf, if_true, deleteAll]
      have hi : l1.length + k - k = l1.length := by omega
      obtain ⟨o1, e1, r1⟩ := deleteAt_ok h (marked_fresh _) (i := l1.length) (by simp [fresh, vals])
      have hl : (fresh (l1 ++ vals ((v, true) :: l2))).eraseIdx l1.length = fresh (l1 ++ vals l2) := by
        have : vals ((v, true) :: l2) = v :: vals l2 := rfl
        rw [this, fresh_append, fresh_append]
        have e : fresh (v :: vals l2) = (v, false) :: fresh (vals l2) := rfl
        have e' : l1.length = (fresh l1).length := by simp [fresh]
        rw [e, e', erase_at]
      rw [hl] at r1
      rw [hi, e1]
      simp only [bind, Option.bind]
      obtain ⟨o', e, r⟩ := ih (k := k + 1) r1
      refine ⟨o', ?_, by simpa using r⟩
      rw [← e]
      congr 2

theorem deleteMarked_ok {l : S α} {o : O α} (h : Rep true l o) : ∃ o', deleteMarked o = some o' ∧ Rep true (l.filter (fun x => !x.2)) o' := by
  cases o with
  | arr a => cases h.1
  | tree t =>
    have hf : fresh (vals (l.filter (fun x => !x.2))) = l.filter (fun x => !x.2) := by
      apply fresh_vals
      simp [marked]
    simp only [deleteMarked, hasMarks_eq h.1, h.2.1]
    cases hm : marked l with
    | false =>
      refine ⟨_, rfl, ?_⟩
      have : l.filter (fun x => !x.2) = l := by
        rw [List.filter_eq_self]
        simp only [marked, List.any_eq_false] at hm
        intro x hx
        simpa using hm x hx
      rw [this]; exact h
    | true =>
      obtain ⟨t', e, o, c⟩ := unmarkI_ok h.1 0
      rw [h.2.1] at e c
      simp only [Bool.not_true, Bool.false_eq_true, if_false, e]
      have r0 : Rep true (fresh ([] ++ vals l)) (.tree { t with root := t' }) := ⟨o, c, by intro h; cases h⟩
      obtain ⟨o', e', r'⟩ := deleteAll_ok (k := 0) r0
      simp only [List.nil_append, hf, List.length_nil, Nat.add_zero] at r' e'
      refine ⟨o', ?_, r'⟩
      rw [e']
      have hb := barf_ok r'
      rw [show marked (l.filter (fun x => !x.2)) = false by simp [marked]] at hb
      simp only [bind, Option.bind, hb]
      rfl

theorem change_append (f : α → Nat → σ → α × σ) (A B : S α) (i : Nat) (s : σ) : change f i (A ++ B) s = ((change f i A s).1 ++ (change f (i + A.length) B (change f i A s).2).1, (change f (i + A.length) B (change f i A s).2).2) := by
  induction A generalizing i s with
  | nil => simp [change]
  | cons x A ih =>
    obtain ⟨v, m⟩ := x
    have : i + 1 + A.length = i + (A.length + 1) := by omega
    simp only [List.cons_append, change, ih, List.length_cons, this]

theorem change_length (f : α → Nat → σ → α × σ) (A : S α) (i : Nat) (s : σ) : (change f i A s).1.length = A.length := by
  induction A generalizing i s with
  | nil => rfl
  | cons x A ih =>
    obtain ⟨v, m⟩ := x
    simp only [change, List.length_cons, ih]

theorem change_marked (f : α → Nat → σ → α × σ) (A : S α) (i : Nat) (s : σ) : marked (change f i A s).1 = marked A := by
  induction A generalizing i s with
  | nil => rfl
  | cons x A ih =>
    obtain ⟨v, m⟩ := x
    simp only [change, marked_cons, ih]

theorem iterPtrI_ok {f : α → Nat → σ → α × σ} {right : Nat} {t : T α} (ho : t.OK) {idx : Nat} (h : idx + t.toL.length ≤ right) (s : σ) :
    ∃ t', iterPtrI f 0 right t idx s = (t', (change f idx t.toL s).2) ∧ t'.OK ∧ t'.toL = (change f idx t.toL s).1 := by
  induction t generalizing idx s with
  | nil => exact ⟨.nil, rfl, trivial, rfl⟩
  | node w m b l x r ihl ihr =>
    obtain ⟨hw, hb, hl, hr⟩ := ho
    rw [toL_node] at h ⊢
    simp only [List.length_append, List.length_cons] at h
    obtain ⟨l', el, ol, cl⟩ : ∃ l', (if 0 < idx + l.toL.length then iterPtrI f 0 right l idx s else (l, s)) = (l', (change f idx l.toL s).2) ∧ l'.OK ∧ l'.toL = (change f idx l.toL s).1 := by
      by_cases hg : 0 < idx + l.toL.length
      · rw [if_pos hg]; exact ihl hl (by omega) s
      · rw [if_neg hg]
        have : l.toL = [] := List.length_eq_zero_iff.mp (by omega)
        refine ⟨l, ?_, hl, ?_⟩ <;> rw [this] <;> rfl
    have er : ∀ s, ∃ r', (if idx + l.toL.length + 1 < right then iterPtrI f 0 right r (idx + l.toL.length + 1) s else (r, s)) = (r', (change f (idx + l.toL.length + 1) r.toL s).2) ∧ r'.OK ∧ r'.toL = (change f (idx + l.toL.length + 1) r.toL s).1 := by
      intro s
      by_cases hg : idx + l.toL.length + 1 < right
      · rw [if_pos hg]; exact ihr hr (by omega) s
      · rw [if_neg hg]
        have : r.toL = [] := List.length_eq_zero_iff.mp (by omega)
        refine ⟨r, ?_, hr, ?_⟩ <;> rw [this] <;> rfl
    have ll : l'.toL.length = l.toL.length := by rw [cl, change_length]
    obtain ⟨r', er, or, cr⟩ := er (f x (idx + l.toL.length) (change f idx l.toL s).2).2
    have rl : r'.toL.length = r.toL.length := by rw [cr, change_length]
    have hin : 0 ≤ idx + l.toL.length ∧ idx + l.toL.length < right := by omega
    refine ⟨.node w m b l' (f x (idx + l.toL.length) (change f idx l.toL s).2).1 r', ?_, ⟨?_, ?_, ol, or⟩, ?_⟩
    · simp only [iterPtrI, weight_eq hl, el, if_pos hin, er]
      rw [change_append]
      rfl
    · rw [ll, rl]; exact hw
    · rw [cl, cr, change_marked, change_marked]; exact hb
    · rw [toL_node, cl, cr, change_append]
      rfl

theorem iterPtrA_ok {start cap : Nat} {f : α → Nat → σ → α × σ} {B : S α} {A : S α} {buf : Nat → Option α} (hc : start + A.length + B.length ≤ cap) (H : Holds (fun i => if i < cap then buf i else none) start (vals (A ++ B))) (s : σ) :
    ∃ buf', iterPtrA start cap f B.length A.length buf s = some (buf', (change f A.length B s).2) ∧ Holds (fun i => if i < cap then buf' i else none) start (vals (A ++ (change f A.length B s).1)) := by
  induction B generalizing A buf s with
  | nil => exact ⟨buf, rfl, H⟩
  | cons x B ih =>
    obtain ⟨v, m⟩ := x
    simp only [List.length_cons] at hc
    have h0 := H A.length (by simp [vals])
    simp only [vals, List.map_append, List.map_cons] at h0
    rw [List.getElem?_append_right (by simp)] at h0
    simp only [List.length_map, Nat.sub_self, List.getElem?_cons_zero] at h0
    simp only [List.length_cons, iterPtrA, h0, bind, Option.bind]
    rw [put_ok (by omega)]
    have H1 := put_get (v := (f v A.length s).1) H (i := A.length) (by simp [vals]) (by simp [vals]; omega)
    have hset : (vals (A ++ (v, m) :: B)).set A.length (f v A.length s).1 = vals ((A ++ [((f v A.length s).1, m)]) ++ B) := by
      simp only [vals, List.map_append, List.map_cons]
      rw [List.set_append_right _ _ (by simp)]
      simp
    rw [hset] at H1
    have hlen : (A ++ [((f v A.length s).1, m)]).length = A.length + 1 := by simp
    obtain ⟨buf', e, H'⟩ := ih (A := A ++ [((f v A.length s).1, m)]) (by rw [hlen]; omega) H1 (f v A.length s).2
    rw [hlen] at e H'
    refine ⟨buf', e, ?_⟩
    simpa [change] using H'

theorem iteratePtr_ok {sm : Bool} {l : S α} {o : O α} (h : Rep sm l o) (f : α → Nat → σ → α × σ) (s : σ) : ∃ o', iteratePtr o f s = some (o', (change f 0 l s).2) ∧ Rep sm (change f 0 l s).1 o' := by
  cases o with
  | arr a =>
    obtain ⟨h0, h1, h2, h3, h4⟩ := h
    obtain ⟨buf', e, H⟩ := iterPtrA_ok (f := f) (B := l) (A := []) (cap := a.cap) (start := a.start) (buf := a.buf) (by simp; omega) h4 s
    simp only [List.length_nil, List.nil_append] at e H
    refine ⟨.arr { a with buf := buf' }, ?_, h0, h1, ?_, ?_, ?_⟩
    · simp only [iteratePtr, h2, e, Option.map_some]
    · simp only [change_length, h2]
    · rw [change_marked]; exact h3
    · exact H
  | tree t =>
    have hw := rep_size h
    simp only [O.size] at hw
    obtain ⟨t', e, o, c⟩ := iterPtrI_ok (f := f) (right := t.root.weight) h.1 (idx := 0) (by rw [h.2.1, hw]; omega) s
    rw [h.2.1] at e c
    refine ⟨.tree { t with root := t' }, ?_, o, c, ?_⟩
    · simp only [iteratePtr, e]
    · intro hs; rw [change_marked]; exact h.2.2 hs

theorem clear_ok {sm : Bool} {l : S α} {o : O α} (h : Rep sm l o) : Rep sm [] (clear o) := by
  cases o with
  | arr a => exact ⟨h.1, by simp [clear], rfl, rfl, by intro i hi; simp at hi⟩
  | tree t => exact ⟨trivial, rfl, fun _ => rfl⟩

theorem nodes_vals (t : T α) : t.nodes (fun _ _ v => v) = vals t.toL := by
  induction t with
  | nil => rfl
  | node w m b l v r ihl ihr => rw [toL_node, vals_append]; simp [T.nodes, ihl, ihr, vals]

theorem copyTo_ok {sm : Bool} {l : S α} {o : O α} (h : Rep sm l o) {cap dst : Nat} {buf : Nat → Option α} (hc : dst + l.length ≤ cap) : o.copyTo cap dst buf = some (over buf dst (vals l)) := by
  cases o with
  | arr a =>
    have := copy_ok (cap := cap) (dst := dst) h.2.2.2.2 (buf := buf) (by simp; omega)
    rw [List.length_map, ← h.2.2.1] at this
    exact this
  | tree t =>
    have := fill_ok (g := fun _ _ v => v) (cap := cap) h.1 (buf := buf) (off := dst) (by rw [h.2.1]; exact hc)
    rw [nodes_vals, h.2.1] at this
    exact this

theorem clone_ok {sm : Bool} {l : S α} {o : O α} (h : Rep sm l o) : ∃ o', clone sm o = some o' ∧ Rep sm (fresh (vals l)) o' := by
  simp only [clone, rep_size h, copyTo_ok h (cap := l.length) (dst := 0) (by omega), bind, Option.bind]
  exact finish_ok (arep_over (by simp [vals]) (by simp [vals]))

theorem mergeLeft_ok {sm : Bool} {l : S α} {o : O α} (h : Rep sm l o) (n : Nat) : ∃ a, mergeLeft o n = some a ∧ ARep (vals l) a ∧ a.start + a.num + n ≤ a.cap := by
  cases o with
  | arr a =>
    have A : ARep (vals l) a := ⟨h.2.1, by simpa [vals] using h.2.2.1, h.2.2.2.2⟩
    simp only [mergeLeft]
    have := A.room
    split
    · exact ⟨a, rfl, A, by omega⟩
    · have e := copy_ok (cap := a.num + n) (dst := 0) A.holds (buf := fun _ => none) (by rw [← A.num]; omega)
      rw [← A.num] at e
      rw [e]
      exact ⟨_, rfl, arep_over (by rw [← A.num]; omega) A.num, by simp only; omega⟩
  | tree t =>
    have hw := rep_size h
    simp only [O.size] at hw
    have e := fill_ok (g := fun _ _ v => v) (cap := t.root.weight + n) h.1 (buf := fun _ => none) (off := 0) (by rw [h.2.1]; omega)
    rw [nodes_vals, h.2.1] at e
    simp only [mergeLeft, e]
    exact ⟨_, rfl, arep_over (by simp [vals]; omega) (by simpa [vals] using hw), by simp only; omega⟩

theorem merge_ok {sm : Bool} {l r : S α} {o p : O α} (h : Rep sm l o) (h' : Rep sm r p) : ∃ o', merge sm o p = some o' ∧ Rep sm (fresh (vals l ++ vals r)) o' := by
  obtain ⟨a, e, A, c⟩ := mergeLeft_ok h r.length
  have hn := A.num
  simp only [merge, rep_size h', e, bind, Option.bind, copyTo_ok h' (cap := a.cap) (dst := a.start + a.num) (buf := a.buf) (by omega)]
  apply finish_ok
  refine ⟨by simp only; omega, by simp [vals] at hn ⊢; omega, ?_⟩
  intro i hi
  simp [vals] at hi
  have hn' : a.num = l.length := by simpa [vals] using hn
  simp only [Arr.read]
  rw [if_pos (by omega)]
  by_cases hl : i < l.length
  · rw [over_below _ _ _ (by omega), List.getElem?_append_left (by simp [vals]; omega), ← A.holds i (by simp [vals]; omega)]
    simp only [Arr.read]; rw [if_pos (by omega)]
  · have := over_holds a.buf (a.start + a.num) (vals r) (i - l.length) (by simp [vals]; omega)
    rw [List.getElem?_append_right (by simp [vals]; omega)]
    simp only [vals, List.length_map] at this ⊢
    rw [← this]
    congr 1; omega

theorem splitAt_ok {sm : Bool} {l : S α} {o : O α} (h : Rep sm l o) (hm : marked l = false) {i : Nat} (hi : i ≤ l.length) :
    ∃ n o', splitAt sm o i = some (.ok n, o') ∧ Rep sm (l.drop i) n ∧ Rep sm (l.take i) o' := by
  simp only [splitAt, barf_ok h, hm, rep_size h, bind, Option.bind, if_neg (show ¬ i > l.length by omega), Bool.false_eq_true, if_false]
  obtain ⟨a, e, A, _⟩ := toArr_ok h
  have hn : a.num = l.length := by simpa using A.num
  have hroom := A.room
  have H2 : Holds a.read (a.start + i) ((l.drop i).map (·.1)) := by
    intro j hj
    simp at hj
    rw [Nat.add_assoc, A.holds (i + j) (by simp; omega)]
    simp
  have hlen : ((l.drop i).map (·.1)).length = a.num - i := by simp; omega
  have ec := copy_ok (cap := a.num - i) (dst := 0) H2 (buf := fun _ => none) (by omega)
  rw [hlen] at ec
  obtain ⟨n, en, rn⟩ := rep_finish (sm := sm) (marked_drop hm i) (arep_over (buf := fun _ => none) (cap := a.num - i) (off := 0) (n := a.num - i) (L := (l.drop i).map (·.1)) (by omega) hlen.symm)
  have A1 : ARep ((l.take i).map (·.1)) { a with num := i } := by
    refine ⟨by simp only; omega, by simp; omega, ?_⟩
    intro j hj
    simp at hj
    have := A.holds j (by simp; omega)
    simp only [Arr.read] at this ⊢
    rw [this, List.map_take, List.getElem?_take, if_pos (by omega)]
  obtain ⟨a2, e2, A2, _⟩ := resize_arr A1 i (by simp; omega)
  obtain ⟨o', eo, ro⟩ := rep_finish (sm := sm) (marked_take hm i) A2
  simp only [e, ec, en, e2, eo]
  exact ⟨n, o', rfl, rn, ro⟩

theorem splitAt_marked {sm : Bool} {l : S α} {o : O α} (h : Rep sm l o) (hm : marked l = true) (i : Nat) : splitAt sm o i = none := by
  simp only [splitAt, barf_ok h, hm]; rfl

theorem splitAt_out {sm : Bool} {l : S α} {o : O α} (h : Rep sm l o) (hm : marked l = false) {i : Nat} (hi : l.length < i) : splitAt sm o i = some (.error .inval, o) := by
  simp only [splitAt, barf_ok h, hm, rep_size h]
  simp [hi]

end Verif.Omt
