import Verif.Omt.Rep
/-!
Insertion, deletion and replacement.
-/
namespace Verif.Omt

set_option linter.unusedVariables false
set_option linter.unusedSimpArgs false

variable {α β σ : Type}

theorem marked_take {l : List (α × Bool)} (h : marked l = false) (i : Nat) : marked (l.take i) = false := by
  simp only [marked, List.any_eq_false] at *
  intro x hx; exact h x (List.mem_of_mem_take hx)

theorem marked_drop {l : List (α × Bool)} (h : marked l = false) (i : Nat) : marked (l.drop i) = false := by
  simp only [marked, List.any_eq_false] at *
  intro x hx; exact h x (List.mem_of_mem_drop hx)

theorem marked_erase {l : List (α × Bool)} (h : marked l = false) (i : Nat) : marked (l.eraseIdx i) = false := by
  simp only [marked, List.any_eq_false] at *
  intro x hx; exact h x (List.mem_of_mem_eraseIdx hx)

theorem marked_set {l : List (α × Bool)} (h : marked l = false) (i : Nat) (v : α) : marked (l.set i (v, false)) = false := by
  simp only [marked, List.any_eq_false] at *
  intro x hx
  rcases List.mem_or_eq_of_mem_set hx with hx | hx
  · exact h x hx
  · subst hx; simp

/-- A list with a value put in at an index. -/
def ins (l : List β) (i : Nat) (v : β) : List β := l.take i ++ v :: l.drop i

theorem marked_ins {l : List (α × Bool)} (h : marked l = false) (i : Nat) (v : α) : marked (ins l i (v, false)) = false := by
  rw [ins, marked_append, marked_cons, marked_take h, marked_drop h]; rfl

theorem ins_left {A B : List β} {x v : β} {i : Nat} (h : i ≤ A.length) : ins (A ++ x :: B) i v = ins A i v ++ x :: B := by
  simp only [ins, List.take_append, List.drop_append, Nat.sub_eq_zero_of_le h]
  simp

theorem ins_right {A B : List β} {x v : β} {i : Nat} (h : A.length < i) : ins (A ++ x :: B) i v = A ++ x :: ins B (i - A.length - 1) v := by
  obtain ⟨k, rfl⟩ : ∃ k, i = A.length + 1 + k := ⟨i - A.length - 1, by omega⟩
  have e1 : A.length + 1 + k - A.length = k + 1 := by omega
  have e2 : A.length + 1 + k - A.length - 1 = k := by omega
  simp only [ins, List.take_append, List.drop_append, e1, e2]
  rw [List.take_of_length_le (by omega), List.drop_eq_nil_of_le (by omega)]
  simp

theorem ins_map {f : α → β} {l : List α} {i : Nat} {v : α} : (ins l i v).map f = ins (l.map f) i (f v) := by
  simp [ins]

theorem ins_length {l : List β} {i : Nat} {v : β} (h : i ≤ l.length) : (ins l i v).length = l.length + 1 := by
  simp [ins]; omega

/-- There is a subtree at this place. -/
def Valid : Path → T α → Prop
  | [], _ => True
  | _ :: _, .nil => False
  | false :: p, .node _ _ _ l _ _ => Valid p l
  | true :: p, .node _ _ _ _ _ r => Valid p r

theorem pick_valid {found here d : Bool} {p : Option Path} {t t' : T α} (h : ∀ q, p = some q → Valid q t) (hv : ∀ q, Valid q t → Valid (d :: q) t') : ∀ q, pick found here d p = some q → Valid q t' := by
  intro q hq
  simp only [pick] at hq
  split at hq
  · cases hq
  · split at hq
    · cases hq; simp [Valid]
    · cases p with
      | none => cases hq
      | some p => simp at hq; subst hq; exact hv p (h p rfl)

theorem parts {w : Nat} {m b : Bool} {l r : T α} {x : α} (hm : marked (T.node w m b l x r).toL = false) : marked l.toL = false ∧ m = false ∧ marked r.toL = false := by
  rw [toL_node, marked_append, marked_cons] at hm
  simpa [Bool.or_eq_false_iff] using hm

theorem insertI_ok {cap : Nat} {v : α} {t : T α} (ho : t.OK) (hm : marked t.toL = false) {i free : Nat} {found : Bool} (hi : i ≤ t.toL.length) (hc : free < cap) :
    ∃ t' p, insertI cap v t i free found = some (t', free + 1, p) ∧ t'.OK ∧ t'.toL = ins t.toL i (v, false) ∧ ∀ q, p = some q → Valid q t' := by
  induction t generalizing i found with
  | nil =>
    have : i = 0 := by simpa [toL_nil] using hi
    subst this
    exact ⟨.node 1 false false .nil v .nil, none, by unfold insertI; rw [if_pos ⟨rfl, hc⟩], ⟨rfl, rfl, trivial, trivial⟩, rfl, by intro q h; cases h⟩
  | node w m b l x r ihl ihr =>
    obtain ⟨ml, mm, mr⟩ := parts hm
    obtain ⟨hw, hb, hl, hr⟩ := ho
    rw [toL_node] at hi
    simp only [List.length_append, List.length_cons] at hi
    simp only [insertI, weight_eq hl, weight_eq hr]
    by_cases h : i ≤ l.toL.length
    · obtain ⟨l', p, e, o, c, hp⟩ := ihl hl ml (found := found || unbal (l.toL.length + 1) r.toL.length) h
      rw [if_pos h, e]
      refine ⟨.node (w + 1) m b l' x r, _, rfl, ⟨?_, ?_, o, hr⟩, ?_, pick_valid hp (fun q hq => hq)⟩
      · rw [c, ins_length h]; omega
      · rw [c, marked_ins ml, hb, ml]
      · rw [toL_node, toL_node, c, ins_left h]
    · obtain ⟨r', p, e, o, c, hp⟩ := ihr hr mr (i := i - l.toL.length - 1) (found := found || unbal l.toL.length (r.toL.length + 1)) (by omega)
      rw [if_neg h, e]
      refine ⟨.node (w + 1) m b l x r', _, rfl, ⟨?_, ?_, hl, o⟩, ?_, pick_valid hp (fun q hq => hq)⟩
      · rw [c, ins_length (by omega)]; omega
      · rw [c, marked_ins mr, hb, mr]
      · rw [toL_node, toL_node, c, ins_right (by omega)]

theorem erase_left {A B : List β} {i : Nat} (h : i < A.length) : (A ++ B).eraseIdx i = A.eraseIdx i ++ B := List.eraseIdx_append_of_lt_length h B
theorem erase_at {A B : List β} {x : β} : (A ++ x :: B).eraseIdx A.length = A ++ B := by
  rw [List.eraseIdx_append_of_length_le (Nat.le_refl _)]; simp
theorem erase_right {A B : List β} {x : β} {i : Nat} (h : A.length < i) : (A ++ x :: B).eraseIdx i = A ++ x :: B.eraseIdx (i - A.length - 1) := by
  obtain ⟨k, rfl⟩ : ∃ k, i = A.length + 1 + k := ⟨i - A.length - 1, by omega⟩
  rw [List.eraseIdx_append_of_length_le (by omega)]
  have e1 : A.length + 1 + k - A.length = k + 1 := by omega
  rw [e1]; simp

theorem deleteI_ok {t : T α} (ho : t.OK) (hm : marked t.toL = false) {i : Nat} {found : Bool} (hi : i < t.toL.length) :
    ∃ t' y p, deleteI t i found = some (t', y, p) ∧ t'.OK ∧ t.toL[i]? = some (y, false) ∧ t'.toL = t.toL.eraseIdx i ∧ ∀ q, p = some q → Valid q t' := by
  induction t generalizing i found with
  | nil => simp [toL_nil] at hi
  | node w m b l x r ihl ihr =>
    obtain ⟨ml, mm, mr⟩ := parts hm
    obtain ⟨hw, hb, hl, hr⟩ := ho
    rw [toL_node] at hi
    simp only [List.length_append, List.length_cons] at hi
    by_cases h : i < l.toL.length
    · obtain ⟨l', y, p, e, o, g, c, hp⟩ := ihl hl ml (found := found || unbal (l.toL.length - 1) r.toL.length) h
      have hwl := weight_eq hl
      have hwr := weight_eq hr
      unfold deleteI
      rw [if_pos (by omega), hwl, hwr]
      simp only [e]
      refine ⟨.node (w - 1) m b l' x r, y, _, rfl, ⟨?_, ?_, o, hr⟩, ?_, ?_, pick_valid hp (fun q hq => hq)⟩
      · rw [c, List.length_eraseIdx_of_lt h]; omega
      · rw [c, marked_erase ml, hb, ml]
      · rw [toL_node, List.getElem?_append_left h, g]
      · rw [toL_node, toL_node, c, erase_left h]
    · by_cases h' : i = l.toL.length
      · unfold deleteI
        rw [if_neg (by rw [weight_eq hl]; omega), if_pos (by rw [weight_eq hl]; omega)]
        have hget : (T.node w m b l x r).toL[i]? = some (x, false) := by
          rw [toL_node, h', List.getElem?_append_right (Nat.le_refl _)]; simp [mm]
        have her : (T.node w m b l x r).toL.eraseIdx i = l.toL ++ r.toL := by
          rw [toL_node, h', erase_at]
        cases l with
        | nil => exact ⟨r, x, none, rfl, hr, hget, by rw [her]; rfl, by intro q h; cases h⟩
        | node w1 m1 b1 l1 x1 r1 =>
          cases r with
          | nil => exact ⟨_, x, none, rfl, hl, hget, by rw [her, toL_nil, List.append_nil], by intro q h; cases h⟩
          | node w2 m2 b2 l2 x2 r2 =>
            have hwl := weight_eq hl
            have hwr := weight_eq hr
            have hpos : 0 < (T.node w2 m2 b2 l2 x2 r2).toL.length := by rw [toL_node]; simp only [List.length_append, List.length_cons]; omega
            obtain ⟨r', y, p, e, o, g, c, hp⟩ := ihr hr mr (i := 0) (found := found || unbal ((T.node w1 m1 b1 l1 x1 r1).weight) ((T.node w2 m2 b2 l2 x2 r2).weight - 1)) hpos
            simp only [e]
            refine ⟨.node (w - 1) m b (.node w1 m1 b1 l1 x1 r1) y r', x, _, rfl, ⟨?_, ?_, hl, o⟩, hget, ?_, pick_valid hp (fun q hq => hq)⟩
            · rw [c, List.length_eraseIdx_of_lt hpos]; omega
            · rw [c, marked_erase mr, hb, mr]
            · rw [her, toL_node (w - 1), c]
              generalize (T.node w2 m2 b2 l2 x2 r2).toL = R at g hpos ⊢
              cases R with
              | nil => simp at hpos
              | cons a R =>
                simp at g
                rw [mm, g]
                simp
      · have hwl := weight_eq hl
        have hwr := weight_eq hr
        obtain ⟨r', y, p, e, o, g, c, hp⟩ := ihr hr mr (i := i - l.toL.length - 1) (found := found || unbal l.toL.length (r.toL.length - 1)) (by omega)
        unfold deleteI
        rw [if_neg (by omega), if_neg (by omega), hwl, hwr]
        simp only [e]
        refine ⟨.node (w - 1) m b l x r', y, _, rfl, ⟨?_, ?_, hl, o⟩, ?_, ?_, pick_valid hp (fun q hq => hq)⟩
        · rw [c, List.length_eraseIdx_of_lt (by omega)]; omega
        · rw [c, marked_erase mr, hb, mr]
        · rw [toL_node, List.getElem?_append_right (by omega), ← g]
          obtain ⟨k, rfl⟩ : ∃ k, i = l.toL.length + 1 + k := ⟨i - l.toL.length - 1, by omega⟩
          have e1 : l.toL.length + 1 + k - l.toL.length = k + 1 := by omega
          rw [e1]; simp
        · rw [toL_node, toL_node, c, erase_right (by omega)]

theorem setI_ok {v : α} {t : T α} (ho : t.OK) (hm : marked t.toL = false) {i : Nat} (hi : i < t.toL.length) : ∃ t', setI v t i = some t' ∧ t'.OK ∧ t'.toL = t.toL.set i (v, false) := by
  induction t generalizing i with
  | nil => simp [toL_nil] at hi
  | node w m b l x r ihl ihr =>
    obtain ⟨ml, mm, mr⟩ := parts hm
    obtain ⟨hw, hb, hl, hr⟩ := ho
    rw [toL_node] at hi
    simp only [List.length_append, List.length_cons] at hi
    simp only [setI, weight_eq hl]
    by_cases h : i < l.toL.length
    · obtain ⟨l', e, o, c⟩ := ihl hl ml h
      rw [if_pos h, e]
      refine ⟨_, rfl, ⟨?_, ?_, o, hr⟩, ?_⟩
      · rw [c, List.length_set]; exact hw
      · rw [c, marked_set ml, hb, ml]
      · rw [toL_node, toL_node, c, List.set_append_left _ _ h]
    · by_cases h' : i = l.toL.length
      · rw [if_neg h, if_pos h']
        refine ⟨_, rfl, ⟨hw, hb, hl, hr⟩, ?_⟩
        rw [toL_node, toL_node, List.set_append_right _ _ (by omega), h']
        simp [mm]
      · obtain ⟨r', e, o, c⟩ := ihr hr mr (i := i - l.toL.length - 1) (by omega)
        rw [if_neg h, if_neg h', e]
        refine ⟨_, rfl, ⟨?_, ?_, hl, o⟩, ?_⟩
        · rw [c, List.length_set]; exact hw
        · rw [c, marked_set mr, hb, mr]
        · rw [toL_node, toL_node, c, List.set_append_right _ _ (by omega)]
          obtain ⟨k, rfl⟩ : ∃ k, i = l.toL.length + 1 + k := ⟨i - l.toL.length - 1, by omega⟩
          have e1 : l.toL.length + 1 + k - l.toL.length = k + 1 := by omega
          rw [e1]; simp

theorem fetchI_ok {t : T α} (ho : t.OK) {i : Nat} (hi : i < t.toL.length) : fetchI t i = (t.toL[i]?).map (·.1) := by
  induction t generalizing i with
  | nil => simp [toL_nil] at hi
  | node w m b l x r ihl ihr =>
    obtain ⟨hw, hb, hl, hr⟩ := ho
    rw [toL_node] at hi
    simp only [List.length_append, List.length_cons] at hi
    simp only [fetchI, weight_eq hl]
    by_cases h : i < l.toL.length
    · rw [if_pos h, ihl hl h, toL_node, List.getElem?_append_left h]
    · by_cases h' : i = l.toL.length
      · rw [if_neg h, if_pos h', toL_node, List.getElem?_append_right (by omega), h']; simp
      · rw [if_neg h, if_neg h', ihr hr (by omega), toL_node, List.getElem?_append_right (by omega)]
        obtain ⟨k, rfl⟩ : ∃ k, i = l.toL.length + 1 + k := ⟨i - l.toL.length - 1, by omega⟩
        have e1 : l.toL.length + 1 + k - l.toL.length = k + 1 := by omega
        rw [e1]; simp

theorem nodes_unmarked {t : T α} (ho : t.OK) (hm : marked t.toL = false) : t.nodes (fun m b v => (m, b, v)) = t.toL.map (fun x => (false, false, x.1)) := by
  induction t with
  | nil => rfl
  | node w m b l x r ihl ihr =>
    obtain ⟨ml, mm, mr⟩ := parts hm
    obtain ⟨hw, hb, hl, hr⟩ := ho
    rw [ml, mr] at hb
    rw [toL_node]
    simp [T.nodes, ihl hl ml, ihr hr mr, mm, hb]

theorem balance_ok {t : T α} (ho : t.OK) (hm : marked t.toL = false) : ∃ t', t.balance = some t' ∧ t'.OK ∧ t'.toL = t.toL := by
  have hw := weight_eq ho
  have e := fill_ok (g := fun m b v => (m, b, v)) (cap := t.weight) ho (buf := fun _ => none) (off := 0) (by omega)
  rw [nodes_unmarked ho hm] at e
  have hlen : (t.toL.map (fun x => (false, false, x.1))).length = t.weight := by simp [hw]
  obtain ⟨t', e', o', c'⟩ := rebuild_ok (rd := fun i => if i < t.weight then over (fun _ => none) 0 (t.toL.map (fun x => (false, false, x.1))) i else none) t.weight (off := 0) (L := t.toL.map (fun x => (false, false, x.1))) (by omega)
    (Holds.mono (over_holds (fun _ => none) 0 _) (by intro i hi; rw [if_pos (by omega)]))
    (by intro x hx; simp at hx; obtain ⟨a, b, _, rfl⟩ := hx; exact ⟨rfl, rfl⟩)
  rw [hlen] at e'
  refine ⟨t', ?_, o', ?_⟩
  · simp only [T.balance, e, bind, Option.bind, e']
  · rw [c', List.map_map]
    have := unmarked_map hm
    rw [List.map_map] at this
    exact this

theorem change_ok {t : T α} (ho : t.OK) (hm : marked t.toL = false) {p : Path} (hp : Valid p t) : ∃ t', t.change T.balance p = some t' ∧ t'.OK ∧ t'.toL = t.toL := by
  induction p generalizing t with
  | nil =>
    have : t.change T.balance [] = t.balance := by cases t <;> rfl
    rw [this]; exact balance_ok ho hm
  | cons d p ih =>
    cases t with
    | nil => cases d <;> simp [Valid] at hp
    | node w m b l x r =>
      obtain ⟨ml, mm, mr⟩ := parts hm
      obtain ⟨hw, hb, hl, hr⟩ := ho
      cases d with
      | false =>
        obtain ⟨l', e, o, c⟩ := ih hl ml hp
        exact ⟨.node w m b l' x r, by simp [T.change, e], ⟨by rw [c]; exact hw, by rw [c]; exact hb, o, hr⟩, by rw [toL_node, toL_node, c]⟩
      | true =>
        obtain ⟨r', e, o, c⟩ := ih hr mr hp
        exact ⟨.node w m b l x r', by simp [T.change, e], ⟨by rw [c]; exact hw, by rw [c]; exact hb, hl, o⟩, by rw [toL_node, toL_node, c]⟩

theorem rep_finish {sm : Bool} {l : List (α × Bool)} (hm : marked l = false) {a : Arr α} (h : ARep (l.map (·.1)) a) : ∃ o, finish sm a = some o ∧ Rep sm l o := by
  obtain ⟨o, e, r⟩ := finish_ok (sm := sm) h
  rw [unmarked_map hm] at r
  exact ⟨o, e, r⟩

theorem rebalance_ok {sm : Bool} {t : Tr α} {l : List (α × Bool)} (h : Rep sm l (.tree t)) (hm : marked l = false) {p : Option Path} (hp : ∀ q, p = some q → Valid q t.root) : ∃ o, rebalance sm t p = some o ∧ Rep sm l o := by
  cases p with
  | none => exact ⟨_, rfl, h⟩
  | some p =>
    cases p with
    | nil =>
      obtain ⟨a, e, r, _⟩ := toArr_ok h
      obtain ⟨o, e', r'⟩ := rep_finish (sm := sm) hm r
      exact ⟨o, by simp [rebalance, e, e'], r'⟩
    | cons d p =>
      obtain ⟨t', e, o, c⟩ := change_ok h.1 (by rw [h.2.1]; exact hm) (hp _ rfl)
      exact ⟨.tree { t with root := t' }, by simp only [rebalance, e, Option.map_some], o, by rw [c]; exact h.2.1, h.2.2⟩

theorem barf_ok {sm : Bool} {l : List (α × Bool)} {o : O α} (h : Rep sm l o) : barf sm o = if marked l then none else some () := by
  cases o with
  | arr a => rw [h.2.2.2.1]; rfl
  | tree t =>
    simp only [barf, hasMarks_eq h.1, h.2.1]
    cases sm with
    | true => simp
    | false => rw [h.2.2 rfl]; simp

theorem resize_arr {L : List α} {a : Arr α} (h : ARep L a) (n : Nat) (hn : L.length ≤ n + 1) : ∃ a', a.resize n = some a' ∧ ARep L a' ∧ a'.start + n ≤ a'.cap := by
  simp only [Arr.resize]
  have := h.num
  have hs : n ≤ (if n ≤ 2 then 4 else 2 * n) ∧ L.length ≤ (if n ≤ 2 then 4 else 2 * n) := by split <;> omega
  generalize (if n ≤ 2 then 4 else 2 * n) = size at hs ⊢
  split
  · have e := copy_ok (cap := size) (dst := 0) h.holds (buf := fun _ => none) (by omega)
    rw [← h.num] at e
    rw [e]
    exact ⟨_, rfl, arep_over (by omega) h.num, by simp only; omega⟩
  · rename_i hc
    refine ⟨a, rfl, h, ?_⟩
    have := h.room
    simp at hc
    omega

/-- Room for `n` values. -/
def Room (len n : Nat) : O α → Prop
  | .arr a => a.start + n ≤ a.cap
  | .tree t => len < n → t.free < t.cap

theorem resize_ok {sm : Bool} {l : List (α × Bool)} {o : O α} (h : Rep sm l o) (hm : marked l = false) (n : Nat) (hn : l.length ≤ n + 1) (hn' : n ≤ l.length + 1) :
    ∃ o', o.resize sm n = some o' ∧ Rep sm l o' ∧ Room l.length n o' := by
  cases o with
  | arr a =>
    cases h.1
    obtain ⟨a', e, r, c⟩ := resize_arr ((arep_rep hm).mpr h) n (by simpa using hn)
    exact ⟨.arr a', by simp [O.resize, e], (arep_rep hm).mp r, c⟩
  | tree t =>
    simp only [O.resize]
    have hw : t.root.weight = l.length := by rw [weight_eq h.1, h.2.1]
    generalize (if n ≤ 2 then 4 else 2 * n) = size
    split
    · rename_i hc
      obtain ⟨a, e, r, s⟩ := toArr_ok h
      have s := s ⟨t, rfl⟩
      cases sm with
      | false =>
        refine ⟨.arr a, by simp [e, finish], (arep_rep hm).mp r, ?_⟩
        simp only [Room, s.1, s.2]
        split <;> omega
      | true =>
        obtain ⟨t', e', o', c', f'⟩ := toTree_ok r
        rw [unmarked_map hm] at c'
        exact ⟨.tree t', by simp [e, finish, e'], ⟨o', c', by intro h; cases h⟩, fun _ => f'⟩
    · rename_i hc
      refine ⟨.tree t, rfl, h, ?_⟩
      intro hl
      simp at hc
      omega

theorem treeIf_ok {sm : Bool} {l : List (α × Bool)} {o : O α} (h : Rep sm l o) {n : Nat} (hf : Room l.length n o) (b : Bool) :
    ∃ o', o.treeIf b = some o' ∧ Rep sm l o' ∧ (match o' with | .arr a => a.start + n ≤ a.cap ∧ o = .arr a ∧ b = false | .tree t => l.length < n → t.free < t.cap) := by
  cases b with
  | false =>
    refine ⟨o, rfl, h, ?_⟩
    cases o with
    | arr a => exact ⟨hf, rfl, rfl⟩
    | tree t => exact hf
  | true =>
    cases o with
    | tree t => exact ⟨.tree t, rfl, h, hf⟩
    | arr a =>
      cases h.1
      obtain ⟨t', e', o', c', f'⟩ := toTree_ok ((arep_rep h.2.2.2.1).mpr h)
      rw [unmarked_map h.2.2.2.1] at c'
      exact ⟨.tree t', by simp [O.treeIf, e'], ⟨o', c', fun _ => h.2.2.2.1⟩, fun _ => f'⟩

theorem insertAt_marked {sm : Bool} {l : List (α × Bool)} {o : O α} (h : Rep sm l o) (hm : marked l = true) (v : α) (i : Nat) : insertAt sm o v i = none := by
  simp only [insertAt, barf_ok h, hm]; rfl

theorem insertAt_out {sm : Bool} {l : List (α × Bool)} {o : O α} (h : Rep sm l o) (hm : marked l = false) (v : α) {i : Nat} (hi : l.length < i) : insertAt sm o v i = some (.error .inval, o) := by
  simp only [insertAt, barf_ok h, hm, rep_size h]
  simp [hi]

theorem put_get {cap : Nat} {buf : Nat → Option β} {off : Nat} {L : List β} (H : Holds (fun i => if i < cap then buf i else none) off L) {i : Nat} {v : β} (hi : i < L.length) (hc : off + L.length ≤ cap) :
    Holds (fun j => if j < cap then (if j = off + i then some v else buf j) else none) off (L.set i v) := by
  intro j hj
  simp at hj
  simp only
  rw [if_pos (by omega)]
  have := H j hj
  simp only at this
  rw [if_pos (by omega)] at this
  by_cases e : j = i
  · subst e; simp [hi]
  · rw [if_neg (by omega), this, List.getElem?_set_ne (by omega)]

theorem insertAt_ok {sm : Bool} {l : List (α × Bool)} {o : O α} (h : Rep sm l o) (hm : marked l = false) (v : α) {i : Nat} (hi : i ≤ l.length) :
    ∃ o', insertAt sm o v i = some (.ok (), o') ∧ Rep sm (ins l i (v, false)) o' := by
  simp only [insertAt, barf_ok h, hm, rep_size h]
  obtain ⟨o1, e1, r1, f1⟩ := resize_ok h hm (l.length + 1) (by omega) (by omega)
  obtain ⟨o2, e2, r2, f2⟩ := treeIf_ok r1 f1 (o1.midInsert i)
  simp only [bind, Option.bind, if_neg (show ¬ i > l.length by omega), e1, e2, Bool.false_eq_true, if_false]
  have hm' := marked_ins hm i v
  cases o2 with
  | arr a =>
    obtain ⟨c, ea, hb⟩ := f2
    subst ea
    cases r2.1
    have A := (arep_rep hm).mpr r2
    have hn : a.num = l.length := r2.2.2.1
    have hs : a.start + a.num < a.cap := by omega
    simp only
    by_cases hc : i = a.num
    · rw [if_pos hc, put_ok hs]
      refine ⟨_, rfl, rfl, by simp only; omega, ?_, hm', ?_⟩
      · simp only [ins_length hi, hn]
      · have hl : (ins l i (v, false)).map (·.1) = l.map (·.1) ++ [v] := by
          rw [ins_map, hc, hn, ins, List.take_of_length_le (by simp), List.drop_eq_nil_of_le (by simp)]
        rw [hl]
        intro j hj
        simp at hj
        simp only [Arr.read]
        rw [if_pos (by omega)]
        by_cases ej : j = l.length
        · rw [if_pos (by omega), ej, List.getElem?_append_right (by simp)]; simp
        · rw [if_neg (by omega), List.getElem?_append_left (by simp; omega), ← A.holds j (by simp; omega)]
          simp only [Arr.read]; rw [if_pos (by omega)]
    · rw [if_neg hc]
      simp only [O.midInsert, Bool.and_eq_false_iff] at hb
      have h0 : i = 0 ∧ 0 < a.start := by
        rcases hb with hb | hb
        · simp at hb; exact absurd hb hc
        · simp at hb; omega
      rw [put_ok (by omega)]
      refine ⟨_, rfl, rfl, by simp only; omega, ?_, hm', ?_⟩
      · simp only [ins_length hi, hn]
      · have hl : (ins l i (v, false)).map (·.1) = v :: l.map (·.1) := by
          rw [ins_map, h0.1]; rfl
        rw [hl]
        intro j hj
        simp at hj
        simp only [Arr.read]
        rw [if_pos (by omega)]
        cases j with
        | zero => simp
        | succ j =>
          rw [if_neg (by omega), List.getElem?_cons_succ, ← A.holds j (by simp; omega)]
          simp only [Arr.read]; rw [if_pos (by omega)]
          congr 1; omega
  | tree t =>
    have hf := f2 (by omega)
    obtain ⟨t', p, e, ok, c, hp⟩ := insertI_ok (cap := t.cap) (v := v) (i := i) (found := false) r2.1 (by rw [r2.2.1]; exact hm) (by rw [r2.2.1]; exact hi) hf
    rw [r2.2.1] at c
    have r3 : Rep sm (ins l i (v, false)) (.tree { t with root := t', free := t.free + 1 }) := ⟨ok, c, fun _ => hm'⟩
    obtain ⟨o', e', r'⟩ := rebalance_ok r3 hm' (p := p) hp
    simp only [e, e']
    exact ⟨o', rfl, r'⟩

theorem setAt_marked {sm : Bool} {l : List (α × Bool)} {o : O α} (h : Rep sm l o) (hm : marked l = true) (v : α) (i : Nat) : setAt sm o v i = none := by
  simp only [setAt, barf_ok h, hm]; rfl

theorem setAt_out {sm : Bool} {l : List (α × Bool)} {o : O α} (h : Rep sm l o) (hm : marked l = false) (v : α) {i : Nat} (hi : l.length ≤ i) : setAt sm o v i = some (.error .inval, o) := by
  simp only [setAt, barf_ok h, hm, rep_size h]
  simp [hi]

theorem setAt_ok {sm : Bool} {l : List (α × Bool)} {o : O α} (h : Rep sm l o) (hm : marked l = false) (v : α) {i : Nat} (hi : i < l.length) :
    ∃ o', setAt sm o v i = some (.ok (), o') ∧ Rep sm (l.set i (v, false)) o' := by
  simp only [setAt, barf_ok h, hm, rep_size h]
  simp only [bind, Option.bind, if_neg (show ¬ i ≥ l.length by omega), Bool.false_eq_true, if_false]
  cases o with
  | arr a =>
    cases h.1
    have A := (arep_rep hm).mpr h
    have hn : a.num = l.length := h.2.2.1
    have hs := A.room
    simp only
    rw [put_ok (by omega)]
    refine ⟨_, rfl, rfl, by simp only; omega, by simp only [List.length_set]; exact hn, marked_set hm i v, ?_⟩
    rw [List.map_set]
    exact put_get A.holds (by simp; omega) (by simp; omega)
  | tree t =>
    obtain ⟨t', e, ok, c⟩ := setI_ok (v := v) (i := i) h.1 (by rw [h.2.1]; exact hm) (by rw [h.2.1]; exact hi)
    rw [h.2.1] at c
    simp only [e]
    exact ⟨_, rfl, ok, c, fun _ => marked_set hm i v⟩

theorem deleteAt_marked {sm : Bool} {l : List (α × Bool)} {o : O α} (h : Rep sm l o) (hm : marked l = true) (i : Nat) : deleteAt sm o i = none := by
  simp only [deleteAt, barf_ok h, hm]; rfl

theorem deleteAt_out {sm : Bool} {l : List (α × Bool)} {o : O α} (h : Rep sm l o) (hm : marked l = false) {i : Nat} (hi : l.length ≤ i) : deleteAt sm o i = some (.error .inval, o) := by
  simp only [deleteAt, barf_ok h, hm, rep_size h]
  simp [hi]

theorem deleteAt_ok {sm : Bool} {l : List (α × Bool)} {o : O α} (h : Rep sm l o) (hm : marked l = false) {i : Nat} (hi : i < l.length) :
    ∃ o', deleteAt sm o i = some (.ok (), o') ∧ Rep sm (l.eraseIdx i) o' := by
  simp only [deleteAt, barf_ok h, hm, rep_size h]
  obtain ⟨o1, e1, r1, f1⟩ := resize_ok h hm (l.length - 1) (by omega) (by omega)
  obtain ⟨o2, e2, r2, f2⟩ := treeIf_ok r1 f1 (o1.midDelete i)
  simp only [bind, Option.bind, if_neg (show ¬ i ≥ l.length by omega), e1, e2, Bool.false_eq_true, if_false]
  have hm' := marked_erase hm i
  cases o2 with
  | arr a =>
    obtain ⟨c, ea, hb⟩ := f2
    subst ea
    cases r2.1
    have A := (arep_rep hm).mpr r2
    have hn : a.num = l.length := r2.2.2.1
    have hroom := A.room
    refine ⟨_, rfl, rfl, ?_, ?_, hm', ?_⟩
    · simp only; split <;> omega
    · simp only [List.length_eraseIdx_of_lt hi, hn]
    · intro j hj
      rw [List.length_map, List.length_eraseIdx_of_lt hi] at hj
      simp only [Arr.read]
      by_cases hl : i ≠ a.num - 1
      · simp only [O.midDelete, Bool.and_eq_false_iff] at hb
        have h0 : i = 0 := by
          rcases hb with hb | hb
          · simpa using hb
          · simp at hb; omega
        rw [if_pos hl, if_pos (by omega), h0]
        have := A.holds (j + 1) (by simp; omega)
        simp only [Arr.read] at this
        rw [if_pos (by omega)] at this
        rw [show a.start + 1 + j = a.start + (j + 1) by omega, this]
        cases l with
        | nil => simp at hi
        | cons x l => simp
      · rw [if_neg hl, if_pos (by omega)]
        have := A.holds j (by simp; omega)
        simp only [Arr.read] at this
        rw [if_pos (by omega)] at this
        rw [this, List.getElem?_map, List.getElem?_map, List.getElem?_eraseIdx_of_lt (by omega)]
  | tree t =>
    obtain ⟨t', y, p, e, ok, g, c, hp⟩ := deleteI_ok (i := i) (found := false) r2.1 (by rw [r2.2.1]; exact hm) (by rw [r2.2.1]; exact hi)
    rw [r2.2.1] at c
    have r3 : Rep sm (l.eraseIdx i) (.tree { t with root := t' }) := ⟨ok, c, fun _ => hm'⟩
    obtain ⟨o', e', r'⟩ := rebalance_ok r3 hm' (p := p) hp
    simp only [e, e']
    exact ⟨o', rfl, r'⟩

theorem fetch_ok {sm : Bool} {l : List (α × Bool)} {o : O α} (h : Rep sm l o) (i : Nat) : fetch o i = some (match l[i]? with | some x => .ok x.1 | none => .error .inval) := by
  simp only [fetch, rep_size h]
  by_cases hi : i < l.length
  · rw [if_neg (by omega)]
    have hg : l[i]? = some l[i] := by simp [hi]
    cases o with
    | arr a =>
      have := h.2.2.2.2 i (by simpa using hi)
      rw [List.getElem?_map, hg] at this
      simp only [this, hg]; rfl
    | tree t =>
      have := fetchI_ok h.1 (i := i) (by rw [h.2.1]; exact hi)
      rw [h.2.1, hg] at this
      simp only [this, hg]; rfl
  · rw [if_pos (by omega), List.getElem?_eq_none (by omega)]

theorem create_ok (sm : Bool) : ∃ o, create (α := α) sm = some o ∧ Rep sm [] o := by
  have : ARep ([] : List α) (newArr 2) := ⟨by simp [newArr], rfl, by intro i hi; simp at hi⟩
  exact finish_ok this

theorem createFrom_ok (sm : Bool) (vs : List α) : ∃ o, createFrom sm vs = some o ∧ Rep sm (vs.map (fun v => (v, false))) o := by
  have e := copy_ok (cap := vs.length) (rd := fun i => vs[i]?) (src := 0) (dst := 0) (L := vs) (by intro i hi; simp) (buf := fun _ => none) (by omega)
  simp only [createFrom, e, bind, Option.bind]
  exact finish_ok (arep_over (by omega) rfl)

end Verif.Omt
