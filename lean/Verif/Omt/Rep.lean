import Verif.Omt.Model
/-!
What a container stands for, and the lemmas on copying, filling and building.
-/
namespace Verif.Omt

set_option linter.unusedVariables false
set_option linter.unusedSimpArgs false

variable {α β σ : Type}

/-- The nodes of a tree in order. -/
def T.nodes (g : Bool → Bool → α → β) : T α → List β
  | .nil => []
  | .node _ m b l v r => l.nodes g ++ g m b v :: r.nodes g

/-- The values of a tree in order, each with its mark. -/
def T.toL : T α → List (α × Bool) := T.nodes (fun m _ v => (v, m))

theorem toL_nil : (T.nil : T α).toL = [] := rfl
theorem toL_node (w : Nat) (m b : Bool) (l r : T α) (v : α) : (T.node w m b l v r).toL = l.toL ++ (v, m) :: r.toL := rfl

def marked (l : List (α × Bool)) : Bool := l.any (·.2)

theorem marked_append (a b : List (α × Bool)) : marked (a ++ b) = (marked a || marked b) := by simp [marked]
theorem marked_cons (x : α × Bool) (b : List (α × Bool)) : marked (x :: b) = (x.2 || marked b) := by simp [marked]
theorem marked_map (l : List α) : marked (l.map (fun v => (v, false))) = false := by
  simp [marked]

/-- Weights and the bits "marks below" are right. -/
def T.OK : T α → Prop
  | .nil => True
  | .node w _ b l _ r => w = l.toL.length + 1 + r.toL.length ∧ b = (marked l.toL || marked r.toL) ∧ l.OK ∧ r.OK

theorem nodes_length (g : Bool → Bool → α → β) (t : T α) : (t.nodes g).length = t.toL.length := by
  induction t with
  | nil => rfl
  | node w m b l v r ihl ihr => simp [T.nodes, T.toL] at *; omega

theorem weight_eq {t : T α} (h : t.OK) : t.weight = t.toL.length := by
  cases t with
  | nil => rfl
  | node w m b l v r => rw [toL_node]; simp [T.weight, h.1]; omega

theorem isNil_iff {t : T α} : t.isNil = true ↔ t.toL = [] := by
  cases t <;> simp [T.isNil, toL_nil, toL_node]

theorem hasMarks_eq {t : T α} (h : t.OK) : t.hasMarks = marked t.toL := by
  cases t with
  | nil => rfl
  | node w m b l v r =>
    rw [toL_node, marked_append, marked_cons]
    simp only [T.hasMarks, h.2.1]
    cases m <;> cases marked l.toL <;> cases marked r.toL <;> rfl

/-- The places from `off` on hold the list. -/
def Holds (rd : Nat → Option β) (off : Nat) (L : List β) : Prop := ∀ i, i < L.length → rd (off + i) = L[i]?

theorem Holds.split {rd : Nat → Option β} {off h : Nat} {L : List β} (H : Holds rd off L) (hh : h < L.length) :
    ∃ v, L[h]? = some v ∧ rd (off + h) = some v ∧ L = L.take h ++ v :: L.drop (h + 1) ∧ Holds rd off (L.take h) ∧ Holds rd (off + h + 1) (L.drop (h + 1)) := by
  refine ⟨L[h], by simp [hh], by rw [H h hh]; simp [hh], ?_, ?_, ?_⟩
  · rw [← List.drop_eq_getElem_cons hh, List.take_append_drop]
  · intro i hi
    simp at hi
    rw [H i (by omega), List.getElem?_take, if_pos (by omega)]
  · intro i hi
    simp at hi
    rw [List.getElem?_drop, ← H (h + 1 + i) (by omega)]
    congr 1; omega

theorem Holds.mono {rd rd' : Nat → Option β} {off : Nat} {L : List β} (H : Holds rd off L) (h : ∀ i, i < L.length → rd' (off + i) = rd (off + i)) : Holds rd' off L := by
  intro i hi; rw [h i hi]; exact H i hi

theorem build_ok {cap : Nat} {rd : Nat → Option α} (fuel : Nat) {free off : Nat} {L : List α} (hf : L.length ≤ fuel) (H : Holds rd off L) (hc : free + L.length ≤ cap) :
    ∃ t, build cap rd fuel free off L.length = some (t, free + L.length) ∧ t.OK ∧ t.toL = L.map (fun v => (v, false)) := by
  induction fuel generalizing free off L with
  | zero =>
    have : L = [] := List.length_eq_zero_iff.mp (by omega)
    subst this
    exact ⟨.nil, by simp [build], trivial, rfl⟩
  | succ fuel ih =>
    by_cases h0 : L.length = 0
    · have : L = [] := List.length_eq_zero_iff.mp h0
      subst this
      exact ⟨.nil, by simp [build], trivial, rfl⟩
    · obtain ⟨v, hv, hr, hL, H1, H2⟩ := H.split (h := L.length / 2) (by omega)
      have l1 : (L.take (L.length / 2)).length = L.length / 2 := by simp; omega
      have l2 : (L.drop (L.length / 2 + 1)).length = L.length - (L.length / 2 + 1) := by simp
      obtain ⟨t1, e1, o1, m1⟩ := ih (free := free + 1) (by omega) H1 (by omega)
      obtain ⟨t2, e2, o2, m2⟩ := ih (free := free + 1 + L.length / 2) (by omega) H2 (by omega)
      rw [l1] at e1
      rw [l2] at e2
      refine ⟨.node L.length false false t1 v t2, ?_, ⟨?_, ?_, o1, o2⟩, ?_⟩
      · simp only [build, if_neg h0, if_pos (show free < cap by omega), hr, e1, e2, bind, Option.bind, pure]
        congr 2; omega
      · rw [m1, m2]; simp; omega
      · rw [m1, m2, marked_map, marked_map]; rfl
      · rw [toL_node, m1, m2]
        conv => rhs; rw [hL]
        simp

theorem rebuild_ok {rd : Nat → Option (Bool × Bool × α)} (fuel : Nat) {off : Nat} {L : List (Bool × Bool × α)} (hf : L.length ≤ fuel) (H : Holds rd off L) (hm : ∀ x ∈ L, x.1 = false ∧ x.2.1 = false) :
    ∃ t, rebuild rd fuel off L.length = some t ∧ t.OK ∧ t.toL = L.map (fun x => (x.2.2, false)) := by
  induction fuel generalizing off L with
  | zero =>
    have : L = [] := List.length_eq_zero_iff.mp (by omega)
    subst this
    exact ⟨.nil, by simp [rebuild], trivial, rfl⟩
  | succ fuel ih =>
    by_cases h0 : L.length = 0
    · have : L = [] := List.length_eq_zero_iff.mp h0
      subst this
      exact ⟨.nil, by simp [rebuild], trivial, rfl⟩
    · obtain ⟨v, hv, hr, hL, H1, H2⟩ := H.split (h := L.length / 2) (by omega)
      have l1 : (L.take (L.length / 2)).length = L.length / 2 := by simp; omega
      have l2 : (L.drop (L.length / 2 + 1)).length = L.length - (L.length / 2 + 1) := by simp
      obtain ⟨t1, e1, o1, m1⟩ := ih (by omega) H1 (fun x hx => hm x (List.mem_of_mem_take hx))
      obtain ⟨t2, e2, o2, m2⟩ := ih (by omega) H2 (fun x hx => hm x (List.mem_of_mem_drop hx))
      have hv' := hm v (List.mem_of_getElem? hv)
      rw [l1] at e1
      rw [l2] at e2
      obtain ⟨m, b, v⟩ := v
      obtain ⟨hm', hb'⟩ := hv'
      simp only at hm' hb'
      subst hm' hb'
      have z : ∀ L : List (Bool × Bool × α), marked (L.map (fun x => (x.2.2, false))) = false := by intro L; simp [marked]
      refine ⟨.node L.length false false t1 v t2, ?_, ⟨?_, ?_, o1, o2⟩, ?_⟩
      · simp only [rebuild, if_neg h0, hr, e1, e2, bind, Option.bind, pure]
      · rw [m1, m2]; simp; omega
      · rw [m1, m2, z, z]; rfl
      · rw [toL_node, m1, m2]
        conv => rhs; rw [hL]
        simp

theorem put_ok {cap : Nat} {buf : Nat → Option β} {j : Nat} {v : β} (h : j < cap) : put cap buf j v = some (fun i => if i = j then some v else buf i) := by
  simp only [put, if_pos h]

/-- The buffer with a list written from `off` on. -/
def over (buf : Nat → Option β) (off : Nat) (L : List β) : Nat → Option β := fun i => if off ≤ i ∧ i < off + L.length then L[i - off]? else buf i

theorem over_nil (buf : Nat → Option β) (off : Nat) : over buf off [] = buf := by
  funext i; simp only [over]; rw [if_neg]; simp

theorem over_append (buf : Nat → Option β) (off : Nat) (A B : List β) : over (over buf off A) (off + A.length) B = over buf off (A ++ B) := by
  funext i
  simp only [over, List.length_append]
  by_cases h1 : off + A.length ≤ i ∧ i < off + A.length + B.length
  · rw [if_pos h1, if_pos (by omega), List.getElem?_append_right (by omega)]
    congr 1; omega
  · rw [if_neg h1]
    by_cases h2 : off ≤ i ∧ i < off + A.length
    · rw [if_pos h2, if_pos (by omega), List.getElem?_append_left (by omega)]
    · rw [if_neg h2, if_neg (by omega)]

theorem over_one (buf : Nat → Option β) (off : Nat) (v : β) : (fun i => if i = off then some v else buf i) = over buf off [v] := by
  funext i
  simp only [over, List.length_singleton]
  by_cases h : i = off
  · subst h; simp
  · rw [if_neg h, if_neg (by omega)]

theorem over_holds (buf : Nat → Option β) (off : Nat) (L : List β) : Holds (over buf off L) off L := by
  intro i hi
  simp only [over]
  rw [if_pos (by omega)]
  congr 1; omega

theorem over_below (buf : Nat → Option β) (off : Nat) (L : List β) {i : Nat} (h : i < off) : over buf off L i = buf i := by
  simp only [over]; rw [if_neg (by omega)]

theorem fill_ok {g : Bool → Bool → α → β} {cap : Nat} {t : T α} (ho : t.OK) {buf : Nat → Option β} {off : Nat} (hc : off + t.toL.length ≤ cap) :
    fill g cap buf off t = some (over buf off (t.nodes g)) := by
  induction t generalizing buf off with
  | nil => simp [fill, T.nodes, over_nil]
  | node w m b l v r ihl ihr =>
    rw [toL_node] at hc
    simp at hc
    obtain ⟨_, _, hl, hr⟩ := ho
    have el := nodes_length g l
    have f1 := ihl hl (buf := buf) (off := off) (by omega)
    simp only [fill, bind, Option.bind, weight_eq hl]
    rw [f1]
    simp only
    rw [put_ok (by omega)]
    simp only
    rw [ihr hr (by omega), over_one]
    have e1 := over_append buf off (l.nodes g) [g m b v]
    rw [el] at e1
    rw [e1]
    have e2 := over_append buf off (l.nodes g ++ [g m b v]) (r.nodes g)
    rw [List.length_append, el, List.length_singleton, ← Nat.add_assoc] at e2
    rw [e2]
    simp [T.nodes]

theorem copy_ok {cap : Nat} {rd : Nat → Option α} {src dst : Nat} {L : List α} (H : Holds rd src L) {buf : Nat → Option α} (hc : dst + L.length ≤ cap) :
    copy cap rd src dst L.length buf = some (over buf dst L) := by
  induction L generalizing src dst buf with
  | nil => simp [copy, over_nil]
  | cons v L ih =>
    simp only [List.length_cons] at hc
    have h0 := H 0 (by simp)
    simp at h0
    have H' : Holds rd (src + 1) L := by
      intro i hi
      have := H (i + 1) (by simp; omega)
      simp at this
      rw [← this]; congr 1; omega
    simp only [List.length_cons, copy, h0, bind, Option.bind]
    rw [put_ok (by omega)]
    simp only
    rw [ih H' (by omega), over_one]
    have := over_append buf dst [v] L
    rw [List.length_singleton] at this
    rw [this]; rfl

/-- What the container stands for: its values in order, with their marks. -/
def Rep (sm : Bool) (l : List (α × Bool)) : O α → Prop
  | .arr a => sm = false ∧ a.start + a.num ≤ a.cap ∧ a.num = l.length ∧ marked l = false ∧ Holds a.read a.start (l.map (·.1))
  | .tree t => t.root.OK ∧ t.root.toL = l ∧ (sm = false → marked l = false)

theorem rep_size {sm : Bool} {l : List (α × Bool)} {o : O α} (h : Rep sm l o) : o.size = l.length := by
  cases o with
  | arr a => exact h.2.2.1
  | tree t => rw [← h.2.1]; exact weight_eq h.1

theorem unmarked_map {l : List (α × Bool)} (h : marked l = false) : (l.map (·.1)).map (fun v => (v, false)) = l := by
  induction l with
  | nil => rfl
  | cons x l ih =>
    rw [marked_cons, Bool.or_eq_false_iff] at h
    simp only [List.map_cons, ih h.2, List.cons.injEq, and_true]
    rw [← h.1]

/-- An array that holds the values. -/
structure ARep (L : List α) (a : Arr α) : Prop where
  room : a.start + a.num ≤ a.cap
  num : a.num = L.length
  holds : Holds a.read a.start L

theorem arep_rep {l : List (α × Bool)} {a : Arr α} (hm : marked l = false) : ARep (l.map (·.1)) a ↔ Rep false l (.arr a) := by
  constructor
  · rintro ⟨h1, h2, h3⟩
    exact ⟨rfl, h1, by simpa using h2, hm, h3⟩
  · rintro ⟨_, h1, h2, _, h3⟩
    exact ⟨h1, by simpa using h2, h3⟩

theorem arep_over {buf : Nat → Option α} {cap off n : Nat} {L : List α} (h : off + L.length ≤ cap) (hn : n = L.length) : ARep L ⟨cap, off, n, over buf off L⟩ := by
  refine ⟨by simp only; omega, hn, ?_⟩
  intro i hi
  simp only [Arr.read]
  rw [if_pos (by omega)]
  exact over_holds buf off L i hi

theorem four_le (n : Nat) : n < (if n * 2 < 4 then 4 else n * 2) := by split <;> omega

theorem toTree_ok {L : List α} {a : Arr α} (h : ARep L a) : ∃ t, (O.arr a).toTree = some t ∧ t.root.OK ∧ t.root.toL = L.map (fun v => (v, false)) ∧ t.free < t.cap := by
  have hc := four_le a.num
  have hn := h.num
  obtain ⟨t, e, o, m⟩ := build_ok (cap := if a.num * 2 < 4 then 4 else a.num * 2) a.num (free := 0) (by omega) h.holds (by omega)
  rw [← hn] at e
  exact ⟨⟨if a.num * 2 < 4 then 4 else a.num * 2, 0 + a.num, t⟩, by simp only [O.toTree, e, bind, Option.bind, pure], o, m, by simp only; omega⟩

theorem finish_ok {sm : Bool} {L : List α} {a : Arr α} (h : ARep L a) : ∃ o, finish sm a = some o ∧ Rep sm (L.map (fun v => (v, false))) o := by
  cases sm with
  | false =>
    refine ⟨.arr a, rfl, (arep_rep (by simp [marked])).mp ?_⟩
    have e : (L.map (fun v => (v, false))).map (·.1) = L := by simp [Function.comp_def]
    rw [e]; exact h
  | true =>
    obtain ⟨t, e, o, m, _⟩ := toTree_ok h
    exact ⟨.tree t, by simp [finish, e], o, m, by intro h; cases h⟩

theorem toArr_ok {sm : Bool} {l : List (α × Bool)} {o : O α} (h : Rep sm l o) : ∃ a, o.toArr = some a ∧ ARep (l.map (·.1)) a ∧ ((∃ t, o = .tree t) → a.start = 0 ∧ a.cap = (if 2 * l.length < 4 then 4 else 2 * l.length)) := by
  cases o with
  | arr a => exact ⟨a, rfl, ⟨h.2.1, by simpa using h.2.2.1, h.2.2.2.2⟩, by rintro ⟨t, ht⟩; cases ht⟩
  | tree t =>
    have hw := weight_eq h.1
    have e := fill_ok (g := fun _ _ v => v) (cap := if 2 * t.root.weight < 4 then 4 else 2 * t.root.weight) h.1 (buf := fun _ => none) (off := 0) (by rw [hw]; split <;> omega)
    have hn : t.root.nodes (fun _ _ v => v) = l.map (·.1) := by
      rw [← h.2.1]
      clear hw e
      generalize t.root = r
      induction r with
      | nil => rfl
      | node w m b l v r ihl ihr => rw [toL_node]; simp [T.nodes, ihl, ihr]
    rw [hn] at e
    rw [h.2.1] at hw
    refine ⟨⟨if 2 * t.root.weight < 4 then 4 else 2 * t.root.weight, 0, t.root.weight, over (fun _ => none) 0 (l.map (·.1))⟩, by simp only [O.toArr, e, bind, Option.bind, pure], arep_over ?_ (by simpa using hw), ?_⟩
    · rw [hw]; simp; split <;> omega
    · intro _; exact ⟨rfl, by simp only [hw]⟩

end Verif.Omt
