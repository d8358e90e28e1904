import Verif.Lt.Waits
import Verif.Lt.LockStep

/-! The waits-for graph contains exactly the edges reachable from the requester, and the search finds a cycle exactly
if there is one. -/
namespace Verif.Lt
open Std Relation

/-! ### Paths -/

/-- `a → l₁ → l₂ → … → b`. -/
def Steps (R : Txn → Txn → Prop) : Txn → List Txn → Txn → Prop
  | a, [], b => R a b
  | a, x :: l, b => R a x ∧ Steps R x l b

theorem Steps.append {R a l b m c} : Steps R a l b → Steps R b m c → Steps R a (l ++ b :: m) c := by
  induction l generalizing a with
  | nil => intro h h'; exact ⟨h, h'⟩
  | cons x l ih => intro h h'; exact ⟨h.1, ih h.2 h'⟩

theorem Steps.split {R a p x q b} : Steps R a (p ++ x :: q) b → Steps R a p x ∧ Steps R x q b := by
  induction p generalizing a with
  | nil => intro h; exact ⟨h.1, h.2⟩
  | cons y p ih => intro h; exact ⟨⟨h.1, (ih h.2).1⟩, (ih h.2).2⟩

theorem steps_iff {R a b} : TransGen R a b ↔ ∃ l, Steps R a l b := by
  constructor
  · intro h
    induction h with
    | single h => exact ⟨[], h⟩
    | @tail b c _ h ih =>
      obtain ⟨l, hl⟩ := ih
      exact ⟨l ++ b :: [], hl.append h⟩
  · rintro ⟨l, hl⟩
    induction l generalizing a with
    | nil => exact .single hl
    | cons x l ih => exact (TransGen.single hl.1).trans (ih hl.2)

theorem Steps.mono {R S : Txn → Txn → Prop} (h : ∀ a b, R a b → S a b) {a l b} : Steps R a l b → Steps S a l b := by
  induction l generalizing a with
  | nil => exact h _ _
  | cons x l ih => intro h'; exact ⟨h _ _ h'.1, ih h'.2⟩

theorem dup_split {l : List Txn} (h : ¬ l.Nodup) : ∃ p x q r, l = p ++ x :: (q ++ x :: r) := by
  induction l with
  | nil => exact absurd List.nodup_nil h
  | cons a l ih =>
    by_cases ha : a ∈ l
    · obtain ⟨q, r, rfl⟩ := List.append_of_mem ha
      exact ⟨[], a, q, r, rfl⟩
    · obtain ⟨p, x, q, r, rfl⟩ := ih (fun hl => h (List.nodup_cons.mpr ⟨ha, hl⟩))
      exact ⟨a :: p, x, q, r, rfl⟩

/-- A connection without repetition. -/
theorem simple_steps {R a b} (h : TransGen R a b) : ∃ l, Steps R a l b ∧ l.Nodup ∧ a ∉ l ∧ b ∉ l := by
  obtain ⟨l, hl⟩ := steps_iff.mp h
  clear h
  generalize hn : l.length = n
  induction n using Nat.strongRecOn generalizing l with
  | _ n ih =>
    by_cases hd : l.Nodup
    · by_cases ha : a ∈ l
      · obtain ⟨p, q, rfl⟩ := List.append_of_mem ha
        exact ih q.length (by simp at hn; omega) q hl.split.2 rfl
      · by_cases hb : b ∈ l
        · obtain ⟨p, q, rfl⟩ := List.append_of_mem hb
          exact ih p.length (by simp at hn; omega) p hl.split.1 rfl
        · exact ⟨l, hl, hd, ha, hb⟩
    · obtain ⟨p, x, q, r, rfl⟩ := dup_split hd
      have h1 := hl.split
      exact ih (p ++ x :: r).length (by simp at hn ⊢; omega) _ (h1.1.append h1.2.split.2) rfl

/-! ### Graphs -/

/-- Node ids ascend. -/
def Graph.Ok (g : Graph) : Prop := g.Pairwise fun x y => x.1 < y.1

/-- The node ids. -/
def Graph.keys (g : Graph) : List Txn := g.map (·.1)

theorem has_iff {g : Graph} {t : Txn} : g.has t = true ↔ t ∈ g.keys := by
  simp [Graph.has, Graph.keys]

theorem keys_create (g : Graph) (t x : Txn) : x ∈ (g.create t).keys ↔ x = t ∨ x ∈ g.keys := by
  induction g with
  | nil => simp [Graph.create, Graph.keys]
  | cons n g ih =>
    obtain ⟨u, es⟩ := n
    unfold Graph.create
    simp only [Graph.keys] at ih ⊢
    repeat' split
    · simp only [List.map_cons, List.mem_cons, ih]; grind
    · simp only [List.map_cons, List.mem_cons]; grind
    · simp

theorem ok_create {g : Graph} (h : g.Ok) (t : Txn) : (g.create t).Ok := by
  induction g with
  | nil => simp [Graph.create, Graph.Ok]
  | cons n g ih =>
    obtain ⟨u, es⟩ := n
    obtain ⟨h1, h2⟩ := List.pairwise_cons.mp h
    unfold Graph.create
    repeat' split
    · rename_i hlt
      refine List.pairwise_cons.mpr ⟨?_, ih h2⟩
      intro y hy
      have : y.1 ∈ (Graph.create g t).keys := List.mem_map.mpr ⟨y, hy, rfl⟩
      rcases (keys_create g t y.1).mp this with he | he
      · simp only [he]; exact hlt
      · obtain ⟨z, hz, hzy⟩ := List.mem_map.mp he
        have := h1 z hz; simp only [← hzy]; exact this
    · exact h
    · rename_i h3 h4
      have hlt : t < u := Nat.lt_of_le_of_ne (Nat.le_of_not_lt h3) (fun he => h4 he.symm)
      refine List.pairwise_cons.mpr ⟨?_, h⟩
      intro y hy
      rcases List.mem_cons.mp hy with rfl | hy
      · exact hlt
      · exact Nat.lt_trans hlt (h1 y hy)

theorem edges_not_mem {g : Graph} {t : Txn} (h : t ∉ g.keys) : g.edges t = [] := by
  induction g with
  | nil => rfl
  | cons n g ih =>
    obtain ⟨u, es⟩ := n
    simp only [Graph.keys, List.map_cons, List.mem_cons, not_or] at h
    unfold Graph.edges
    rw [if_neg (fun he => h.1 he.symm)]
    exact ih h.2

theorem edges_create {g : Graph} (h : g.Ok) (t x : Txn) : (g.create t).edges x = g.edges x := by
  induction g with
  | nil => simp only [Graph.create, Graph.edges]; split <;> rfl
  | cons n g ih =>
    obtain ⟨u, es⟩ := n
    obtain ⟨h1, h2⟩ := List.pairwise_cons.mp h
    unfold Graph.create
    repeat' split
    · simp only [Graph.edges, ih h2]
    · rfl
    · rename_i h3 h4
      have hlt : t < u := Nat.lt_of_le_of_ne (Nat.le_of_not_lt h3) (fun he => h4 he.symm)
      rw [Graph.edges]
      split
      · rename_i he
        subst he
        refine (edges_not_mem ?_).symm
        simp only [Graph.keys, List.map_cons, List.mem_cons, not_or]
        refine ⟨Nat.ne_of_lt hlt, ?_⟩
        intro hm
        obtain ⟨z, hz, hzt⟩ := List.mem_map.mp hm
        have := h1 z hz
        simp only [hzt] at this
        exact absurd (Nat.lt_trans hlt this) (Nat.lt_irrefl _)
      · rfl

theorem keys_addTo (g : Graph) (a b : Txn) : (g.addTo a b).keys = g.keys := by
  induction g with
  | nil => rfl
  | cons n g ih =>
    obtain ⟨u, es⟩ := n
    unfold Graph.addTo
    simp only [Graph.keys] at ih ⊢
    split <;> simp [ih]

theorem ok_iff_keys {g : Graph} : g.Ok ↔ g.keys.Pairwise (· < ·) := by
  unfold Graph.Ok Graph.keys; rw [List.pairwise_map]

theorem edges_addTo (g : Graph) (a b x y : Txn) (ha : a ∈ g.keys) :
    y ∈ (g.addTo a b).edges x ↔ y ∈ g.edges x ∨ (x = a ∧ y = b) := by
  induction g with
  | nil => simp [Graph.keys] at ha
  | cons n g ih =>
    obtain ⟨u, es⟩ := n
    simp only [Graph.keys, List.map_cons, List.mem_cons] at ha
    unfold Graph.addTo
    split
    · rename_i he
      subst he
      simp only [Graph.edges]
      by_cases hx : u = x
      · simp only [hx, if_true, mem_addTxn, true_and]; grind
      · simp only [if_neg hx]; grind
    · rename_i he
      have ha' : a ∈ Graph.keys g := by
        rcases ha with h | h
        · exact absurd h.symm he
        · exact h
      simp only [Graph.edges]
      by_cases hx : u = x
      · simp only [hx, if_true]; grind
      · simp only [if_neg hx]; exact ih ha'

theorem keys_addEdge (g : Graph) (a b x : Txn) : x ∈ (g.addEdge a b).keys ↔ x = a ∨ x = b ∨ x ∈ g.keys := by
  unfold Graph.addEdge
  rw [keys_addTo, keys_create, keys_create]; grind

theorem ok_addEdge {g : Graph} (h : g.Ok) (a b : Txn) : (g.addEdge a b).Ok := by
  unfold Graph.addEdge
  rw [ok_iff_keys, keys_addTo, ← ok_iff_keys]
  exact ok_create (ok_create h a) b

theorem edges_addEdge {g : Graph} (h : g.Ok) (a b x y : Txn) :
    y ∈ (g.addEdge a b).edges x ↔ y ∈ g.edges x ∨ (x = a ∧ y = b) := by
  unfold Graph.addEdge
  rw [edges_addTo _ _ _ _ _ (by rw [keys_create, keys_create]; grind), edges_create (ok_create h a), edges_create h]

/-! ### The search -/

/-- Nodes not yet on the path. -/
def unvisited (g : Graph) (path : List Txn) : Nat := (g.keys.filter fun x => decide (x ∉ path)).length

theorem unvisited_cons {g : Graph} {path : List Txn} {x : Txn} (h : x ∈ g.keys) (hx : x ∉ path) :
    unvisited g (x :: path) < unvisited g path := by
  unfold unvisited
  have key : ∀ l : List Txn, x ∈ l →
      (l.filter fun y => decide (y ∉ x :: path)).length < (l.filter fun y => decide (y ∉ path)).length := by
    intro l
    have le : ∀ l : List Txn, (l.filter fun y => decide (y ∉ x :: path)).length ≤ (l.filter fun y => decide (y ∉ path)).length := by
      intro l
      induction l with
      | nil => simp
      | cons a l ih =>
        simp only [List.filter_cons]
        by_cases h1 : a ∈ path
        · simp [h1]; simpa using ih
        · by_cases h2 : a = x
          · simp [h1, h2, hx]; have := ih; simp at this; omega
          · simp [h1, h2]; simpa using ih
    induction l with
    | nil => simp
    | cons a l ih =>
      intro hm
      by_cases h2 : a = x
      · subst h2
        have := le l
        simp only [List.filter_cons]
        simp [hx]
        simp at this; omega
      · have := ih ((List.mem_cons.mp hm).resolve_left (fun h => h2 h.symm))
        simp only [List.filter_cons]
        by_cases h1 : a ∈ path
        · simp [h1]; simpa using this
        · simp [h1, h2]; simpa using this
  exact key g.keys h

mutual
theorem cycleFrom_spec (g : Graph) (target : Txn) (hc : ∀ x y, y ∈ g.edges x → y ∈ g.keys) :
    ∀ (fuel : Nat) (path : List Txn) (head : Txn), head ∈ g.keys → head ∉ path → unvisited g path ≤ fuel →
      ∃ r, cycleFrom g target fuel path head = some r ∧
        (r = true → TransGen (fun x y => y ∈ g.edges x) head target) ∧
        (r = false → ∀ l, Steps (fun x y => y ∈ g.edges x) head l target → l.Nodup → target ∉ l →
          (∀ x ∈ l, x ∉ head :: path) → False)
  | 0, path, head, h1, h2, h3 => by
    have := unvisited_cons h1 h2; omega
  | fuel + 1, path, head, h1, h2, h3 => by
    have := unvisited_cons h1 h2
    obtain ⟨r, e1, e2, e3⟩ := cycleEdges_spec g target hc fuel (head :: path) (g.edges head) (fun y hy => hc _ _ hy) (by omega)
    refine ⟨r, by rw [cycleFrom]; exact e1, ?_, ?_⟩
    · intro hr
      obtain ⟨e, he, h⟩ := e2 hr
      rcases h with rfl | h
      · exact .single he
      · exact (TransGen.single he).trans h
    · intro hr l hl hn ht hp
      cases l with
      | nil => exact (e3 hr target hl).1 rfl
      | cons x l =>
        refine (e3 hr x hl.1).2 (hp x (by simp)) l hl.2 (List.nodup_cons.mp hn).2 (fun h => ht (by simp [h])) ?_
        intro y hy
        simp only [List.mem_cons, not_or]
        refine ⟨fun he => (List.nodup_cons.mp hn).1 (he ▸ hy), ?_⟩
        have := hp y (by simp [hy]); simpa using this
theorem cycleEdges_spec (g : Graph) (target : Txn) (hc : ∀ x y, y ∈ g.edges x → y ∈ g.keys) :
    ∀ (fuel : Nat) (path : List Txn) (es : List Txn), (∀ e ∈ es, e ∈ g.keys) → unvisited g path ≤ fuel →
      ∃ r, cycleEdges g target (cycleFrom g target fuel) path es = some r ∧
        (r = true → ∃ e ∈ es, e = target ∨ TransGen (fun x y => y ∈ g.edges x) e target) ∧
        (r = false → ∀ e ∈ es, e ≠ target ∧ (e ∉ path → ∀ l, Steps (fun x y => y ∈ g.edges x) e l target → l.Nodup →
          target ∉ l → (∀ x ∈ l, x ∉ e :: path) → False))
  | fuel, path, [], _, _ => ⟨false, by simp [cycleEdges], by simp, by simp⟩
  | fuel, path, e :: es, h1, h2 => by
    obtain ⟨r, e1, e2, e3⟩ := cycleEdges_spec g target hc fuel path es (fun x hx => h1 x (by simp [hx])) h2
    rw [cycleEdges]
    by_cases ht : target = e
    · rw [if_pos ht]
      exact ⟨true, rfl, fun _ => ⟨e, by simp, .inl ht.symm⟩, by simp⟩
    · rw [if_neg ht]
      by_cases hv : g.has e = true ∧ e ∉ path
      · rw [if_pos hv]
        obtain ⟨r1, f1, f2, f3⟩ := cycleFrom_spec g target hc fuel path e (h1 e (by simp)) hv.2 h2
        rw [f1]
        simp only [Option.bind_some]
        cases r1 with
        | true => exact ⟨true, rfl, fun _ => ⟨e, by simp, .inr (f2 rfl)⟩, by simp⟩
        | false =>
          refine ⟨r, by simp [e1], ?_, ?_⟩
          · intro hr; obtain ⟨x, hx, h⟩ := e2 hr; exact ⟨x, by simp [hx], h⟩
          · intro hr x hx
            rcases List.mem_cons.mp hx with rfl | hx
            · exact ⟨fun h => ht h.symm, fun _ => f3 rfl⟩
            · exact e3 hr x hx
      · rw [if_neg hv]
        refine ⟨r, e1, ?_, ?_⟩
        · intro hr; obtain ⟨x, hx, h⟩ := e2 hr; exact ⟨x, by simp [hx], h⟩
        · intro hr x hx
          rcases List.mem_cons.mp hx with rfl | hx
          · exact ⟨fun h => ht h.symm, fun hp => absurd ⟨has_iff.mpr (h1 x (by simp)), hp⟩ hv⟩
          · exact e3 hr x hx
end

theorem cycleExists_spec (g : Graph) (t : Txn) (hc : ∀ x y, y ∈ g.edges x → y ∈ g.keys) :
    ∃ r, cycleExists g t = some r ∧ (r = true ↔ TransGen (fun x y => y ∈ g.edges x) t t) := by
  unfold cycleExists
  by_cases h : g.has t = true
  · rw [if_pos h]
    obtain ⟨r, e1, e2, e3⟩ := cycleFrom_spec g t hc (g.length + 1) [] t (has_iff.mp h) (by simp)
      (by
        have : unvisited g [] ≤ g.keys.length := List.length_filter_le _ _
        simp only [Graph.keys, List.length_map] at this
        unfold Graph.keys at *; omega)
    refine ⟨r, e1, e2, ?_⟩
    intro ht
    cases r with
    | true => rfl
    | false =>
      obtain ⟨l, l1, l2, l3, l4⟩ := simple_steps ht
      exact absurd (e3 rfl l l1 l2 l4 (by intro x hx; simp only [List.mem_singleton]; rintro rfl; exact l3 hx)) id
  · rw [if_neg h]
    refine ⟨false, rfl, by simp, ?_⟩
    intro ht
    obtain ⟨l, hl⟩ := steps_iff.mp ht
    have hn : t ∉ g.keys := fun hk => h (has_iff.mpr hk)
    cases l with
    | nil => have : t ∈ g.edges t := hl; rw [edges_not_mem hn] at this; simp at this
    | cons x l => have : x ∈ g.edges t := hl.1; rw [edges_not_mem hn] at this; simp at this

/-! ### Building the graph -/

variable {cfg : Cfg}

/-- Requests not yet in the graph. -/
def unbuilt (reqs : List Req) (g : Graph) : Nat := ((reqs.map (·.1)).filter fun x => decide (x ∉ g.keys)).length

theorem filter_lt {l : List Txn} {P Q : Txn → Bool} (h : ∀ x ∈ l, P x = true → Q x = true) :
    (l.filter P).length ≤ (l.filter Q).length ∧ ((∃ x ∈ l, P x = false ∧ Q x = true) → (l.filter P).length < (l.filter Q).length) := by
  induction l with
  | nil => simp
  | cons a l ih =>
    obtain ⟨i1, i2⟩ := ih (fun x hx => h x (by simp [hx]))
    have ha := h a (by simp)
    simp only [List.filter_cons]
    constructor
    · cases hp : P a <;> cases hq : Q a <;> simp_all <;> omega
    · rintro ⟨x, hx, h1, h2⟩
      rcases List.mem_cons.mp hx with rfl | hx
      · simp [h1, h2]; omega
      · have := i2 ⟨x, hx, h1, h2⟩
        cases hp : P a <;> cases hq : Q a <;> simp_all <;> omega

theorem unbuilt_mono {reqs : List Req} {g g' : Graph} (h : ∀ x ∈ g.keys, x ∈ g'.keys) : unbuilt reqs g' ≤ unbuilt reqs g := by
  unfold unbuilt
  refine (filter_lt ?_).1
  intro x _ hx
  simp only [decide_eq_true_eq] at *
  exact fun hk => hx (h x hk)

theorem findReq_mem {t : Txn} {rs : List Req} {p} (h : findReq t rs = some p) : (t, p) ∈ rs := by
  induction rs with
  | nil => simp [findReq] at h
  | cons a rs ih =>
    obtain ⟨u, q⟩ := a
    unfold findReq at h
    split at h
    · rename_i he; simp only [Option.some.injEq] at h; subst h; subst he; simp
    · simp [ih h]

theorem findReq_none {t : Txn} {rs : List Req} : findReq t rs = none ↔ t ∉ rs.map (·.1) := by
  induction rs with
  | nil => simp [findReq]
  | cons a rs ih =>
    obtain ⟨u, q⟩ := a
    unfold findReq
    split
    · rename_i he; subst he; simp
    · rename_i he
      rw [ih]
      simp only [List.map_cons, List.mem_cons, not_or]
      exact ⟨fun h => ⟨fun h' => he h'.symm, h⟩, fun h => h.2⟩

theorem findReq_isSome {t : Txn} {rs : List Req} : (∃ p, findReq t rs = some p) ↔ t ∈ rs.map (·.1) := by
  cases h : findReq t rs with
  | none => simp only [reduceCtorEq, exists_false, false_iff]; exact findReq_none.mp h
  | some p => simp only [Option.some.injEq, exists_eq', true_iff]; exact List.mem_map.mpr ⟨_, findReq_mem h, rfl⟩

theorem build_nil (lt : LockTable cfg) (reqs : List Req) (fuel : Nat) (g : Graph) (a : Txn) :
    buildWaitGraph lt reqs fuel g a [] = some g := by cases fuel <;> rfl

theorem build_cons (lt : LockTable cfg) (reqs : List Req) (fuel : Nat) (g : Graph) (a b : Txn) (bs : List Txn) :
    buildWaitGraph lt reqs fuel g a (b :: bs) =
      if a = b then none
      else
        match findReq b reqs with
        | none => buildWaitGraph lt reqs fuel g a bs
        | some p =>
          if g.has b then buildWaitGraph lt reqs fuel (g.addEdge a b) a bs
          else
            match fuel with
            | 0 => none
            | f + 1 =>
              (getConflicts lt b p.1 p.2).bind fun cs =>
              (buildWaitGraph lt reqs f (g.addEdge a b) b cs).bind fun g' => buildWaitGraph lt reqs (f + 1) g' a bs := by
  cases fuel with
  | zero =>
    simp only [buildWaitGraph, waitEdges]
    split
    · rfl
    · cases findReq b reqs with
      | none => rfl
      | some p => simp
  | succ f => simp only [buildWaitGraph]; rw [waitEdges.eq_2]; rfl

/-- What building does, given the conflict sets `K`. -/
theorem build_spec (lt : LockTable cfg) (reqs : List Req) (K : Txn → List Txn)
    (hK : ∀ b p, findReq b reqs = some p → getConflicts lt b p.1 p.2 = some (K b) ∧ b ∉ K b) (fuel : Nat) (g : Graph) (a : Txn)
    (cs : List Txn) (ha : a ∉ cs) (hf : unbuilt reqs g ≤ fuel) (hok : g.Ok) (hc : ∀ x y, y ∈ g.edges x → y ∈ g.keys) :
    ∃ g', buildWaitGraph lt reqs fuel g a cs = some g' ∧ g'.Ok ∧ (∀ x ∈ g.keys, x ∈ g'.keys) ∧
      (∀ x y, y ∈ g'.edges x → y ∈ g'.keys) ∧
      (∀ x ∈ g.keys, x ≠ a → ∀ y, y ∈ g'.edges x ↔ y ∈ g.edges x) ∧
      (∀ y, y ∈ g'.edges a ↔ y ∈ g.edges a ∨ (y ∈ cs ∧ y ∈ reqs.map (·.1))) ∧
      (∀ x ∈ g'.keys, x ∉ g.keys → x ≠ a → x ∈ reqs.map (·.1) ∧ ∀ y, y ∈ g'.edges x ↔ y ∈ K x ∧ y ∈ reqs.map (·.1)) := by
  match fuel, cs with
  | fuel, [] => 
    rw [build_nil]
    exact ⟨g, rfl, hok, fun _ h => h, hc, fun _ _ _ _ => .rfl, by simp, fun x h h' => absurd h h'⟩
  | fuel, b :: bs =>
    have hab : a ≠ b := fun h => ha (by simp [h])
    have ha' : a ∉ bs := fun h => ha (by simp [h])
    have hb : findReq b reqs = none ∨ ∃ p, findReq b reqs = some p := by cases findReq b reqs <;> simp
    rcases hb with hb | ⟨p, hb⟩
    · obtain ⟨g', e1, e2, e3, e4, e5, e6, e7⟩ := build_spec lt reqs K hK fuel g a bs ha' hf hok hc
      refine ⟨g', by rw [build_cons, if_neg hab, hb]; exact e1, e2, e3, e4, e5, ?_, e7⟩
      intro y
      have hbn : b ∉ reqs.map (·.1) := findReq_none.mp hb
      rw [e6]
      simp only [List.mem_cons]
      constructor
      · rintro (h | ⟨h, h'⟩)
        · exact .inl h
        · exact .inr ⟨.inr h, h'⟩
      · rintro (h | ⟨rfl | h, h'⟩)
        · exact .inl h
        · exact absurd h' hbn
        · exact .inr ⟨h, h'⟩
    · have hbm : b ∈ reqs.map (·.1) := findReq_isSome.mp ⟨p, hb⟩
      obtain ⟨hK1, hK2⟩ := hK b p hb
      have hok1 := ok_addEdge hok a b
      have hc1 : ∀ x y, y ∈ (g.addEdge a b).edges x → y ∈ (g.addEdge a b).keys := by
        intro x y hy
        rw [keys_addEdge]
        rcases (edges_addEdge hok a b x y).mp hy with h | ⟨-, rfl⟩
        · exact .inr (.inr (hc x y h))
        · exact .inr (.inl rfl)
      by_cases hh : g.has b = true
      · have hbk := has_iff.mp hh
        obtain ⟨g', e1, e2, e3, e4, e5, e6, e7⟩ := build_spec lt reqs K hK fuel (g.addEdge a b) a bs ha'
          (Nat.le_trans (unbuilt_mono (fun x hx => (keys_addEdge ..).mpr (.inr (.inr hx)))) hf) hok1 hc1
        refine ⟨g', by rw [build_cons, if_neg hab, hb]; simp only [hh, if_true]; exact e1, e2, ?_, e4, ?_, ?_, ?_⟩
        · intro x hx; exact e3 x ((keys_addEdge ..).mpr (.inr (.inr hx)))
        · intro x hx hxa y
          rw [e5 x ((keys_addEdge ..).mpr (.inr (.inr hx))) hxa, edges_addEdge hok]
          simp [hxa]
        · intro y
          rw [e6, edges_addEdge hok]
          simp only [true_and, List.mem_cons]
          constructor
          · rintro ((h | rfl) | ⟨h, h'⟩)
            · exact .inl h
            · exact .inr ⟨.inl rfl, hbm⟩
            · exact .inr ⟨.inr h, h'⟩
          · rintro (h | ⟨rfl | h, h'⟩)
            · exact .inl (.inl h)
            · exact .inl (.inr rfl)
            · exact .inr ⟨h, h'⟩
        · intro x hx hxg hxa
          refine e7 x hx ?_ hxa
          rw [keys_addEdge]
          rintro (h | h | h)
          · exact hxa h
          · exact hxg (h ▸ hbk)
          · exact hxg h
      · have hbk : b ∉ g.keys := fun h => hh (has_iff.mpr h)
        have hlt : unbuilt reqs (g.addEdge a b) < unbuilt reqs g := by
          unfold unbuilt
          refine (filter_lt ?_).2 ⟨b, hbm, ?_, ?_⟩
          · intro x _ hx
            simp only [decide_eq_true_eq] at *
            exact fun hk => hx ((keys_addEdge ..).mpr (.inr (.inr hk)))
          · simp only [decide_eq_false_iff_not, Classical.not_not]; exact (keys_addEdge ..).mpr (.inr (.inl rfl))
          · simpa using hbk
        match fuel, hf with
        | 0, hf => omega
        | f + 1, hf =>
          obtain ⟨g1, d1, d2, d3, d4, d5, d6, d7⟩ := build_spec lt reqs K hK f (g.addEdge a b) b (K b) hK2 (by omega) hok1 hc1
          have hk1 : ∀ x ∈ g.keys, x ∈ g1.keys := fun x hx => d3 x ((keys_addEdge ..).mpr (.inr (.inr hx)))
          have hak : a ∈ g1.keys := d3 a ((keys_addEdge ..).mpr (.inl rfl))
          obtain ⟨g', e1, e2, e3, e4, e5, e6, e7⟩ := build_spec lt reqs K hK (f + 1) g1 a bs ha'
            (Nat.le_trans (unbuilt_mono hk1) hf) d2 d4
          refine ⟨g', ?_, e2, fun x hx => e3 x (hk1 x hx), e4, ?_, ?_, ?_⟩
          · rw [build_cons, if_neg hab, hb]
            simp only [hh, hK1, Option.bind_some, d1]
            exact e1
          · intro x hx hxa y
            have hxb : x ≠ b := fun h => hbk (h ▸ hx)
            rw [e5 x (hk1 x hx) hxa, d5 x ((keys_addEdge ..).mpr (.inr (.inr hx))) hxb, edges_addEdge hok]
            simp [hxa]
          · intro y
            rw [e6, d5 a ((keys_addEdge ..).mpr (.inl rfl)) hab, edges_addEdge hok]
            simp only [true_and, List.mem_cons]
            constructor
            · rintro ((h | rfl) | ⟨h, h'⟩)
              · exact .inl h
              · exact .inr ⟨.inl rfl, hbm⟩
              · exact .inr ⟨.inr h, h'⟩
            · rintro (h | ⟨rfl | h, h'⟩)
              · exact .inl (.inl h)
              · exact .inl (.inr rfl)
              · exact .inr ⟨h, h'⟩
          · intro x hx hxg hxa
            by_cases hx1 : x ∈ g1.keys
            · by_cases hxb : x = b
              · subst hxb
                refine ⟨hbm, fun y => ?_⟩
                rw [e5 x hx1 hxa, d6, edges_addEdge hok, edges_not_mem hxg]
                simp [hxa]
              · obtain ⟨k1, k2⟩ := d7 x hx1 (by rw [keys_addEdge]; exact fun h => h.elim hxa (fun h => h.elim hxb hxg)) hxb
                exact ⟨k1, fun y => by rw [e5 x hx1 hxa, k2]⟩
            · exact e7 x hx hx1 hxa
termination_by (fuel, cs.length)

/-- The detector's answer, in terms of the conflict sets. -/
theorem deadlockExists_spec (lt : LockTable cfg) (reqs : List Req) (t : Txn) (cs : List Txn) (K : Txn → List Txn)
    (hK : ∀ b p, findReq b reqs = some p → getConflicts lt b p.1 p.2 = some (K b) ∧ b ∉ K b) (ht : t ∉ cs) :
    ∃ d, deadlockExists lt reqs t cs = some d ∧
      (d = true ↔ TransGen (fun a b => b ∈ reqs.map (·.1) ∧ ((a = t ∧ b ∈ cs) ∨ (a ≠ t ∧ a ∈ reqs.map (·.1) ∧ b ∈ K a))) t t) := by
  obtain ⟨g, e1, e2, e3, e4, e5, e6, e7⟩ := build_spec lt reqs K hK (reqs.length + 1) [] t cs ht
    (by
      have : unbuilt reqs [] ≤ (reqs.map (·.1)).length := List.length_filter_le _ _
      simp at this; omega) .nil (by simp [Graph.edges])
  obtain ⟨d, f1, f2⟩ := cycleExists_spec g t e4
  refine ⟨d, by unfold deadlockExists; rw [e1]; exact f1, ?_⟩
  rw [f2]
  have hedge : ∀ x, x = t ∨ x ∈ g.keys → ∀ y, y ∈ g.edges x ↔
      y ∈ reqs.map (·.1) ∧ ((x = t ∧ y ∈ cs) ∨ (x ≠ t ∧ x ∈ reqs.map (·.1) ∧ y ∈ K x)) := by
    intro x hx y
    by_cases hxt : x = t
    · subst hxt
      rw [e6]
      simp [Graph.edges]
      exact And.comm
    · have hxk := hx.resolve_left hxt
      obtain ⟨k1, k2⟩ := e7 x hxk (by simp [Graph.keys]) hxt
      rw [k2]
      constructor
      · rintro ⟨h, h'⟩; exact ⟨h', .inr ⟨hxt, k1, h⟩⟩
      · rintro ⟨h, h' | h'⟩
        · exact absurd h'.1 hxt
        · exact ⟨h'.2.2, h⟩
  constructor
  · intro h
    rw [steps_iff] at h ⊢
    obtain ⟨l, hl⟩ := h
    refine ⟨l, ?_⟩
    have : ∀ (l : List Txn) (x : Txn), x = t ∨ x ∈ g.keys → Steps (fun x y => y ∈ g.edges x) x l t →
        Steps (fun a b => b ∈ reqs.map (·.1) ∧ ((a = t ∧ b ∈ cs) ∨ (a ≠ t ∧ a ∈ reqs.map (·.1) ∧ b ∈ K a))) x l t := by
      intro l
      induction l with
      | nil => intro x hx h; exact (hedge x hx t).mp h
      | cons y l ih => intro x hx h; exact ⟨(hedge x hx y).mp h.1, ih y (.inr (e4 x y h.1)) h.2⟩
    exact this l t (.inl rfl) hl
  · intro h
    rw [steps_iff] at h ⊢
    obtain ⟨l, hl⟩ := h
    refine ⟨l, ?_⟩
    have : ∀ (l : List Txn) (x : Txn), x = t ∨ x ∈ g.keys →
        Steps (fun a b => b ∈ reqs.map (·.1) ∧ ((a = t ∧ b ∈ cs) ∨ (a ≠ t ∧ a ∈ reqs.map (·.1) ∧ b ∈ K a))) x l t →
        Steps (fun x y => y ∈ g.edges x) x l t := by
      intro l
      induction l with
      | nil => intro x hx h; exact (hedge x hx t).mpr h
      | cons y l ih =>
        intro x hx h
        have hy := (hedge x hx y).mpr h.1
        exact ⟨hy, ih y (.inr (e4 x y hy)) h.2⟩
    exact this l t (.inl rfl) hl

end Verif.Lt
