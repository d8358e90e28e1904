import Verif.Count.Model

/-! Partitioned counters: what always holds. -/
namespace Verif.Count

theorem put_same {α : Type} (f : Nat → α) (i : Nat) (x : α) : put f i x i = x := if_pos rfl
theorem put_ne {α : Type} (f : Nat → α) {i j : Nat} (x : α) (h : j ≠ i) : put f i x j = f j := if_neg h

/-- The history before the last time a thread asked for a value. -/
def before (t : Tid) : List Ev → List Ev
  | [] => []
  | .asked t' _ :: es => if t' = t then es else before t es
  | .create _ :: es => before t es
  | .add _ _ :: es => before t es
  | .destroy _ :: es => before t es
  | .told _ _ _ :: es => before t es

def val (parts : PartAddr → Option Part) (p : PartAddr) : Nat :=
  match parts p with
  | some P => P.sum
  | none => 0

def sumOf (parts : PartAddr → Option Part) (l : List PartAddr) : Nat := (l.map (val parts)).sum

theorem sumOf_nil (parts : PartAddr → Option Part) : sumOf parts [] = 0 := rfl
theorem sumOf_cons (parts : PartAddr → Option Part) (p : PartAddr) (l : List PartAddr) : sumOf parts (p :: l) = val parts p + sumOf parts l := by
  unfold sumOf
  rw [List.map_cons, List.sum_cons]

theorem sumOf_congr {f g : PartAddr → Option Part} : ∀ {l : List PartAddr}, (∀ p ∈ l, f p = g p) → sumOf f l = sumOf g l
  | [], _ => rfl
  | p :: l, h => by
    rw [sumOf_cons, sumOf_cons, sumOf_congr fun q hq => h q (List.mem_cons_of_mem _ hq)]
    unfold val
    rw [h p List.mem_cons_self]

theorem val_some {parts : PartAddr → Option Part} {p : PartAddr} {P : Part} (h : parts p = some P) : val parts p = P.sum := by
  unfold val
  rw [h]

theorem sumOf_erase (parts : PartAddr → Option Part) : ∀ {l : List PartAddr} {p : PartAddr}, p ∈ l → sumOf parts l = val parts p + sumOf parts (l.erase p)
  | q :: l, p, h => by
    by_cases e : q = p
    · subst e
      rw [List.erase_cons_head, sumOf_cons]
    · rw [List.erase_cons_tail (by simpa using e), sumOf_cons, sumOf_cons]
      have := sumOf_erase parts (List.mem_of_ne_of_mem (Ne.symm e) h)
      omega

/-- One part of the list gets another sum. -/
theorem sumOf_put {parts : PartAddr → Option Part} {l : List PartAddr} {p : PartAddr} {P : Part} (x : Nat) (hn : l.Nodup) (hp : parts p = some P) (h : p ∈ l) :
    sumOf (put parts p (some { P with sum := x })) l + P.sum = sumOf parts l + x := by
  rw [sumOf_erase _ h, sumOf_erase parts h, val_some hp, val_some (put_same _ _ _)]
  have : sumOf (put parts p (some { P with sum := x })) (l.erase p) = sumOf parts (l.erase p) :=
    sumOf_congr fun q hq => put_ne _ _ fun e => by
      subst e
      exact absurd hq (List.Nodup.not_mem_erase hn)
  rw [this]
  show x + _ + P.sum = P.sum + _ + x
  omega

theorem sumOf_put_other {parts : PartAddr → Option Part} {l : List PartAddr} {p : PartAddr} (x : Option Part) (h : p ∉ l) :
    sumOf (put parts p x) l = sumOf parts l :=
  sumOf_congr fun q hq => put_ne _ _ fun e => h (e ▸ hq)

/-- The lists and arrays fit together, and everything a thread is about to touch is there. -/
structure Str (s : State) : Prop where
  part : ∀ c C, s.ctrs c = some C → ∀ p ∈ C.list, ∃ P, s.parts p = some P ∧ P.owner = c ∧ (s.arrs P.arr)[C.key]? = some (some p)
  nodup : ∀ c C, s.ctrs c = some C → C.list.Nodup
  owned : ∀ p P, s.parts p = some P → ∃ C, s.ctrs P.owner = some C ∧ p ∈ C.list
  arr : ∀ (t k : Nat) p, (s.arrs t)[k]? = some (some p) → ∃ P C, s.parts p = some P ∧ P.arr = t ∧ s.ctrs P.owner = some C ∧ C.key = k
  used : ∀ c C, s.ctrs c = some C → s.inUse[C.key]? = some true
  keys : ∀ c d C D, s.ctrs c = some C → s.ctrs d = some D → C.key = D.key → c = d
  live : ∀ t c, (s.pc t).about = some c → s.ctrs c ≠ none
  mineL : ∀ t c n p, s.pc t = .load c n p → ∃ P, s.parts p = some P ∧ P.owner = c ∧ P.arr = t
  mineS : ∀ t c n p v, s.pc t = .store c n p v → ∃ P, s.parts p = some P ∧ P.owner = c ∧ P.arr = t ∧ P.sum = v
  alone : ∀ t c n C, s.pc t = .alloc c n → s.ctrs c = some C → ∀ p, (s.arrs t)[C.key]? ≠ some (some p)
  holder : ∀ t c acc l, s.pc t = .reading c acc l → s.lock = some t
  held : ∀ t, s.lock = some t → ∃ c acc l, s.pc t = .reading c acc l
  rest : ∀ t c acc l C, s.pc t = .reading c acc l → s.ctrs c = some C → l <:+ C.list

/-- The sums are those of the history. -/
structure Sums (s : State) (es : List Ev) : Prop where
  mod : ∀ c C, s.ctrs c = some C → (C.dead + sumOf s.parts C.list) % W = total c es % W
  exact : ∀ c C, s.ctrs c = some C → total c es < W → C.dead + sumOf s.parts C.list = total c es
  awaitLo : ∀ t c, s.pc t = .await c → total c (before t es) ≤ total c es
  readLo : ∀ t c acc l, s.pc t = .reading c acc l → total c (before t es) ≤ total c es
  between : ∀ t c acc l, s.pc t = .reading c acc l → total c es < W → total c (before t es) ≤ acc + sumOf s.parts l ∧ acc + sumOf s.parts l ≤ total c es
  still : ∀ t c acc l, s.pc t = .reading c acc l → total c es = total c (before t es) → (acc + sumOf s.parts l) % W = total c es % W
  asked : ∀ t c, (s.pc t = .await c ∨ ∃ acc l, s.pc t = .reading c acc l) → ∃ mid, es = mid ++ .asked t c :: before t es ∧ ∀ d, .asked t d ∉ mid

structure Inv (s : State) (es : List Ev) : Prop where
  str : Str s
  sums : Sums s es

theorem inv_start : Inv start [] where
  str := by
    constructor
    · intro c C h; cases h
    · intro c C h; cases h
    · intro p P h; cases h
    · intro t k p h; cases h
    · intro c C h; cases h
    · intro c d C D h; cases h
    · intro t c h; cases h
    · intro t c n p h; cases h
    · intro t c n p v h; cases h
    · intro t c n C h; cases h
    · intro t c acc l h; cases h
    · intro t h; cases h
    · intro t c acc l C h; cases h
  sums := by
    constructor
    · intro c C h; cases h
    · intro c C h; cases h
    · intro t c h; cases h
    · intro t c acc l h; cases h
    · intro t c acc l h; cases h
    · intro t c acc l h; cases h
    · intro t c h
      rcases h with h | ⟨_, _, h⟩ <;> cases h

theorem part_same {s : State} (h : Str s) {p : PartAddr} {P : Part} {C : Counter} (hp : s.parts p = some P) (hc : s.ctrs P.owner = some C) : p ∈ C.list := by
  obtain ⟨D, h1, h2⟩ := h.owned p P hp
  rw [hc] at h1
  cases h1
  exact h2

theorem not_mem_of_none {s : State} (h : Str s) {p : PartAddr} (hp : s.parts p = none) {c : Ctr} {C : Counter} (hc : s.ctrs c = some C) : p ∉ C.list := by
  intro hm
  obtain ⟨P, h1, _⟩ := h.part c C hc p hm
  rw [hp] at h1
  cases h1

/-! ### Numbers of counters -/

theorem allocate_free : ∀ (l : List Bool), l[(allocate l).1]? ≠ some true
  | [] => by intro h; cases h
  | true :: l => by
    show (true :: l)[(allocate l).1 + 1]? ≠ _
    rw [List.getElem?_cons_succ]
    exact allocate_free l
  | false :: l => by intro h; cases h

theorem allocate_used : ∀ (l : List Bool), (allocate l).2[(allocate l).1]? = some true
  | [] => rfl
  | true :: l => by
    show (true :: (allocate l).2)[(allocate l).1 + 1]? = _
    rw [List.getElem?_cons_succ]
    exact allocate_used l
  | false :: l => rfl

theorem allocate_keeps : ∀ (l : List Bool) (k : Nat), l[k]? = some true → (allocate l).2[k]? = some true
  | [], _, h => by cases h
  | true :: l, 0, _ => rfl
  | true :: l, k + 1, h => by
    show (true :: (allocate l).2)[k + 1]? = _
    rw [List.getElem?_cons_succ] at h ⊢
    exact allocate_keeps l k h
  | false :: l, 0, h => by cases h
  | false :: l, k + 1, h => h

/-! ### Growing an array -/

theorem grow_length (l : List (Option PartAddr)) (key : Nat) : key < (grow l key).length := by
  unfold grow
  rw [List.length_append, List.length_replicate]
  omega

theorem grow_some {l : List (Option PartAddr)} {key k : Nat} {p : PartAddr} : (grow l key)[k]? = some (some p) ↔ l[k]? = some (some p) := by
  unfold grow
  by_cases h : k < l.length
  · rw [List.getElem?_append_left h]
  · rw [List.getElem?_append_right (by omega), List.getElem?_replicate]
    constructor
    · intro e
      split at e <;> cases e
    · intro e
      rw [List.getElem?_eq_none (by omega)] at e
      cases e

theorem storeAt_ok {l : List (Option PartAddr)} {k : Nat} (h : k < l.length) (x : Option PartAddr) : storeAt l k x = some (l.set k x) := if_pos h

/-! ### Destroying -/

theorem destroyParts_ok (c key : Nat) : ∀ (ps : List PartAddr) (parts : PartAddr → Option Part) (arrs : Tid → List (Option PartAddr)), ps.Nodup →
    (∀ p ∈ ps, ∃ P, parts p = some P ∧ P.owner = c ∧ (arrs P.arr)[key]? = some (some p)) →
    (∀ (t k : Nat) p, p ∈ ps → (arrs t)[k]? = some (some p) → k = key ∧ ∃ P, parts p = some P ∧ P.arr = t) →
    ∃ parts' arrs', destroyParts c key ps parts arrs = some (parts', arrs') ∧ (∀ q ∈ ps, parts' q = none) ∧ (∀ q, q ∉ ps → parts' q = parts q) ∧
      ∀ (t k : Nat) p, (arrs' t)[k]? = some (some p) ↔ (arrs t)[k]? = some (some p) ∧ p ∉ ps
  | [], parts, arrs, _, _, _ => ⟨parts, arrs, rfl, by intro q h; (cases h), fun _ _ => rfl, fun t k p => by simp⟩
  | p :: ps, parts, arrs, hn, h1, h2 => by
    obtain ⟨hp, hn⟩ := List.nodup_cons.1 hn
    obtain ⟨P, a1, a2, a3⟩ := h1 p List.mem_cons_self
    have hlt : key < (arrs P.arr).length := by
      rw [List.getElem?_eq_some_iff] at a3
      exact a3.1
    have ent : ∀ (t k : Nat) q, (put arrs P.arr ((arrs P.arr).set key none) t)[k]? = some (some q) ↔ (arrs t)[k]? = some (some q) ∧ q ≠ p := by
      intro t k q
      by_cases ht : t = P.arr
      · subst ht
        rw [put_same, List.getElem?_set]
        by_cases hk : key = k
        · subst hk
          rw [if_pos rfl, if_pos hlt, a3]
          constructor
          · intro e; cases e
          · rintro ⟨e, hne⟩
            cases e
            exact absurd rfl hne
        · rw [if_neg hk]
          constructor
          · intro e
            refine ⟨e, ?_⟩
            rintro rfl
            exact hk (h2 _ k q List.mem_cons_self e).1.symm
          · exact fun e => e.1
      · rw [put_ne _ _ ht]
        constructor
        · intro e
          refine ⟨e, ?_⟩
          rintro rfl
          obtain ⟨_, Q, b1, b2⟩ := h2 _ k q List.mem_cons_self e
          rw [a1] at b1
          cases b1
          exact ht b2.symm
        · exact fun e => e.1
    have tl : ∀ q ∈ ps, q ≠ p := fun q hq e => hp (e ▸ hq)
    obtain ⟨parts', arrs', r1, r2, r3, r4⟩ := destroyParts_ok c key ps (put parts p none) (put arrs P.arr ((arrs P.arr).set key none)) hn
      (by
        intro q hq
        obtain ⟨Q, b1, b2, b3⟩ := h1 q (List.mem_cons_of_mem _ hq)
        exact ⟨Q, by rw [put_ne _ _ (tl q hq)]; exact b1, b2, (ent _ _ _).2 ⟨b3, tl q hq⟩⟩)
      (by
        intro t k q hq e
        obtain ⟨e1, e2⟩ := (ent t k q).1 e
        obtain ⟨b1, Q, b2, b3⟩ := h2 t k q (List.mem_cons_of_mem _ hq) e1
        exact ⟨b1, Q, by rw [put_ne _ _ e2]; exact b2, b3⟩)
    refine ⟨parts', arrs', ?_, ?_, ?_, ?_⟩
    · unfold destroyParts
      simp only [a1, Option.bind_eq_bind, Option.bind_some, if_pos a2, storeAt_ok hlt]
      exact r1
    · intro q hq
      by_cases hqs : q ∈ ps
      · exact r2 q hqs
      · rcases List.mem_cons.1 hq with rfl | h
        · rw [r3 q hqs, put_same]
        · exact absurd h hqs
    · intro q hq
      rw [r3 q fun h => hq (List.mem_cons_of_mem _ h), put_ne]
      rintro rfl
      exact hq List.mem_cons_self
    · intro t k q
      rw [r4, ent, List.mem_cons, not_or, and_assoc]

/-! ### The end of a thread -/

theorem exitParts_ok : ∀ (l : List (Option PartAddr)) (ctrs : Ctr → Option Counter) (parts : PartAddr → Option Part),
    (∀ (i j : Nat) p, l[i]? = some (some p) → l[j]? = some (some p) → i = j) →
    (∀ p, some p ∈ l → ∃ P C, parts p = some P ∧ ctrs P.owner = some C ∧ p ∈ C.list) →
    (∀ c C, ctrs c = some C → C.list.Nodup ∧ ∀ p ∈ C.list, ∃ P, parts p = some P ∧ P.owner = c) →
    ∃ ctrs' parts', exitParts l ctrs parts = some (ctrs', parts') ∧ (∀ q, some q ∈ l → parts' q = none) ∧ (∀ q, some q ∉ l → parts' q = parts q) ∧
      (∀ c, ctrs c = none → ctrs' c = none) ∧ ∀ c C, ctrs c = some C → ∃ C', ctrs' c = some C' ∧ C'.key = C.key ∧ C'.list.Nodup ∧
        (∀ q, q ∈ C'.list ↔ q ∈ C.list ∧ some q ∉ l) ∧
        (C'.dead + sumOf parts' C'.list) % W = (C.dead + sumOf parts C.list) % W ∧
        (C.dead + sumOf parts C.list < W → C'.dead + sumOf parts' C'.list = C.dead + sumOf parts C.list)
  | [], ctrs, parts, _, _, h3 => ⟨ctrs, parts, rfl, by intro q h; (cases h), fun _ _ => rfl, fun _ h => h,
      fun c C h => ⟨C, h, rfl, (h3 c C h).1, by simp, rfl, fun _ => rfl⟩⟩
  | none :: l, ctrs, parts, h1, h2, h3 => by
    obtain ⟨ctrs', parts', r1, r2, r3, r4, r5⟩ := exitParts_ok l ctrs parts
      (fun i j p hi hj => by have := h1 (i + 1) (j + 1) p hi hj; omega)
      (fun p hp => h2 p (List.mem_cons_of_mem _ hp)) h3
    have e : ∀ q : PartAddr, some q ∈ none :: l ↔ some q ∈ l := fun q => by simp
    refine ⟨ctrs', parts', r1, fun q hq => r2 q ((e q).1 hq), fun q hq => r3 q fun h => hq ((e q).2 h), r4, ?_⟩
    intro c C h
    obtain ⟨C', a1, a2, a3, a4, a5⟩ := r5 c C h
    exact ⟨C', a1, a2, a3, fun q => by rw [a4, e], a5⟩
  | some p :: l, ctrs, parts, h1, h2, h3 => by
    obtain ⟨P, O, p1, p2, p3⟩ := h2 p List.mem_cons_self
    have hpl : some p ∉ l := by
      intro hm
      obtain ⟨j, hj⟩ := List.getElem?_of_mem hm
      have := h1 0 (j + 1) p rfl hj
      omega
    have tl : ∀ q, some q ∈ l → q ≠ p := fun q hq e => hpl (e ▸ hq)
    obtain ⟨o1, o2⟩ := h3 _ O p2
    obtain ⟨ctrs', parts', r1, r2, r3, r4, r5⟩ := exitParts_ok l
      (put ctrs P.owner (some { O with dead := (O.dead + P.sum) % W, list := O.list.erase p })) (put parts p none)
      (fun i j q hi hj => by have := h1 (i + 1) (j + 1) q hi hj; omega)
      (by
        intro q hq
        obtain ⟨Q, D, b1, b2, b3⟩ := h2 q (List.mem_cons_of_mem _ hq)
        by_cases hc : Q.owner = P.owner
        · rw [hc, p2] at b2
          cases b2
          refine ⟨Q, _, by rw [put_ne _ _ (tl q hq)]; exact b1, by rw [hc, put_same], ?_⟩
          exact (List.mem_erase_of_ne (tl q hq)).2 b3
        · exact ⟨Q, D, by rw [put_ne _ _ (tl q hq)]; exact b1, by rw [put_ne _ _ hc]; exact b2, b3⟩)
      (by
        intro c C hc
        by_cases hco : c = P.owner
        · subst hco
          rw [put_same] at hc
          cases hc
          refine ⟨o1.erase p, ?_⟩
          intro q hq
          obtain ⟨Q, b1, b2⟩ := o2 q (List.mem_of_mem_erase hq)
          have hne : q ≠ p := by
            rintro rfl
            exact absurd hq (List.Nodup.not_mem_erase o1)
          exact ⟨Q, by rw [put_ne _ _ hne]; exact b1, b2⟩
        · rw [put_ne _ _ hco] at hc
          refine ⟨(h3 c C hc).1, ?_⟩
          intro q hq
          obtain ⟨Q, b1, b2⟩ := (h3 c C hc).2 q hq
          have hne : q ≠ p := by
            rintro rfl
            rw [p1] at b1
            cases b1
            exact hco b2.symm
          exact ⟨Q, by rw [put_ne _ _ hne]; exact b1, b2⟩)
    refine ⟨ctrs', parts', ?_, ?_, ?_, ?_, ?_⟩
    · unfold exitParts
      simp only [p1, p2, Option.bind_eq_bind, Option.bind_some, if_pos p3]
      exact r1
    · intro q hq
      by_cases hql : some q ∈ l
      · exact r2 q hql
      · rcases List.mem_cons.1 hq with h | h
        · rw [r3 q hql, Option.some.inj h, put_same]
        · exact absurd h hql
    · intro q hq
      rw [r3 q fun h => hq (List.mem_cons_of_mem _ h), put_ne]
      rintro rfl
      exact hq List.mem_cons_self
    · intro c hc
      refine r4 c ?_
      rw [put_ne]
      · exact hc
      · rintro rfl
        rw [p2] at hc
        cases hc
    · intro c C hc
      by_cases hco : c = P.owner
      · subst hco
        rw [p2] at hc
        cases hc
        obtain ⟨C', a1, a2, a3, a4, a5, a6⟩ := r5 _ _ (put_same _ _ _)
        have hs : sumOf parts O.list = P.sum + sumOf (put parts p none) (O.list.erase p) := by
          rw [sumOf_erase parts p3, val_some p1, sumOf_put_other _ (List.Nodup.not_mem_erase o1)]
        dsimp only at a2 a4 a5 a6
        refine ⟨C', a1, a2, a3, ?_, ?_, ?_⟩
        · intro q
          rw [a4, List.mem_cons, not_or]
          constructor
          · rintro ⟨b1, b2⟩
            refine ⟨List.mem_of_mem_erase b1, ?_, b2⟩
            intro e
            cases e
            exact absurd b1 (List.Nodup.not_mem_erase o1)
          · rintro ⟨b1, b2, b3⟩
            exact ⟨(List.mem_erase_of_ne fun e => b2 (by rw [e])).2 b1, b3⟩
        · rw [a5, Nat.mod_add_mod, hs, Nat.add_assoc]
        · intro hlt
          rw [hs] at hlt ⊢
          have hm : (O.dead + P.sum) % W = O.dead + P.sum := Nat.mod_eq_of_lt (by omega)
          rw [hm] at a6
          rw [a6 (by omega)]
          omega
      · obtain ⟨C', a1, a2, a3, a4, a5, a6⟩ := r5 c C (by rw [put_ne _ _ hco]; exact hc)
        have hnm : p ∉ C.list := by
          intro hm
          obtain ⟨Q, b1, b2⟩ := (h3 c C hc).2 p hm
          rw [p1] at b1
          cases b1
          exact hco b2.symm
        rw [sumOf_put_other _ hnm] at a5 a6
        refine ⟨C', a1, a2, a3, ?_, a5, a6⟩
        intro q
        rw [a4, List.mem_cons, not_or]
        constructor
        · rintro ⟨b1, b2⟩
          refine ⟨b1, ?_, b2⟩
          intro e
          cases e
          exact hnm b1
        · rintro ⟨b1, _, b3⟩
          exact ⟨b1, b3⟩

end Verif.Count
