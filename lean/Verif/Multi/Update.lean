import Verif.Multi.Lemmas

/-!
# What update_multiple leaves in one dictionary
-/

namespace Verif.Multi

variable {E : Env}

section
variable {d : Db} {Q : Row → Prop} {old : List Bytes} {new : List Row} {D : List Bytes}
  {P S : List Row}

theorem Merged.dels_old (h : Merged E d Q old new D P S) : ∀ k ∈ D, k ∈ old := by
  induction h with
  | nil => intro k hk; exact hk
  | del _ ih =>
    intro k hk
    rcases List.mem_cons.mp hk with rfl | hk
    · exact List.mem_cons_self ..
    · exact List.mem_cons_of_mem _ (ih k hk)
  | put _ _ ih => exact ih
  | both _ _ ih => intro k hk; exact List.mem_cons_of_mem _ (ih k hk)
  | skip _ _ ih => intro k hk; exact List.mem_cons_of_mem _ (ih k hk)

theorem Merged.puts_new (h : Merged E d Q old new D P S) : P.Sublist new := by
  induction h with
  | nil => exact List.Sublist.slnil
  | del _ ih => exact ih
  | put _ _ ih => exact ih.cons_cons _
  | both _ _ ih => exact ih.cons_cons _
  | skip _ _ ih => exact ih.cons _

theorem Merged.new_split (h : Merged E d Q old new D P S) :
    ∀ r ∈ new, r ∈ P ∨ r ∈ S := by
  induction h with
  | nil => intro r hr; cases hr
  | del _ ih => exact ih
  | put _ _ ih =>
    intro r hr
    rcases List.mem_cons.mp hr with rfl | hr
    · exact Or.inl (List.mem_cons_self ..)
    · exact (ih r hr).imp (List.mem_cons_of_mem _) id
  | both _ _ ih =>
    intro r hr
    rcases List.mem_cons.mp hr with rfl | hr
    · exact Or.inl (List.mem_cons_self ..)
    · exact (ih r hr).imp (List.mem_cons_of_mem _) id
  | skip _ _ ih =>
    intro r hr
    rcases List.mem_cons.mp hr with rfl | hr
    · exact Or.inr (List.mem_cons_self ..)
    · exact (ih r hr).imp id (List.mem_cons_of_mem _)

theorem Merged.old_split (L : Lawful E) (h : Merged E d Q old new D P S) :
    ∀ k ∈ old, k ∈ D ∨ ∃ r ∈ new, E.same d k r.1 = true := by
  induction h with
  | nil => intro r hr; cases hr
  | del _ ih =>
    intro k hk
    rcases List.mem_cons.mp hk with rfl | hk
    · exact Or.inl (List.mem_cons_self ..)
    · exact (ih k hk).imp (List.mem_cons_of_mem _) id
  | put _ _ ih =>
    intro k hk
    exact (ih k hk).imp id fun ⟨r, hr, hs⟩ => ⟨r, List.mem_cons_of_mem _ hr, hs⟩
  | both he _ ih =>
    intro k hk
    rcases List.mem_cons.mp hk with rfl | hk
    · exact Or.inr ⟨_, List.mem_cons_self .., he⟩
    · exact (ih k hk).imp id fun ⟨r, hr, hs⟩ => ⟨r, List.mem_cons_of_mem _ hr, hs⟩
  | skip _ _ ih =>
    intro k hk
    rcases List.mem_cons.mp hk with rfl | hk
    · exact Or.inr ⟨_, List.mem_cons_self .., L.refl _ _⟩
    · exact (ih k hk).imp id fun ⟨r, hr, hs⟩ => ⟨r, List.mem_cons_of_mem _ hr, hs⟩

theorem Merged.skipped (h : Merged E d Q old new D P S) (hd : Distinct E d old)
    (L : Lawful E) :
    ∀ r ∈ S, r.2 = [] ∧ r.1 ∈ old ∧ ∀ k ∈ D, E.same d k r.1 = false := by
  induction h with
  | nil => intro r hr; cases hr
  | del hm ih =>
    intro r hr
    obtain ⟨h1, h2⟩ := List.pairwise_cons.mp hd
    obtain ⟨a, b, c⟩ := ih h2 r hr
    refine ⟨a, List.mem_cons_of_mem _ b, fun k hk => ?_⟩
    rcases List.mem_cons.mp hk with rfl | hk
    · exact h1 _ b
    · exact c k hk
  | put _ _ ih => exact ih hd
  | both _ _ ih =>
    intro r hr
    obtain ⟨h1, h2⟩ := List.pairwise_cons.mp hd
    obtain ⟨a, b, c⟩ := ih h2 r hr
    exact ⟨a, List.mem_cons_of_mem _ b, c⟩
  | skip hv hm ih =>
    intro r hr
    obtain ⟨h1, h2⟩ := List.pairwise_cons.mp hd
    rcases List.mem_cons.mp hr with rfl | hr
    · refine ⟨hv, List.mem_cons_self .., fun k hk => ?_⟩
      have h3 := h1 k (hm.dels_old k hk)
      cases hs : E.same d k r.1 with
      | false => rfl
      | true => rw [L.symm _ _ _ hs] at h3; cases h3
    · obtain ⟨a, b, c⟩ := ih h2 r hr
      exact ⟨a, List.mem_cons_of_mem _ b, c⟩

/-- What is found under a key after the deletes and the puts: the value of the new row
    for it, nothing if it was an old key only, and otherwise what was there. -/
theorem Merged.value (L : Lawful E) (h : Merged E d Q old new D P S)
    (hold : Distinct E d old) (hnew : Distinct E d (new.map Prod.fst)) (s : State)
    (hempty : ∀ r ∈ new, r.2 = [] → r.1 ∈ old → s d r.1 = some [])
    (hs : ∀ a b, E.same d a b = true → s d a = s d b) (x : Bytes) :
    (∀ r ∈ new, E.same d x r.1 = true →
        putAll E d P (delKeys E d s D) d x = some r.2) ∧
    ((∀ r ∈ new, E.same d x r.1 = false) →
        putAll E d P (delKeys E d s D) d x
          = if old.any (E.same d x) then none else s d x) := by
  have hP : Distinct E d (P.map Prod.fst) :=
    hnew.sublist ((h.puts_new).map _)
  constructor
  · intro r hr hx
    by_cases hrP : r ∈ P
    · exact putAll_hit L P _ hP r hrP hx
    · have hrS : r ∈ S := (h.new_split r hr).resolve_left hrP
      obtain ⟨h1, h2, h3⟩ := h.skipped hold L r hrS
      rw [putAll_miss, delKeys_same, if_neg, hs _ _ hx, hempty r hr h1 h2, h1]
      · rw [List.any_eq_true]
        rintro ⟨k, hk, hxk⟩
        have := L.trans _ _ _ _ (L.symm _ _ _ hxk) hx
        rw [h3 k hk] at this; cases this
      · intro q hq
        cases hxq : E.same d x q.1 with
        | false => rfl
        | true =>
          exfalso
          have hqn := h.puts_new.subset hq
          have hne : q ≠ r := fun e => hrP (e ▸ hq)
          have hqr : E.same d q.1 r.1 = true := L.trans _ _ _ _ (L.symm _ _ _ hxq) hx
          -- two different rows of `new` with equal keys
          have : ∀ l : List Row, Distinct E d (l.map Prod.fst) → q ∈ l → r ∈ l → False := by
            intro l
            induction l with
            | nil => intro _ hq _; cases hq
            | cons a l ih =>
              intro hd hq hr
              rw [List.map_cons] at hd
              obtain ⟨a1, a2⟩ := List.pairwise_cons.mp hd
              rcases List.mem_cons.mp hq with rfl | hq'
              · rcases List.mem_cons.mp hr with rfl | hr'
                · exact hne rfl
                · have := a1 r.1 (List.mem_map_of_mem hr')
                  rw [hqr] at this; cases this
              · rcases List.mem_cons.mp hr with rfl | hr'
                · have := a1 q.1 (List.mem_map_of_mem hq')
                  rw [L.symm _ _ _ hqr] at this; cases this
                · exact ih a2 hq' hr'
          exact this new hnew hqn hr
  · intro hx
    rw [putAll_miss _ _ fun q hq => hx q (h.puts_new.subset hq), delKeys_same]
    by_cases ho : old.any (E.same d x) = true
    · rw [if_pos ho, if_pos]
      rw [List.any_eq_true] at ho ⊢
      obtain ⟨k, hk, hxk⟩ := ho
      rcases h.old_split L k hk with hD | ⟨r, hr, hkr⟩
      · exact ⟨k, hD, hxk⟩
      · have := L.trans _ _ _ _ hxk hkr
        rw [hx r hr] at this; cases this
    · rw [if_neg ho, if_neg]
      intro hD
      rw [List.any_eq_true] at hD
      obtain ⟨k, hk, hxk⟩ := hD
      exact ho (List.any_eq_true.mpr ⟨k, h.dels_old k hk, hxk⟩)

end

/-- What `update_multiple` works out for one dictionary. -/
structure Part where
  db : Db
  ro : List Row
  rn : List Row
  D : List Bytes
  P : List Row
  S : List Row

/-- The entry among the dictionaries that keys are deleted from. -/
def Part.del? (p : Part) : Option (Db × List Bytes) :=
  if p.D.length > 0 then some (p.db, p.D) else none

/-- The entry among the dictionaries that rows are put into. -/
def Part.put? (p : Part) : Option (Db × List Row) :=
  if p.P.length > 0 ∨ (p.D.length > 0 ∧ p.S.length > 0) then some (p.db, p.P) else none

/-- The part is what the loop gives for a target. -/
def Part.ok (E : Env) (s : State) (src : Option Db) (ok ov nk nv : Bytes) (ts : List Target)
    (p : Part) : Prop :=
  rowsOf E src p.db ok ov = some p.ro ∧ rowsOf E src p.db nk nv = some p.rn ∧
    ∃ t ∈ ts, t.db = p.db ∧
      Merged E p.db (putAllowed s t) (p.ro.map Prod.fst) p.rn p.D p.P p.S

theorem buildUpdate_ok {s : State} {grant : Db → Bytes → Bool} {src : Option Db}
    {ok ov nk nv : Bytes} (ts : List Target) {p0 p : Plan}
    (h : buildUpdate E s grant src ok ov nk nv ts p0 = .ok p) :
    ∃ parts : List Part, parts.map Part.db = ts.map Target.db ∧
      (∀ q ∈ parts, q.ok E s src ok ov nk nv ts) ∧
      p.dels = p0.dels ++ parts.filterMap Part.del? ∧
      p.puts = p0.puts ++ parts.filterMap Part.put? := by
  induction ts generalizing p0 with
  | nil =>
    cases h
    refine ⟨[], rfl, ?_, (List.append_nil _).symm, (List.append_nil _).symm⟩
    intro q hq; cases hq
  | cons t ts ih =>
    rw [buildUpdate] at h
    split at h
    · cases h
    · rename_i ro hro
      split at h
      · cases h
      · rename_i rn hrn
        split at h
        · cases h
        · rename_i m hm
          have hg := mergeLoop_gives s grant t _ _ m (Nat.le_refl _) (Nat.le_refl _)
            (by show (ro.map Prod.fst).length - 0 + (rn.length - 0) ≤ _
                rw [List.length_map]; omega) hm
          obtain ⟨D, P, S, hM, hD, hP, n1, n2, n3⟩ := hg
          replace hD : m.old.take m.usedOld = D := hD
          replace hP : m.new.take m.usedNew = P := hP
          replace n1 : m.numDel = D.length := n1.trans (Nat.zero_add _)
          replace n2 : m.numPut = P.length := n2.trans (Nat.zero_add _)
          replace n3 : m.numSkip = S.length := n3.trans (Nat.zero_add _)
          obtain ⟨parts, q1, q2, q3, q4⟩ := ih h
          refine ⟨⟨t.db, ro, rn, D, P, S⟩ :: parts, ?_, ?_, ?_, ?_⟩
          · rw [List.map_cons, List.map_cons, q1]
          · intro q hq
            rcases List.mem_cons.mp hq with rfl | hq
            · exact ⟨rowsFor_ok.mp hro, rowsFor_ok.mp hrn, t, List.mem_cons_self .., rfl, hM⟩
            · obtain ⟨a, b, t', ht', c⟩ := q2 q hq
              exact ⟨a, b, t', List.mem_cons_of_mem _ ht', c⟩
          · rw [q3]
            show (if m.numDel > 0 then p0.dels ++ [(t.db, m.old.take m.usedOld)] else p0.dels) ++ _
              = _
            rw [n1, hD, List.filterMap_cons]
            unfold Part.del?
            by_cases hc : D.length > 0
            · rw [if_pos hc]
              simp only [hc, if_true, List.append_assoc, List.singleton_append]
            · rw [if_neg hc]
              simp only [hc, if_false]
          · rw [q4]
            show (if m.numPut > 0 ∨ (m.numDel > 0 ∧ m.numSkip > 0) then
                p0.puts ++ [(t.db, m.new.take m.usedNew)] else p0.puts) ++ _ = _
            rw [n1, n2, n3, hP, List.filterMap_cons]
            unfold Part.put?
            by_cases hc : P.length > 0 ∨ (D.length > 0 ∧ S.length > 0)
            · rw [if_pos hc]
              simp only [hc, if_true, List.append_assoc, List.singleton_append]
            · rw [if_neg hc]
              simp only [hc, if_false]

theorem part_dels_dbs (parts : List Part) :
    ((parts.filterMap Part.del?).map Prod.fst).Sublist (parts.map Part.db) := by
  induction parts with
  | nil => exact List.Sublist.slnil
  | cons p ps ih =>
    rw [List.filterMap_cons, List.map_cons]
    unfold Part.del?
    split
    · exact ih.cons _
    · rename_i b hb
      split at hb
      · cases hb; exact ih.cons_cons _
      · cases hb

theorem part_puts_dbs (parts : List Part) :
    ((parts.filterMap Part.put?).map Prod.fst).Sublist (parts.map Part.db) := by
  induction parts with
  | nil => exact List.Sublist.slnil
  | cons p ps ih =>
    rw [List.filterMap_cons, List.map_cons]
    unfold Part.put?
    split
    · exact ih.cons _
    · rename_i b hb
      split at hb
      · cases hb; exact ih.cons_cons _
      · cases hb

/-- Two parts of one dictionary are one, if no dictionary is named twice. -/
theorem part_unique {parts : List Part} (hn : (parts.map Part.db).Nodup) {p q : Part}
    (hp : p ∈ parts) (hq : q ∈ parts) (h : p.db = q.db) : p = q := by
  induction parts with
  | nil => cases hp
  | cons a l ih =>
    rw [List.map_cons] at hn
    obtain ⟨h1, h2⟩ := List.nodup_cons.mp hn
    rcases List.mem_cons.mp hp with rfl | hp'
    · rcases List.mem_cons.mp hq with rfl | hq'
      · rfl
      · exact (h1 (h ▸ List.mem_map_of_mem hq')).elim
    · rcases List.mem_cons.mp hq with rfl | hq'
      · exact (h1 (h ▸ List.mem_map_of_mem hp')).elim
      · exact ih h2 hp' hq'

/-- The deletes of a plan, for one dictionary. -/
theorem doDel_part {parts : List Part} (hn : (parts.map Part.db).Nodup) {p : Part}
    (hp : p ∈ parts) (s : State) :
    doDel E s (parts.filterMap Part.del?) p.db = delKeys E p.db s p.D p.db := by
  by_cases hc : p.D.length > 0
  · refine doDel_hit _ _ (hn.sublist (part_dels_dbs parts)) ?_
    refine List.mem_filterMap.mpr ⟨p, hp, ?_⟩
    unfold Part.del?; rw [if_pos hc]
  · have hD : p.D = [] := List.eq_nil_of_length_eq_zero (by omega)
    rw [hD]
    refine doDel_miss _ _ ?_
    intro hm
    obtain ⟨e, he, hd⟩ := List.mem_map.mp hm
    obtain ⟨q, hq, hqe⟩ := List.mem_filterMap.mp he
    unfold Part.del? at hqe
    split at hqe
    · rename_i hc'
      cases hqe
      have := part_unique hn hp hq hd.symm
      subst this
      exact hc hc'
    · cases hqe

/-- The puts of a plan, for one dictionary. -/
theorem putPlan_part {parts : List Part} (hn : (parts.map Part.db).Nodup) {p : Part}
    (hp : p ∈ parts) (s : State) :
    putPlan E s (parts.filterMap Part.put?) p.db = putAll E p.db p.P s p.db := by
  by_cases hc : p.P.length > 0 ∨ (p.D.length > 0 ∧ p.S.length > 0)
  · refine putPlan_hit _ _ (hn.sublist (part_puts_dbs parts)) ?_
    refine List.mem_filterMap.mpr ⟨p, hp, ?_⟩
    unfold Part.put?; rw [if_pos hc]
  · have hP : p.P = [] := List.eq_nil_of_length_eq_zero (by omega)
    rw [hP]
    refine putPlan_miss _ _ ?_
    intro hm
    obtain ⟨e, he, hd⟩ := List.mem_map.mp hm
    obtain ⟨q, hq, hqe⟩ := List.mem_filterMap.mp he
    unfold Part.put? at hqe
    split at hqe
    · rename_i hc'
      cases hqe
      have := part_unique hn hp hq hd.symm
      subst this
      exact hc hc'
    · cases hqe

/-- `update_multiple` as a whole. -/
theorem update_cases {s : State} {grant : Db → Bytes → Bool} {src : Option Db}
    {ok ov nk nv : Bytes} {n m : Nat} {ts : List Target} :
    (∃ e, updateMultiple E s grant src ok ov nk nv n m ts = (s, [], .err e)) ∨
    ∃ parts : List Part, parts.map Part.db = ts.map Target.db ∧
      (∀ q ∈ parts, q.ok E s src ok ov nk nv ts) ∧
      updateMultiple E s grant src ok ov nk nv n m ts =
        (putPlan E (doDel E s (parts.filterMap Part.del?)) (parts.filterMap Part.put?),
         logDel E src ok ov (parts.filterMap Part.del?) ++
           logPut src nk nv ((parts.filterMap Part.put?).map Prod.fst), .ok) := by
  unfold updateMultiple
  split
  · exact Or.inl ⟨_, rfl⟩
  · split
    · exact Or.inl ⟨_, rfl⟩
    · rename_i p hp
      obtain ⟨parts, h1, h2, h3, h4⟩ := buildUpdate_ok ts hp
      refine Or.inr ⟨parts, h1, h2, ?_⟩
      replace h3 : p.dels = parts.filterMap Part.del? := h3
      replace h4 : p.puts = parts.filterMap Part.put? := h4
      simp only [h3, h4, doPut_none]

end Verif.Multi
