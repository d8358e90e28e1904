import Verif.Multi.Spec

/-!
# One dictionary at a time

What a sequence of puts and deletes leaves in one dictionary.
-/

namespace Verif.Multi

variable {E : Env}

theorem put_other {s : State} {d d' : Db} {row : Row} (h : d' ≠ d) :
    E.put s d row d' = s d' := by
  funext x; exact if_neg h

theorem put_same {s : State} {d : Db} {row : Row} (x : Bytes) :
    E.put s d row d x = if E.same d x row.1 then some row.2 else s d x := if_pos rfl

theorem del_other {s : State} {d d' : Db} {key : Bytes} (h : d' ≠ d) :
    E.del s d key d' = s d' := by
  funext x; exact if_neg h

theorem del_same {s : State} {d : Db} {key : Bytes} (x : Bytes) :
    E.del s d key d x = if E.same d x key then none else s d x := if_pos rfl

/-- All rows put into one dictionary. -/
def putAll (E : Env) (d : Db) (rows : List Row) (s : State) : State :=
  rows.foldl (fun s row => E.put s d row) s

theorem putAll_other {d d' : Db} (h : d' ≠ d) (rows : List Row) (s : State) :
    putAll E d rows s d' = s d' := by
  induction rows generalizing s with
  | nil => rfl
  | cons r rs ih => exact (ih _).trans (put_other h)

/-- What is found under a key after the rows are put. -/
theorem putAll_miss {d : Db} {x : Bytes} (rows : List Row) (s : State)
    (h : ∀ r ∈ rows, E.same d x r.1 = false) : putAll E d rows s d x = s d x := by
  induction rows generalizing s with
  | nil => rfl
  | cons r rs ih =>
    refine (ih _ fun q hq => h q (List.mem_cons_of_mem _ hq)).trans ?_
    refine (put_same x).trans ?_
    rw [h r (List.mem_cons_self ..)]; rfl

theorem putAll_hit (L : Lawful E) {d : Db} {x : Bytes} (rows : List Row) (s : State)
    (hd : Distinct E d (rows.map Prod.fst)) (r : Row) (hr : r ∈ rows)
    (hx : E.same d x r.1 = true) : putAll E d rows s d x = some r.2 := by
  induction rows generalizing s with
  | nil => cases hr
  | cons q qs ih =>
    rw [List.map_cons] at hd
    obtain ⟨hq, hqs⟩ := List.pairwise_cons.mp hd
    rcases List.mem_cons.mp hr with rfl | hr
    · refine (putAll_miss qs _ fun q' hq' => ?_).trans ?_
      · cases hs : E.same d x q'.1 with
        | false => rfl
        | true =>
          have h1 := L.trans _ _ _ _ (L.symm _ _ _ hx) hs
          rw [hq q'.1 (List.mem_map_of_mem hq')] at h1; cases h1
      · refine (put_same x).trans ?_
        rw [hx]; rfl
    · exact ih _ hqs hr

theorem delKeys_other {d d' : Db} (h : d' ≠ d) (keys : List Bytes) (s : State) :
    delKeys E d s keys d' = s d' := by
  induction keys generalizing s with
  | nil => rfl
  | cons k ks ih => exact (ih _).trans (del_other h)

theorem delKeys_same {d : Db} (keys : List Bytes) (s : State) (x : Bytes) :
    delKeys E d s keys d x = if keys.any (E.same d x) then none else s d x := by
  induction keys generalizing s with
  | nil => rfl
  | cons k ks ih =>
    refine (ih _).trans ?_
    rw [del_same, List.any_cons]
    cases E.same d x k <;> cases ks.any (E.same d x) <;> rfl

/-- A dictionary after an operation depends on that dictionary before it only. -/
theorem putAll_congr {d d' : Db} (rows : List Row) {s s' : State} (h : s d' = s' d') :
    putAll E d rows s d' = putAll E d rows s' d' := by
  induction rows generalizing s s' with
  | nil => exact h
  | cons r rs ih =>
    refine ih ?_
    by_cases hd : d' = d
    · subst hd; funext x; refine (put_same x).trans (Eq.trans ?_ (put_same x).symm); rw [h]
    · exact (put_other hd).trans (h.trans (put_other hd).symm)

theorem delKeys_congr {d d' : Db} (keys : List Bytes) {s s' : State} (h : s d' = s' d') :
    delKeys E d s keys d' = delKeys E d s' keys d' := by
  by_cases hd : d' = d
  · subst hd; funext x; rw [delKeys_same, delKeys_same, h]
  · rw [delKeys_other hd, delKeys_other hd, h]

/-! ## Several dictionaries -/

theorem doDel_miss {d : Db} (plan : List (Db × List Bytes)) (s : State)
    (h : d ∉ plan.map Prod.fst) : doDel E s plan d = s d := by
  induction plan generalizing s with
  | nil => rfl
  | cons p ps ih =>
    obtain ⟨d', keys⟩ := p
    rw [List.map_cons, List.mem_cons] at h
    refine (ih _ fun hm => h (Or.inr hm)).trans (delKeys_other (fun e => h (Or.inl e)) _ _)

theorem doDel_hit {d : Db} {keys : List Bytes} (plan : List (Db × List Bytes)) (s : State)
    (hn : (plan.map Prod.fst).Nodup) (h : (d, keys) ∈ plan) :
    doDel E s plan d = delKeys E d s keys d := by
  induction plan generalizing s with
  | nil => cases h
  | cons p ps ih =>
    obtain ⟨d', keys'⟩ := p
    rw [List.map_cons] at hn
    obtain ⟨hp, hps⟩ := List.nodup_cons.mp hn
    rcases List.mem_cons.mp h with he | hm
    · cases he
      exact doDel_miss ps _ hp
    · have hne : d ≠ d' := by
        intro e; subst e; exact hp (List.mem_map.mpr ⟨_, hm, rfl⟩)
      refine (ih _ hps hm).trans (delKeys_congr _ (delKeys_other hne _ _))

theorem doDel_congr {d : Db} (plan : List (Db × List Bytes)) {s s' : State} (h : s d = s' d) :
    doDel E s plan d = doDel E s' plan d := by
  induction plan generalizing s s' with
  | nil => exact h
  | cons p ps ih => exact ih (delKeys_congr _ h)

/-- Puts into several dictionaries. -/
def putPlan (E : Env) (s : State) (plan : List (Db × List Row)) : State :=
  plan.foldl (fun s p => putAll E p.1 p.2 s) s

theorem putPlan_miss {d : Db} (plan : List (Db × List Row)) (s : State)
    (h : d ∉ plan.map Prod.fst) : putPlan E s plan d = s d := by
  induction plan generalizing s with
  | nil => rfl
  | cons p ps ih =>
    rw [List.map_cons, List.mem_cons] at h
    refine (ih _ fun hm => h (Or.inr hm)).trans (putAll_other (fun e => h (Or.inl e)) _ _)

theorem putPlan_hit {d : Db} {rows : List Row} (plan : List (Db × List Row)) (s : State)
    (hn : (plan.map Prod.fst).Nodup) (h : (d, rows) ∈ plan) :
    putPlan E s plan d = putAll E d rows s d := by
  induction plan generalizing s with
  | nil => cases h
  | cons p ps ih =>
    rw [List.map_cons] at hn
    obtain ⟨hp, hps⟩ := List.nodup_cons.mp hn
    rcases List.mem_cons.mp h with he | hm
    · cases he
      exact putPlan_miss ps _ hp
    · have hne : d ≠ p.1 := by
        intro e; subst e; exact hp (List.mem_map.mpr ⟨_, hm, rfl⟩)
      exact (ih _ hps hm).trans (putAll_congr _ (putAll_other hne _ _))

theorem putPlan_congr {d : Db} (plan : List (Db × List Row)) {s s' : State} (h : s d = s' d) :
    putPlan E s plan d = putPlan E s' plan d := by
  induction plan generalizing s s' with
  | nil => exact h
  | cons p ps ih => exact ih (putAll_congr _ h)

/-! ## The loops that put -/

theorem dbPut_ok {s s' : State} {d : Db} {row : Row} {f : Nat}
    (h : dbPut E s d row f = (s', .ok)) : s' = E.put s d row := by
  unfold dbPut at h
  split at h
  · split at h
    · cases h
    · cases h; rfl
  · split at h
    · cases h
    · cases h; rfl

theorem putRows_ok {d : Db} {f : Option Nat} (rows : List Row) {s s' : State}
    (h : putRows E d f s rows = (s', .ok)) : s' = putAll E d rows s := by
  induction rows generalizing s with
  | nil => cases h; rfl
  | cons r rs ih =>
    rw [putRows] at h
    split at h
    · cases h
    · split at h
      · rename_i s1 he
        have := dbPut_ok he
        subst this
        exact ih h
      · rename_i hne _
        cases h
        exact (hne rfl).elim

theorem putRows_none {d : Db} (rows : List Row) (s : State) :
    putRows E d none s rows = (putAll E d rows s, .ok) := by
  induction rows generalizing s with
  | nil => rfl
  | cons r rs ih =>
    rw [putRows]
    exact (if_neg (by decide)).trans (ih _)

theorem doPut_ok (plan : List (Db × Option Nat × List Row)) {s s' : State}
    (h : doPut E s plan = (s', .ok)) :
    s' = putPlan E s (plan.map fun p => (p.1, p.2.2)) := by
  induction plan generalizing s with
  | nil => cases h; rfl
  | cons p ps ih =>
    obtain ⟨d, f, rows⟩ := p
    rw [doPut] at h
    split at h
    · rename_i s1 he
      have := putRows_ok rows he
      subst this
      exact ih h
    · rename_i hne _
      cases h
      exact (hne rfl).elim

theorem doPut_none (plan : List (Db × List Row)) (s : State) :
    doPut E s (plan.map fun q => (q.1, none, q.2)) = (putPlan E s plan, .ok) := by
  induction plan generalizing s with
  | nil => rfl
  | cons p ps ih =>
    rw [List.map_cons, doPut, putRows_none]
    exact ih _

/-! ## Plans -/

theorem rowsFor_ok {src : Option Db} {d : Db} {k v : Bytes} {rows : List Row} :
    rowsFor E src d k v = .ok rows ↔ rowsOf E src d k v = some rows := by
  unfold rowsFor rowsOf
  split
  · constructor
    · intro h; cases h; rfl
    · intro h; cases h; rfl
  · split
    · rename_i r he
      constructor
      · intro h; cases h; exact he
      · intro h; rw [he] at h; cases h; rfl
    · rename_i he
      constructor
      · intro h; cases h
      · intro h; rw [he] at h; cases h

/-- The plan of `put_multiple`: the rows of every dictionary that is named, in order. -/
theorem buildPut_ok {grant : Db → Bytes → Bool} {src : Option Db} {k v : Bytes}
    (ts : List Target) {plan : List (Target × List Row)}
    (h : buildPut E grant src k v ts = .ok plan) :
    plan.map Prod.fst = ts ∧ ∀ p ∈ plan, rowsOf E src p.1.db k v = some p.2 := by
  induction ts generalizing plan with
  | nil => cases h; exact ⟨rfl, fun p hp => by cases hp⟩
  | cons t ts ih =>
    rw [buildPut] at h
    split at h
    · cases h
    · rename_i rows hr
      split at h
      · cases h
      · split at h
        · cases h
        · rename_i more hm
          cases h
          obtain ⟨h1, h2⟩ := ih hm
          refine ⟨by rw [List.map_cons, h1], fun p hp => ?_⟩
          rcases List.mem_cons.mp hp with rfl | hp
          · exact rowsFor_ok.mp hr
          · exact h2 p hp

theorem keysFor_ok (G : GenAgree E) {src : Option Db} {d : Db} {k v : Bytes}
    {keys : List Bytes} (h : keysFor E src d k v = .ok keys) :
    ∃ rows, rowsOf E src d k v = some rows ∧ keys = rows.map Prod.fst := by
  unfold keysFor at h
  unfold rowsOf
  split at h
  · rename_i hs
    cases h
    exact ⟨_, if_pos hs, rfl⟩
  · rename_i hs
    split at h
    · rename_i ks he
      cases h
      rw [G] at he
      cases hp : E.genPut d src k v with
      | none => rw [hp] at he; cases he
      | some rows =>
        rw [hp] at he; cases he
        exact ⟨rows, by rw [if_neg hs], rfl⟩
    · cases h

/-- The plan of `del_multiple`. -/
theorem buildDel_ok {s : State} {grant : Db → Bytes → Bool} {src : Option Db} {k v : Bytes}
    (ts : List Target) {plan : List (Db × List Bytes)}
    (h : buildDel E s grant src k v ts = .ok plan) :
    plan.map Prod.fst = ts.map Target.db ∧
      ∀ p ∈ plan, keysFor E src p.1 k v = .ok p.2 := by
  induction ts generalizing plan with
  | nil => cases h; exact ⟨rfl, fun p hp => by cases hp⟩
  | cons t ts ih =>
    rw [buildDel] at h
    split at h
    · cases h
    · rename_i keys hk
      split at h
      · cases h
      · split at h
        · cases h
        · split at h
          · cases h
          · rename_i more hm
            cases h
            obtain ⟨h1, h2⟩ := ih hm
            refine ⟨by rw [List.map_cons, List.map_cons, h1], fun p hp => ?_⟩
            rcases List.mem_cons.mp hp with rfl | hp
            · exact hk
            · exact h2 p hp

/-! ## Old and new keys side by side -/

/-- How the loop of `update_multiple` divides the old keys and the new rows: keys to
    delete, rows to put, rows left alone.  `Q` is what was checked of a new row whose
    key is not an old one. -/
inductive Merged (E : Env) (d : Db) (Q : Row → Prop) :
    List Bytes → List Row → List Bytes → List Row → List Row → Prop
  | nil : Merged E d Q [] [] [] [] []
  | del {k old new D P S} : Merged E d Q old new D P S →
      Merged E d Q (k :: old) new (k :: D) P S
  | put {r old new D P S} : Q r → Merged E d Q old new D P S →
      Merged E d Q old (r :: new) D (r :: P) S
  | both {k r old new D P S} : E.same d k r.1 = true → Merged E d Q old new D P S →
      Merged E d Q (k :: old) (r :: new) D (r :: P) S
  | skip {r old new D P S} : r.2 = [] → Merged E d Q old new D P S →
      Merged E d Q (r.1 :: old) (r :: new) D P (r :: S)

theorem swapAt_take {α} (l : List α) (i j : Nat) (a : α) (hij : i ≤ j) (hj : l[j]? = some a) :
    (if j ≠ i then swapAt l i j else l).take (i + 1) = l.take i ++ [a] := by
  have hjl : j < l.length := by
    rcases Nat.lt_or_ge j l.length with h | h
    · exact h
    · rw [List.getElem?_eq_none h] at hj; cases hj
  have hil : i < l.length := by omega
  split
  · rename_i hne
    unfold swapAt
    rw [List.getElem?_eq_getElem hil, hj]
    apply List.ext_getElem?
    intro n
    simp only [List.getElem?_take, List.getElem?_set, List.getElem?_append, List.length_take]
    have hm : min i l.length = i := by omega
    rw [hm]
    by_cases h1 : n < i
    · have : ¬ j = n := by omega
      have h2 : ¬ i = n := by omega
      simp [h1, this, h2, Nat.lt_succ_of_lt h1]
    · by_cases h2 : n = i
      · subst h2
        simp [hne, hil]
      · have h3 : ¬ n < i + 1 := by omega
        have h4 : n - i ≠ 0 := by omega
        simp [h1, h3]
        omega
  · rename_i he
    have he : j = i := by simpa using he
    subst he
    rw [List.take_add_one, hj]; rfl

theorem swapAt_drop {α} (l : List α) (i j : Nat) (hij : i ≤ j) :
    (if j ≠ i then swapAt l i j else l).drop (j + 1) = l.drop (j + 1) := by
  split
  · unfold swapAt
    split
    · apply List.ext_getElem?
      intro n
      simp only [List.getElem?_drop, List.getElem?_set]
      have h1 : ¬ j = j + 1 + n := by omega
      have h2 : ¬ i = j + 1 + n := by omega
      simp [h1, h2]
    · rfl
  · rfl

theorem swapAt_length {α} (l : List α) (i j : Nat) :
    (if j ≠ i then swapAt l i j else l).length = l.length := by
  split
  · unfold swapAt
    split
    · simp
    · rfl
  · rfl

theorem drop_of_getElem? {α} {l : List α} {i : Nat} {a : α} (h : l[i]? = some a) :
    l.drop i = a :: l.drop (i + 1) := by
  have hi : i < l.length := by
    rcases Nat.lt_or_ge i l.length with h1 | h1
    · exact h1
    · rw [List.getElem?_eq_none h1] at h; cases h
  rw [List.getElem?_eq_getElem hi] at h
  cases h
  exact List.drop_eq_getElem_cons hi

/-- What holds of a result of the loop, from any point on. -/
def LoopGives (E : Env) (d : Db) (Q : Row → Prop) (m m' : Merge) : Prop :=
  ∃ D P S, Merged E d Q (m.old.drop m.idxOld) (m.new.drop m.idxNew) D P S ∧
    m'.old.take m'.usedOld = m.old.take m.usedOld ++ D ∧
    m'.new.take m'.usedNew = m.new.take m.usedNew ++ P ∧
    m'.numDel = m.numDel + D.length ∧ m'.numPut = m.numPut + P.length ∧
    m'.numSkip = m.numSkip + S.length

/-- What is checked of a new row whose key is not an old one. -/
def putAllowed (s : State) (t : Target) (r : Row) : Prop :=
  t.flags.rest = noOverwrite → s t.db r.1 = none

theorem checkOverwrite_ok {s : State} {grant : Db → Bytes → Bool} {t : Target} {r : Row}
    {u : Unit} (h : checkOverwrite s grant t r.1 = .ok u) : putAllowed s t r := by
  intro hf
  unfold checkOverwrite at h
  rw [if_neg (by rw [hf]; decide), if_pos hf] at h
  split at h
  · split at h
    · cases h
    · rename_i hn
      cases he : s t.db r.1 with
      | none => rfl
      | some y => rw [he] at hn; exact absurd rfl hn
  · cases h

theorem gives_put {d : Db} {Q : Row → Prop} {m m' : Merge} {r : Row}
    (hu : m.usedNew ≤ m.idxNew) (hr : m.new[m.idxNew]? = some r) (hq : Q r)
    (h : LoopGives E d Q (m.takePut false) m') : LoopGives E d Q m m' := by
  obtain ⟨D, P, S, hm, ho, hn, h1, h2, h3⟩ := h
  refine ⟨D, r :: P, S, ?_, ho, ?_, h1, ?_, h3⟩
  · rw [drop_of_getElem? hr]
    refine .put hq ?_
    have : (m.takePut false).new.drop (m.takePut false).idxNew = m.new.drop (m.idxNew + 1) :=
      swapAt_drop _ _ _ hu
    rw [this] at hm; exact hm
  · rw [hn]
    have : (m.takePut false).new.take (m.takePut false).usedNew
        = m.new.take m.usedNew ++ [r] := swapAt_take _ _ _ _ hu hr
    rw [this, List.append_assoc]; rfl
  · rw [h2, List.length_cons]
    show m.numPut + 1 + P.length = _
    omega

theorem gives_both {d : Db} {Q : Row → Prop} {m m' : Merge} {r : Row} {k : Bytes}
    (hu : m.usedNew ≤ m.idxNew) (hk : m.old[m.idxOld]? = some k)
    (hr : m.new[m.idxNew]? = some r) (hq : E.same d k r.1 = true)
    (h : LoopGives E d Q (m.takePut true) m') : LoopGives E d Q m m' := by
  obtain ⟨D, P, S, hm, ho, hn, h1, h2, h3⟩ := h
  refine ⟨D, r :: P, S, ?_, ho, ?_, h1, ?_, h3⟩
  · rw [drop_of_getElem? hr, drop_of_getElem? hk]
    refine .both hq ?_
    have : (m.takePut true).new.drop (m.takePut true).idxNew = m.new.drop (m.idxNew + 1) :=
      swapAt_drop _ _ _ hu
    rw [this] at hm; exact hm
  · rw [hn]
    have : (m.takePut true).new.take (m.takePut true).usedNew
        = m.new.take m.usedNew ++ [r] := swapAt_take _ _ _ _ hu hr
    rw [this, List.append_assoc]; rfl
  · rw [h2, List.length_cons]
    show m.numPut + 1 + P.length = _
    omega

theorem gives_del {d : Db} {Q : Row → Prop} {m m' : Merge} {k : Bytes}
    (hu : m.usedOld ≤ m.idxOld) (hk : m.old[m.idxOld]? = some k)
    (h : LoopGives E d Q m.takeDel m') : LoopGives E d Q m m' := by
  obtain ⟨D, P, S, hm, ho, hn, h1, h2, h3⟩ := h
  refine ⟨k :: D, P, S, ?_, ?_, hn, ?_, h2, h3⟩
  · rw [drop_of_getElem? hk]
    refine .del ?_
    have : m.takeDel.old.drop m.takeDel.idxOld = m.old.drop (m.idxOld + 1) :=
      swapAt_drop _ _ _ hu
    rw [this] at hm; exact hm
  · rw [ho]
    have : m.takeDel.old.take m.takeDel.usedOld
        = m.old.take m.usedOld ++ [k] := swapAt_take _ _ _ _ hu hk
    rw [this, List.append_assoc]; rfl
  · rw [h1, List.length_cons]
    show m.numDel + 1 + D.length = _
    omega

theorem gives_skip {d : Db} {Q : Row → Prop} {m m' : Merge} {r : Row}
    (hk : m.old[m.idxOld]? = some r.1) (hr : m.new[m.idxNew]? = some r) (hq : r.2 = [])
    (h : LoopGives E d Q m.takeSkip m') : LoopGives E d Q m m' := by
  obtain ⟨D, P, S, hm, ho, hn, h1, h2, h3⟩ := h
  refine ⟨D, P, r :: S, ?_, ho, hn, h1, h2, ?_⟩
  · rw [drop_of_getElem? hr, drop_of_getElem? hk]
    exact .skip hq hm
  · rw [h3, List.length_cons]
    show m.numSkip + 1 + S.length = _
    omega

theorem mergeOld_ok {grant : Db → Bytes → Bool} {t : Target} {m m' : Merge} {k : Bytes}
    (h : mergeOld grant t m k = .ok m') : m' = m.takeDel := by
  unfold mergeOld at h
  split at h
  · cases h; rfl
  · cases h

theorem mergeNew_ok {s : State} {grant : Db → Bytes → Bool} {t : Target} {m m' : Merge}
    {r : Row} (h : mergeNew s grant t m r = .ok m') :
    putAllowed s t r ∧ m' = m.takePut false := by
  unfold mergeNew at h
  split at h
  · cases h
  · rename_i hc
    split at h
    · cases h
    · split at h
      · cases h
      · cases h; exact ⟨checkOverwrite_ok hc, rfl⟩

theorem mergeBoth_ok {grant : Db → Bytes → Bool} {t : Target} {m m' : Merge}
    {k : Bytes} {r : Row} (h : mergeBoth grant t m k r = .ok m') :
    m' = m.takePut true ∨ (r.2 = [] ∧ k = r.1 ∧ m' = m.takeSkip) := by
  unfold mergeBoth at h
  split at h
  · split at h
    · cases h
    · cases h; exact Or.inl rfl
  · rename_i hn
    cases h
    refine Or.inr ⟨?_, ?_, rfl⟩
    · cases hv : r.2 with
      | nil => rfl
      | cons a l => exact absurd (Or.inl (by rw [hv]; exact Nat.succ_pos _)) hn
    · by_cases he : k = r.1
      · exact he
      · exact absurd (Or.inr he) hn

theorem mergeLoop_gives (s : State) (grant : Db → Bytes → Bool) (t : Target) (n : Nat)
    (m m' : Merge) (ho : m.usedOld ≤ m.idxOld) (hn : m.usedNew ≤ m.idxNew)
    (hf : (m.old.length - m.idxOld) + (m.new.length - m.idxNew) ≤ n)
    (h : mergeLoop E s grant t n m = .ok m') :
    LoopGives E t.db (putAllowed s t) m m' := by
  have hend : ∀ m : Merge, ¬ (m.idxOld < m.old.length ∨ m.idxNew < m.new.length) →
      LoopGives E t.db (putAllowed s t) m m := by
    intro m hc
    refine ⟨[], [], [], ?_, (List.append_nil _).symm, (List.append_nil _).symm, rfl, rfl, rfl⟩
    rw [List.drop_eq_nil_of_le (by omega), List.drop_eq_nil_of_le (by omega)]
    exact .nil
  induction n generalizing m with
  | zero =>
    have e : m = m' := by cases h; rfl
    exact e ▸ hend m (by omega)
  | succ n ih =>
    rw [mergeLoop] at h
    split at h
    · rename_i hc
      have lput : ∀ b, (m.takePut b).new.length = m.new.length :=
        fun b => swapAt_length m.new m.usedNew m.idxNew
      have ldel : m.takeDel.old.length = m.old.length :=
        swapAt_length m.old m.usedOld m.idxOld
      have bound : ∀ {α} {l : List α} {i : Nat} {a : α}, l[i]? = some a → i < l.length := by
        intro α l i a hi
        rcases Nat.lt_or_ge i l.length with h1 | h1
        · exact h1
        · rw [List.getElem?_eq_none h1] at hi; cases hi
      have cdel : ∀ k m1, m.old[m.idxOld]? = some k → mergeOld grant t m k = .ok m1 →
          mergeLoop E s grant t n m1 = .ok m' → LoopGives E t.db (putAllowed s t) m m' := by
        intro k m1 hk he hl
        have := mergeOld_ok he
        subst this
        refine gives_del ho hk (ih m.takeDel ?_ hn ?_ hl)
        · exact Nat.succ_le_succ ho
        · rw [ldel]
          have := bound hk
          show m.old.length - (m.idxOld + 1) + (m.new.length - m.idxNew) ≤ n
          omega
      have cnew : ∀ r m1, m.new[m.idxNew]? = some r → mergeNew s grant t m r = .ok m1 →
          mergeLoop E s grant t n m1 = .ok m' → LoopGives E t.db (putAllowed s t) m m' := by
        intro r m1 hr he hl
        obtain ⟨hq, rfl⟩ := mergeNew_ok he
        refine gives_put hn hr hq (ih (m.takePut false) ho ?_ ?_ hl)
        · exact Nat.succ_le_succ hn
        · rw [lput]
          have := bound hr
          show m.old.length - m.idxOld + (m.new.length - (m.idxNew + 1)) ≤ n
          omega
      split at h
      · cases h
      · rename_i m1 hs
        unfold mergeStep at hs
        split at hs
        · rename_i h1 h2
          rw [List.getElem?_eq_none_iff] at h1 h2
          omega
        · rename_i k hk _
          exact cdel k m1 hk hs h
        · rename_i r _ hr
          exact cnew r m1 hr hs h
        · rename_i k r hk hr
          split at hs
          · exact cnew r m1 hr hs h
          · exact cdel k m1 hk hs h
          · rename_i hcmp
            have b1 := bound hk
            have b2 := bound hr
            rcases mergeBoth_ok hs with rfl | ⟨hv, rfl, rfl⟩
            · refine gives_both hn hk hr (by unfold Env.same; rw [hcmp]; rfl)
                (ih (m.takePut true) ?_ ?_ ?_ h)
              · exact Nat.le_succ_of_le ho
              · exact Nat.succ_le_succ hn
              · rw [lput]
                show m.old.length - (m.idxOld + 1) + (m.new.length - (m.idxNew + 1)) ≤ n
                omega
            · refine gives_skip hk hr hv (ih m.takeSkip ?_ ?_ ?_ h)
              · exact Nat.le_succ_of_le ho
              · exact Nat.le_succ_of_le hn
              · show m.old.length - (m.idxOld + 1) + (m.new.length - (m.idxNew + 1)) ≤ n
                omega
    · rename_i hc
      have e : m = m' := by cases h; rfl
      exact e ▸ hend m hc

end Verif.Multi
