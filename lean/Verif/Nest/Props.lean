import Verif.Nest.Model
import Verif.Ule.Model

/-!
# Properties of the ids of nested transactions (C97)

The specification of a row under nested transactions (`Ule/Spec.lean`) admits the begin of a transaction only with an id that is not 0, not that
of a live ancestor, and with a chain of ids that was never used.  Here it is proved that the ids the code gives out are such ids.
-/

namespace Verif.Nest
open Ule.Spec (Row Ev)

theorem nextChild_gt (r c : Nat) : c < nextChild r c := by unfold nextChild; split <;> omega

theorem nextChild_ne (r c : Nat) : nextChild r c ≠ r := by unfold nextChild; split <;> omega

/-- Live ids: the root's was taken from the counter; those below it are ascending, are not the root's and were taken from its counter. -/
def Good (g : Ids) : Prop :=
  ∀ r cs, g.chain = r :: cs → 0 < r ∧ r ≤ g.last ∧ cs.Pairwise (· < ·) ∧ ∀ c ∈ cs, 0 < c ∧ c ≤ g.child ∧ c ≠ r

theorem good_step (g : Ids) (h : Good g) (o : Op) : Good (g.step o) := by
  cases o with
  | begin =>
    simp only [Ids.step, Ids.begin]
    cases hc : g.chain with
    | nil =>
      intro r cs e
      simp only [List.cons.injEq] at e
      obtain ⟨rfl, rfl⟩ := e
      exact ⟨by omega, Nat.le_refl _, .nil, fun c hc => by cases hc⟩
    | cons r cs =>
      obtain ⟨h1, h2, h3, h4⟩ := h r cs hc
      simp only
      split
      · exact h
      · rename_i t ht
        split at ht
        · cases ht
        · cases ht
          intro r' cs' e
          simp only [List.cons_append, List.cons.injEq] at e
          obtain ⟨rfl, rfl⟩ := e
          have hg := nextChild_gt r g.child
          refine ⟨h1, h2, ?_, ?_⟩
          · rw [List.pairwise_append]
            refine ⟨h3, List.pairwise_singleton _ _, fun a ha b hb => ?_⟩
            cases List.mem_singleton.1 hb
            have := (h4 a ha).2.1
            omega
          · intro c hc
            rcases List.mem_append.1 hc with hc | hc
            · have := h4 c hc
              exact ⟨this.1, by show c ≤ nextChild r g.child; omega, this.2.2⟩
            · cases List.mem_singleton.1 hc
              exact ⟨by omega, Nat.le_refl _, nextChild_ne _ _⟩
  | finish =>
    intro r cs e
    simp only [Ids.step, Ids.finish] at e
    cases hc : g.chain with
    | nil => rw [hc] at e; cases e
    | cons r' cs' =>
      obtain ⟨h1, h2, h3, h4⟩ := h r' cs' hc
      rw [hc] at e
      cases cs' with
      | nil => cases e
      | cons a l =>
        simp only [List.dropLast_cons₂, List.cons.injEq] at e
        obtain ⟨rfl, rfl⟩ := e
        exact ⟨h1, h2, h3.sublist (List.dropLast_sublist _), fun c hc => h4 c ((List.dropLast_sublist _).subset hc)⟩
  | does e => exact h
  | other =>
    intro r cs e
    obtain ⟨h1, h2, h3⟩ := h r cs e
    exact ⟨h1, Nat.le_succ_of_le h2, h3⟩

theorem good_run (ops : List Op) : ∀ g, Good g → Good (g.run ops) := by
  induction ops with
  | nil => exact fun g h => h
  | cons o ops ih => exact fun g h => ih _ (good_step g h o)

/-- An environment whose last id was `last`, no transaction begun. -/
def Ids.fresh (last : Nat) : Ids := ⟨last, [], 0⟩

theorem good_fresh (last : Nat) : Good (.fresh last) := fun r cs e => by cases e

/-- C97: at every moment of every history the ids of the live transactions, root first, are all different and none is 0; below the root they
ascend from parent to child. -/
theorem C97_chain (last : Nat) (ops : List Op) :
    ((Ids.fresh last).run ops).chain.Nodup ∧ 0 ∉ ((Ids.fresh last).run ops).chain ∧
    ((Ids.fresh last).run ops).chain.tail.Pairwise (· < ·) := by
  have h := good_run ops _ (good_fresh last)
  generalize (Ids.fresh last).run ops = g at h
  cases hc : g.chain with
  | nil => simp
  | cons r cs =>
    obtain ⟨h1, _, h3, h4⟩ := h r cs hc
    refine ⟨List.nodup_cons.2 ⟨fun m => (h4 r m).2.2 rfl, h3.imp fun hab => Nat.ne_of_lt hab⟩, ?_, h3⟩
    intro m
    rcases List.mem_cons.1 m with m | m
    · omega
    · have := (h4 0 m).1; omega

/-- Root 5 skips the id 5: its nested transactions are 1, 2, 3, 4, 6. -/
example : ((Ids.fresh 4).run [.begin, .begin, .begin, .finish, .begin, .other, .begin, .begin]).chain = [5, 1, 3, 4, 6] := by decide

/-- Names given out later are new. -/
theorem names_gt (ops : List Op) : ∀ g, Good g →
    (g.names ops).Nodup ∧ ∀ p ∈ g.names ops, g.last < p.1 ∨ ∃ r cs, g.chain = r :: cs ∧ p.1 = r ∧ g.child < p.2 := by
  induction ops with
  | nil => exact fun g _ => ⟨.nil, fun p hp => by cases hp⟩
  | cons o ops ih =>
    intro g h
    obtain ⟨i1, i2⟩ := ih (g.step o) (good_step g h o)
    cases o with
    | begin =>
      simp only [Ids.names, Ids.name, Ids.step, Ids.begin] at i1 i2 ⊢
      cases hc : g.chain with
      | nil =>
        simp only [hc] at i1 i2 ⊢
        refine ⟨List.nodup_cons.2 ⟨fun m => ?_, i1⟩, fun p hp => ?_⟩
        · rcases i2 _ m with m | ⟨r, cs, e, _, m⟩
          · exact absurd m (Nat.lt_irrefl _)
          · exact absurd m (Nat.not_lt_zero _)
        · rcases List.mem_cons.1 hp with rfl | hp
          · exact .inl (Nat.lt_succ_self _)
          · rcases i2 _ hp with m | ⟨r, cs, e, m, _⟩
            · exact .inl (Nat.lt_of_succ_lt m)
            · simp only [List.cons.injEq] at e
              exact .inl (by rw [m, ← e.1]; exact Nat.lt_succ_self _)
      | cons r cs =>
        have hr := (h r cs hc).2.1
        simp only [hc] at i1 i2 ⊢
        by_cases hn : (r :: cs).length + 1 = Ule.maxTransactionRecords
        · simp only [if_pos hn] at i1 i2 ⊢
          refine ⟨i1, fun p hp => ?_⟩
          rcases i2 p hp with m | ⟨r', cs', e, m⟩
          · exact .inl m
          · rw [hc] at e; exact .inr ⟨r', cs', e, m⟩
        · simp only [if_neg hn] at i1 i2 ⊢
          have hg := nextChild_gt r g.child
          refine ⟨List.nodup_cons.2 ⟨fun m => ?_, i1⟩, fun p hp => ?_⟩
          · rcases i2 _ m with m | ⟨r', cs', e, _, m⟩
            · exact absurd m (Nat.not_lt.2 hr)
            · exact absurd m (Nat.lt_irrefl _)
          · rcases List.mem_cons.1 hp with rfl | hp
            · exact .inr ⟨r, cs, rfl, rfl, hg⟩
            · rcases i2 p hp with m | ⟨r', cs', e, m, m'⟩
              · exact .inl m
              · simp only [List.cons_append, List.cons.injEq] at e
                exact .inr ⟨r, cs, rfl, by rw [m, e.1], Nat.lt_trans hg m'⟩
    | finish =>
      simp only [Ids.names, Ids.name, Ids.step, Ids.finish, List.nil_append] at i1 i2 ⊢
      refine ⟨i1, fun p hp => ?_⟩
      rcases i2 p hp with m | ⟨r, cs, e, m⟩
      · exact .inl m
      · cases hc : g.chain with
        | nil => rw [hc] at e; cases e
        | cons r' cs' =>
          rw [hc] at e
          cases cs' with
          | nil => cases e
          | cons a l =>
            simp only [List.dropLast_cons₂, List.cons.injEq] at e
            exact .inr ⟨r', a :: l, rfl, by rw [m.1, e.1], m.2⟩
    | does e => exact ⟨i1, i2⟩
    | other =>
      simp only [Ids.names, Ids.name, Ids.step, List.nil_append] at i1 i2 ⊢
      refine ⟨i1, fun p hp => ?_⟩
      rcases i2 p hp with m | m
      · exact .inl (Nat.lt_of_succ_lt m)
      · exact .inr m

/-- C97: no name (root id, child id) is given out twice, whatever happens in between. -/
theorem C97_names (last : Nat) (ops : List Op) : ((Ids.fresh last).names ops).Nodup :=
  (names_gt ops _ (good_fresh last)).1

example : (Ids.fresh 1).names [.begin, .begin, .finish, .begin, .finish, .finish, .other, .begin, .begin] =
    [(2, 0), (2, 1), (2, 3), (4, 0), (4, 1)] := by decide

/-! ## What rows see -/

/-- The row follows the same live transactions, and chains used so far have ids that were given out. -/
structure Fits (g : Ids) (s : Row) : Prop where
  chain : s.chain = g.chain
  used : ∀ r cs, r :: cs ∈ s.used → r ≤ g.last ∧ ∀ cs', g.chain = r :: cs' → ∀ c ∈ cs, c ≤ g.child

theorem begin_ok (init : Option Ule.Bytes) (g g' : Ids) (s : Row) (x : Nat) (h : Good g) (f : Fits g s) (ha : s.mode = .active)
    (len : g.chain.length ≤ 253) (hb : g.begin = some (g', x)) : ∃ s', s.step init (.begin x) = some s' ∧ Fits g' s' := by
  unfold Ids.begin at hb
  cases hc : g.chain with
  | nil =>
    simp only [hc, Option.some.injEq, Prod.mk.injEq] at hb
    obtain ⟨rfl, rfl⟩ := hb
    have hs : s.chain = [] := by rw [f.chain, hc]
    have hu : s.chain ++ [g.last + 1] ∉ s.used := by
      rw [hs]
      intro m
      exact absurd (f.used _ _ m).1 (by omega)
    refine ⟨{ s with chain := s.chain ++ [g.last + 1], used := (s.chain ++ [g.last + 1]) :: s.used }, ?_, ?_, ?_⟩
    · simp only [Row.step]
      exact if_pos ⟨ha, Nat.succ_ne_zero _, by rw [hs]; simp, hu, by rw [hs]; decide⟩
    · show s.chain ++ _ = _
      rw [hs]; rfl
    · intro r cs m
      rcases List.mem_cons.1 m with m | m
      · rw [hs] at m
        simp only [List.nil_append, List.cons.injEq] at m
        obtain ⟨rfl, rfl⟩ := m
        exact ⟨Nat.le_refl _, fun _ _ c hc => by cases hc⟩
      · have := (f.used r cs m).1
        refine ⟨Nat.le_succ_of_le this, fun cs' e => ?_⟩
        simp only [List.cons.injEq] at e
        omega
  | cons r cs =>
    simp only [hc] at hb
    split at hb
    · cases hb
    · rename_i hn
      simp only [Option.some.injEq, Prod.mk.injEq] at hb
      obtain ⟨rfl, rfl⟩ := hb
      obtain ⟨h1, h2, h3, h4⟩ := h r cs hc
      have hg := nextChild_gt r g.child
      have hne := nextChild_ne r g.child
      have hs : s.chain = r :: cs := by rw [f.chain, hc]
      have hu : s.chain ++ [nextChild r g.child] ∉ s.used := by
        rw [hs]
        intro m
        have := (f.used _ _ m).2 cs hc (nextChild r g.child) (by simp)
        omega
      by_cases hl : s.chain.length < Ule.Spec.maxDepth
      · refine ⟨{ s with chain := s.chain ++ [nextChild r g.child], used := (s.chain ++ [nextChild r g.child]) :: s.used }, ?_, ?_, ?_⟩
        · simp only [Row.step]
          refine if_pos ⟨ha, by omega, ?_, hu, hl⟩
          rw [hs]
          intro m
          rcases List.mem_cons.1 m with m | m
          · exact hne m
          · have := (h4 _ m).2.1; omega
        · show s.chain ++ _ = _
          rw [hs]
        · intro r' cs' m
          rcases List.mem_cons.1 m with m | m
          · rw [hs] at m
            simp only [List.cons_append, List.cons.injEq] at m
            obtain ⟨rfl, rfl⟩ := m
            refine ⟨h2, fun _ _ c hc => ?_⟩
            rcases List.mem_append.1 hc with hc | hc
            · have := (h4 c hc).2.1
              show c ≤ nextChild _ _
              omega
            · cases List.mem_singleton.1 hc
              exact Nat.le_refl _
          · refine ⟨(f.used r' cs' m).1, fun cs'' e c hc' => ?_⟩
            simp only [List.cons_append, List.cons.injEq] at e
            have := (f.used r' cs' m).2 cs (by rw [hc, e.1]) c hc'
            show c ≤ nextChild _ _
            omega
      · exfalso
        rw [hs] at hl
        have hd : Ule.Spec.maxDepth = 253 := rfl
        have ht : Ule.maxTransactionRecords = 254 := rfl
        have hm := len
        rw [hc] at hm
        omega

/-- No more levels than the format of rows holds. -/
def Low (g : Ids) : Prop := g.chain.length ≤ 253

theorem low_step (g : Ids) (h : Low g) (o : Op) : Low (g.step o) := by
  unfold Low at *
  cases o with
  | begin =>
    simp only [Ids.step, Ids.begin]
    cases hc : g.chain with
    | nil => simp
    | cons r cs =>
      rw [hc] at h
      have ht : Ule.maxTransactionRecords = 254 := rfl
      by_cases hn : (r :: cs).length + 1 = Ule.maxTransactionRecords
      · simp only [if_pos hn]; rw [hc]; exact h
      · simp only [if_neg hn, List.length_append, List.length_singleton]
        omega
  | finish => simp only [Ids.step, Ids.finish, List.length_dropLast]; omega
  | does e => exact h
  | other => exact h

theorem low_run (ops : List Op) : ∀ g, Low g → Low (g.run ops) := by
  induction ops with
  | nil => exact fun g h => h
  | cons o ops ih => exact fun g h => ih _ (low_step g h o)

/-- A row step other than begin and end changes neither the chain nor the chains used. -/
theorem work_same (init : Option Ule.Bytes) (s s' : Row) (e : Ev) (hw : work e = true) (h : s.step init e = some s') :
    s'.chain = s.chain ∧ s'.used = s.used := by
  cases e with
  | «begin» x => cases hw
  | finish => cases hw
  | putIfAbsent v =>
    simp only [Row.step] at h
    split at h
    · split at h <;> (cases h; exact ⟨rfl, rfl⟩)
    · cases h
  | _ =>
    simp only [Row.step] at h
    split at h
    · cases h; exact ⟨rfl, rfl⟩
    · cases h

theorem fits_step (init : Option Ule.Bytes) (g : Ids) (s s' : Row) (o : Op) (h : Good g) (f : Fits g s)
    (hr : s.run init (g.event o) = some s') : Fits (g.step o) s' := by
  cases o with
  | begin =>
    simp only [Ids.event, Ids.step] at hr ⊢
    cases hb : g.begin with
    | none =>
      rw [hb] at hr
      cases hr; exact f
    | some t =>
      rw [hb] at hr
      simp only [Row.run] at hr
      cases hs : s.step init (.begin t.2) with
      | none => rw [hs] at hr; cases hr
      | some s1 =>
        rw [hs] at hr
        cases hr
        have ha : s.mode = .active ∧ s.chain.length < Ule.Spec.maxDepth := by
          simp only [Row.step] at hs
          split at hs
          · rename_i c; exact ⟨c.1, c.2.2.2.2⟩
          · cases hs
        obtain ⟨s2, e, f2⟩ := begin_ok init g t.1 s t.2 h f ha.1 (by rw [← f.chain]; unfold Ule.Spec.maxDepth at ha; omega) hb
        rw [hs] at e
        cases e
        exact f2
  | finish =>
    simp only [Ids.event, Ids.step, Row.run, Row.step] at hr ⊢
    split at hr
    · cases hr
      refine ⟨by show s.chain.dropLast = g.chain.dropLast; rw [f.chain], fun r cs m => ⟨(f.used r cs m).1, fun cs' e => ?_⟩⟩
      simp only [Ids.finish] at e
      cases hc : g.chain with
      | nil => rw [hc] at e; cases e
      | cons a l =>
        rw [hc] at e
        cases l with
        | nil => cases e
        | cons b l =>
          simp only [List.dropLast_cons₂, List.cons.injEq] at e
          exact (f.used r cs m).2 (b :: l) (by rw [hc, e.1])
    · cases hr
  | does e =>
    simp only [Ids.event, Ids.step] at hr ⊢
    cases hw : work e with
    | false =>
      rw [hw] at hr
      cases hr; exact f
    | true =>
      rw [hw] at hr
      simp only [if_true, Row.run] at hr
      cases hs : s.step init e with
      | none => rw [hs] at hr; cases hr
      | some s1 =>
        rw [hs] at hr
        cases hr
        obtain ⟨e1, e2⟩ := work_same init s _ e hw hs
        exact ⟨by rw [e1, f.chain], fun r cs m => f.used r cs (by rw [← e2]; exact m)⟩
  | other =>
    cases hr
    exact ⟨f.chain, fun r cs m => ⟨Nat.le_succ_of_le (f.used r cs m).1, (f.used r cs m).2⟩⟩

theorem run_append (init : Option Ule.Bytes) (a b : List Ev) : ∀ s : Row, s.run init (a ++ b) = (s.run init a).bind fun t => t.run init b := by
  induction a with
  | nil => exact fun s => rfl
  | cons e a ih =>
    intro s
    simp only [List.cons_append, Row.run]
    cases s.step init e with
    | none => rfl
    | some t => exact ih t

theorem fits_run (init : Option Ule.Bytes) (ops : List Op) : ∀ g (s s' : Row), Good g → Fits g s →
    s.run init (g.events ops) = some s' → Fits (g.run ops) s' := by
  induction ops with
  | nil => intro g s s' _ f hr; cases hr; exact f
  | cons o ops ih =>
    intro g s s' h f hr
    simp only [Ids.events] at hr
    rw [run_append] at hr
    cases h1 : s.run init (g.event o) with
    | none => rw [h1] at hr; cases hr
    | some s1 =>
      rw [h1] at hr
      exact ih _ s1 s' (good_step g h o) (fits_step init g s s1 o h f h1) hr

/-- C97: what the rows rely on.  Take a row that earlier transactions used (with root ids given out before), any history of begins, ends, writes
and notifications with the ids the code gives out, and a transaction that is at work.  If it may have a child at all, the child's id is one the
specification of rows admits: not 0, not that of an ancestor, and its chain of ids was never used on the row. -/
theorem C97_begin (init : Option Ule.Bytes) (last : Nat) (used : List (List Nat)) (hu : ∀ r cs, r :: cs ∈ used → r ≤ last) (ops : List Op)
    (s : Row) (hr : (Row.fresh used).run init ((Ids.fresh last).events ops) = some s) (ha : s.mode = .active) (g' : Ids) (x : Nat)
    (hb : ((Ids.fresh last).run ops).begin = some (g', x)) :
    (s.step init (.begin x)).isSome ∧ x ≠ 0 ∧ x ∉ s.chain ∧ s.chain ++ [x] ∉ s.used := by
  have hg := good_run ops _ (good_fresh last)
  have hl := low_run ops (Ids.fresh last) (by unfold Low Ids.fresh; simp)
  have f := fits_run init ops (Ids.fresh last) (Row.fresh used) s (good_fresh last) ⟨rfl, fun r cs m => ⟨hu r cs m, fun _ e => by cases e⟩⟩ hr
  obtain ⟨s', e, _⟩ := begin_ok init _ g' s x hg f ha hl hb
  refine ⟨by rw [e]; rfl, ?_⟩
  simp only [Row.step] at e
  split at e
  · rename_i c; exact ⟨c.2.1, c.2.2.1, c.2.2.2.1⟩
  · cases e

/-- The hypotheses are met: a row that root 3 has used; root 5 with nested work. -/
example : ∃ s, (Row.fresh [[3], [3, 1]]).run none
      ((Ids.fresh 4).events [.begin, .begin, .does (.put [1]), .finish, .begin, .does .del, .does .abortMsg, .finish]) = some s ∧
    s.mode = .active ∧ s.chain = [5] ∧
    ((Ids.fresh 4).run [.begin, .begin, .does (.put [1]), .finish, .begin, .does .del, .does .abortMsg, .finish]).begin =
      some (⟨5, [5, 3], 3⟩, 3) := ⟨_, rfl, rfl, rfl, rfl⟩

/-- C97: a begin is refused exactly below 253 live levels. -/
theorem C97_refused (last : Nat) (ops : List Op) :
    ((Ids.fresh last).run ops).begin = none ↔ ((Ids.fresh last).run ops).chain.length = 253 := by
  generalize (Ids.fresh last).run ops = g
  unfold Ids.begin
  have ht : Ule.maxTransactionRecords = 254 := rfl
  cases hc : g.chain with
  | nil => simp
  | cons r cs =>
    simp only
    split
    · simp only [true_iff]; omega
    · simp only [reduceCtorEq, false_iff]; omega

theorem begin_chain (g g' : Ids) (x : Nat) (h : g.begin = some (g', x)) : g'.chain = g.chain ++ [x] := by
  unfold Ids.begin at h
  cases hc : g.chain with
  | nil => simp only [hc, Option.some.injEq, Prod.mk.injEq] at h; obtain ⟨rfl, rfl⟩ := h; rfl
  | cons r cs =>
    simp only [hc] at h
    split at h
    · cases h
    · simp only [Option.some.injEq, Prod.mk.injEq] at h; obtain ⟨rfl, rfl⟩ := h; rfl

/-- C97: a begin adds one transaction below the innermost one, an end takes it away again and leaves the others as they were. -/
theorem C97_nesting (last : Nat) (ops : List Op) (g' : Ids) (x : Nat) (h : ((Ids.fresh last).run ops).begin = some (g', x)) :
    g'.chain = ((Ids.fresh last).run ops).chain ++ [x] ∧ g'.finish.chain = ((Ids.fresh last).run ops).chain := by
  have e := begin_chain _ _ _ h
  exact ⟨e, by unfold Ids.finish; simp only [e, List.dropLast_concat]⟩

example : ((Ids.fresh 4).run [.begin, .begin]).begin = some (⟨5, [5, 1, 2], 2⟩, 2) := by decide

/-! ## Finding a transaction -/

theorem findLevel_none (x : Nat) (l : List Nat) : ∀ i, findLevel l x i = none ↔ x ∉ l := by
  induction l with
  | nil => intro i; simp [findLevel]
  | cons c l ih =>
    intro i
    unfold findLevel
    by_cases h : x = c
    · rw [if_pos h]; simp [h]
    · rw [if_neg h, ih]; simp [h]

theorem findLevel_some (x : Nat) (l : List Nat) : l.Nodup → ∀ i k, l[k]? = some x → findLevel l x i = some (i + k) := by
  induction l with
  | nil => intro _ i k h; simp at h
  | cons c l ih =>
    intro hn i k h
    have hn' := List.nodup_cons.1 hn
    unfold findLevel
    cases k with
    | zero => simp only [List.getElem?_cons_zero, Option.some.injEq] at h; rw [if_pos h.symm]; rfl
    | succ k =>
      simp only [List.getElem?_cons_succ] at h
      have : x ≠ c := fun e => hn'.1 (e ▸ List.mem_of_getElem? h)
      rw [if_neg this, ih hn'.2 (i + 1) k h]
      congr 1; omega

/-- C97: a live transaction is found by its child id and no other one is found; an id of none is not found. -/
theorem C97_find (last : Nat) (ops : List Op) (x : Nat) :
    (∀ k, ((Ids.fresh last).run ops).childIds[k]? = some x → ((Ids.fresh last).run ops).find x = some k) ∧
    (x ∉ ((Ids.fresh last).run ops).childIds → ((Ids.fresh last).run ops).find x = none) := by
  have h := good_run ops _ (good_fresh last)
  generalize (Ids.fresh last).run ops = g at h
  have hn : g.childIds.Nodup := by
    unfold Ids.childIds
    cases hc : g.chain with
    | nil => exact .nil
    | cons r cs =>
      obtain ⟨_, _, h3, h4⟩ := h r cs hc
      exact List.nodup_cons.2 ⟨fun m => absurd (h4 0 m).1 (Nat.lt_irrefl _), h3.imp fun hab => Nat.ne_of_lt hab⟩
  exact ⟨fun k hk => by rw [Ids.find, findLevel_some x _ hn 0 k hk, Nat.zero_add], fun m => (findLevel_none x _ 0).2 m⟩

example : ((Ids.fresh 4).run [.begin, .begin, .finish, .begin, .begin]).find 3 = some 2 ∧
    ((Ids.fresh 4).run [.begin, .begin, .finish, .begin, .begin]).find 1 = none := by decide

/-! ## After recovery -/

/-- Ids of nested transactions begun in what is replayed. -/
def replayed : List (Option Nat) → List Nat
  | [] => []
  | some x :: es => x :: replayed es
  | none :: es => replayed es

theorem replay_child (es : List (Option Nat)) : ∀ g : Ids, g.child ≤ (g.replay es).child ∧ ∀ x ∈ replayed es, x ≤ (g.replay es).child := by
  induction es with
  | nil => exact fun g => ⟨Nat.le_refl _, fun x hx => by cases hx⟩
  | cons e es ih =>
    intro g
    cases e with
    | none => exact ih g.finish
    | some y =>
      obtain ⟨h1, h2⟩ := ih (g.recover y)
      have hy : y ≤ (g.recover y).child ∧ g.child ≤ (g.recover y).child := by
        show y ≤ (if y > g.child then y else g.child) ∧ g.child ≤ (if y > g.child then y else g.child)
        split <;> omega
      refine ⟨by show g.child ≤ ((g.recover y).replay es).child; omega, fun x hx => ?_⟩
      rcases List.mem_cons.1 hx with rfl | hx
      · show x ≤ ((g.recover x).replay es).child; omega
      · exact h2 x hx

/-- C97: after recovery a new nested transaction of root `r` gets an id that is not 0, not the root's and not that of any nested transaction whose
begin was replayed.  Partial: of nested transactions whose begin is not replayed the id is forgotten (`C97_recovered_refuted`). -/
theorem C97_recovered_partial (last r : Nat) (es : List (Option Nat)) (cs : List Nat) (hc : ((Ids.mk last [r] 0).replay es).chain = r :: cs)
    (g' : Ids) (x : Nat) (hb : ((Ids.mk last [r] 0).replay es).begin = some (g', x)) : x ≠ 0 ∧ x ≠ r ∧ x ∉ replayed es := by
  obtain ⟨_, h2⟩ := replay_child es (Ids.mk last [r] 0)
  unfold Ids.begin at hb
  simp only [hc] at hb
  split at hb
  · cases hb
  · simp only [Option.some.injEq, Prod.mk.injEq] at hb
    obtain ⟨_, rfl⟩ := hb
    have hg := nextChild_gt r ((Ids.mk last [r] 0).replay es).child
    exact ⟨by omega, nextChild_ne _ _, fun m => absurd (h2 _ m) (by omega)⟩

example : ((Ids.mk 9 [9] 0).replay [some 4, none, some 7]).chain = [9, 7] ∧
    ((Ids.mk 9 [9] 0).replay [some 4, none, some 7]).begin = some (⟨9, [9, 7, 8], 8⟩, 8) := by decide

/-- What the log holds of the nested transactions of a root (`toku_logger_log_xbegin`, xcommit and xabort records). -/
def logOf (g : Ids) : List Op → List (Option Nat)
  | [] => []
  | .begin :: ops => (match g.begin with
    | none => []
    | some t => [some t.2]) ++ logOf (g.step .begin) ops
  | .finish :: ops => none :: logOf (g.step .finish) ops
  | o :: ops => logOf (g.step o) ops

theorem replay_log (ops : List Op) : ∀ g h : Ids, g.chain = h.chain → g.child = h.child → (∀ n, (g.run (ops.take n)).chain ≠ []) →
    (h.replay (logOf g ops)).chain = (g.run ops).chain ∧ (h.replay (logOf g ops)).child = (g.run ops).child := by
  induction ops with
  | nil => exact fun g h e1 e2 _ => ⟨e1.symm, e2.symm⟩
  | cons o ops ih =>
    intro g h e1 e2 hl
    have hl' : ∀ n, ((g.step o).run (ops.take n)).chain ≠ [] := fun n => hl (n + 1)
    have hne : g.chain ≠ [] := hl 0
    cases o with
    | begin =>
      simp only [logOf]
      cases hb : g.begin with
      | none =>
        have hs : g.step .begin = g := by simp only [Ids.step, hb]
        rw [hs] at hl' ⊢
        have := ih g h e1 e2 hl'
        show _ ∧ _
        rw [show g.run (.begin :: ops) = (g.step .begin).run ops from rfl, hs]
        exact this
      | some t =>
        have hs : g.step .begin = t.1 := by simp only [Ids.step, hb]
        rw [hs] at hl' ⊢
        rw [show g.run (.begin :: ops) = (g.step .begin).run ops from rfl, hs]
        have ht : t.1.chain = g.chain ++ [t.2] := begin_chain g t.1 t.2 hb
        have hx : t.1.child = t.2 ∧ g.child < t.2 := by
          unfold Ids.begin at hb
          cases hc : g.chain with
          | nil => exact absurd hc hne
          | cons r cs =>
            simp only [hc] at hb
            split at hb
            · cases hb
            · cases hb
              exact ⟨rfl, nextChild_gt _ _⟩
        refine ih t.1 (h.recover t.2) (by rw [ht, e1]; rfl) ?_ hl'
        show t.1.child = if t.2 > h.child then t.2 else h.child
        rw [if_pos (by rw [← e2]; exact hx.2), hx.1]
    | finish => exact ih (g.step .finish) h.finish (by show g.chain.dropLast = h.chain.dropLast; rw [e1]) e2 hl'
    | does e => exact ih g h e1 e2 hl'
    | other => exact ih (g.step .other) h e1 e2 hl'

/-- C97: if the whole life of a root is in the log that is replayed, its live nested transactions are recovered with their ids and in their order,
and the next one gets the id it would have got without the crash. -/
theorem C97_replayed (last : Nat) (ops : List Op) (hl : ∀ n, ((Ids.mk last [last] 0).run (ops.take n)).chain ≠ []) (now : Nat) :
    ((Ids.mk now [last] 0).replay (logOf (Ids.mk last [last] 0) ops)).chain = ((Ids.mk last [last] 0).run ops).chain ∧
    ((Ids.mk now [last] 0).replay (logOf (Ids.mk last [last] 0) ops)).begin.map (·.2) = ((Ids.mk last [last] 0).run ops).begin.map (·.2) := by
  obtain ⟨h1, h2⟩ := replay_log ops (Ids.mk last [last] 0) (Ids.mk now [last] 0) rfl rfl hl
  have hne : ((Ids.mk last [last] 0).run ops).chain ≠ [] := by
    have := hl ops.length
    rwa [List.take_length] at this
  refine ⟨h1, ?_⟩
  generalize (Ids.mk now [last] 0).replay (logOf (Ids.mk last [last] 0) ops) = a at h1 h2
  generalize (Ids.mk last [last] 0).run ops = b at h1 h2 hne
  unfold Ids.begin
  rw [h1, h2]
  cases hc : b.chain with
  | nil => exact absurd hc hne
  | cons r cs =>
    simp only
    split <;> rfl

example : logOf (Ids.mk 2 [2] 0) [.begin, .finish, .other, .begin, .begin] = [some 1, none, some 3, some 4] ∧
    ((Ids.mk 9 [2] 0).replay [some 1, none, some 3, some 4]).chain = [2, 3, 4] ∧
    (Ids.mk 2 [2] 0).step .begin = ⟨2, [2, 1], 1⟩ := by decide

/-- The hypothesis on the history is met. -/
example : ∀ n, ((Ids.mk 2 [2] 0).run (List.take n [.begin, .finish, .begin])).chain ≠ []
  | 0 => by decide
  | 1 => by decide
  | 2 => by decide
  | n + 3 => by simp only [List.take_succ_cons, List.take_nil]; decide

/-- C97, refuted for recovered transactions: a checkpoint records the live transactions, not the counter of nested ids.  Root 5 begins a nested
transaction, which gets id 1, writes a row and commits; after a checkpoint the root is prepared; the environment crashes and is recovered.  A
nested transaction of the recovered root gets id 1 again.  If it writes the same row and aborts, the write of the one that committed is gone;
with the id 2, which it would have got without the crash, it is still there. -/
theorem C97_recovered_refuted :
    (Ids.fresh 4).names [.begin, .begin, .finish] = [(5, 0), (5, 1)] ∧
    (((Ids.mk 5 [5] 0).replay []).begin.map (·.2)) = some 1 ∧
    ((Ids.fresh 4).run [.begin, .begin, .finish]).begin.map (·.2) = some 2 ∧
    (Ule.runMsgs Ule.emptyUle [([5, 1], .insert [7])]).bind Ule.latest = some [7] ∧
    (Ule.runMsgs Ule.emptyUle [([5, 1], .insert [7]), ([5, 1], .insert [8]), ([5, 1], .abort)]).bind Ule.latest = none ∧
    (Ule.runMsgs Ule.emptyUle [([5, 1], .insert [7]), ([5, 2], .insert [8]), ([5, 2], .abort)]).bind Ule.latest = some [7] := by
  decide

end Verif.Nest
