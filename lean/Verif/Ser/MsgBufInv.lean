import Verif.Ser.MsgBufRun
/-!
Every history keeps the invariant.
-/
set_option linter.unusedSectionVars false
namespace Verif.Ser
open MsgBufSpec

variable {cmp : List Nat → List Nat → Ordering} [Std.TransCmp cmp]

theorem lookup_snoc {s : List Slot} {x : Slot} {P : Slot → Prop} {o : Nat} :
    (∃ (i : Nat) (y : Slot), (s ++ [x])[i]? = some y ∧ P y ∧ o = offAt (msgsOf (s ++ [x])) i) ↔
      (∃ (i : Nat) (y : Slot), s[i]? = some y ∧ P y ∧ o = offAt (msgsOf s) i) ∨ (P x ∧ o = offAt (msgsOf s) s.length) := by
  have hm : msgsOf (s ++ [x]) = msgsOf s ++ [x.m] := by simp [msgsOf]
  have hl : (msgsOf s).length = s.length := by simp [msgsOf]
  rw [hm]
  constructor
  · rintro ⟨i, y, h1, h2, h3⟩
    rcases Nat.lt_or_ge i s.length with hi | hi
    · rw [List.getElem?_append_left hi] at h1
      rw [offAt_append (by omega)] at h3
      exact .inl ⟨i, y, h1, h2, h3⟩
    · rw [List.getElem?_append_right hi] at h1
      have : i = s.length := by
        rcases Nat.eq_or_lt_of_le hi with h | h
        · exact h.symm
        · rw [List.getElem?_eq_none (by simp; omega)] at h1; cases h1
      subst this
      rw [Nat.sub_self] at h1
      cases h1
      rw [offAt_append (by omega)] at h3
      exact .inr ⟨h2, h3⟩
  · rintro (⟨i, y, h1, h2, h3⟩ | ⟨h1, h2⟩)
    · have hi := (List.getElem?_eq_some_iff.1 h1).1
      exact ⟨i, y, by rw [List.getElem?_append_left hi]; exact h1, h2, by rw [offAt_append (by omega)]; exact h3⟩
    · exact ⟨s.length, x, by simp, h1, by rw [offAt_append (by omega)]; exact h2⟩

theorem mem_length_off {b : MB} {s : List Slot} (hm : b.mem = memOf (rowsOf s)) : b.mem.length = offAt (msgsOf s) s.length := by
  rw [hm, memOf_length, rowsOf_fst, ← offAt_length]
  simp [msgsOf]

theorem Fit.left {ms ns : List Msg} (h : Fit cmp (ms ++ ns)) : Fit cmp ms :=
  ⟨fun m hm => h.valid m (by simp [hm]), (List.pairwise_append.1 h.distinct).1, by have := h.size; simp only [List.map_append, List.sum_append] at this; omega⟩

theorem insert_inv {c : Bnc} {offs : List Nat} {s : List Slot} {m : Msg} {f : Bool} (h : BncInv cmp c offs s) (hf : Fit cmp (msgsOf s ++ [m])) :
    ∃ c' off, c.insert cmp m f = .ok (c', off) ∧ BncInv cmp c' (offs ++ [off]) (s ++ [⟨m, f, !f⟩]) := by
  have hm' : msgsOf (s ++ [⟨m, f, !f⟩]) = msgsOf s ++ [m] := by simp [msgsOf]
  have hr' : rowsOf (s ++ [⟨m, f, !f⟩]) = rowsOf s ++ [(m, f)] := by simp [rowsOf]
  have hl : (msgsOf s).length = s.length := by simp [msgsOf]
  have hlen := mem_length_off h.mem
  have hsz : c.b.mem.length + m.memsize ≤ 2 ^ 30 := by
    have := hf.size
    rw [hlen, ← hl, offAt_length]
    simp only [List.map_append, List.sum_append, List.map_cons, List.map_nil, List.sum_cons, List.sum_nil] at this
    omega
  obtain ⟨sz, e1, _⟩ := MB.enqueue_ok (f := f) hsz
  generalize hb : (⟨c.b.mem ++ m.entry f, c.b.n + 1, sz⟩ : MB) = b' at e1
  have hmem : b'.mem = memOf (rowsOf (s ++ [⟨m, f, !f⟩])) := by rw [← hb, hr', memOf_append, h.mem]; simp [memOf]
  have hn : b'.n = (s ++ [(⟨m, f, !f⟩ : Slot)]).length := by rw [← hb, List.length_append]; simp [h.n]
  have hf' : Fit cmp (msgsOf (s ++ [⟨m, f, !f⟩])) := by rw [hm']; exact hf
  have hget : ∀ (i : Nat) (x : Slot), s[i]? = some x → b'.getMessage (offAt (msgsOf s) i) = .ok x.m := by
    intro i x hi
    have hlt := (List.getElem?_eq_some_iff.1 hi).1
    have := get_at hf' hmem (i := i) (x := x) (by rw [List.getElem?_append_left hlt]; exact hi)
    rw [hm', offAt_append (by omega)] at this
    exact this
  have hgetN : b'.getMessage (offAt (msgsOf s) s.length) = .ok m := by
    have := get_at hf' hmem (i := s.length) (x := ⟨m, f, !f⟩) (by simp)
    rw [hm', offAt_append (by omega)] at this
    exact this
  have hsame : ∀ o, (∃ (i : Nat) (x : Slot), s[i]? = some x ∧ o = offAt (msgsOf s) i) → b'.getMessage o = c.b.getMessage o := by
    rintro o ⟨i, x, hi, rfl⟩
    rw [hget i x hi, get_at h.fit h.mem hi]
  have hfr : c.fresh.Pairwise (Lt cmp b') := Lt.congr h.freshSorted (fun o ho => by
    obtain ⟨i, x, h1, _, _, h4⟩ := (h.fresh o).1 ho
    exact hsame o ⟨i, x, h1, h4⟩)
  have hst : c.stale.Pairwise (Lt cmp b') := Lt.congr h.staleSorted (fun o ho => by
    obtain ⟨i, x, h1, _, _, h4⟩ := (h.stale o).1 ho
    exact hsame o ⟨i, x, h1, h4⟩)
  have hoffs : offs ++ [c.b.mem.length] = (List.range (s ++ [(⟨m, f, !f⟩ : Slot)]).length).map (offAt (msgsOf (s ++ [⟨m, f, !f⟩]))) := by
    rw [hm', List.length_append, List.length_cons, List.length_nil, List.range_succ, List.map_append, h.offs, hlen]
    congr 1
    · refine List.map_congr_left (fun i hi => ?_)
      rw [offAt_append (by have := List.mem_range.1 hi; omega)]
    · simp [offAt_append (ms := msgsOf s) (ns := [m]) (i := s.length) (by omega)]
  have hbc : ∀ hs : isSingle m = true, c.bcast = collect (fun m _ => !isSingle m) 0 (rowsOf (s ++ [⟨m, f, !f⟩])) := by
    intro hs
    rw [hr', collect_append, ← h.bcast]
    simp [collect, hs]
  have hnew : ∀ (i : Nat), i < s.length → offAt (msgsOf s) s.length ≠ offAt (msgsOf s) i := fun i hi => by
    have := offAt_lt (ms := msgsOf s) hi (by omega); omega
  have hnm : offAt (msgsOf s) s.length ∉ c.marked := fun hmk => by
    obtain ⟨i, x, h1, _, _, h4⟩ := (h.fresh _).1 (h.markedFresh _ hmk)
    exact hnew i (List.getElem?_eq_some_iff.1 h1).1 h4
  have hmk : ∀ (i : Nat) (x : Slot), (s ++ [(⟨m, f, !f⟩ : Slot)])[i]? = some x → x.m.typ ∈ single → x.filed = false → (offAt (msgsOf (s ++ [⟨m, f, !f⟩])) i ∈ c.marked ↔ x.fresh = false) := by
    intro i x hi hx hfl
    rw [hm']
    rcases Nat.lt_or_ge i s.length with hlt | hge
    · rw [List.getElem?_append_left hlt] at hi
      rw [offAt_append (by omega)]
      exact h.marked i x hi hx hfl
    · rw [List.getElem?_append_right hge] at hi
      have : i = s.length := by
        rcases Nat.eq_or_lt_of_le hge with h | h
        · exact h.symm
        · rw [List.getElem?_eq_none (by simp; omega)] at hi; cases hi
      subst this
      rw [Nat.sub_self] at hi
      cases hi
      rw [offAt_append (by omega)]
      simp only [Bool.not_eq_false'] at hfl ⊢
      rw [hfl]
      exact ⟨fun hc => absurd hc hnm, fun hc => by cases hc⟩
  have hfiled : ∀ x ∈ s ++ [(⟨m, f, !f⟩ : Slot)], x.filed = true → x.fresh = false := by
    intro x hx hfl
    rcases List.mem_append.1 hx with hx | hx
    · exact h.filed x hx hfl
    · rw [List.mem_singleton] at hx
      subst hx
      simpa using hfl
  have hv : Valid m := hf.valid m (by simp)
  have hcmp : ∀ hs : m.typ ∈ single, ∀ (i : Nat) (x : Slot), s[i]? = some x → x.m.typ ∈ single →
      Lt cmp b' (offAt (msgsOf s) s.length) (offAt (msgsOf s) i) ∨ Lt cmp b' (offAt (msgsOf s) i) (offAt (msgsOf s) s.length) := by
    intro hs i x hi hx
    have hlt := (List.getElem?_eq_some_iff.1 hi).1
    have := cmp_at hf' hmem (i := s.length) (j := i) (x := ⟨m, f, !f⟩) (y := x) (by simp) (by rw [List.getElem?_append_left hlt]; exact hi) (by omega) hs hx
    rw [hm', offAt_append (by omega), offAt_append (by omega)] at this
    exact this
  unfold Bnc.insert
  rw [e1, R.bind_ok]
  simp only [appliesOnce_ok hv, R.bind_ok]
  cases hs : isSingle m with
  | false =>
    have hns : m.typ ∉ single := by simpa [isSingle] using hs
    simp only [Bool.false_eq_true, if_false]
    refine ⟨_, _, rfl, ⟨hf', hmem, hn, hoffs, ?_, ?_, hfr, hst, ?_, hmk, h.markedFresh, hfiled⟩⟩
    · intro o
      have := lookup_snoc (s := s) (x := ⟨m, f, !f⟩) (P := fun y => y.m.typ ∈ single ∧ y.filed = false) (o := o)
      simp only [and_assoc] at this
      rw [this, ← h.fresh]
      exact ⟨.inl, fun hc => hc.elim id fun hc => absurd hc.1 hns⟩
    · intro o
      have := lookup_snoc (s := s) (x := ⟨m, f, !f⟩) (P := fun y => y.m.typ ∈ single ∧ y.filed = true) (o := o)
      simp only [and_assoc] at this
      rw [this, ← h.stale]
      exact ⟨.inl, fun hc => hc.elim id fun hc => absurd hc.1 hns⟩
    · rw [hr', collect_append, ← h.bcast]
      simp [collect, hs, h.mem]
  | true =>
    have hin : m.typ ∈ single := by simpa [isSingle] using hs
    cases f with
    | true =>
      simp only [if_true]
      obtain ⟨l', e2, p2, m2⟩ := omtInsert_ok (x := offAt (msgsOf s) s.length) hgetN hfr (fun o ho => by
        obtain ⟨i, x, h1, h2, _, h4⟩ := (h.fresh o).1 ho
        rw [h4]; exact hcmp hin i x h1 h2)
      rw [hlen, e2, R.bind_ok]
      refine ⟨_, _, rfl, ⟨hf', hmem, hn, by rw [← hlen]; exact hoffs, ?_, ?_, p2, hst, hbc hs, hmk, fun o ho => (m2 o).2 (.inr (h.markedFresh o ho)), hfiled⟩⟩
      · intro o
        have := lookup_snoc (s := s) (x := ⟨m, true, !true⟩) (P := fun y => y.m.typ ∈ single ∧ y.filed = false) (o := o)
        simp only [and_assoc] at this
        rw [this, ← h.fresh]
        simp only [m2]
        constructor
        · rintro (hc | hc)
          · exact .inr ⟨hin, rfl, hc⟩
          · exact .inl hc
        · rintro (hc | hc)
          · exact .inr hc
          · exact .inl hc.2.2
      · intro o
        have := lookup_snoc (s := s) (x := ⟨m, true, !true⟩) (P := fun y => y.m.typ ∈ single ∧ y.filed = true) (o := o)
        simp only [and_assoc] at this
        rw [this, ← h.stale]
        exact ⟨.inl, fun hc => hc.elim id fun hc => by cases hc.2.1⟩
    | false =>
      simp only [if_true, Bool.false_eq_true, if_false]
      obtain ⟨l', e2, p2, m2⟩ := omtInsert_ok (x := offAt (msgsOf s) s.length) hgetN hst (fun o ho => by
        obtain ⟨i, x, h1, h2, _, h4⟩ := (h.stale o).1 ho
        rw [h4]; exact hcmp hin i x h1 h2)
      rw [hlen, e2, R.bind_ok]
      refine ⟨_, _, rfl, ⟨hf', hmem, hn, by rw [← hlen]; exact hoffs, ?_, ?_, hfr, p2, hbc hs, hmk, h.markedFresh, hfiled⟩⟩
      · intro o
        have := lookup_snoc (s := s) (x := ⟨m, false, !false⟩) (P := fun y => y.m.typ ∈ single ∧ y.filed = false) (o := o)
        simp only [and_assoc] at this
        rw [this, ← h.fresh]
        exact ⟨.inl, fun hc => hc.elim id fun hc => by cases hc.2.1⟩
      · intro o
        have := lookup_snoc (s := s) (x := ⟨m, false, !false⟩) (P := fun y => y.m.typ ∈ single ∧ y.filed = true) (o := o)
        simp only [and_assoc] at this
        rw [this, ← h.stale]
        simp only [m2]
        constructor
        · rintro (hc | hc)
          · exact .inr ⟨hin, rfl, hc⟩
          · exact .inl hc
        · rintro (hc | hc)
          · exact .inr hc
          · exact .inl hc.2.2

/-! ### A query applies a message -/

theorem collect_congr {Q : Msg → Bool} {s t : List (Msg × Bool)} {base : Nat} (h : s.map Prod.fst = t.map Prod.fst) : collect (fun m _ => Q m) base s = collect (fun m _ => Q m) base t := by
  induction s generalizing t base with
  | nil => cases t with
    | nil => rfl
    | cons y t => cases h
  | cons x s ih =>
    cases t with
    | nil => cases h
    | cons y t =>
      simp only [List.map_cons, List.cons.injEq] at h
      obtain ⟨m, f⟩ := x
      obtain ⟨m', f'⟩ := y
      obtain ⟨rfl, h⟩ := h
      simp only [collect, ih h]

theorem applied_inv {c : Bnc} {offs : List Nat} {s : List Slot} {i : Nat} {x : Slot} (h : BncInv cmp c offs s) (hi : s[i]? = some x) :
    ∃ c', c.applied (offAt (msgsOf s) i) = .ok c' ∧ BncInv cmp c' offs (s.set i { x with fresh := false }) := by
  obtain ⟨hlt, hx⟩ := List.getElem?_eq_some_iff.1 hi
  have hms : msgsOf (s.set i { x with fresh := false }) = msgsOf s := by
    unfold msgsOf
    rw [List.map_set]
    have e := List.set_getElem_self (as := s.map Slot.m) (i := i) (by simpa using hlt)
    have : (s.map Slot.m)[i]'(by simpa using hlt) = x.m := by simp [hx]
    rw [this] at e
    exact e
  have hget : ∀ (j : Nat), (s.set i { x with fresh := false })[j]? = if i = j then some { x with fresh := false } else s[j]? := by
    intro j
    rw [List.getElem?_set]
    by_cases hij : i = j
    · rw [if_pos hij, if_pos hij, if_pos hlt]
    · rw [if_neg hij, if_neg hij]
  obtain ⟨sp1, sp2⟩ := memOf_split (rowsOf_get hi)
  obtain ⟨sp3, _⟩ := memOf_split (rowsOf_get (s := s.set i { x with fresh := false }) (i := i) (x := { x with fresh := false }) (by rw [hget]; simp))
  have hrow : rowsOf (s.set i { x with fresh := false }) = (rowsOf s).set i (x.m, false) := by simp [rowsOf, List.map_set]
  rw [rowsOf_fst] at sp2
  have htake : (rowsOf (s.set i { x with fresh := false })).take i = (rowsOf s).take i := by rw [hrow, List.take_set_of_le (Nat.le_refl i)]
  have hdrop : (rowsOf (s.set i { x with fresh := false })).drop (i + 1) = (rowsOf s).drop (i + 1) := by rw [hrow, List.drop_set_of_lt (by omega)]
  rw [htake, hdrop] at sp3
  have eset := MB.set_ok (b := c.b) (g := false) (h.mem.trans sp1)
  rw [sp2, ← sp3] at eset
  have hfit : Fit cmp (msgsOf (s.set i { x with fresh := false })) := by rw [hms]; exact h.fit
  generalize hb : ({ c.b with mem := memOf (rowsOf (s.set i { x with fresh := false })) } : MB) = b' at eset
  have hmem : b'.mem = memOf (rowsOf (s.set i { x with fresh := false })) := by rw [← hb]
  have hsame : ∀ o, (∃ (j : Nat) (y : Slot), s[j]? = some y ∧ o = offAt (msgsOf s) j) → b'.getMessage o = c.b.getMessage o := by
    rintro o ⟨j, y, hj, rfl⟩
    rw [get_at h.fit h.mem hj]
    by_cases hij : i = j
    · subst hij
      have := get_at hfit hmem (i := i) (x := { x with fresh := false }) (by rw [hget]; simp)
      rw [hms] at this
      rw [hi] at hj; cases hj
      exact this
    · have := get_at hfit hmem (i := j) (x := y) (by rw [hget, if_neg hij]; exact hj)
      rw [hms] at this
      exact this
  have hlook : ∀ (P : Slot → Prop) (o : Nat), (P x ↔ P { x with fresh := false }) →
      ((∃ (j : Nat) (y : Slot), (s.set i { x with fresh := false })[j]? = some y ∧ P y ∧ o = offAt (msgsOf (s.set i { x with fresh := false })) j) ↔
        ∃ (j : Nat) (y : Slot), s[j]? = some y ∧ P y ∧ o = offAt (msgsOf s) j) := by
    intro P o hP
    rw [hms]
    constructor
    · rintro ⟨j, y, h1, h2, h3⟩
      rw [hget] at h1
      split at h1
      · next hij =>
        subst hij
        cases h1
        exact ⟨i, x, hi, hP.2 h2, h3⟩
      · exact ⟨j, y, h1, h2, h3⟩
    · rintro ⟨j, y, h1, h2, h3⟩
      by_cases hij : i = j
      · subst hij
        rw [hi] at h1; cases h1
        exact ⟨i, _, by rw [hget, if_pos rfl], hP.1 h2, h3⟩
      · exact ⟨j, y, by rw [hget, if_neg hij]; exact h1, h2, h3⟩
  have hfresh : ∀ o, o ∈ c.fresh ↔ ∃ (j : Nat) (y : Slot), (s.set i { x with fresh := false })[j]? = some y ∧ y.m.typ ∈ single ∧ y.filed = false ∧ o = offAt (msgsOf (s.set i { x with fresh := false })) j := by
    intro o
    have := hlook (fun y => y.m.typ ∈ single ∧ y.filed = false) o Iff.rfl
    simp only [and_assoc] at this
    rw [this, h.fresh]
  unfold Bnc.applied
  rw [eset, R.bind_ok]
  refine ⟨_, rfl, ⟨hfit, hmem, by rw [← hb, List.length_set]; exact h.n, by rw [hms, List.length_set]; exact h.offs, hfresh, ?_, ?_, ?_, ?_, ?_, ?_, ?_⟩⟩
  · intro o
    have := hlook (fun y => y.m.typ ∈ single ∧ y.filed = true) o Iff.rfl
    simp only [and_assoc] at this
    rw [this, ← h.stale]
  · exact Lt.congr h.freshSorted (fun o ho => by
      obtain ⟨j, y, h1, _, _, h4⟩ := (h.fresh o).1 ho
      exact hsame o ⟨j, y, h1, h4⟩)
  · exact Lt.congr h.staleSorted (fun o ho => by
      obtain ⟨j, y, h1, _, _, h4⟩ := (h.stale o).1 ho
      exact hsame o ⟨j, y, h1, h4⟩)
  · show c.bcast = _
    rw [h.bcast]
    exact collect_congr (by rw [rowsOf_fst, rowsOf_fst, hms])
  · intro j y hj hy hfl
    rw [hms]
    rw [hget] at hj
    have hll : (msgsOf s).length = s.length := by simp [msgsOf]
    by_cases hij : i = j
    · subst hij
      rw [if_pos rfl] at hj
      cases hj
      have : offAt (msgsOf s) i ∈ c.fresh := (h.fresh _).2 ⟨i, x, hi, hy, hfl, rfl⟩
      simp only [if_pos this, List.mem_cons, true_or]
    · rw [if_neg hij] at hj
      have hjl := (List.getElem?_eq_some_iff.1 hj).1
      have hne : offAt (msgsOf s) j ≠ offAt (msgsOf s) i := fun he => hij (offAt_inj (by omega) (by omega) he).symm
      rw [← h.marked j y hj hy hfl]
      simp only
      split
      · simp [hne]
      · exact Iff.rfl
  · intro o ho
    simp only at ho ⊢
    split at ho
    · next hin =>
      rcases List.mem_cons.1 ho with rfl | ho
      · exact hin
      · exact h.markedFresh o ho
    · exact h.markedFresh o ho
  · intro y hy hfl
    obtain ⟨j, hj⟩ := List.mem_iff_getElem?.1 hy
    rw [hget] at hj
    split at hj
    · cases hj; rfl
    · exact h.filed y (List.mem_iff_getElem?.2 ⟨j, hj⟩) hfl

/-! ### Moving to stale -/

theorem move_inv {c : Bnc} {offs : List Nat} {s : List Slot} (h : BncInv cmp c offs s) :
    ∃ c', c.moveToStale cmp = .ok c' ∧ c'.marked = [] ∧ BncInv cmp c' offs (s.map fun x => { x with filed := !x.fresh }) := by
  have hms : msgsOf (s.map fun x => { x with filed := !x.fresh }) = msgsOf s := by simp [msgsOf, Function.comp_def]
  have hrow : rowsOf (s.map fun x => { x with filed := !x.fresh }) = rowsOf s := by simp [rowsOf, Function.comp_def]
  have hll : (msgsOf s).length = s.length := by simp [msgsOf]
  have hgo : ∀ o ∈ c.fresh.filter (· ∈ c.marked), ∃ (i : Nat) (x : Slot), s[i]? = some x ∧ x.m.typ ∈ single ∧ x.filed = false ∧ o = offAt (msgsOf s) i :=
    fun o ho => (h.fresh o).1 (List.mem_filter.1 ho).1
  obtain ⟨l', e, p, hm⟩ := copyAll_ok (b := c.b) (offs := c.fresh.filter (· ∈ c.marked)) (stale := c.stale)
    (fun o ho => by obtain ⟨i, x, h1, _, _, h4⟩ := hgo o ho; exact ⟨x.m, by rw [h4]; exact get_at h.fit h.mem h1⟩)
    h.staleSorted
    ((List.Pairwise.filter _ h.freshSorted).imp .inl)
    (fun o ho o' ho' => by
      obtain ⟨i, x, h1, h2, h3, h4⟩ := hgo o ho
      obtain ⟨j, y, g1, g2, g3, g4⟩ := (h.stale o').1 ho'
      rw [h4, g4]
      refine cmp_at h.fit h.mem h1 g1 (fun hij => ?_) h2 g2
      subst hij
      rw [h1] at g1; cases g1
      rw [h3] at g3; cases g3)
  unfold Bnc.moveToStale
  rw [e, R.bind_ok]
  refine ⟨_, rfl, rfl, ⟨by rw [hms]; exact h.fit, by rw [hrow]; exact h.mem, by rw [List.length_map]; exact h.n, by rw [hms, List.length_map]; exact h.offs, ?_, ?_, ?_, p, ?_, ?_, ?_, ?_⟩⟩
  · intro o
    rw [hms]
    constructor
    · intro ho
      obtain ⟨h1, h2⟩ := List.mem_filter.1 ho
      obtain ⟨i, x, g1, g2, g3, g4⟩ := (h.fresh o).1 h1
      refine ⟨i, { x with filed := !x.fresh }, by simp [g1], g2, ?_, g4⟩
      have := h.marked i x g1 g2 g3
      rw [← g4] at this
      simp only [decide_not, Bool.not_eq_true', decide_eq_false_iff_not] at h2
      cases hx : x.fresh with
      | true => rfl
      | false => exact absurd (this.2 hx) h2
    · rintro ⟨i, y, g1, g2, g3, g4⟩
      rw [List.getElem?_map] at g1
      obtain ⟨x, hx, rfl⟩ := Option.map_eq_some_iff.1 g1
      have hfr : x.fresh = true := by simpa using g3
      have hfl : x.filed = false := by
        cases hf : x.filed with
        | false => rfl
        | true => rw [h.filed x (List.mem_iff_getElem?.2 ⟨i, hx⟩) hf] at hfr; cases hfr
      refine List.mem_filter.2 ⟨(h.fresh o).2 ⟨i, x, hx, g2, hfl, g4⟩, ?_⟩
      have := h.marked i x hx g2 hfl
      rw [← g4] at this
      simp only [decide_not, Bool.not_eq_true', decide_eq_false_iff_not]
      intro hmk
      rw [this.1 hmk] at hfr; cases hfr
  · intro o
    rw [hms, hm]
    constructor
    · rintro (ho | ho)
      · obtain ⟨h1, h2⟩ := List.mem_filter.1 ho
        obtain ⟨i, x, g1, g2, g3, g4⟩ := (h.fresh o).1 h1
        refine ⟨i, { x with filed := !x.fresh }, by simp [g1], g2, ?_, g4⟩
        have := h.marked i x g1 g2 g3
        rw [← g4] at this
        simp [this.1 (by simpa using h2)]
      · obtain ⟨i, x, g1, g2, g3, g4⟩ := (h.stale o).1 ho
        refine ⟨i, { x with filed := !x.fresh }, by simp [g1], g2, ?_, g4⟩
        simp [h.filed x (List.mem_iff_getElem?.2 ⟨i, g1⟩) g3]
    · rintro ⟨i, y, g1, g2, g3, g4⟩
      rw [List.getElem?_map] at g1
      obtain ⟨x, hx, rfl⟩ := Option.map_eq_some_iff.1 g1
      have hfr : x.fresh = false := by simpa using g3
      cases hf : x.filed with
      | true => exact .inr ((h.stale o).2 ⟨i, x, hx, g2, hf, g4⟩)
      | false =>
        refine .inl (List.mem_filter.2 ⟨(h.fresh o).2 ⟨i, x, hx, g2, hf, g4⟩, ?_⟩)
        have := h.marked i x hx g2 hf
        rw [← g4] at this
        simpa using this.2 hfr
  · exact List.Pairwise.filter _ h.freshSorted
  · show c.bcast = _
    rw [hrow]; exact h.bcast
  · intro i y g1 g2 g3
    rw [List.getElem?_map] at g1
    obtain ⟨x, hx, rfl⟩ := Option.map_eq_some_iff.1 g1
    simp only [Bool.not_eq_false'] at g3
    simp [g3]
  · intro o ho; cases ho
  · intro y hy hfl
    obtain ⟨x, hx, rfl⟩ := List.mem_map.1 hy
    simpa using hfl

/-! ### Histories -/

theorem empty_inv : BncInv cmp Bnc.empty [] [] where
  fit := ⟨fun m hm => by simp [msgsOf] at hm, List.Pairwise.nil, by simp [msgsOf]⟩
  mem := rfl
  n := rfl
  offs := rfl
  fresh o := by simp [Bnc.empty]
  stale o := by simp [Bnc.empty]
  freshSorted := List.Pairwise.nil
  staleSorted := List.Pairwise.nil
  bcast := rfl
  marked i x h := by simp at h
  markedFresh o h := by simp [Bnc.empty] at h
  filed x h := by simp at h

theorem msgsOf_step (s : List Slot) (op : Op) : msgsOf (step s op) = msgsOf s ++ added [op] := by
  cases op with
  | add m f => simp [step, msgsOf, added]
  | apply i =>
    simp only [step, added, List.filterMap_cons, List.filterMap_nil, List.append_nil]
    split
    · next x hx =>
      obtain ⟨hlt, hx⟩ := List.getElem?_eq_some_iff.1 hx
      unfold msgsOf
      rw [List.map_set]
      have e := List.set_getElem_self (as := s.map Slot.m) (i := i) (by simpa using hlt)
      have : (s.map Slot.m)[i]'(by simpa using hlt) = x.m := by simp [hx]
      rw [this] at e
      exact e
    · rfl
  | settle => simp [step, msgsOf, added, Function.comp_def]

theorem driveAll_ok {c : Bnc} {offs : List Nat} {s : List Slot} {ops : List Op} (h : BncInv cmp c offs s) (hf : Fit cmp (msgsOf s ++ added ops)) :
    ∃ c' offs', driveAll cmp (c, offs) ops = .ok (c', offs') ∧ BncInv cmp c' offs' (ops.foldl step s) := by
  induction ops generalizing c offs s with
  | nil => exact ⟨c, offs, rfl, h⟩
  | cons op ops ih =>
    have hadd : added (op :: ops) = added [op] ++ added ops := by simp [added, List.filterMap_cons]; cases op <;> simp
    have hf' : Fit cmp (msgsOf (step s op) ++ added ops) := by rw [msgsOf_step, List.append_assoc, ← hadd]; exact hf
    have hone : ∃ c' offs', drive cmp (c, offs) op = .ok (c', offs') ∧ BncInv cmp c' offs' (step s op) := by
      cases op with
      | add m f =>
        obtain ⟨c', off, e, hi⟩ := insert_inv (f := f) h (Fit.left (ns := added ops) (by rw [hadd] at hf; simpa [added] using hf))
        exact ⟨c', offs ++ [off], by simp only [drive, e, R.bind_ok, R.pure_ok], hi⟩
      | apply i =>
        cases hx : s[i]? with
        | none =>
          refine ⟨c, offs, ?_, by simpa only [step, hx] using h⟩
          have : offs[i]? = none := by
            rw [h.offs]
            have := List.getElem?_eq_none_iff.1 hx
            simp; omega
          simp only [drive, this]
        | some x =>
          obtain ⟨c', e, hi⟩ := applied_inv h hx
          refine ⟨c', offs, ?_, by simpa only [step, hx] using hi⟩
          have : offs[i]? = some (offAt (msgsOf s) i) := by
            rw [h.offs]
            have := (List.getElem?_eq_some_iff.1 hx).1
            simp [this]
          simp only [drive, this, e, R.bind_ok, R.pure_ok]
      | settle =>
        obtain ⟨c', e, _, hi⟩ := move_inv h
        exact ⟨c', offs, by simp only [drive, e, R.bind_ok, R.pure_ok], hi⟩
    obtain ⟨c1, o1, e1, h1⟩ := hone
    obtain ⟨c2, o2, e2, h2⟩ := ih h1 hf'
    exact ⟨c2, o2, by rw [driveAll, e1, R.bind_ok, e2], h2⟩

theorem Legal.fit {ops : List Op} (h : Legal cmp ops) : Fit cmp (added ops) := by
  refine ⟨h.valid, h.distinct, ?_⟩
  have : (fun m : Msg => 19 + 8 * m.xids.length + m.key.length + m.val.length) = Msg.memsize := by
    funext m; unfold Msg.memsize; omega
  rw [← this]; exact h.size

theorem bufferAfter_ok {ops : List Op} (h : Legal cmp ops) : ∃ c offs, bufferAfter cmp ops = .ok c ∧ BncInv cmp c offs (run ops) := by
  obtain ⟨c, offs, e, hi⟩ := driveAll_ok (ops := ops) (empty_inv (cmp := cmp)) (by simpa [msgsOf] using Legal.fit h)
  exact ⟨c, offs, by rw [bufferAfter, e, R.bind_ok, R.pure_ok], hi⟩

end Verif.Ser
