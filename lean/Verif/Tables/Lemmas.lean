import Verif.Tables.Spec

namespace Verif.Tables

theorem upd_self {α} {f : Nat → α} {i v} : upd f i v i = v := by simp [upd]
theorem upd_ne {α} {f : Nat → α} {i j v} (h : j ≠ i) : upd f i v j = f j := by simp [upd, h]

theorem sum_ext {f g : Nat → Nat} : ∀ {l : List Nat}, (∀ o ∈ l, f o = g o) → (l.map f).sum = (l.map g).sum
  | [], _ => rfl
  | a :: l, h => by
    simp only [List.map_cons, List.sum_cons]
    rw [h a (by simp), sum_ext (fun o ho => h o (by simp [ho]))]

theorem sum_erase {f : Nat → Nat} {o} : ∀ {l : List Nat}, o ∈ l → (l.map f).sum = f o + ((l.erase o).map f).sum
  | a :: l, h => by
    by_cases e : a = o
    · subst e; simp
    · have hl : o ∈ l := by rcases List.mem_cons.1 h with h | h; exact absurd h.symm e; exact h
      have : (a == o) = false := by simp [e]
      rw [List.erase_cons, this]
      simp only [List.map_cons, List.sum_cons, Bool.false_eq_true, if_false]
      rw [sum_erase hl]; omega

theorem sum_upd {f : Nat → Nat} {o} {l : List Nat} (hd : l.Nodup) (h : o ∈ l) :
    (l.map (upd f o (f o + 1))).sum = (l.map f).sum + 1 := by
  rw [sum_erase h, sum_erase (f := f) h, upd_self]
  rw [sum_ext (f := upd f o (f o + 1)) (g := f) (l := l.erase o)]
  · omega
  · intro a ha
    exact upd_ne (by intro e; subst e; exact (List.Nodup.not_mem_erase hd) ha)

structure Inv (s : St) : Prop where
  cnt : ∀ o, s.refs o = s.held.count o
  mapLt : ∀ o ∈ s.map, o < s.next
  dyLt : ∀ o ∈ s.dying, o < s.next
  heldMap : ∀ o ∈ s.held, o ∈ s.map
  nd : s.map.Nodup
  uniq : ∀ o ∈ s.map, ∀ o' ∈ s.map, s.dict o = s.dict o' → o = o'
  zero : ∀ o ∈ s.map, s.refs o = 0 → o ∈ s.pend
  alive : ∀ o ∈ s.map, s.freed o = false
  dyAlive : ∀ o ∈ s.dying, s.freed o = false ∧ o ∉ s.map
  dyNd : s.dying.Nodup
  cover : ∀ o, o < s.next → o ∈ s.map ∨ o ∈ s.dying ∨ s.freed o = true
  freedLt : ∀ o, s.freed o = true → o < s.next
  ok : s.bad = false
  total : s.total ≤ reported s

theorem inv_init : Inv St.init := by
  constructor <;> simp [St.init, reported]

theorem find_some {s d o} (h : find s d = some o) : o ∈ s.map ∧ s.dict o = d := by
  unfold find at h
  exact ⟨List.mem_of_find?_eq_some h, by have := List.find?_some h; simpa using this⟩

theorem find_none {s d} (h : find s d = none) : ∀ o ∈ s.map, s.dict o ≠ d := by
  unfold find at h
  intro o ho e
  have := List.find?_eq_none.1 h o ho
  simp [e] at this

theorem find_mem {s : St} {o} (hi : ∀ a ∈ s.map, ∀ b ∈ s.map, s.dict a = s.dict b → a = b) (ho : o ∈ s.map) :
    find s (s.dict o) = some o := by
  cases e : find s (s.dict o) with
  | none => exact absurd rfl (find_none e o ho)
  | some f => have := find_some e; rw [hi f this.1 o ho this.2]

theorem inv_reference {s o} (h : Inv s) (ho : o ∈ s.map) : Inv (reference s o) where
  cnt := by
    intro a; show upd s.refs o (s.refs o + 1) a = (o :: s.held).count a
    rw [List.count_cons]
    by_cases e : a = o
    · subst e; rw [upd_self, h.cnt]; simp
    · rw [upd_ne e, h.cnt]; simp [Ne.symm e]
  mapLt := h.mapLt
  dyLt := h.dyLt
  heldMap := by
    intro a ha
    rcases List.mem_cons.1 ha with e | e
    · subst e; exact ho
    · exact h.heldMap a e
  nd := h.nd
  uniq := h.uniq
  zero := by
    intro a ha hz
    have hz : upd s.refs o (s.refs o + 1) a = 0 := hz
    by_cases e : a = o
    · subst e; rw [upd_self] at hz; omega
    · rw [upd_ne e] at hz; exact h.zero a ha hz
  alive := h.alive
  dyAlive := h.dyAlive
  dyNd := h.dyNd
  cover := h.cover
  freedLt := h.freedLt
  ok := by show (s.bad || s.freed o) = false; rw [h.ok, h.alive o ho]; rfl
  total := h.total

theorem inv_create {s d} (h : Inv s) (hf : find s d = none) : Inv (create s d) := by
  have nm : s.next ∉ s.map := fun hm => Nat.lt_irrefl _ (h.mapLt _ hm)
  have nd : s.next ∉ s.dying := fun hm => Nat.lt_irrefl _ (h.dyLt _ hm)
  have nh : s.next ∉ s.held := fun hm => nm (h.heldMap _ hm)
  have ne : ∀ {a}, a ∈ s.map → a ≠ s.next := fun ha e => nm (e ▸ ha)
  refine ⟨?_, ?_, ?_, ?_, ?_, ?_, ?_, ?_, ?_, h.dyNd, ?_, ?_, h.ok, ?_⟩
  · intro a; show upd s.refs s.next 1 a = (s.next :: s.held).count a
    rw [List.count_cons]
    by_cases e : a = s.next
    · subst e; rw [upd_self, List.count_eq_zero_of_not_mem nh]; simp
    · rw [upd_ne e, h.cnt]; simp [Ne.symm e]
  · intro a ha
    rcases List.mem_cons.1 ha with e | e
    · subst e; exact Nat.lt_succ_self _
    · exact Nat.lt_succ_of_lt (h.mapLt a e)
  · intro a ha; exact Nat.lt_succ_of_lt (h.dyLt a ha)
  · intro a ha
    rcases List.mem_cons.1 ha with e | e
    · subst e; exact List.mem_cons_self
    · exact List.mem_cons_of_mem _ (h.heldMap a e)
  · exact List.nodup_cons.2 ⟨nm, h.nd⟩
  · intro a ha b hb hab
    have hab : upd s.dict s.next d a = upd s.dict s.next d b := hab
    rcases List.mem_cons.1 ha with ea | ea <;> rcases List.mem_cons.1 hb with eb | eb
    · rw [ea, eb]
    · subst ea; rw [upd_self, upd_ne (ne eb)] at hab; exact absurd hab.symm (find_none hf b eb)
    · subst eb; rw [upd_self, upd_ne (ne ea)] at hab; exact absurd hab (find_none hf a ea)
    · rw [upd_ne (ne ea), upd_ne (ne eb)] at hab; exact h.uniq a ea b eb hab
  · intro a ha hz
    have hz : upd s.refs s.next 1 a = 0 := hz
    rcases List.mem_cons.1 ha with e | e
    · subst e; rw [upd_self] at hz; omega
    · rw [upd_ne (ne e)] at hz; exact h.zero a e hz
  · intro a ha
    show upd s.freed s.next false a = false
    rcases List.mem_cons.1 ha with e | e
    · subst e; exact upd_self
    · rw [upd_ne (ne e)]; exact h.alive a e
  · intro a ha
    have e : a ≠ s.next := fun e => nd (e ▸ ha)
    refine ⟨(upd_ne e).trans (h.dyAlive a ha).1, ?_⟩
    intro hm
    rcases List.mem_cons.1 hm with e' | e'
    · exact e e'
    · exact (h.dyAlive a ha).2 e'
  · intro a ha
    have ha : a < s.next + 1 := ha
    by_cases e : a = s.next
    · subst e; exact Or.inl List.mem_cons_self
    · rcases h.cover a (by omega) with c | c | c
      · exact Or.inl (List.mem_cons_of_mem _ c)
      · exact Or.inr (Or.inl c)
      · exact Or.inr (Or.inr ((upd_ne e).trans c))
  · intro a ha
    have ha : upd s.freed s.next false a = true := ha
    by_cases e : a = s.next
    · subst e; exact Nat.lt_succ_self _
    · rw [upd_ne e] at ha; exact Nat.lt_succ_of_lt (h.freedLt a ha)
  · show s.total ≤ s.old + ((s.next :: s.map).map (upd s.waits s.next 0)).sum
    have := h.total; unfold reported at this
    simp only [List.map_cons, List.sum_cons, upd_self]
    rw [sum_ext (f := upd s.waits s.next 0) (g := s.waits) (fun a ha => upd_ne (ne ha))]
    omega

theorem inv_release {s o} (h : Inv s) (ho : o ∈ s.held) : Inv (release s o) := by
  have pos : 0 < s.refs o := by rw [h.cnt]; exact List.count_pos_iff.2 ho
  refine ⟨?_, h.mapLt, h.dyLt, ?_, h.nd, h.uniq, ?_, h.alive, h.dyAlive, h.dyNd, h.cover, h.freedLt, ?_, h.total⟩
  · intro a; show upd s.refs o (s.refs o - 1) a = (s.held.erase o).count a
    by_cases e : a = o
    · subst e; rw [upd_self, List.count_erase_self, h.cnt]
    · rw [upd_ne e, List.count_erase_of_ne e, h.cnt]
  · intro a ha; exact h.heldMap a (List.mem_of_mem_erase ha)
  · intro a ha hz
    have hz : upd s.refs o (s.refs o - 1) a = 0 := hz
    show a ∈ if s.refs o - 1 = 0 then o :: s.pend else s.pend
    by_cases e : a = o
    · subst e; rw [upd_self] at hz; rw [if_pos hz]; exact List.mem_cons_self
    · rw [upd_ne e] at hz
      have := h.zero a ha hz
      split
      · exact List.mem_cons_of_mem _ this
      · exact this
  · show (s.bad || s.freed o || s.refs o == 0) = false
    rw [h.ok, h.alive o (h.heldMap o ho)]; simp; omega

/-- The effect of the second part of a release, by cases. -/
theorem finish_eq {s : St} {o} (hu : ∀ a ∈ s.map, ∀ b ∈ s.map, s.dict a = s.dict b → a = b) :
    finish s o =
      if o ∈ s.map then
        if s.refs o = 0 then
          { s with pend := s.pend.erase o, old := s.old + s.waits o, bad := s.bad || s.freed o,
                   map := s.map.erase o, dying := o :: s.dying }
        else { s with pend := s.pend.erase o, old := s.old + s.waits o, bad := s.bad || s.freed o }
      else { s with pend := s.pend.erase o } := by
  unfold finish
  have e : find { s with pend := s.pend.erase o } (s.dict o) = find s (s.dict o) := rfl
  simp only [e]
  by_cases ho : o ∈ s.map
  · rw [find_mem hu ho]; simp only [if_pos ho, if_true]
  · rw [if_neg ho]
    cases e : find s (s.dict o) with
    | none => rfl
    | some f =>
      have := (find_some e).1
      have hne : f ≠ o := fun e => ho (e ▸ this)
      simp only [if_neg hne]

theorem inv_finish {s o} (h : Inv s) : Inv (finish s o) := by
  have zero' : ∀ a ∈ s.map, a ≠ o → s.refs a = 0 → a ∈ s.pend.erase o := by
    intro a ha e hz
    exact (List.mem_erase_of_ne e).2 (h.zero a ha hz)
  rw [finish_eq h.uniq]
  by_cases ho : o ∈ s.map
  · rw [if_pos ho]
    have ok : (s.bad || s.freed o) = false := by rw [h.ok, h.alive o ho]; rfl
    by_cases hz : s.refs o = 0
    · rw [if_pos hz]
      have oh : o ∉ s.held := by
        intro hh; have := List.count_pos_iff.2 hh; rw [← h.cnt] at this; omega
      have me : ∀ {a}, a ∈ s.map.erase o ↔ a ≠ o ∧ a ∈ s.map := fun {a} => List.Nodup.mem_erase_iff h.nd
      refine ⟨h.cnt, ?_, ?_, ?_, h.nd.erase o, ?_, ?_, ?_, ?_, ?_, ?_, h.freedLt, ok, ?_⟩
      · intro a ha; exact h.mapLt a (me.1 ha).2
      · intro a ha
        rcases List.mem_cons.1 ha with e | e
        · subst e; exact h.mapLt a ho
        · exact h.dyLt a e
      · intro a ha; exact me.2 ⟨fun e => oh (e ▸ ha), h.heldMap a ha⟩
      · intro a ha b hb; exact h.uniq a (me.1 ha).2 b (me.1 hb).2
      · intro a ha; exact zero' a (me.1 ha).2 (me.1 ha).1
      · intro a ha; exact h.alive a (me.1 ha).2
      · intro a ha
        rcases List.mem_cons.1 ha with e | e
        · subst e; exact ⟨h.alive a ho, fun hm => (me.1 hm).1 rfl⟩
        · exact ⟨(h.dyAlive a e).1, fun hm => (h.dyAlive a e).2 (me.1 hm).2⟩
      · exact List.nodup_cons.2 ⟨fun hd => (h.dyAlive o hd).2 ho, h.dyNd⟩
      · intro a ha
        rcases h.cover a ha with c | c | c
        · by_cases e : a = o
          · subst e; exact Or.inr (Or.inl List.mem_cons_self)
          · exact Or.inl (me.2 ⟨e, c⟩)
        · exact Or.inr (Or.inl (List.mem_cons_of_mem _ c))
        · exact Or.inr (Or.inr c)
      · have := h.total; unfold reported at this ⊢
        rw [sum_erase ho] at this
        show s.total ≤ s.old + s.waits o + ((s.map.erase o).map s.waits).sum
        omega
    · rw [if_neg hz]
      refine ⟨h.cnt, h.mapLt, h.dyLt, h.heldMap, h.nd, h.uniq, ?_, h.alive, h.dyAlive, h.dyNd, h.cover, h.freedLt, ok, ?_⟩
      · intro a ha hza
        exact zero' a ha (by intro e; subst e; exact hz hza) hza
      · have := h.total; unfold reported at this ⊢
        show s.total ≤ s.old + s.waits o + (s.map.map s.waits).sum
        omega
  · rw [if_neg ho]
    refine ⟨h.cnt, h.mapLt, h.dyLt, h.heldMap, h.nd, h.uniq, ?_, h.alive, h.dyAlive, h.dyNd, h.cover, h.freedLt, h.ok, h.total⟩
    intro a ha hza
    exact zero' a ha (fun e => ho (e ▸ ha)) hza

theorem inv_destroy {s o} (h : Inv s) (ho : o ∈ s.dying) : Inv (destroy s o) := by
  have me : ∀ {a}, a ∈ s.dying.erase o ↔ a ≠ o ∧ a ∈ s.dying := fun {a} => List.Nodup.mem_erase_iff h.dyNd
  have hm := (h.dyAlive o ho).2
  have hr : s.refs o = 0 := by
    rw [h.cnt]; exact List.count_eq_zero_of_not_mem (fun hh => hm (h.heldMap o hh))
  refine ⟨h.cnt, h.mapLt, ?_, h.heldMap, h.nd, h.uniq, h.zero, ?_, ?_, h.dyNd.erase o, ?_, ?_, ?_, h.total⟩
  · intro a ha; exact h.dyLt a (me.1 ha).2
  · intro a ha
    exact (upd_ne (fun e : a = o => hm (e ▸ ha))).trans (h.alive a ha)
  · intro a ha
    exact ⟨(upd_ne (me.1 ha).1).trans (h.dyAlive a (me.1 ha).2).1, (h.dyAlive a (me.1 ha).2).2⟩
  · intro a ha
    by_cases e : a = o
    · subst e; exact Or.inr (Or.inr upd_self)
    · rcases h.cover a ha with c | c | c
      · exact Or.inl c
      · exact Or.inr (Or.inl (me.2 ⟨e, c⟩))
      · exact Or.inr (Or.inr ((upd_ne e).trans c))
  · intro a ha
    have ha : upd s.freed o true a = true := ha
    by_cases e : a = o
    · subst e; exact h.dyLt a ho
    · rw [upd_ne e] at ha; exact h.freedLt a ha
  · show (s.bad || s.freed o || s.refs o != 0) = false
    rw [h.ok, (h.dyAlive o ho).1, hr]; rfl

theorem inv_collect {s} (h : Inv s) : Inv (collect s) := by
  refine ⟨?_, h.mapLt, h.dyLt, ?_, h.nd, h.uniq, ?_, h.alive, h.dyAlive, h.dyNd, h.cover, h.freedLt, ?_, h.total⟩
  · intro a; show s.refs a + s.map.count a = (s.map ++ s.held).count a
    rw [List.count_append, h.cnt]; omega
  · intro a ha
    rcases List.mem_append.1 ha with e | e
    · exact e
    · exact h.heldMap a e
  · intro a ha hz
    have hz : s.refs a + s.map.count a = 0 := hz
    exact h.zero a ha (by omega)
  · show (s.bad || s.map.any s.freed) = false
    rw [h.ok, Bool.false_or, List.any_eq_false]
    intro a ha; rw [h.alive a ha]; simp

theorem inv_wait {s o} (h : Inv s) (ho : o ∈ s.held) : Inv (wait s o) := by
  refine ⟨h.cnt, h.mapLt, h.dyLt, h.heldMap, h.nd, h.uniq, h.zero, h.alive, h.dyAlive, h.dyNd, h.cover, h.freedLt, ?_, ?_⟩
  · show (s.bad || s.freed o) = false
    rw [h.ok, h.alive o (h.heldMap o ho)]; rfl
  · have := h.total; unfold reported at this ⊢
    show s.total + 1 ≤ s.old + (s.map.map (upd s.waits o (s.waits o + 1))).sum
    rw [sum_upd h.nd (h.heldMap o ho)]; omega

theorem inv_step {s a t} (h : Inv s) (e : step s a = some t) : Inv t := by
  cases a with
  | get d ok =>
    simp only [step, Option.some.injEq] at e; subst e
    unfold get
    cases hf : find s d with
    | some o => exact inv_reference h (find_some hf).1
    | none => cases ok
              · exact h
              · exact inv_create h hf
  | ref o => simp only [step] at e; split at e
             · rename_i ho; cases e; exact inv_reference h (h.heldMap o ho)
             · cases e
  | rel o => simp only [step] at e; split at e
             · rename_i ho; cases e; exact inv_release h ho
             · cases e
  | fin o => simp only [step] at e; split at e
             · cases e; exact inv_finish h
             · cases e
  | kill o => simp only [step] at e; split at e
              · rename_i ho; cases e; exact inv_destroy h ho
              · cases e
  | collect => simp only [step, Option.some.injEq] at e; subst e; exact inv_collect h
  | wait o => simp only [step] at e; split at e
              · rename_i ho; cases e; exact inv_wait h ho
              · cases e

theorem inv_run {h : List Op} : ∀ {s t}, Inv s → run s h = some t → Inv t := by
  induction h with
  | nil => intro s t hs e; cases e; exact hs
  | cons a h ih =>
    intro s t hs e
    simp only [run] at e
    cases ea : step s a with
    | none => rw [ea] at e; cases e
    | some u => rw [ea] at e; exact ih (inv_step hs ea) e

theorem run_append {h k : List Op} : ∀ {u v}, run u h = some v → run u (h ++ k) = run v k := by
  induction h with
  | nil => intro u v e; cases e; rfl
  | cons a h ih =>
    intro u v e
    simp only [List.cons_append, run] at e ⊢
    cases ea : step u a with
    | none => rw [ea] at e; cases e
    | some w => rw [ea] at e; exact ih e

/-- Nothing is counted twice by a step if no table is taken again while its release is under way. -/
theorem exact_step {s a t} (h : Inv s) (q : ∀ o ∈ s.pend, s.refs o = 0) (he : s.total = reported s) (e : step s a = some t) :
    t.total = reported t := by
  cases a with
  | get d ok =>
    simp only [step, Option.some.injEq] at e; subst e
    unfold get
    cases hf : find s d with
    | some o => exact he
    | none =>
      cases ok
      · exact he
      · show s.total = s.old + ((s.next :: s.map).map (upd s.waits s.next 0)).sum
        simp only [List.map_cons, List.sum_cons, upd_self]
        rw [sum_ext (f := upd s.waits s.next 0) (g := s.waits)
          (fun a ha => upd_ne (fun e => Nat.lt_irrefl _ (h.mapLt _ (e ▸ ha))))]
        unfold reported at he; omega
  | ref o => simp only [step] at e; split at e
             · cases e; exact he
             · cases e
  | rel o => simp only [step] at e; split at e
             · cases e; exact he
             · cases e
  | fin o =>
    simp only [step] at e; split at e
    · rename_i hp; cases e
      rw [finish_eq h.uniq]
      by_cases ho : o ∈ s.map
      · rw [if_pos ho, if_pos (q o hp)]
        unfold reported at he ⊢
        rw [sum_erase ho] at he
        show s.total = s.old + s.waits o + ((s.map.erase o).map s.waits).sum
        omega
      · rw [if_neg ho]; exact he
    · cases e
  | kill o => simp only [step] at e; split at e
              · cases e; exact he
              · cases e
  | collect => simp only [step, Option.some.injEq] at e; subst e; exact he
  | wait o =>
    simp only [step] at e; split at e
    · rename_i ho; cases e
      unfold reported at he ⊢
      show s.total + 1 = s.old + (s.map.map (upd s.waits o (s.waits o + 1))).sum
      rw [sum_upd h.nd (h.heldMap o ho)]; omega
    · cases e

theorem exact_run {h : List Op} : ∀ {s t}, Inv s → Quiet s h → s.total = reported s → run s h = some t → t.total = reported t := by
  induction h with
  | nil => intro s t _ _ he e; cases e; exact he
  | cons a h ih =>
    intro s t hs q he e
    simp only [run] at e
    simp only [Quiet] at q
    cases ea : step s a with
    | none => rw [ea] at e; cases e
    | some u => rw [ea] at e q; exact ih (inv_step hs ea) q.2 (exact_step hs q.1 he ea) e

theorem finish_held {s : St} {o} : (finish s o).held = s.held := by
  unfold finish
  simp only
  cases find { s with pend := s.pend.erase o } (s.dict o) with
  | none => rfl
  | some f =>
    simp only
    split
    · split <;> rfl
    · rfl

theorem finish_pend {s : St} {o} : (finish s o).pend = s.pend.erase o := by
  unfold finish
  simp only
  cases find { s with pend := s.pend.erase o } (s.dict o) with
  | none => rfl
  | some f =>
    simp only
    split
    · split <;> rfl
    · rfl

theorem ends_dying : ∀ (n : Nat) (s : St), s.dying.length = n → s.pend = [] →
    ∃ h t, run s h = some t ∧ (∀ a ∈ h, Ending a) ∧ Rest t ∧ t.held = s.held
  | 0, s, hn, hp => ⟨[], s, rfl, by simp, ⟨hp, List.length_eq_zero_iff.1 hn⟩, rfl⟩
  | n + 1, s, hn, hp => by
    cases hd : s.dying with
    | nil => rw [hd] at hn; cases hn
    | cons o l =>
      have ho : o ∈ s.dying := by rw [hd]; exact List.mem_cons_self
      have hl : (destroy s o).dying.length = n := by
        show (s.dying.erase o).length = n
        rw [List.length_erase_of_mem ho, hn]; rfl
      obtain ⟨h, t, e, he, hr, hh⟩ := ends_dying n (destroy s o) hl hp
      refine ⟨.kill o :: h, t, ?_, ?_, hr, hh⟩
      · show (match step s (.kill o) with | some t => run t h | none => none) = some t
        simp only [step, if_pos ho]; exact e
      · intro a ha
        rcases List.mem_cons.1 ha with e | e
        · subst e; trivial
        · exact he a e

theorem ends_pend : ∀ (n : Nat) (s : St), s.pend.length = n →
    ∃ h t, run s h = some t ∧ (∀ a ∈ h, Ending a) ∧ Rest t ∧ t.held = s.held
  | 0, s, hn => ends_dying _ s rfl (List.length_eq_zero_iff.1 hn)
  | n + 1, s, hn => by
    cases hd : s.pend with
    | nil => rw [hd] at hn; cases hn
    | cons o l =>
      have ho : o ∈ s.pend := by rw [hd]; exact List.mem_cons_self
      have hl : (finish s o).pend.length = n := by
        rw [finish_pend, List.length_erase_of_mem ho, hn]; rfl
      obtain ⟨h, t, e, he, hr, hh⟩ := ends_pend n (finish s o) hl
      refine ⟨.fin o :: h, t, ?_, ?_, hr, hh.trans finish_held⟩
      · show (match step s (.fin o) with | some t => run t h | none => none) = some t
        simp only [step, if_pos ho]; exact e
      · intro a ha
        rcases List.mem_cons.1 ha with e | e
        · subst e; trivial
        · exact he a e

/-! ## Escalation -/

structure EInv (s : Esc) : Prop where
  wait : s.running = none → s.waiting = []
  run : ∀ th b rest, s.running = some (th, b, rest) → ∀ t ∈ s.snap th, t ∈ rest ∨ t ∈ s.since th
  woken : ∀ th b, (th, true, b) ∈ s.woken → ∀ t ∈ s.snap th, t ∈ s.since th
  ref : ∀ x ∈ s.refused, x.ran = true → ∀ t ∈ x.snap, t ∈ x.since

theorem einv_init {m} : EInv (Esc.init m) := by
  constructor <;> simp [Esc.init]

theorem einv_ask {s th big} (h : EInv s) (hb : busy s th = false) : EInv (ask s th big) := by
  unfold busy at hb
  simp only [Bool.or_eq_false_iff] at hb
  have hw : ∀ u r b, (u, r, b) ∈ s.woken → u ≠ th := by
    intro u r b hm e
    have := List.any_eq_false.1 hb.2 _ hm
    simp [e] at this
  have wk : ∀ u b, (u, true, b) ∈ s.woken → ∀ t ∈ upd s.snap th s.tables u, t ∈ upd s.since th [] u := by
    intro u b hm t ht
    rw [upd_ne (hw u true b hm)] at ht ⊢
    exact h.woken u b hm t ht
  unfold ask
  by_cases ho : over s big = true
  · rw [if_pos ho]
    cases hr : s.running with
    | none =>
      refine ⟨fun e => (by cases e), ?_, wk, h.ref⟩
      intro u b rest e t ht
      simp only [Option.some.injEq, Prod.mk.injEq] at e
      obtain ⟨e1, e2, e3⟩ := e
      subst e1; subst e3
      have ht : t ∈ upd s.snap th s.tables th := ht
      rw [upd_self] at ht
      exact Or.inl ht
    | some x =>
      refine ⟨fun e => (by have e : some x = none := e; cases e), ?_, wk, h.ref⟩
      intro u b rest e t ht
      have e : s.running = some (u, b, rest) := hr.trans e
      have hu : u ≠ th := by
        intro eu
        have := hb.1.1
        rw [e] at this
        simp [eu] at this
      have ht : t ∈ upd s.snap th s.tables u := ht
      show t ∈ rest ∨ t ∈ upd s.since th [] u
      rw [upd_ne hu] at ht ⊢
      exact h.run u b rest e t ht
  · rw [if_neg ho]; exact h

theorem einv_step {s a t} (h : EInv s) (e : estep s a = some t) : EInv t := by
  cases a with
  | «open» d =>
    simp only [estep] at e; split at e
    · cases e
    · cases e; exact ⟨h.wait, h.run, h.woken, h.ref⟩
  | lock d m l =>
    simp only [estep] at e; split at e
    · cases e; exact ⟨h.wait, h.run, h.woken, h.ref⟩
    · cases e
  | ask th big =>
    simp only [estep] at e; split at e
    · cases e
    · rename_i hb; cases e; exact einv_ask h (by simpa using hb)
  | one =>
    simp only [estep] at e; split at e
    · rename_i th big d rest hr; cases e
      refine ⟨fun e => (by cases e), ?_, ?_, h.ref⟩
      · intro u b rest' e x hx
        simp only [one, Option.some.injEq, Prod.mk.injEq] at e
        obtain ⟨e1, e2, e3⟩ := e
        subst e1; subst e3
        rcases h.run th big (d :: rest) hr x hx with c | c
        · rcases List.mem_cons.1 c with c | c
          · exact Or.inr (c ▸ List.mem_cons_self)
          · exact Or.inl c
        · exact Or.inr (List.mem_cons_of_mem _ c)
      · intro u b hm x hx
        exact List.mem_cons_of_mem _ (h.woken u b hm x hx)
    · cases e
  | done =>
    simp only [estep] at e; split at e
    · rename_i th big hr; cases e
      refine ⟨fun _ => rfl, fun u b rest e => (by cases e), ?_, h.ref⟩
      intro u b hm x hx
      have hm : (u, true, b) ∈ (th, true, big) :: s.waiting.map (fun w => (w.1, false, w.2)) ++ s.woken := hm
      simp only [List.cons_append, List.mem_cons, List.mem_append, List.mem_map, Prod.mk.injEq] at hm
      rcases hm with ⟨e, _⟩ | ⟨w, _, _, e, _⟩ | hm
      · subst e
        rcases h.run u big [] hr x hx with c | c
        · cases c
        · exact c
      · cases e
      · exact h.woken u b hm x hx
    · cases e
  | spurious th big =>
    simp only [estep] at e; split at e
    · rename_i hw; cases e
      refine ⟨?_, h.run, ?_, h.ref⟩
      · intro e
        have := h.wait e
        show s.waiting.erase (th, big) = []
        rw [this]; rfl
      · intro u b hm x hx
        simp only [List.mem_cons, Prod.mk.injEq] at hm
        rcases hm with ⟨_, e, _⟩ | hm
        · cases e
        · exact h.woken u b hm x hx
    · cases e
  | again th ran big =>
    simp only [estep] at e; split at e
    · rename_i hw; cases e
      have wk : ∀ u b, (u, true, b) ∈ s.woken.erase (th, ran, big) → ∀ t ∈ s.snap u, t ∈ s.since u :=
        fun u b hm => h.woken u b (List.mem_of_mem_erase hm)
      unfold again
      simp only
      split
      · refine ⟨h.wait, h.run, wk, ?_⟩
        intro x hx hr y hy
        rcases List.mem_cons.1 hx with e | e
        · subst e
          have hr : ran = true := hr
          subst hr
          exact h.woken th big hw y hy
        · exact h.ref x e hr y hy
      · exact ⟨h.wait, h.run, wk, h.ref⟩
    · cases e

theorem einv_run {h : List EOp} : ∀ {s t}, EInv s → erun s h = some t → EInv t := by
  induction h with
  | nil => intro s t hs e; cases e; exact hs
  | cons a h ih =>
    intro s t hs e
    simp only [erun] at e
    cases ea : estep s a with
    | none => rw [ea] at e; cases e
    | some u => rw [ea] at e; exact ih (einv_step hs ea) e

theorem erun_append {h k : List EOp} : ∀ {s t}, erun s h = some t → erun s (h ++ k) = erun t k := by
  induction h with
  | nil => intro s t e; cases e; rfl
  | cons a h ih =>
    intro s t e
    simp only [List.cons_append, erun] at e ⊢
    cases ea : estep s a with
    | none => rw [ea] at e; cases e
    | some u => rw [ea] at e; exact ih e

/-- The rest of an escalation, undisturbed. -/
theorem ones {th b} : ∀ (rest : List Nat) (s : Esc), s.running = some (th, b, rest) →
    ∃ t, erun s (List.replicate rest.length .one) = some t ∧ t.running = some (th, b, []) ∧ t.waiting = s.waiting ∧
      t.woken = s.woken ∧ t.tables = s.tables ∧ t.least = s.least ∧ t.max = s.max ∧ t.refused = s.refused ∧
      (∀ d, t.size d = if d ∈ rest then s.least d else s.size d) ∧ t.snap = s.snap
  | [], s, h => ⟨s, rfl, h, rfl, rfl, rfl, rfl, rfl, rfl, by simp, rfl⟩
  | d :: rest, s, h => by
    obtain ⟨t, e, hr, hw, hk, ht, hl, hm, hf, hs, hn⟩ := ones rest (one s th b d rest) rfl
    refine ⟨t, ?_, hr, hw, hk, ht, hl, hm, hf, ?_, hn⟩
    · simp only [List.length_cons, List.replicate_succ, erun, estep, h]; exact e
    · intro x
      rw [hs]
      show (if x ∈ rest then s.least x else upd s.size d (s.least d) x) = _
      by_cases e1 : x ∈ rest
      · rw [if_pos e1, if_pos (List.mem_cons_of_mem _ e1)]
      · rw [if_neg e1]
        by_cases e2 : x = d
        · subst e2; rw [upd_self, if_pos List.mem_cons_self]
        · rw [upd_ne e2, if_neg]
          simp [e1, e2]

end Verif.Tables
