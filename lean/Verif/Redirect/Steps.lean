import Verif.Redirect.Inv

/-!
# Every step keeps the invariant
-/

namespace Verif.Redirect

theorem redirect_ok {s : S} {t : T} {old new : Nat} (h : needed s new = false) :
    redirect s t old new = some { moveAll s old new with
      txn := some { t with refs := new :: old :: t.refs, log := .redirect old new :: t.log } } := by
  have : needed (moveAll { s with txn := some { t with refs := old :: t.refs } } old new) old = true := by
    rw [needed_iff]
    exact Or.inr (Or.inl (List.mem_cons_self ..))
  unfold redirect
  rw [h]
  simp only [this, if_true]
  rfl

theorem unmarked_cur {s : S} {a cur} (I : Inv s a cur) : s.marked cur = false := by
  cases h : s.marked cur with
  | false => rfl
  | true => exact absurd rfl (I.marked cur h).1

theorem not_marked {s : S} {f : Nat} (h : s.marked f = true → False) : s.marked f = false := by
  cases hm : s.marked f with
  | false => rfl
  | true => exact (h hm).elim

theorem inv_open {s : S} {a cur h} (I : Inv s a cur) (hd : s.disk s.dir ≠ none) :
    Inv { s with handles := (h, s.dir) :: s.handles } a cur := by
  have hdir : s.dir = cur := by
    cases ht : s.txn with
    | none => exact (I.idle ht).2.1
    | some t =>
      obtain ⟨sc, sl, _, TI⟩ := I.live t ht
      rcases TI.pend with e | ⟨_, n, _, e, _, _, _, e', _⟩
      · exact e.2
      · rw [e] at hd; exact absurd e' hd
  have hneed : ∀ f, needed { s with handles := (h, s.dir) :: s.handles } f = true → f = cur ∨ needed s f = true := by
    intro f hf
    rw [needed_iff] at hf ⊢
    rcases hf with ⟨k, hf⟩ | hf
    · rcases List.mem_cons.mp hf with e | hf
      · cases e; exact Or.inl hdir
      · exact Or.inr (Or.inl ⟨k, hf⟩)
    · exact Or.inr (Or.inr hf)
  refine ⟨?_, I.disk, ?_, I.marked, ?_, I.lt, I.dirlt, I.idle, ?_⟩
  · intro p hp
    rcases List.mem_cons.mp hp with e | hp
    · rw [e]; exact hdir
    · exact I.handles p hp
  · intro f hf
    rcases hneed f hf with e | hf
    · rw [e]; dsimp only; rw [I.disk]; exact fun h => by cases h
    · exact I.opened f hf
  · intro f hm hf
    apply I.gone f hm
    cases hn : needed s f with
    | false => rfl
    | true =>
      have : needed { s with handles := (h, s.dir) :: s.handles } f = true := by
        rw [needed_iff] at hn ⊢
        rcases hn with ⟨k, hn⟩ | hn
        · exact Or.inl ⟨k, List.mem_cons_of_mem _ hn⟩
        · exact Or.inr hn
      rw [hf] at this; cases this
  · intro t ht
    obtain ⟨sc, sl, hs, TI⟩ := I.live t ht
    refine ⟨sc, sl, hs, ⟨TI.chain, TI.lt, TI.refs, TI.loads, TI.free, ?_, TI.olds, TI.news, TI.sdlt⟩⟩
    rcases TI.pend with e | ⟨k, n, e1, e2, e3, e4⟩
    · exact Or.inl e
    · exact Or.inr ⟨k, n, e1, e2, List.mem_cons_of_mem _ e3, e4⟩

theorem inv_begin {s : S} {a cur} (I : Inv s a cur) (ht : s.txn = none) :
    Inv { s with txn := some ⟨[], s.dir, []⟩ } (a.step .begin) cur := by
  obtain ⟨h1, h2, h3, h4⟩ := I.idle ht
  have hneed : ∀ f, needed { s with txn := some ⟨[], s.dir, []⟩ } f = needed s f := by
    intro f; unfold needed refsOf; rw [ht]
  refine ⟨I.handles, I.disk, fun f hf => I.opened f (by rw [← hneed]; exact hf), I.marked,
    fun f hm hf => I.gone f hm (by rw [← hneed]; exact hf), I.lt, I.dirlt, (by intro h; cases h), ?_⟩
  intro t ht'
  cases ht'
  refine ⟨a.cont, a.left, rfl, ⟨⟨h2.symm, I.disk⟩, (by intro e h; cases h), (by intro e h; cases h),
    (by intro o n h; cases h), fun f hm => ⟨(I.marked f hm).2.1, (by intro e h; cases h)⟩, Or.inl ⟨h1, h2⟩, ?_, ?_,
    I.dirlt⟩⟩
  · intro hl f hf
    rcases h4 hl f hf with e | e
    · exact Or.inl e
    · exact Or.inr (Or.inl e)
  · intro hl f hf
    rcases h4 hl f hf with e | e
    · exact Or.inl (e.trans h2.symm)
    · exact Or.inr (Or.inl e)

theorem inv_pin {s : S} {a cur} (I : Inv s a cur) : Inv { s with pinned := opened s } a cur := by
  have hneed : ∀ f, needed { s with pinned := opened s } f = needed s f := by
    intro f
    rw [Bool.eq_iff_iff, needed_iff, needed_iff]
    simp only [opened, List.mem_append, List.mem_map, refsOf]
    constructor
    · rintro (h | h | (⟨⟨k, g⟩, h, e⟩ | h) | h)
      · exact Or.inl h
      · exact Or.inr (Or.inl h)
      · cases e; exact Or.inl ⟨k, h⟩
      · exact Or.inr (Or.inl h)
      · exact Or.inr (Or.inr h)
    · rintro (h | h | h)
      · exact Or.inl h
      · exact Or.inr (Or.inl h)
      · exact Or.inr (Or.inr (Or.inr h))
  refine ⟨I.handles, I.disk, fun f hf => I.opened f (by rw [← hneed]; exact hf), I.marked,
    fun f hm hf => I.gone f hm (by rw [← hneed]; exact hf), I.lt, I.dirlt, I.idle, ?_⟩
  intro t ht
  obtain ⟨sc, sl, hs, TI⟩ := I.live t ht
  exact ⟨sc, sl, hs, ⟨TI.chain, TI.lt, TI.refs, TI.loads, TI.free, TI.pend, TI.olds, TI.news, TI.sdlt⟩⟩

theorem inv_put {s : S} {a cur h r t} (I : Inv s a cur) (ht : s.txn = some t) :
    Inv (setDisk { s with txn := some { t with log := .put cur r :: t.log, refs := cur :: t.refs } } cur
      (some (r :: a.cont))) (a.step (.put h r)) cur := by
  obtain ⟨sc, sl, hs, TI⟩ := I.live t ht
  let s' := setDisk { s with txn := some { t with log := .put cur r :: t.log, refs := cur :: t.refs } } cur
    (some (r :: a.cont))
  have hneed : ∀ f, needed s' f = true → f = cur ∨ needed s f = true := by
    intro f hf
    rw [needed_iff] at hf ⊢
    rcases hf with hf | hf | hf
    · exact Or.inr (Or.inl hf)
    · rcases List.mem_cons.mp hf with e | hf
      · exact Or.inl e
      · exact Or.inr (Or.inr (Or.inl (by unfold refsOf; rw [ht]; exact hf)))
    · exact Or.inr (Or.inr (Or.inr hf))
  have hneed' : ∀ f, needed s f = true → needed s' f = true := by
    intro f hf
    rw [needed_iff] at hf ⊢
    rcases hf with hf | hf | hf
    · exact Or.inl hf
    · exact Or.inr (Or.inl (List.mem_cons_of_mem _ (by unfold refsOf at hf; rw [ht] at hf; exact hf)))
    · exact Or.inr (Or.inr hf)
  have hdisk : ∀ f, f ≠ cur → s'.disk f = s.disk f := by
    intro f hf; simp only [s', setDisk, if_neg hf]
  have hcur : s'.disk cur = some (r :: a.cont) := by simp only [s', setDisk, if_true]
  have hne : ∀ f, s'.disk f ≠ none → s.disk f ≠ none := by
    intro f hf
    by_cases e : f = cur
    · rw [e, I.disk]; exact fun h => by cases h
    · rw [← hdisk f e]; exact hf
  refine ⟨I.handles, hcur, ?_, I.marked, ?_, fun f hf => I.lt f (hne f hf), I.dirlt, (by intro h; cases h), ?_⟩
  · intro f hf
    by_cases e : f = cur
    · rw [e]; exact fun h => by rw [hcur] at h; cases h
    · rcases hneed f hf with e' | hf
      · exact absurd e' e
      · show s'.disk f ≠ none
        rw [hdisk f e]; exact I.opened f hf
  · intro f hm hf
    show s'.disk f = none
    rw [hdisk f (I.marked f hm).1]
    apply I.gone f hm
    cases hn : needed s f with
    | false => rfl
    | true => rw [hneed' f hn] at hf; cases hf
  · intro t' ht'
    cases ht'
    refine ⟨sc, sl, hs, ⟨⟨rfl, a.cont, hcur, ?_⟩, ?_, ?_, ?_, ?_, ?_, ?_, ?_, TI.sdlt⟩⟩
    · have : upd s'.disk cur (some a.cont) = s.disk := by
        funext g
        unfold upd
        split
        · next e => rw [e, I.disk]
        · next e => exact hdisk g e
      rw [show upd _ cur (some a.cont) = s.disk from this]
      exact TI.chain
    · intro e he f hf
      rcases List.mem_cons.mp he with e' | he
      · subst e'
        cases hf
        exact I.lt cur (by rw [I.disk]; exact fun h => by cases h)
      · exact TI.lt e he f hf
    · intro e he f hf
      rcases List.mem_cons.mp he with e' | he
      · subst e'
        cases hf
        exact List.mem_cons_self ..
      · exact List.mem_cons_of_mem _ (TI.refs e he f hf)
    · intro o n ho
      rcases TI.loads o n (by simpa using ho) with ⟨e1, e2⟩ | e
      · exact Or.inl ⟨List.mem_cons_of_mem _ e1, e2⟩
      · exact Or.inr e
    · intro f hm
      refine ⟨(TI.free f hm).1, fun e he hn => ?_⟩
      rcases List.mem_cons.mp he with e' | he
      · subst e'
        exact (I.marked f hm).1 hn.symm
      · exact (TI.free f hm).2 e he hn
    · rcases TI.pend with e | ⟨k, n, e1, e2, e3, e4, e5, e6, e7, e8, e9⟩
      · exact Or.inl e
      · refine Or.inr ⟨k, n, e1, e2, e3, e4, e5, (hdisk n e4).trans e6, List.mem_cons_of_mem _ e7, ?_, ?_⟩
        · intro e he
          rcases List.mem_cons.mp he with e' | he
          · subst e'; exact fun h => e4 h.symm
          · exact e8 e he
        · intro k hk
          exact e9 k (by simpa using hk)
    · intro hl f hf
      rcases TI.olds hl f (hne f hf) with e | e | ⟨n, e⟩
      · exact Or.inl e
      · exact Or.inr (Or.inl e)
      · exact Or.inr (Or.inr ⟨n, List.mem_cons_of_mem _ e⟩)
    · intro hl f hf
      rcases TI.news hl f (hne f hf) with e | e | ⟨n, e⟩
      · exact Or.inl e
      · exact Or.inr (Or.inl e)
      · exact Or.inr (Or.inr ⟨n, List.mem_cons_of_mem _ e⟩)

/-- The state after a new name is taken. -/
def named (s : S) (t : T) (h cur : Nat) (d' : Nat → Option (List Nat)) : S :=
  { s with dir := s.next, next := s.next + 1, txn := some { t with log := .load cur s.next :: t.log },
           pending := [(h, s.next)], disk := d' }

/-- A new name is taken; a loader that was open before is given up. -/
theorem inv_names {s : S} {a a' : A} {cur h t d'} (I : Inv s a cur) (ht : s.txn = some t) (hh : (h, cur) ∈ s.handles)
    (hd : (s.pending = [] ∧ d' = s.disk ∧ a' = a) ∨ ∃ k n part, s.pending = [(k, n)] ∧ d' = upd s.disk n part ∧
      a' = { a with left := a.left || part.isSome }) :
    Inv (named s t h cur d') a' cur := by
  obtain ⟨sc, sl, hs, TI⟩ := I.live t ht
  have hcurlt : cur < s.next := I.lt cur (by rw [I.disk]; exact fun h => by cases h)
  have key : Chain t.savedDir sc t.log cur d' ∧ d' cur = s.disk cur ∧
      (∀ f, d' f ≠ none → s.disk f ≠ none ∨ .load cur f ∈ t.log) ∧ (∀ f, s.disk f ≠ none → d' f ≠ none) ∧
      (∀ f, s.marked f = true → d' f = s.disk f) ∧ a'.cont = a.cont ∧ a'.saved = a.saved ∧
      (a'.left = false → a.left = false ∧ ∀ f, d' f ≠ none → s.disk f ≠ none) := by
    rcases hd with ⟨_, e, e'⟩ | ⟨k, n, part, e, e', e''⟩
    · subst e e'
      exact ⟨TI.chain, rfl, fun f h => Or.inl h, fun f h => h, fun f _ => rfl, rfl, rfl, fun h => ⟨h, fun f h => h⟩⟩
    · rcases TI.pend with ⟨e1, _⟩ | ⟨k', n', e1, e2, e3, e4, e5, e6, e7, e8, e9⟩
      · rw [e1] at e; cases e
      · rw [e1] at e
        cases e
        subst e' e''
        refine ⟨chain_upd _ TI.chain e4 e5 e8, ?_, ?_, ?_, ?_, rfl, rfl, ?_⟩
        · unfold upd; rw [if_neg (fun e => e4 e.symm)]
        · intro f hf
          unfold upd at hf
          split at hf
          · next e => rw [e]; exact Or.inr e7
          · exact Or.inl hf
        · intro f hf
          unfold upd
          split
          · next e => rw [e] at hf; exact absurd e6 hf
          · exact hf
        · intro f hm
          unfold upd
          split
          · next e =>
            rw [e, ← e2] at hm
            exact absurd rfl (I.marked _ hm).2.1
          · rfl
        · intro hl
          simp only [Bool.or_eq_false_iff] at hl
          refine ⟨hl.1, fun f hf => ?_⟩
          unfold upd at hf
          split at hf
          · cases part with
            | none => exact absurd rfl hf
            | some _ => cases hl.2
          · exact hf
  obtain ⟨k1, k2, k3, k4, k5, k6, k7, k8⟩ := key
  have hlt : ∀ f, d' f ≠ none → f < s.next := by
    intro f hf
    rcases k3 f hf with h | h
    · exact I.lt f h
    · exact TI.lt _ h f (Or.inr rfl)
  have hneed : ∀ f, needed (named s t h cur d') f = needed s f := by
    intro f; unfold needed refsOf named; rw [ht]
  refine ⟨I.handles, ?_, ?_, ?_, ?_, ?_, Nat.lt_succ_self _, (by intro h; cases h), ?_⟩
  · show d' cur = some a'.cont
    rw [k2, k6]; exact I.disk
  · intro f hf
    exact k4 f (I.opened f (by rw [← hneed]; exact hf))
  · intro f hm
    obtain ⟨h1, h2, h3⟩ := I.marked f hm
    exact ⟨h1, Nat.ne_of_lt h3, Nat.lt_succ_of_lt h3⟩
  · intro f hm hf
    show d' f = none
    rw [k5 f hm]
    exact I.gone f hm (by rw [← hneed]; exact hf)
  · intro f hf
    exact Nat.lt_succ_of_lt (hlt f hf)
  · intro t' ht'
    cases ht'
    have hnu : ∀ e ∈ t.log, ¬ Uses s.next e := fun e he hu =>
      Nat.lt_irrefl _ (TI.lt e he _ (names_of_uses hu))
    refine ⟨sc, sl, k7.trans hs, ⟨⟨Nat.ne_of_gt hcurlt, Nat.ne_of_gt TI.sdlt, hnu, ?_, k1⟩, ?_, ?_, ?_, ?_, ?_, ?_, ?_,
      Nat.lt_succ_of_lt TI.sdlt⟩⟩
    · intro o ho
      exact Nat.lt_irrefl _ (TI.lt _ ho _ (Or.inr rfl))
    · intro e he f hf
      rcases List.mem_cons.mp he with e' | he
      · subst e'
        rcases hf with e | e
        · rw [← e]; exact Nat.lt_succ_of_lt hcurlt
        · rw [← e]; exact Nat.lt_succ_self _
      · exact Nat.lt_succ_of_lt (TI.lt e he f hf)
    · intro e he f hf
      rcases List.mem_cons.mp he with e' | he
      · subst e'; exact hf.elim
      · exact TI.refs e he f hf
    · intro o n ho
      rcases List.mem_cons.mp ho with e' | ho
      · cases e'; exact Or.inr ⟨(fun h => by cases h), rfl⟩
      · rcases TI.loads o n ho with e | e
        · exact Or.inl e
        · exact Or.inr ⟨(fun h => by cases h), e.2⟩
    · intro f hm
      refine ⟨(TI.free f hm).1, fun e he hn => ?_⟩
      rcases List.mem_cons.mp he with e' | he
      · subst e'
        rcases hn with e | e
        · exact (I.marked f hm).1 e.symm
        · exact Nat.ne_of_lt (I.marked f hm).2.2 e.symm
      · exact (TI.free f hm).2 e he hn
    · refine Or.inr ⟨h, s.next, rfl, rfl, hh, Nat.ne_of_gt hcurlt, Nat.ne_of_gt TI.sdlt, ?_, List.mem_cons_self .., ?_, ?_⟩
      · show d' s.next = none
        cases hx : d' s.next with
        | none => rfl
        | some c => exact absurd (hlt s.next (by rw [hx]; exact fun h => by cases h)) (Nat.lt_irrefl _)
      · intro e he
        rcases List.mem_cons.mp he with e' | he
        · subst e'; exact fun h => h
        · exact hnu e he
      · intro k hk
        rcases List.mem_cons.mp hk with e' | hk
        · cases e'; exact Nat.lt_irrefl _ hcurlt
        · exact Nat.lt_irrefl _ (TI.lt _ hk _ (Or.inl rfl))
    · intro hl f hf
      obtain ⟨hl, hx⟩ := k8 hl
      rcases TI.olds hl f (hx f hf) with e | e | ⟨n, e⟩
      · exact Or.inl e
      · exact Or.inr (Or.inl e)
      · exact Or.inr (Or.inr ⟨n, List.mem_cons_of_mem _ e⟩)
    · intro hl f hf
      rcases k3 f hf with hf | hf
      · rcases TI.news hl f hf with e | e | ⟨n, e⟩
        · exact Or.inl e
        · exact Or.inr (Or.inl e)
        · exact Or.inr (Or.inr ⟨n, List.mem_cons_of_mem _ e⟩)
      · exact Or.inr (Or.inr ⟨cur, List.mem_cons_of_mem _ hf⟩)

/-- The state after a redirection. -/
def redirected (s : S) (t : T) (old new : Nat) (rows : List Nat) : S :=
  { moveAll (setDisk { s with pending := [] } new (some rows)) old new with
    txn := some { t with refs := new :: old :: t.refs, log := .redirect old new :: t.log } }

theorem inv_end {s : S} {a cur h n t rows} (I : Inv s a cur) (ht : s.txn = some t) (hp : s.pending = [(h, n)]) :
    Inv (redirected s t cur n rows) { a with cont := rows } n ∧ needed s n = false := by
  obtain ⟨sc, sl, hs, TI⟩ := I.live t ht
  rcases TI.pend with ⟨e1, _⟩ | ⟨k', n', e1, e2, e3, e4, e5, e6, e7, e8, e9⟩
  · rw [e1] at hp; cases hp
  rw [e1] at hp
  cases hp
  have hnn : needed s n = false := by
    cases hx : needed s n with
    | false => rfl
    | true => exact absurd e6 (I.opened n hx)
  refine ⟨?_, hnn⟩
  have hmn : ∀ f, s.marked f = true → f ≠ n := fun f hm e => (I.marked f hm).2.1 (e.trans e2.symm)
  have hdn : (redirected s t cur n rows).disk n = some rows := by simp only [redirected, moveAll, setDisk, if_true]
  have hdisk : ∀ f, f ≠ n → (redirected s t cur n rows).disk f = s.disk f := by
    intro f hf; simp only [redirected, moveAll, setDisk, if_neg hf]
  have hmove : ∀ p ∈ (redirected s t cur n rows).handles, p.2 = n := by
    have : ∀ p ∈ (setDisk { s with pending := [] } n (some rows)).handles, p.2 = cur := I.handles
    exact move_all this
  have hcurd : s.disk cur ≠ none := by rw [I.disk]; exact fun h => by cases h
  refine ⟨hmove, hdn, ?_, ?_, ?_, ?_, I.dirlt, (by intro h; cases h), ?_⟩
  · intro f hf
    by_cases e : f = n
    · rw [e, hdn]; exact fun h => by cases h
    · rw [hdisk f e]
      rw [needed_iff] at hf
      rcases hf with ⟨k, hf⟩ | hf | hf
      · exact absurd (hmove _ hf) e
      · rcases List.mem_cons.mp hf with e' | hf
        · exact absurd e' e
        · rcases List.mem_cons.mp hf with e' | hf
          · rw [e']; exact hcurd
          · exact I.opened f ((needed_iff s f).mpr (Or.inr (Or.inl (by unfold refsOf; rw [ht]; exact hf))))
      · exact I.opened f ((needed_iff s f).mpr (Or.inr (Or.inr hf)))
  · intro f hm
    exact ⟨hmn f hm, (I.marked f hm).2.1, (I.marked f hm).2.2⟩
  · intro f hm hf
    rw [hdisk f (hmn f hm)]
    apply I.gone f hm
    cases hx : needed s f with
    | false => rfl
    | true =>
      rw [needed_iff] at hx
      have : needed (redirected s t cur n rows) f = true := by
        rw [needed_iff]
        rcases hx with ⟨k, hx⟩ | hx | hx
        · exact absurd (I.handles _ hx) (I.marked f hm).1
        · refine Or.inr (Or.inl (List.mem_cons_of_mem _ (List.mem_cons_of_mem _ ?_)))
          unfold refsOf at hx; rw [ht] at hx; exact hx
        · exact Or.inr (Or.inr hx)
      rw [hf] at this; cases this
  · intro f hf
    by_cases e : f = n
    · rw [e]; exact TI.lt _ e7 n (Or.inr rfl)
    · rw [hdisk f e] at hf; exact I.lt f hf
  · intro t' ht'
    cases ht'
    refine ⟨sc, sl, hs, ⟨⟨rfl, fun e => e4 e.symm, ?_⟩, ?_, ?_, ?_, ?_, Or.inl ⟨rfl, e2⟩, ?_, ?_, TI.sdlt⟩⟩
    · exact chain_upd _ TI.chain e4 e5 e8
    · intro e he f hf
      rcases List.mem_cons.mp he with e' | he
      · subst e'
        rcases hf with e | e
        · rw [← e]; exact I.lt cur hcurd
        · rw [← e]; exact TI.lt _ e7 n (Or.inr rfl)
      · exact TI.lt e he f hf
    · intro e he f hf
      rcases List.mem_cons.mp he with e' | he
      · subst e'
        rcases hf with e | e
        · rw [← e]; exact List.mem_cons_of_mem _ (List.mem_cons_self ..)
        · rw [← e]; exact List.mem_cons_self ..
      · exact List.mem_cons_of_mem _ (List.mem_cons_of_mem _ (TI.refs e he f hf))
    · intro o k ho
      have ho : Entry.load o k ∈ t.log := by simpa using ho
      left
      constructor
      · rcases TI.loads o k ho with e | e
        · exact List.mem_cons_of_mem _ (List.mem_cons_of_mem _ e.1)
        · rw [e.2]; exact List.mem_cons_of_mem _ (List.mem_cons_self ..)
      · intro e
        rw [e] at ho
        exact e9 k ho
    · intro f hm
      refine ⟨(TI.free f hm).1, fun e he hn => ?_⟩
      rcases List.mem_cons.mp he with e' | he
      · subst e'
        rcases hn with e | e
        · exact (I.marked f hm).1 e.symm
        · exact hmn f hm e.symm
      · exact (TI.free f hm).2 e he hn
    · intro hl f hf
      by_cases e : f = n
      · exact Or.inl e
      · rw [hdisk f e] at hf
        rcases TI.olds hl f hf with e | e | ⟨k, e⟩
        · rw [e]; exact Or.inr (Or.inr ⟨n, List.mem_cons_of_mem _ e7⟩)
        · exact Or.inr (Or.inl e)
        · exact Or.inr (Or.inr ⟨k, List.mem_cons_of_mem _ e⟩)
    · intro hl f hf
      by_cases e : f = n
      · rw [e]; exact Or.inr (Or.inr ⟨cur, List.mem_cons_of_mem _ e7⟩)
      · rw [hdisk f e] at hf
        rcases TI.news hl f hf with e | e | ⟨k, e⟩
        · exact Or.inl e
        · exact Or.inr (Or.inl e)
        · exact Or.inr (Or.inr ⟨k, List.mem_cons_of_mem _ e⟩)

end Verif.Redirect
