import Verif.Ydb.Inv

set_option linter.unusedSectionVars false
set_option linter.unusedSimpArgs false

namespace Verif.Ydb

open Spec

theorem abortSelf_eq {e : Env} (hi : Inv e) {t : Id} {x : Txn} (hx : e.txns t = some x)
    (hc : x.child = none) : abortSelf e t = some (ended e t x true false false, .ok) := by
  obtain ⟨lt, par, chi, tch, flg, st, unl, dep, roll, lck, lpar, rolog⟩ := hi.ok t x hx
  have hunl : x.logged = false → x.nRoll = 0 ∧ x.fsyncLsn = 0 := fun h => ⟨(unl h).1, (unl h).2.1⟩
  have hst : x.logged = false → x.state = .live := by
    intro h
    rcases st with h1 | ⟨_, _, h1⟩
    · exact h1
    · rw [h] at h1; cases h1
  have hpt : x.parent ≠ some t := fun h => absurd (par t h).1 (Nat.lt_irrefl t)
  have hpp : ∀ p, x.parent = some p → p ≠ t ∧ ∃ y, e.txns p = some y ∧ y.child = some t := by
    intro p h
    obtain ⟨h1, y, h2, h3, _⟩ := par p h
    exact ⟨Nat.ne_of_lt h1, y, h2, h3⟩
  obtain ⟨hd1, hd2⟩ := detach_eq hx hc hpp
  have ha := abortTxn_eq hd2 (by rw [tch, hc]) hunl hst false
  simp only [abortSelf, hd1, ha]
  cases hx2 : (marked (detached e t x) t x true false).txns t with
  | none => simp [marked] at hx2
  | some x2 =>
    have hx2' := hx2
    simp only [marked, if_true, Option.some.injEq] at hx2'
    have hs2 : x2.state ≠ .live := by subst hx2'; simp
    have hp2 : ∀ p, x2.parent = some p → p ≠ t ∧
        ∃ y, (marked (detached e t x) t x true false).txns p = some y := by
      intro p h
      have h' : x.parent = some p := by subst hx2'; exact h
      obtain ⟨h1, y, h2, _⟩ := hpp p h'
      refine ⟨h1, { y with child := none }, ?_⟩
      simp [marked, h1, h', detached, h2]
    obtain ⟨e1, e2, h1, h2, h3⟩ := destroy_release hx2 hs2 hp2 x2.fsyncLsn x2.doFsync
    have hd : x2.doFsync = false := by subst hx2'; rfl
    have h4 := ended_eq e t x true false false hpt (fun h => (hunl h).2) _ rfl (detached e t x) rfl x
      (by cases x; simp) x2 hx2
    rw [← h3] at h4
    simp only [h1, h2]
    rw [hd] at h4
    simp only [maybeFsync, Bool.false_eq_true, if_false] at h4
    rw [h4]
    rfl

theorem surviving_ended {e : Env} {t : Id} {x : Txn} (ok : Ok e t x) (ab f ns : Bool) (i : Id) :
    surviving (ended e t x ab f ns).log i =
      if x.parent = some i ∧ ab = false then surviving e.log i + x.nRoll else surviving e.log i := by
  simp only [ended]
  cases hl : x.logged with
  | false => simp [(ok.unl hl).1]
  | true =>
    simp only [if_true, surviving_append]
    cases ab with
    | true => simp [account]
    | false => simp [account, (ok.lpar hl).2, ok.roll]

theorem inv_ended {e : Env} (hi : Inv e) {t : Id} {x : Txn} (hx : e.txns t = some x)
    (hc : x.child = none) (ab f ns : Bool) : Inv (ended e t x ab f ns) := by
  have ok := hi.ok t x hx
  have hbegin : ∀ i p, Rec.begin i p ∉ e.log → Rec.begin i p ∉ (ended e t x ab f ns).log := by
    intro i p h
    simp only [ended]
    split
    · cases ab <;> simpa using h
    · exact h
  have hmem : ∀ r, r ∈ e.log → r ∈ (ended e t x ab f ns).log := by
    intro r h
    simp only [ended]
    split
    · exact List.mem_append_left _ h
    · exact h
  have hpar : ∀ i, parentIn (ended e t x ab f ns).log i = parentIn e.log i := by
    intro i
    simp only [ended]
    split
    · apply parentIn_append
      intro p
      cases ab <;> simp
    · rfl
  refine ⟨?_, ?_, hi.open_, ?_⟩
  · intro i z hz
    have hit : i ≠ t := by intro h; subst h; simp [ended] at hz
    have hsur := surviving_ended ok ab f ns i
    by_cases hpi : x.parent = some i
    · obtain ⟨hlt, y, hy, hyc, hiso, hro, hlg, hnx⟩ := ok.par i hpi
      have oky := hi.ok i y hy
      simp only [ended, hit, if_false, hpi, if_true, hy, Option.map_some, Option.some.injEq] at hz
      subst hz
      refine ⟨oky.lt, ?_, by simp, by simp, oky.flg, oky.st, ?_, oky.dep, ?_, oky.lck, ?_, oky.rolog⟩
      · intro q hq
        obtain ⟨hq1, u, hu, hu1⟩ := oky.par q hq
        refine ⟨hq1, u, ?_, hu1⟩
        have h1 : q ≠ t := Nat.ne_of_lt (Nat.lt_trans hq1 hlt)
        have h2 : ¬ i = q := fun h => absurd hq1 (by rw [h]; exact Nat.lt_irrefl q)
        simp [ended, h1, hpi, h2, hu]
      · intro hl
        have := oky.unl hl
        refine ⟨?_, this.2.1, fun p => hbegin i p (this.2.2 p)⟩
        have hx0 : x.nRoll = 0 := by
          have : x.logged = false := by
            cases h : x.logged
            · rfl
            · have h2 := hlg h
              simp only [] at hl
              rw [hl] at h2; cases h2
          exact (ok.unl this).1
        cases ab <;> simp [this.1, hx0]
      · rw [hsur]
        cases ab
        · simp [hpi, oky.roll]
        · simp [hpi, oky.roll]
      · intro hl
        rw [hpar]; exact ⟨hmem _ (oky.lpar hl).1, (oky.lpar hl).2⟩
    · simp only [ended, hit, if_false, hpi] at hz
      have okz := hi.ok i z hz
      refine ⟨okz.lt, ?_, ?_, okz.tch, okz.flg, okz.st, ?_, okz.dep, ?_, okz.lck, ?_, okz.rolog⟩
      · intro q hq
        obtain ⟨hq1, u, hu, hu1, hu2⟩ := okz.par q hq
        refine ⟨hq1, u, ?_, hu1, hu2⟩
        have h1 : q ≠ t := by
          intro h; subst h
          rw [hx] at hu
          simp only [Option.some.injEq] at hu
          subst hu
          rw [hc] at hu1; cases hu1
        have h2 : ¬ x.parent = some q := by
          intro h
          obtain ⟨_, y, hy, hyc, _⟩ := ok.par q h
          rw [hu] at hy
          simp only [Option.some.injEq] at hy
          subst hy
          rw [hu1] at hyc
          simp only [Option.some.injEq] at hyc
          exact hit hyc
        simp [ended, h1, h2, hu]
      · intro c hcz
        obtain ⟨u, hu, hup⟩ := okz.chi c hcz
        have h1 : c ≠ t := by
          intro h; subst h
          rw [hx] at hu
          simp only [Option.some.injEq] at hu
          subst hu
          exact hpi hup
        by_cases h2 : x.parent = some c
        · simp only [ended, h1, if_false, h2, if_true, hu, Option.map_some]
          exact ⟨_, rfl, hup⟩
        · simp only [ended, h1, if_false, h2, hu]
          exact ⟨_, rfl, hup⟩
      · intro hl
        have := okz.unl hl
        exact ⟨this.1, this.2.1, fun p => hbegin i p (this.2.2 p)⟩
      · rw [hsur]
        simp [hpi, okz.roll]
      · intro hl
        rw [hpar]; exact ⟨hmem _ (okz.lpar hl).1, (okz.lpar hl).2⟩
  · intro i hge
    have hge' : e.next ≤ i := hge
    obtain ⟨h1, h2, h3⟩ := hi.fut i hge'
    have hit : i ≠ t := by intro h; subst h; rw [hx] at h1; cases h1
    have hpi : ¬ x.parent = some i := by
      intro h
      obtain ⟨_, y, hy, _⟩ := ok.par i h
      rw [h1] at hy; cases hy
    refine ⟨by simp [ended, hit, hpi, h1], ?_, fun p => hbegin i p (h3 p)⟩
    rw [surviving_ended ok]
    simp [hpi, h2]
  · intro i a b h
    simp only [ended] at h
    rcases List.append_eq_append_iff.1 h with ⟨c, h1, h2⟩ | ⟨c, h1, h2⟩
    · subst h1
      cases c with
      | nil =>
        simp at h2
      | cons d c =>
        simp only [List.cons_append, List.cons.injEq] at h2
        obtain ⟨h3, h4⟩ := h2
        cases c with
        | nil =>
          simp at h4
          simp [← h3, h4.1]
        | cons d' c => simp at h4
    · cases c with
      | nil => simp at h2
      | cons d c =>
        simp only [List.cons_append, List.cons.injEq] at h2
        obtain ⟨h3, h4⟩ := h2
        subst h3
        exact hi.rel i a c h1


/-! ### Whole families -/

/-- Something was logged for the transaction. -/
def loggedIn (e : Env) (i : Id) : Bool := (e.txns i).any (·.logged)

theorem family_exists {e : Env} (hi : Inv e) : ∀ n t x, e.txns t = some x → e.next - t ≤ n →
    ∃ l, Family e t l ∧ l.length ≤ n := by
  intro n
  induction n with
  | zero =>
    intro t x hx hn
    have := (hi.ok t x hx).lt
    have h : t < e.next := this
    exfalso
    have h2 : e.next ≤ t := Nat.le_of_sub_eq_zero (Nat.le_zero.1 hn)
    exact absurd h (Nat.not_lt.2 h2)
  | succ n ih =>
    intro t x hx hn
    cases hc : x.child with
    | none => exact ⟨[t], .leaf t x hx hc, by simp⟩
    | some c =>
      obtain ⟨z, hz, hzp⟩ := (hi.ok t x hx).chi c hc
      have hlt := ((hi.ok c z hz).par t hzp).1
      obtain ⟨l, hl, hlen⟩ := ih c z hz (by
        have h1 : e.next - c < e.next - t := Nat.sub_lt_sub_left (hi.ok t x hx).lt hlt
        exact Nat.le_of_lt_succ (Nat.lt_of_lt_of_le h1 hn))
      exact ⟨t :: l, .node t x c l hx hc hl, by simpa using hlen⟩

theorem family_gt {e : Env} (hi : Inv e) {t : Id} {l : List Id} (h : Family e t l) :
    ∀ i ∈ l, t ≤ i ∧ ∃ x, e.txns i = some x := by
  induction h with
  | leaf t x hx hc => intro i hi'; simp at hi'; subst hi'; exact ⟨Nat.le_refl _, x, hx⟩
  | node t x c l hx hc hl ih =>
    obtain ⟨z, hz, hzp⟩ := (hi.ok t x hx).chi c hc
    have hlt := ((hi.ok c z hz).par t hzp).1
    intro i hi'
    rcases List.mem_cons.1 hi' with h | h
    · subst h; exact ⟨Nat.le_refl _, x, hx⟩
    · exact ⟨Nat.le_trans (Nat.le_of_lt hlt) (ih i h).1, (ih i h).2⟩

/-- The state after a family was committed. -/
structure After (e : Env) (t : Id) (x : Txn) (l : List Id) (w : Word) (e' : Env) : Prop where
  inv : Inv e'
  gone : ∀ i ∈ l, e'.txns i = none
  rest : ∀ i, i ∉ l → x.parent ≠ some i → e'.txns i = e.txns i
  par : ∀ p y, x.parent = some p → e.txns p = some y → ∃ f n,
    e'.txns p = some { y with child := none, tchild := none, force := f, nRoll := n } ∧
    (y.force = true ∨ x.force = true ∨ has w bSync = true → f = true)
  log : e'.log = e.log ++ (l.reverse.filter (loggedIn e)).map Rec.commit
  trace : e'.trace = e.trace ++ l.reverse.flatMap (fun i => [Ev.complete i, Ev.release i])
  next : e'.next = e.next
  pan : e'.panicked = e.panicked
  fs : e.fsynced ≤ e'.fsynced
  fsle : e.fsynced ≤ e.log.length → e'.fsynced ≤ e'.log.length
  dur : x.parent = none → x.logged = true →
    (x.force = true ∨ has w bSync = true ∨
      (has w bNoSync = false ∧ has x.flags bNoSync = false ∧ 0 < surviving e'.log t)) →
    e'.log.length ≤ e'.fsynced

theorem ended_fsle (e : Env) (t : Id) (x : Txn) (ab f ns : Bool) (h : e.fsynced ≤ e.log.length) :
    (ended e t x ab f ns).fsynced ≤ (ended e t x ab f ns).log.length := by
  simp only [ended]
  cases hl : x.logged
  · simpa using h
  · simp only [if_true, List.length_append, List.length_singleton]
    split
    · exact Nat.max_le.2 ⟨Nat.le_succ_of_le h, Nat.le_refl _⟩
    · exact Nat.le_succ_of_le h

theorem after_self {e : Env} (hi : Inv e) {t : Id} {x : Txn} (hx : e.txns t = some x)
    (hc : x.child = none) (w : Word) (hw : bad w = false) :
    ∃ e', commitSelf e t w = some (e', .ok) ∧ After e t x [t] w e' := by
  refine ⟨_, by rw [commitSelf_eq hi hx hc, hw]; rfl, ?_⟩
  have ok := hi.ok t x hx
  refine ⟨inv_ended hi hx hc _ _ _, ?_, ?_, ?_, ?_, ?_, rfl, rfl, ?_, ?_, ?_⟩
  · intro i h; simp at h; subst h; simp [ended]
  · intro i h h2; simp at h; simp [ended, h, h2]
  · intro p y hp hy
    have hpt : p ≠ t := Nat.ne_of_lt (ok.par p hp).1
    refine ⟨_, _, by simp only [ended, hpt, if_false, hp, if_true, hy, Option.map_some]; rfl, ?_⟩
    simp only [hw, Bool.false_eq_true, if_false]
    intro h
    rcases h with h | h | h <;> simp [h]
  · simp only [ended, loggedIn, List.reverse_cons, List.reverse_nil, List.nil_append, List.filter]
    cases hl : x.logged <;> simp [hx, hl]
  · simp [ended]
  · simp only [ended]
    split
    · exact Nat.le_max_left _ _
    · exact Nat.le_refl _
  · exact ended_fsle e t x _ _ _
  · intro hp hl h
    have hsur := surviving_ended ok false (x.force || has w bSync) (has w bNoSync || has x.flags bNoSync) t
    simp only [hp] at hsur
    simp only [reduceCtorEq, false_and, if_false, ← ok.roll] at hsur

    rw [hsur] at h
    have hcond : (!false && x.parent.isNone && (x.force || has w bSync ||
        (!(has w bNoSync || has x.flags bNoSync) && decide (x.nRoll > 0)))) = true := by
      rcases h with h | h | ⟨h1, h2, h3⟩
      · simp [h, hp]
      · simp [h, hp]
      · simp [h1, h2, h3, hp]
    simp only [ended, hl, if_true, hcond]
    simp
    exact Nat.le_max_right _ _

theorem commitRec_ok {w : Word} (hw : bad w = false) : ∀ {e : Env} {t : Id} {l : List Id} (fuel : Nat),
    Inv e → e.panicked = false → Family e t l → l.length ≤ fuel → ∀ x, e.txns t = some x →
    ∃ e', commitRec fuel e t w = some (e', .ok) ∧ After e t x l w e' := by
  intro e t l fuel hi hpan hf
  induction hf generalizing fuel with
  | leaf t x hx hc =>
    intro hlen x' hx'
    rw [hx] at hx'
    simp only [Option.some.injEq] at hx'
    subst hx'
    obtain ⟨k, rfl⟩ : ∃ k, fuel = k + 1 := ⟨fuel - 1, by simp at hlen; omega⟩
    simp only [commitRec, hpan, Bool.false_eq_true, if_false, hx, hc]
    exact after_self hi hx hc w hw
  | node t x c l hx hc hl ih =>
    intro hlen x' hx'
    rw [hx] at hx'
    simp only [Option.some.injEq] at hx'
    subst hx'
    obtain ⟨k, rfl⟩ : ∃ k, fuel = k + 1 := ⟨fuel - 1, by simp at hlen; omega⟩
    obtain ⟨z, hz, hzp⟩ := (hi.ok t x hx).chi c hc
    have hlt := ((hi.ok c z hz).par t hzp).1
    obtain ⟨e1, h1, a1⟩ := ih k (by simpa using hlen) z hz
    obtain ⟨f, n, hx1, hf1⟩ := a1.par t x hzp hx
    have htl : t ∉ l := by
      intro h
      have := (family_gt hi hl t h).1
      exact absurd hlt (Nat.not_lt.2 this)
    obtain ⟨e2, h2, a2⟩ := after_self a1.inv hx1 rfl w hw
    have hp1 : e1.panicked = false := by rw [a1.pan, hpan]
    refine ⟨e2, ?_, ?_⟩
    · simp only [commitRec, hpan, Bool.false_eq_true, if_false, hx, hc, h1, ne_eq, not_true_eq_false, hp1, h2]
    have hpart : ∀ p, x.parent = some p → p ∉ l ∧ p ≠ t ∧ z.parent ≠ some p := by
      intro p hp
      have hpt := ((hi.ok t x hx).par p hp).1
      refine ⟨?_, Nat.ne_of_lt hpt, ?_⟩
      · intro h
        have := (family_gt hi hl p h).1
        exact absurd (Nat.lt_trans hpt hlt) (Nat.not_lt.2 this)
      · rw [hzp]
        intro h
        simp only [Option.some.injEq] at h
        subst h
        exact Nat.lt_irrefl _ hpt
    refine ⟨a2.inv, ?_, ?_, ?_, ?_, ?_, by rw [a2.next, a1.next], by rw [a2.pan, a1.pan],
      Nat.le_trans a1.fs a2.fs, fun h => a2.fsle (a1.fsle h), ?_⟩
    · intro i h
      rcases List.mem_cons.1 h with h | h
      · exact a2.gone i (by simp [h])
      · have hit : i ≠ t := fun h2 => htl (h2 ▸ h)
        rw [a2.rest i (by simpa using hit) ?_]
        · exact a1.gone i h
        · intro hp
          exact (hpart i hp).1 h
    · intro i h h2
      have h3 : i ≠ t ∧ i ∉ l := by simpa using h
      rw [a2.rest i (by simpa using h3.1) h2]
      apply a1.rest i h3.2
      rw [hzp]
      intro h4
      simp only [Option.some.injEq] at h4
      exact h3.1 h4.symm
    · intro p y hp hy
      have hq := hpart p hp
      have hy1 : e1.txns p = some y := by rw [a1.rest p hq.1 hq.2.2, hy]
      obtain ⟨f', n', h3, h4⟩ := a2.par p y hp hy1
      refine ⟨f', n', h3, ?_⟩
      intro h
      rcases h with h | h | h
      · exact h4 (Or.inl h)
      · exact h4 (Or.inr (Or.inl (hf1 (Or.inl h))))
      · exact h4 (Or.inr (Or.inr h))
    · rw [a2.log, a1.log]
      have hlog : loggedIn e1 t = loggedIn e t := by simp [loggedIn, hx, hx1]
      simp only [List.reverse_cons, List.reverse_nil, List.nil_append, List.filter_append,
        List.map_append, List.append_assoc]
      simp only [List.filter, hlog]
    · rw [a2.trace, a1.trace]
      simp
    · intro hp hlg h
      apply a2.dur hp hlg
      rcases h with h | h | h
      · exact Or.inl (hf1 (Or.inl h))
      · exact Or.inr (Or.inl h)
      · exact Or.inr (Or.inr h)

/-- With flags it does not know, a commit aborts the innermost transaction and, if that was not the
one asked for, panics the environment. -/
theorem commitRec_bad {w : Word} (hw : bad w = true) : ∀ {e : Env} {t : Id} {l : List Id} (fuel : Nat),
    Inv e → e.panicked = false → Family e t l → l.length ≤ fuel →
    ∃ e' d x, l.getLast? = some d ∧ e.txns d = some x ∧ x.child = none ∧
      commitRec fuel e t w = some ({ ended e d x true false false with panicked := e' }, .einval) ∧
      e' = decide (1 < l.length) := by
  intro e t l fuel hi hpan hf
  induction hf generalizing fuel with
  | leaf t x hx hc =>
    intro hlen
    obtain ⟨k, rfl⟩ : ∃ k, fuel = k + 1 := ⟨fuel - 1, by simp at hlen; omega⟩
    refine ⟨false, t, x, rfl, hx, hc, ?_, by simp⟩
    simp only [commitRec, hpan, Bool.false_eq_true, if_false, hx, hc]
    rw [commitSelf_eq hi hx hc, hw]
    have : (ended e t x true (x.force || has w bSync) (has w bNoSync || has x.flags bNoSync)).panicked = false := hpan
    simp [ended, hpan]
  | node t x c l hx hc hl ih =>
    intro hlen
    obtain ⟨k, rfl⟩ : ∃ k, fuel = k + 1 := ⟨fuel - 1, by simp at hlen; omega⟩
    obtain ⟨e', d, y, h1, h2, h3, h4, h5⟩ := ih k (by simpa using hlen)
    refine ⟨true, d, y, ?_, h2, h3, ?_, ?_⟩
    · rw [List.getLast?_cons, h1]; rfl
    · simp only [commitRec, hpan, Bool.false_eq_true, if_false, hx, hc, h4]
      simp
    · cases hl <;> simp

theorem Inv.panic {e : Env} (hi : Inv e) (b : Bool) : Inv { e with panicked := b } := by
  obtain ⟨h1, h2, h3, h4⟩ := hi
  refine ⟨?_, h2, h3, h4⟩
  intro t x hx
  obtain ⟨a1, a2, a3, a4, a5, a6, a7, a8, a9, a10, a11, a12⟩ := h1 t x hx
  exact ⟨a1, a2, a3, a4, a5, a6, a7, a8, a9, a10, a11, a12⟩

end Verif.Ydb
