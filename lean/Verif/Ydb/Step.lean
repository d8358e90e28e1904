import Verif.Ydb.Run

set_option linter.unusedSectionVars false
set_option linter.unusedSimpArgs false

namespace Verif.Ydb

open Spec

/-! ### Begin -/

theorem parentOf_spec {e : Env} {stxn : Option Id} {parent : Option Txn}
    (h : parentOf e stxn = some parent) :
    (stxn = none → parent = none) ∧ (∀ p, stxn = some p → ∃ y, e.txns p = some y ∧ parent = some y) := by
  cases stxn with
  | none => simp [parentOf] at h; simp [h]
  | some i =>
    simp only [parentOf, Option.map_eq_some_iff] at h
    obtain ⟨y, h1, h2⟩ := h
    refine ⟨by simp, ?_⟩
    intro p hp
    simp only [Option.some.injEq] at hp
    subst hp
    exact ⟨y, h1, h2.symm⟩

theorem begin_ok {e : Env} (hi : Inv e) (hpan : e.panicked = false) (stxn : Option Id)
    (parent : Option Txn) (hlook : parentOf e stxn = some parent)
    (w : Word) :
    (begin e stxn w = some (e, .einval) ∧
      ((∃ y, parent = some y ∧ y.child.isSome = true) ∨ (∀ iso ro, ¬ BeginOK w (view parent) iso ro) ∨
       (∃ y, parent = some y ∧ y.ro = false ∧ y.nXids + 1 = MAX_TRANSACTION_RECORDS))) ∨
    (∃ tf iso ro n e', begin e stxn w = some (e', .ok) ∧
      (∀ y, parent = some y → y.child = none ∧ (ro = false → n = y.nXids + 1 ∧ n < MAX_TRANSACTION_RECORDS)) ∧
      (parent = none → ro = false → n = 1) ∧
      BeginOK w (view parent) iso ro ∧ has tf bReadOnly = ro ∧ has tf bNoSync = has w bNoSync ∧
      e' = { e with
        next := e.next + 1
        txns := fun i => if i = e.next then some ⟨stxn, none, none, tf, iso, snapType iso, ro, .live,
              false, false, 0, 0, false, n, []⟩
            else if stxn = some i then
              (e.txns i).map (fun y => { y with child := some e.next, tchild := some e.next })
            else e.txns i }) := by
  have hlive := parentOf_spec hlook
  have hflg : ∀ p, parent = some p → (p.flags &&& DB_TXN_READ_ONLY != 0#32) = p.ro := by
    intro p hp
    cases stxn with
    | none => replace hlive := hlive.1 rfl; rw [hlive] at hp; cases hp
    | some i =>
      obtain ⟨y, hy, h2⟩ := hlive.2 i rfl
      rw [hp] at h2
      simp only [Option.some.injEq] at h2
      subst h2
      rw [ro_bit]
      exact (hi.ok i p hy).flg
  have hdep : ∀ y, parent = some y → y.ro = false → y.nXids < MAX_TRANSACTION_RECORDS := by
    intro y hy
    cases stxn with
    | none => replace hlive := hlive.1 rfl; rw [hlive] at hy; cases hy
    | some i =>
      obtain ⟨y', hy', h2⟩ := hlive.2 i rfl
      rw [hy] at h2
      simp only [Option.some.injEq] at h2
      subst h2
      intro h
      exact ((hi.ok i y hy').dep h).1
  simp only [begin, hpan, Bool.false_eq_true, if_false]
  rw [hlook]
  simp only []
  by_cases hch : parent.any (·.child.isSome) = true
  · left
    simp only [hch, if_true, true_and]
    left
    cases parent with
    | none => simp at hch
    | some y => exact ⟨y, rfl, by simpa using hch⟩
  have hch' : ∀ y, parent = some y → y.child = none := by
    intro y hy
    subst hy
    simpa using hch
  simp only [hch, if_false, hi.open_.1, hi.open_.2, Bool.not_true, Bool.false_eq_true]
  rcases checkFlags_ok w parent hflg with ⟨tf, iso, ro, h1, h2, h3, h4⟩ | ⟨h1, h2⟩
  · simp only [h1]
    have hx : (∃ n, beginWithXid parent ro = some (some n) ∧
        (∀ y, parent = some y → ro = false → n = y.nXids + 1 ∧ n < MAX_TRANSACTION_RECORDS) ∧
        (parent = none → ro = false → n = 1)) ∨
        (beginWithXid parent ro = some none ∧ ∃ y, parent = some y ∧ y.ro = false ∧
          y.nXids + 1 = MAX_TRANSACTION_RECORDS) := by
      cases parent with
      | none => left; exact ⟨_, rfl, by simp, by intro _ h; simp [h]⟩
      | some y =>
        have hro : ro = y.ro := h2.child (y.iso, y.ro) rfl
        cases hr : ro with
        | true =>
          left
          refine ⟨0, ?_, by simp, by simp⟩
          simp [beginWithXid, ← hro, hr]
        | false =>
          have hlt := hdep y rfl (by rw [← hro, hr])
          by_cases hfull : y.nXids + 1 = MAX_TRANSACTION_RECORDS
          · right
            refine ⟨?_, y, rfl, by rw [← hro, hr], hfull⟩
            simp [beginWithXid, canCreateChild, hlt, hfull]
          · left
            refine ⟨y.nXids + 1, ?_, ?_, by simp⟩
            · have : (y.nXids + 1 != MAX_TRANSACTION_RECORDS) = true := by simpa using hfull
              simp [beginWithXid, canCreateChild, hlt, this]
            · intro y' hy' _
              simp only [Option.some.injEq] at hy'
              subst hy'
              exact ⟨rfl, by omega⟩
    rcases hx with ⟨n, hn, hn1, hn2⟩ | ⟨hn, hn1⟩
    · right
      simp only [hn]
      cases stxn with
      | none =>
        replace hlive := hlive.1 rfl
        subst hlive
        refine ⟨tf, iso, ro, n, _, rfl, by simp, hn2, h2, h3, h4, ?_⟩
        apply Env.ext_txns <;> first | rfl | exact hpan | exact hi.open_.1 | exact hi.open_.2 | skip
        intro i
        simp
      | some p =>
        obtain ⟨y, hy, h5⟩ := hlive.2 _ rfl
        subst h5
        have hpn : p ≠ e.next := Nat.ne_of_lt (hi.ok p y hy).lt
        refine ⟨tf, iso, ro, n, _, rfl, ?_, hn2, h2, h3, h4, ?_⟩
        · intro y' hy'
          exact ⟨hch' y' hy', hn1 y' hy'⟩
        · apply Env.ext_txns <;> first | rfl | exact hpan | exact hi.open_.1 | exact hi.open_.2 | skip
          intro i
          by_cases h6 : i = p
          · subst h6; simp [hpn, hy]
          · have : ¬ p = i := fun h => h6 h.symm
            simp [h6, this]
    · left
      simp only [hn, true_and]
      exact Or.inr (Or.inr hn1)
  · left
    simp only [h1, true_and]
    exact Or.inr (Or.inl h2)

theorem inv_begin {e : Env} (hi : Inv e) (stxn : Option Id)
    (parent : Option Txn) (hlook : parentOf e stxn = some parent)
    {w : Word} {tf : Word} {iso : Iso} {ro : Bool} {n : Nat}
    (h1 : ∀ y, parent = some y → y.child = none ∧ (ro = false → n = y.nXids + 1 ∧ n < MAX_TRANSACTION_RECORDS))
    (h2 : parent = none → ro = false → n = 1)
    (h3 : BeginOK w (view parent) iso ro) (h4 : has tf bReadOnly = ro) :
    Inv { e with
        next := e.next + 1
        txns := fun i => if i = e.next then some ⟨stxn, none, none, tf, iso, snapType iso, ro, .live,
              false, false, 0, 0, false, n, []⟩
            else if stxn = some i then
              (e.txns i).map (fun y => { y with child := some e.next, tchild := some e.next })
            else e.txns i } := by
  have hlive := parentOf_spec hlook
  have hfut := hi.fut e.next (Nat.le_refl _)
  refine ⟨?_, ?_, hi.open_, hi.rel⟩
  · intro i z hz
    by_cases hin : i = e.next
    · subst hin
      simp only [if_true, Option.some.injEq] at hz
      subst hz
      refine ⟨Nat.lt_succ_self _, ?_, by simp, rfl, h4, Or.inl rfl, ?_, ?_, ?_, by simp, by simp, by simp⟩
      · intro p hp
        simp only [] at hp
        subst hp
        obtain ⟨y, hy, h5⟩ := hlive.2 _ rfl
        subst h5
        have okp := hi.ok p y hy
        have hpn : p ≠ e.next := Nat.ne_of_lt okp.lt
        refine ⟨okp.lt, { y with child := some e.next, tchild := some e.next }, ?_, rfl, ?_, ?_, by simp, ?_⟩
        · simp [hpn, hy]
        · exact (h3.same (y.iso, y.ro) rfl).symm
        · exact (h3.child (y.iso, y.ro) rfl).symm
        · intro hro; exact ((h1 y rfl).2 hro).1
      · intro _
        exact ⟨rfl, rfl, hfut.2.2⟩
      · intro hro
        simp only [] at hro
        cases stxn with
        | none => 
          replace hlive := hlive.1 rfl
          subst hlive
          have := h2 rfl hro
          simp only [this]
          exact ⟨by decide, by simp⟩
        | some p =>
          obtain ⟨y, hy, h5⟩ := hlive.2 _ rfl
          subst h5
          exact ⟨((h1 y rfl).2 hro).2, by simp⟩
      · exact hfut.2.1.symm
    · simp only [hin, if_false] at hz
      by_cases hsp : stxn = some i
      · subst hsp
        obtain ⟨y, hy, h5⟩ := hlive.2 _ rfl
        subst h5
        simp only [if_true, hy, Option.map_some, Option.some.injEq] at hz
        subst hz
        have oky := hi.ok i y hy
        refine ⟨Nat.lt_succ_of_lt oky.lt, ?_, ?_, rfl, oky.flg, oky.st, oky.unl, oky.dep, oky.roll, oky.lck,
          oky.lpar, oky.rolog⟩
        · intro q hq
          obtain ⟨a1, u, a2, a3⟩ := oky.par q hq
          refine ⟨a1, u, ?_, a3⟩
          have e1 : q ≠ e.next := Nat.ne_of_lt (hi.ok q u a2).lt
          have e2 : ¬ i = q := fun h => absurd a1 (by rw [h]; exact Nat.lt_irrefl q)
          simp [e1, e2, a2]
        · intro c hc
          simp only [Option.some.injEq] at hc
          subst hc
          simp
      · simp only [hsp, if_false] at hz
        have okz := hi.ok i z hz
        refine ⟨Nat.lt_succ_of_lt okz.lt, ?_, ?_, okz.tch, okz.flg, okz.st, okz.unl, okz.dep, okz.roll,
          okz.lck, okz.lpar, okz.rolog⟩
        · intro q hq
          obtain ⟨a1, u, a2, a3, a4⟩ := okz.par q hq
          have e1 : q ≠ e.next := Nat.ne_of_lt (hi.ok q u a2).lt
          have e2 : ¬ stxn = some q := by
            intro h
            subst h
            obtain ⟨y, hy, h5⟩ := hlive.2 _ rfl
            rw [a2] at hy
            simp only [Option.some.injEq] at hy
            subst hy
            rw [(h1 u h5).1] at a3
            cases a3
          exact ⟨a1, u, by simp [e1, e2, a2], a3, a4⟩
        · intro c hc
          obtain ⟨u, a1, a2⟩ := okz.chi c hc
          have e1 : c ≠ e.next := Nat.ne_of_lt (hi.ok c u a1).lt
          by_cases e2 : stxn = some c
          · simp only [e1, if_false, e2, if_true, a1, Option.map_some]
            exact ⟨_, rfl, a2⟩
          · simp only [e1, if_false, e2, a1]
            exact ⟨_, rfl, a2⟩
  · intro i hge
    have hge' : e.next + 1 ≤ i := hge
    obtain ⟨a1, a2, a3⟩ := hi.fut i (Nat.le_of_succ_le hge')
    have e1 : i ≠ e.next := fun h => by rw [h] at hge'; exact Nat.not_succ_le_self _ hge'
    have e2 : ¬ stxn = some i := by
      intro h
      subst h
      obtain ⟨y, hy, _⟩ := hlive.2 _ rfl
      rw [a1] at hy; cases hy
    exact ⟨by simp [e1, e2, a1], a2, a3⟩

/-! ### Logging, locking, preparing, discarding -/

/-- Two environments in which a handle differs only in fields the invariant does not look at. -/
theorem inv_set {e : Env} (hi : Inv e) {t : Id} {x x' : Txn} (hx : e.txns t = some x)
    (h1 : x'.parent = x.parent) (h2 : x'.child = x.child) (h3 : x'.tchild = x.tchild)
    (h4 : x'.flags = x.flags) (h5 : x'.iso = x.iso) (h6 : x'.ro = x.ro)
    (h7 : x'.state = x.state ∨ (x'.state = .preparing ∧ x.parent = none ∧ x'.logged = true))
    (h8 : x'.logged = x.logged) (h9 : x'.nRoll = x.nRoll) (h10 : x'.nXids = x.nXids)
    (h11 : x'.logged = false → x'.fsyncLsn = x.fsyncLsn)
    (h12 : x.parent ≠ none → x'.locks = x.locks) : Inv (e.set t (some x')) := by
  refine ⟨?_, ?_, hi.open_, hi.rel⟩
  · intro i z hz
    have hget : ∀ q u, e.txns q = some u → ∃ u', (e.set t (some x')).txns q = some u' ∧
        u'.parent = u.parent ∧ u'.child = u.child ∧ u'.iso = u.iso ∧ u'.ro = u.ro ∧
        u'.logged = u.logged ∧ u'.nXids = u.nXids := by
      intro q u hu
      by_cases hq : q = t
      · subst hq
        rw [hx] at hu
        simp only [Option.some.injEq] at hu
        subst hu
        exact ⟨x', by simp, h1, h2, h5, h6, h8, h10⟩
      · exact ⟨u, by simp [hq, hu], rfl, rfl, rfl, rfl, rfl, rfl⟩
    by_cases hit : i = t
    · subst hit
      simp only [set_txns, if_true, Option.some.injEq] at hz
      subst hz
      have ok := hi.ok i x hx
      refine ⟨ok.lt, ?_, ?_, by rw [h3, h2]; exact ok.tch, by rw [h4, h6]; exact ok.flg, ?_, ?_, ?_, ?_, ?_, ?_, ?_⟩
      · intro p hp
        rw [h1] at hp
        obtain ⟨a1, y, a2, a3, a4, a5, a6, a7⟩ := ok.par p hp
        obtain ⟨y', b1, b2, b3, b4, b5, b6, b7⟩ := hget p y a2
        refine ⟨a1, y', b1, by rw [b3, a3], by rw [b4, a4, h5], by rw [b5, a5, h6], ?_, ?_⟩
        · rw [h8, b6]; exact a6
        · rw [h6, h10, b7]; exact a7
      · intro c hc
        rw [h2] at hc
        obtain ⟨u, a1, a2⟩ := ok.chi c hc
        obtain ⟨u', b1, b2, _⟩ := hget c u a1
        exact ⟨u', b1, by rw [b2, a2]⟩
      · rcases h7 with h | ⟨h, h', h''⟩
        · rw [h, h1, h8]; exact ok.st
        · exact Or.inr ⟨h, by rw [h1]; exact h', h''⟩
      · intro hl
        have hl' : x.logged = false := by rw [← h8]; exact hl
        have := ok.unl hl'
        exact ⟨by rw [h9]; exact this.1, by rw [h11 hl]; exact this.2.1, this.2.2⟩
      · rw [h6, h10, h1]; exact ok.dep
      · rw [h9]; exact ok.roll
      · rw [h1]
        intro hp
        rw [h12 hp]
        exact ok.lck hp
      · rw [h8, h1]; exact ok.lpar
      · rw [h6, h8]; exact ok.rolog
    · simp only [set_txns, hit, if_false] at hz
      have ok := hi.ok i z hz
      refine ⟨ok.lt, ?_, ?_, ok.tch, ok.flg, ok.st, ok.unl, ok.dep, ok.roll, ok.lck, ok.lpar, ok.rolog⟩
      · intro p hp
        obtain ⟨a1, y, a2, a3, a4, a5, a6, a7⟩ := ok.par p hp
        obtain ⟨y', b1, b2, b3, b4, b5, b6, b7⟩ := hget p y a2
        refine ⟨a1, y', b1, by rw [b3, a3], by rw [b4, a4], by rw [b5, a5], ?_, ?_⟩
        · rw [b6]; exact a6
        · rw [b7]; exact a7
      · intro c hc
        obtain ⟨u, a1, a2⟩ := ok.chi c hc
        obtain ⟨u', b1, b2, _⟩ := hget c u a1
        exact ⟨u', b1, by rw [b2, a2]⟩
  · intro i hge
    obtain ⟨a1, a2, a3⟩ := hi.fut i hge
    refine ⟨?_, a2, a3⟩
    have : i ≠ t := by intro h; subst h; rw [hx] at a1; cases a1
    simp [this, a1]

theorem inv_fsync {e : Env} (hi : Inv e) (n : Nat) : Inv { e with fsynced := n } := by
  obtain ⟨h1, h2, h3, h4⟩ := hi
  refine ⟨?_, h2, h3, h4⟩
  intro t x hx
  obtain ⟨a1, a2, a3, a4, a5, a6, a7, a8, a9, a10, a11, a12⟩ := h1 t x hx
  exact ⟨a1, a2, a3, a4, a5, a6, a7, a8, a9, a10, a11, a12⟩

theorem inv_maybeFsync {e : Env} (hi : Inv e) (n : Nat) (b : Bool) : Inv (maybeFsync e n b) := by
  cases b
  · exact hi
  · exact inv_fsync hi _

/-- A record that neither begins a transaction nor moves work. -/
theorem inv_append_prepare {e : Env} (hi : Inv e) (t : Id) : Inv (e.append (.prepare t)) := by
  have hsur : ∀ i, surviving (e.log ++ [.prepare t]) i = surviving e.log i := by
    intro i; rw [surviving_append]; rfl
  have hpar : ∀ i, parentIn (e.log ++ [.prepare t]) i = parentIn e.log i := by
    intro i; exact parentIn_append _ _ _ (by simp)
  refine ⟨?_, ?_, hi.open_, hi.rel⟩
  · intro i x hx
    obtain ⟨a1, a2, a3, a4, a5, a6, a7, a8, a9, a10, a11, a12⟩ := hi.ok i x hx
    refine ⟨a1, a2, a3, a4, a5, a6, ?_, a8, by rw [append_log, hsur]; exact a9, a10,
      by rw [append_log, hpar]; exact fun h => ⟨List.mem_append_left _ (a11 h).1, (a11 h).2⟩, a12⟩
    intro h
    have := a7 h
    exact ⟨this.1, this.2.1, by simpa [append_log] using this.2.2⟩
  · intro i hge
    have := hi.fut i hge
    exact ⟨this.1, by rw [append_log, hsur]; exact this.2.1, by simpa [append_log] using this.2.2⟩

theorem prepareSelf_ok {e : Env} (hi : Inv e) {t : Id} {x : Txn} (hx : e.txns t = some x)
    (hc : x.child = none) (hs : x.state ≠ .preparing) (hp : x.parent = none) (w : Word) :
    ∃ e', prepareSelf e t w = some (e', .ok) ∧ Inv e' ∧ e'.next = e.next ∧ e'.trace = e.trace ∧
      e'.log = e.log ++ (if x.logged then [.prepare t] else []) ∧ e'.panicked = e.panicked ∧
      e.fsynced ≤ e'.fsynced ∧ (e.fsynced ≤ e.log.length → e'.fsynced ≤ e'.log.length) ∧
      (x.logged = true → (x.force = true ∨ (has w bNoSync = false ∧ has x.flags bNoSync = false ∧ 0 < x.nRoll)) →
        e'.log.length ≤ e'.fsynced) ∧
      ∀ i, ∃ s d l, e'.txns i = (e.txns i).map (fun y => if i = t then
        { y with state := s, doFsync := d, fsyncLsn := l } else y) := by
  have ok := hi.ok t x hx
  have hst : x.state = .live := by
    rcases ok.st with h | h
    · exact h
    · exact absurd h.1 hs
  have hro := isReadOnly_eq x (fun h => ⟨(ok.unl h).1, (ok.unl h).2.1⟩)
  simp only [prepareSelf, hx, hc, Option.isSome_none, Bool.false_eq_true, if_false, hro]
  cases hl : x.logged with
  | false =>
    simp only [Bool.not_false]
    refine ⟨_, rfl, inv_maybeFsync hi _ _, ?_, ?_, ?_, ?_, ?_, ?_, ?_, ?_⟩
    · simp only [maybeFsync]; split <;> rfl
    · simp only [maybeFsync]; split <;> rfl
    · simp only [maybeFsync]; split <;> simp
    · simp only [maybeFsync]; split <;> rfl
    · simp only [maybeFsync]; split
      · exact Nat.le_max_left _ _
      · exact Nat.le_refl _
    · intro h
      simp only [maybeFsync, (ok.unl hl).2.1]; split
      · simpa using h
      · exact h
    · intro h; cases h
    · intro i
      refine ⟨x.state, x.doFsync, x.fsyncLsn, ?_⟩
      have : (maybeFsync e x.fsyncLsn x.doFsync).txns i = e.txns i := by
        simp only [maybeFsync]; split <;> rfl
      rw [this]
      by_cases hit : i = t
      · subst hit; simp [hx]
      · cases e.txns i <;> simp [hit]
  | true =>
    simp only [Bool.not_true, hst, ne_eq, not_true_eq_false, if_false]
    refine ⟨_, rfl, inv_maybeFsync ?_ _ _, ?_, ?_, ?_, ?_, ?_, ?_, ?_, ?_⟩
    · refine inv_set (inv_append_prepare hi t) (x := x) (by simpa using hx) rfl hc.symm rfl rfl rfl rfl ?_ ?_ rfl rfl ?_ ?_
      · exact Or.inr ⟨rfl, hp, rfl⟩
      · exact hl.symm
      · intro h; cases h
      · intro _; rfl
    · simp only [maybeFsync]; split <;> rfl
    · simp only [maybeFsync]; split <;> rfl
    · simp only [maybeFsync]; split <;> rfl
    · simp only [maybeFsync]; split <;> rfl
    · simp only [maybeFsync]; split
      · exact Nat.le_max_left _ _
      · exact Nat.le_refl _
    · intro h
      have : (e.append (.prepare t)).fsynced = e.fsynced := rfl
      simp only [maybeFsync]; split
      · simp; omega
      · simp; omega
    · intro _ h
      have : (x.force || !(w &&& DB_TXN_NOSYNC != 0#32 || x.flags &&& DB_TXN_NOSYNC != 0#32) &&
          decide (x.nRoll > 0)) = true := by
        rw [nosync_bit, nosync_bit]
        rcases h with h | ⟨h1, h2, h3⟩
        · simp [h]
        · simp [h1, h2, h3]
      simp only [maybeFsync, this, if_true]
      simp
      exact Nat.le_max_right _ _
    · intro i
      by_cases hit : i = t
      · subst hit
        refine ⟨.preparing, x.force || !(w &&& DB_TXN_NOSYNC != 0#32 || x.flags &&& DB_TXN_NOSYNC != 0#32) &&
          decide (x.nRoll > 0), (e.append (.prepare i)).log.length, ?_⟩
        simp only [maybeFsync]
        split <;> simp only [set_txns, if_true, hx, Option.map_some, hc, hl]
      · refine ⟨.live, false, 0, ?_⟩
        simp only [maybeFsync]
        split <;> cases hz : e.txns i <;> simp [hit, hz]

theorem discard_self {e : Env} (hi : Inv e) {t : Id} {x : Txn} (hx : e.txns t = some x)
    (hc : x.child = none) (w : Word) :
    discard e t w = some (e, .einval) ∨ ∃ e', discard e t w = some (e', .ok) ∧ Inv e' ∧
      e'.log = e.log ∧ e'.fsynced = e.fsynced ∧ e'.next = e.next ∧
      e'.trace = e.trace ++ [.complete t, .release t] ∧
      ∀ i, e'.txns i = if i = t then none else e.txns i := by
  have ok := hi.ok t x hx
  by_cases hw : w = 0#32
  · by_cases hs : x.state = .preparing
    · right
      have hp : x.parent = none := by
        rcases ok.st with h | h
        · rw [h] at hs; cases hs
        · exact h.2.1
      obtain ⟨e1, e2, h1, h2, h3⟩ := destroy_release hx (by rw [hs]; simp)
        (by rw [hp]; simp) 0 false
      simp only [maybeFsync, Bool.false_eq_true, if_false] at h3
      refine ⟨finished e t x, ?_, ?_, rfl, rfl, rfl, rfl, ?_⟩
      · simp only [discard, hw, ne_eq, not_true_eq_false, if_false, hx, hs, h1, h2, h3]
      · have h5 := inv_ended hi hx hc true false false
        -- the same state as after an abort, but for the log record
        have hsame : ∀ i, (finished e t x).txns i = (ended e t x true false false).txns i := by
          intro i
          simp [finished, ended, hp]
        refine ⟨?_, ?_, hi.open_, h5.rel⟩
        · intro i z hz
          have hz' : e.txns i = some z ∧ i ≠ t := by
            simp only [finished, hp] at hz
            by_cases hit : i = t
            · simp [hit] at hz
            · simp [hit] at hz; exact ⟨hz, hit⟩
          have okz := hi.ok i z hz'.1
          obtain ⟨a1, a2, a3, a4, a5, a6, a7, a8, a9, a10, a11, a12⟩ := okz
          refine ⟨a1, ?_, ?_, a4, a5, a6, a7, a8, a9, a10, a11, a12⟩
          · intro q hq
            obtain ⟨b1, u, b2, b3⟩ := a2 q hq
            refine ⟨b1, u, ?_, b3⟩
            have : q ≠ t := by
              intro h; subst h
              rw [hx] at b2
              simp only [Option.some.injEq] at b2
              subst b2
              rw [hc] at b3; cases b3.1
            simp [finished, this, hp, b2]
          · intro c hcz
            obtain ⟨u, b1, b2⟩ := a3 c hcz
            refine ⟨u, ?_, b2⟩
            have : c ≠ t := by
              intro h; subst h
              rw [hx] at b1
              simp only [Option.some.injEq] at b1
              subst b1
              rw [hp] at b2; cases b2
            simp [finished, this, hp, b1]
        · intro i hge
          obtain ⟨a1, a2, a3⟩ := hi.fut i hge
          exact ⟨by simp [finished, hp, a1], a2, a3⟩
      · intro i
        simp [finished, hp]
    · left
      simp only [discard, hw, ne_eq, not_true_eq_false, if_false, hx, hs, not_false_eq_true, if_true]
  · left
    simp only [discard, ne_eq, hw, not_false_eq_true, if_true]

/-! ### Ancestors -/

theorem root_exists {e : Env} (hi : Inv e) : ∀ n t x, e.txns t = some x → t < n →
    ∃ a y, oldest n e t = some a ∧ Root e t a ∧ e.txns a = some y ∧ y.parent = none := by
  intro n
  induction n with
  | zero => intro t x _ h; exact absurd h (Nat.not_lt_zero t)
  | succ n ih =>
    intro t x hx hn
    simp only [oldest, hx]
    cases hp : x.parent with
    | none => exact ⟨t, x, rfl, .root t x hx hp, hx, hp⟩
    | some p =>
      obtain ⟨h1, y, h2, _⟩ := (hi.ok t x hx).par p hp
      obtain ⟨a, y', a1, a2, a3⟩ := ih p y h2 (Nat.lt_of_lt_of_le h1 (Nat.le_of_lt_succ hn))
      exact ⟨a, y', a1, .child t x p a hx hp a2, a3⟩

theorem lock_ok {e : Env} (hi : Inv e) {t : Id} {x : Txn} (hx : e.txns t = some x) (k : Nat) :
    ∃ a y, Root e t a ∧ e.txns a = some y ∧ y.parent = none ∧
      lock e t k = some (e.set a (some { y with locks := y.locks ++ [k] }), .ok) ∧
      Inv (e.set a (some { y with locks := y.locks ++ [k] })) := by
  have hlt : t < e.next + 1 := Nat.lt_succ_of_lt (hi.ok t x hx).lt
  obtain ⟨a, y, h1, h2, h3, h4⟩ := root_exists hi (e.next + 1) t x hx hlt
  refine ⟨a, y, h2, h3, h4, ?_, ?_⟩
  · simp only [lock, h1, h3]
  · exact inv_set hi h3 rfl rfl rfl rfl rfl rfl (Or.inl rfl) rfl rfl rfl (fun _ => rfl) (by simp [h4])


theorem inv_append_begin {e : Env} (hi : Inv e) {t : Id} {x : Txn} (hx : e.txns t = some x)
    (hl : x.logged = false) (hro : x.ro = false)
    (hp : ∀ p, x.parent = some p → ∃ y, e.txns p = some y ∧ y.logged = true) (q : Option Id)
    (hq : x.parent = q) :
    Inv ((e.append (.begin t q)).set t (some { x with logged := true })) := by
  subst hq
  have ok := hi.ok t x hx
  have hsur : ∀ i, surviving (e.log ++ [.begin t x.parent]) i = surviving e.log i := by
    intro i; rw [surviving_append]; rfl
  have hpar : ∀ i, i ≠ t → parentIn (e.log ++ [.begin t x.parent]) i = parentIn e.log i := by
    intro i hit
    exact parentIn_append _ _ _ (by intro p h; simp only [Rec.begin.injEq] at h; exact hit h.1.symm)
  have hchild : ∀ i z, e.txns i = some z → z.parent = some t → z.logged = false := by
    intro i z hz hzp
    obtain ⟨_, y, hy, _, _, _, h, _⟩ := (hi.ok i z hz).par t hzp
    rw [hx] at hy
    simp only [Option.some.injEq] at hy
    subst hy
    cases hzl : z.logged
    · rfl
    · rw [h hzl] at hl; cases hl
  refine ⟨?_, ?_, hi.open_, hi.rel⟩
  · intro i z hz
    by_cases hit : i = t
    · subst hit
      simp only [set_txns, if_true, Option.some.injEq] at hz
      subst hz
      obtain ⟨a1, a2, a3, a4, a5, a6, a7, a8, a9, a10, a11, a12⟩ := ok
      refine ⟨a1, ?_, ?_, a4, a5, ?_, ?_, a8, ?_, a10, ?_, ?_⟩
      · intro p hpp
        obtain ⟨b1, y, b2, b3, b4, b5, b6, b7⟩ := a2 p hpp
        obtain ⟨y', c1, c2⟩ := hp p hpp
        rw [b2] at c1
        simp only [Option.some.injEq] at c1
        subst c1
        have : p ≠ i := Nat.ne_of_lt b1
        exact ⟨b1, y, by simp [this, b2], b3, b4, b5, fun _ => c2, b7⟩
      · intro c hc
        obtain ⟨u, b1, b2⟩ := a3 c hc
        have hci : c ≠ i := by
          intro h; subst h
          rw [hx] at b1
          simp only [Option.some.injEq] at b1
          subst b1
          exact absurd (a2 c b2).1 (Nat.lt_irrefl c)
        exact ⟨u, by simp [hci, b1], b2⟩
      · rcases a6 with h | h
        · exact Or.inl h
        · exact Or.inr ⟨h.1, h.2.1, rfl⟩
      · intro h; cases h
      · show x.nRoll = surviving (e.log ++ [.begin i x.parent]) i
        rw [hsur]; exact a9
      · intro _
        exact ⟨List.mem_append_right _ (by simp), parentIn_begin _ _ _ (a7 hl).2.2⟩
      · intro h
        simp only [] at h
        rw [hro] at h; cases h
    · simp only [set_txns, hit, if_false, append_txns] at hz
      obtain ⟨a1, a2, a3, a4, a5, a6, a7, a8, a9, a10, a11, a12⟩ := hi.ok i z hz
      refine ⟨a1, ?_, ?_, a4, a5, a6, ?_, a8, ?_, a10, ?_, a12⟩
      · intro p hpp
        obtain ⟨b1, y, b2, b3, b4, b5, b6, b7⟩ := a2 p hpp
        by_cases hpt : p = t
        · subst hpt
          rw [hx] at b2
          simp only [Option.some.injEq] at b2
          subst b2
          exact ⟨b1, { x with logged := true }, by simp, b3, b4, b5, fun _ => rfl, b7⟩
        · exact ⟨b1, y, by simp [hpt, b2], b3, b4, b5, b6, b7⟩
      · intro c hc
        obtain ⟨u, b1, b2⟩ := a3 c hc
        by_cases hct : c = t
        · subst hct
          rw [hx] at b1
          simp only [Option.some.injEq] at b1
          subst b1
          exact ⟨{ x with logged := true }, by simp, b2⟩
        · exact ⟨u, by simp [hct, b1], b2⟩
      · intro h
        have := a7 h
        refine ⟨this.1, this.2.1, ?_⟩
        intro p
        simp only [set_log, append_log, List.mem_append, List.mem_singleton, Rec.begin.injEq, not_or, not_and]
        exact ⟨this.2.2 p, fun h2 => absurd h2 hit⟩
      · show z.nRoll = surviving (e.log ++ [.begin t x.parent]) i
        rw [hsur]; exact a9
      · intro h
        show _ ∈ e.log ++ [.begin t x.parent] ∧ parentIn (e.log ++ [.begin t x.parent]) i = z.parent
        rw [hpar i hit]; exact ⟨List.mem_append_left _ (a11 h).1, (a11 h).2⟩
  · intro i hge
    have hge' : e.next ≤ i := hge
    obtain ⟨b1, b2, b3⟩ := hi.fut i hge'
    have hit : i ≠ t := by intro h; subst h; rw [hx] at b1; cases b1
    refine ⟨by simp [hit, b1], ?_, ?_⟩
    · show surviving (e.log ++ [.begin t x.parent]) i = 0
      rw [hsur]; exact b2
    · intro p
      simp only [set_log, append_log, List.mem_append, List.mem_singleton, Rec.begin.injEq, not_or, not_and]
      exact ⟨b3 p, fun h2 => absurd h2 hit⟩

/-- Logging the begin of a transaction and of its ancestors. -/
theorem logBegin_ok : ∀ n {e : Env}, Inv e → ∀ t x, e.txns t = some x → t < n → x.ro = false →
    ∃ e', logBegin n e t = some e' ∧ Inv e' ∧ e'.next = e.next ∧ e'.panicked = e.panicked ∧
      e'.fsynced = e.fsynced ∧ e'.trace = e.trace ∧
      (∃ l, e'.log = e.log ++ l ∧ ∀ r ∈ l, ∃ u p, r = Rec.begin u p) ∧
      (∀ i, i ≤ t → ∃ b, e'.txns i = (e.txns i).map (fun z => { z with logged := z.logged || b })) ∧
      (∀ i, t < i → e'.txns i = e.txns i) ∧
      (∃ x', e'.txns t = some x' ∧ x'.logged = true) := by
  intro n
  induction n with
  | zero => intro e _ t x _ h; exact absurd h (Nat.not_lt_zero t)
  | succ n ih =>
    intro e hi t x hx hn hro
    simp only [logBegin, hx]
    cases hl : x.logged with
    | true =>
      simp only [if_true]
      refine ⟨e, rfl, hi, rfl, rfl, rfl, rfl, ⟨[], by simp, by simp⟩, ?_, fun _ _ => rfl, x, hx, hl⟩
      intro i _
      refine ⟨false, ?_⟩
      cases e.txns i <;> simp
    | false =>
      simp only [Bool.false_eq_true, if_false]
      cases hp : x.parent with
      | none =>
        simp only [append_txns, hx]
        have hinv := inv_append_begin hi hx hl hro (by rw [hp]; simp) _ hp
        refine ⟨_, rfl, ?_, rfl, rfl, rfl, rfl, ⟨_, rfl, ?_⟩, ?_, ?_, ?_⟩
        · exact hinv
        · simp
        · intro i hle
          by_cases hit : i = t
          · subst hit; exact ⟨true, by simp [hx]⟩
          · refine ⟨false, ?_⟩
            simp only [set_txns, hit, if_false, append_txns]
            cases e.txns i <;> simp
        · intro i hlt
          have : i ≠ t := fun h => by rw [h] at hlt; exact Nat.lt_irrefl _ hlt
          simp [this]
        · exact ⟨_, by simp only [set_txns, if_true]; rfl, rfl⟩
      | some p =>
        obtain ⟨h1, y, h2, _, _, hyro, _⟩ := (hi.ok t x hx).par p hp
        obtain ⟨e1, g1, g2, g3, g4, g5, g6, ⟨l, g7, g8⟩, g9, g10, ⟨y', g11, g12⟩⟩ :=
          ih hi p y h2 (Nat.lt_of_lt_of_le h1 (Nat.le_of_lt_succ hn)) (by rw [hyro, hro])
        have hx1 : e1.txns t = some x := by rw [g10 t h1, hx]
        have hinv := inv_append_begin g2 hx1 hl hro (by
          intro q hq
          rw [hp] at hq
          simp only [Option.some.injEq] at hq
          subst hq
          exact ⟨y', g11, g12⟩) _ hp
        simp only [g1, append_txns, hx1]
        refine ⟨_, rfl, hinv, g3, g4, g5, g6, ⟨l ++ [.begin t (some p)], ?_, ?_⟩, ?_, ?_, ?_⟩
        · simp [g7]
        · intro r hr
          rcases List.mem_append.1 hr with h | h
          · exact g8 r h
          · simp at h; exact ⟨_, _, h⟩
        · intro i hle
          by_cases hit : i = t
          · subst hit; exact ⟨true, by simp [hx]⟩
          · rcases Nat.lt_or_ge p i with hpi | hpi
            · refine ⟨false, ?_⟩
              simp only [set_txns, hit, if_false, append_txns, g10 i hpi]
              cases e.txns i <;> simp
            · obtain ⟨b, hb⟩ := g9 i hpi
              exact ⟨b, by simp [hit, hb]⟩
        · intro i hlt
          have : i ≠ t := fun h => by rw [h] at hlt; exact Nat.lt_irrefl _ hlt
          simp only [set_txns, this, if_false, append_txns]
          exact g10 i (Nat.lt_trans h1 hlt)
        · exact ⟨_, by simp only [set_txns, if_true]; rfl, rfl⟩

theorem inv_work {e : Env} (hi : Inv e) {t : Id} {x : Txn} (hx : e.txns t = some x)
    (hl : x.logged = true) : Inv ((e.append (.work t)).set t (some { x with nRoll := x.nRoll + 1 })) := by
  have hsur : ∀ i, surviving (e.log ++ [.work t]) i = if i = t then surviving e.log i + 1 else surviving e.log i := by
    intro i; rw [surviving_append]; rfl
  have hpar : ∀ i, parentIn (e.log ++ [.work t]) i = parentIn e.log i := by
    intro i; exact parentIn_append _ _ _ (by simp)
  have hget : ∀ q u, e.txns q = some u → ∃ u', ((e.append (.work t)).set t (some { x with nRoll := x.nRoll + 1 })).txns q = some u' ∧
        u'.parent = u.parent ∧ u'.child = u.child ∧ u'.iso = u.iso ∧ u'.ro = u.ro ∧
        u'.logged = u.logged ∧ u'.nXids = u.nXids := by
      intro q u hu
      by_cases hq : q = t
      · subst hq
        rw [hx] at hu
        simp only [Option.some.injEq] at hu
        subst hu
        exact ⟨{ x with nRoll := x.nRoll + 1 }, by simp, rfl, rfl, rfl, rfl, rfl, rfl⟩
      · exact ⟨u, by simp [hq, hu], rfl, rfl, rfl, rfl, rfl, rfl⟩
  refine ⟨?_, ?_, hi.open_, hi.rel⟩
  · intro i z hz
    have hz' : ∃ z0, e.txns i = some z0 ∧ z = { z0 with nRoll := if i = t then z0.nRoll + 1 else z0.nRoll } := by
      by_cases hit : i = t
      · subst hit
        simp only [set_txns, if_true, Option.some.injEq] at hz
        exact ⟨x, hx, by simp [hz]⟩
      · simp only [set_txns, hit, if_false, append_txns] at hz
        exact ⟨z, hz, by simp [hit]⟩
    obtain ⟨z0, hz0, rfl⟩ := hz'
    obtain ⟨a1, a2, a3, a4, a5, a6, a7, a8, a9, a10, a11, a12⟩ := hi.ok i z0 hz0
    refine ⟨a1, ?_, ?_, a4, a5, a6, ?_, a8, ?_, a10, ?_, a12⟩
    · intro p hp
      obtain ⟨b1, y, b2, b3, b4, b5, b6, b7⟩ := a2 p hp
      obtain ⟨y', c1, c2, c3, c4, c5, c6, c7⟩ := hget p y b2
      exact ⟨b1, y', c1, by rw [c3, b3], by rw [c4, b4], by rw [c5, b5], by rw [c6]; exact b6,
        by rw [c7]; exact b7⟩
    · intro c hc
      obtain ⟨u, b1, b2⟩ := a3 c hc
      obtain ⟨u', c1, c2, _⟩ := hget c u b1
      exact ⟨u', c1, by rw [c2, b2]⟩
    · intro h
      have hit : i ≠ t := by
        intro h2; subst h2
        rw [hx] at hz0
        simp only [Option.some.injEq] at hz0
        subst hz0
        simp only [hl] at h
        cases h
      have := a7 h
      refine ⟨by simp [hit, this.1], this.2.1, ?_⟩
      intro p
      simpa using this.2.2 p
    · show (if i = t then z0.nRoll + 1 else z0.nRoll) = surviving (e.log ++ [.work t]) i
      rw [hsur, a9]
    · intro h
      show _ ∈ e.log ++ [.work t] ∧ parentIn (e.log ++ [.work t]) i = z0.parent
      rw [hpar]; exact ⟨List.mem_append_left _ (a11 h).1, (a11 h).2⟩
  · intro i hge
    have hge' : e.next ≤ i := hge
    obtain ⟨b1, b2, b3⟩ := hi.fut i hge'
    have hit : i ≠ t := by intro h; subst h; rw [hx] at b1; cases b1
    refine ⟨by simp [hit, b1], ?_, ?_⟩
    · show surviving (e.log ++ [.work t]) i = 0
      rw [hsur]; simp [hit, b2]
    · intro p; simpa using b3 p

theorem Root.unique {e : Env} {t a : Id} (h : Root e t a) : ∀ b, Root e t b → a = b := by
  induction h with
  | root t x hx hp =>
    intro b hb
    cases hb with
    | root _ y hy hpy => rfl
    | child _ y p b' hy hpy _ =>
      rw [hx] at hy; simp only [Option.some.injEq] at hy; subst hy
      rw [hp] at hpy; cases hpy
  | child t x p a hx hp _ ih =>
    intro b hb
    cases hb with
    | root _ y hy hpy =>
      rw [hx] at hy; simp only [Option.some.injEq] at hy; subst hy
      rw [hp] at hpy; cases hpy
    | child _ y p' b' hy hpy hb =>
      rw [hx] at hy; simp only [Option.some.injEq] at hy; subst hy
      rw [hp] at hpy
      simp only [Option.some.injEq] at hpy; subst hpy
      exact ih b hb

/-- A row operation: refused, or logged and charged. -/
theorem write_ok {e : Env} (hi : Inv e) (hpan : e.panicked = false) {t : Id} {x : Txn}
    (hx : e.txns t = some x) (k : Nat) :
    (write e t k = some (e, .einval) ∧ (x.child ≠ none ∨ x.ro = true)) ∨
    (x.child = none ∧ x.ro = false ∧ ∃ e' a y, write e t k = some (e', .ok) ∧ Inv e' ∧ e'.next = e.next ∧
      e'.panicked = e.panicked ∧ e'.fsynced = e.fsynced ∧ e'.trace = e.trace ∧
      (∃ l, e'.log = e.log ++ l ++ [.work t] ∧ ∀ r ∈ l, ∃ u p, r = Rec.begin u p) ∧
      Root e t a ∧ e.txns a = some y ∧ y.parent = none ∧
      (∀ i, ∃ b n, e'.txns i = (e.txns i).map (fun z => { z with
        logged := b, nRoll := n, locks := if i = a then z.locks ++ [k] else z.locks }))) := by
  have ok := hi.ok t x hx
  simp only [write, hpan, Bool.false_eq_true, if_false, hx, ro_bit, ok.flg]
  cases hc : x.child with
  | some c => left; simp
  | none =>
    simp only [Option.isSome_none, Bool.false_eq_true, if_false]
    cases hro : x.ro with
    | true => left; simp
    | false =>
      right
      simp only [Bool.false_eq_true, if_false, true_and]
      obtain ⟨a, y, h1, h2, h3, h4, h5⟩ := lock_ok hi hx k
      simp only [h4]
      generalize he1 : e.set a (some { y with locks := y.locks ++ [k] }) = e1 at *
      have hx1 : ∃ x1, e1.txns t = some x1 ∧ x1.ro = false := by
        subst he1
        by_cases hta : t = a
        · subst hta
          rw [hx] at h2; simp only [Option.some.injEq] at h2; subst h2
          exact ⟨{ x with locks := x.locks ++ [k] }, by simp, hro⟩
        · exact ⟨x, by simp [hta, hx], hro⟩
      obtain ⟨x1, hx1, hro1⟩ := hx1
      have hnx : e1.next = e.next := by subst he1; rfl
      have hlt : t < e1.next + 1 := by rw [hnx]; exact Nat.lt_succ_of_lt ok.lt
      obtain ⟨e2, g1, g2, g3, g4, g5, g6, ⟨l, g7, g8⟩, g9, g10, ⟨x2, g11, g12⟩⟩ :=
        logBegin_ok (e1.next + 1) h5 t x1 hx1 hlt hro1
      simp only [g1, append_txns, g11]
      have hst : x2.state = .live ∨ x2.state = .preparing := by
        rcases (g2.ok t x2 g11).st with h | h
        · exact Or.inl h
        · exact Or.inr h.1
      simp only [hst, if_true]
      refine ⟨_, a, y, rfl, inv_work g2 g11 g12, by rw [← hnx]; exact g3, ?_, ?_, ?_, ⟨l, ?_, g8⟩, h1, h2, h3, ?_⟩
      · show e2.panicked = false
        rw [g4]; subst he1; exact hpan
      · show e2.fsynced = e.fsynced
        rw [g5]; subst he1; rfl
      · show e2.trace = e.trace
        rw [g6]; subst he1; rfl
      · show e2.log ++ [.work t] = _
        rw [g7]; subst he1; rfl
      · intro i
        have hi1 : e1.txns i = (e.txns i).map (fun z => { z with locks := if i = a then z.locks ++ [k] else z.locks }) := by
          subst he1
          by_cases hia : i = a
          · subst hia; simp [h2]
          · simp only [set_txns, hia, if_false]
            cases e.txns i <;> simp
        have hi2 : ∃ b, e2.txns i = (e1.txns i).map (fun z => { z with logged := z.logged || b }) := by
          rcases Nat.lt_or_ge t i with h | h
          · refine ⟨false, ?_⟩
            rw [g10 i h]
            cases e1.txns i <;> simp
          · exact g9 i h
        obtain ⟨b, hi2⟩ := hi2
        by_cases hit : i = t
        · subst hit
          rw [g11, hi1, hx] at hi2
          simp only [Option.map_some, Option.some.injEq] at hi2
          refine ⟨x.logged || b, x2.nRoll + 1, ?_⟩
          simp only [set_txns, if_true, hx, Option.map_some, hi2]
        · simp only [set_txns, hit, if_false, append_txns, hi2, hi1]
          cases hz : e.txns i with
          | none => exact ⟨false, 0, by simp⟩
          | some z => exact ⟨z.logged || b, z.nRoll, by simp⟩

end Verif.Ydb
