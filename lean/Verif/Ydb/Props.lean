import Verif.Ydb.Hist

/-!
Properties of transaction handles: what `txn_begin` decides (C18), how a transaction and the ones
begun inside it end (C55), when a commit is on disk (C56) and how long row locks last (C57).
-/

set_option linter.unusedVariables false

namespace Verif.Ydb

open Spec

/-! ### Concrete histories used to show that hypotheses are met -/

/-- The client's contract as a test. -/
def legalB (e : Env) : Op → Bool
  | .begin none _ => true
  | .begin (some p) _ => (e.txns p).isSome
  | .commit t _ => (e.txns t).isSome
  | .abort t => (e.txns t).isSome
  | .prepare t _ => (e.txns t).any (fun x => decide (x.state ≠ .preparing))
  | .discard t _ => (e.txns t).any (fun x => x.child.isNone)
  | .write t _ => (e.txns t).isSome
  | .lock t _ => (e.txns t).isSome

/-- Run requests that keep the contract. -/
def runAll : Env → List Op → Option Env
  | e, [] => some e
  | e, op :: ops => if legalB e op then (step e op).bind (fun s => runAll s.1 ops) else none

theorem legalB_ok {e : Env} {op : Op} (h : legalB e op = true) : Legal e op := by
  cases op with
  | «begin» p w => cases p <;> simp_all [legalB, Legal]
  | prepare t w =>
    simp only [legalB, Option.any_eq_true, decide_eq_true_eq] at h
    exact h
  | discard t w =>
    simp only [legalB, Option.any_eq_true, Option.isNone_iff_eq_none] at h
    exact h
  | _ => exact h

theorem runAll_reach : ∀ ops {e e' : Env}, Reach e → runAll e ops = some e' → Reach e' := by
  intro ops
  induction ops with
  | nil => intro e e' h h'; cases h'; exact h
  | cons op ops ih =>
    intro e e' h h'
    simp only [runAll] at h'
    split at h'
    · rename_i hl
      cases hs : step e op with
      | none => rw [hs] at h'; cases h'
      | some s =>
        rw [hs] at h'
        exact ih (.step e op s.1 s.2 h (legalB_ok hl) hs) h'
    · cases h'

/-- A history with a property gives a reachable state with it. -/
theorem witness {P : Env → Prop} (ops : List Op) (q : Env → Bool) (hq : ∀ e, q e = true → P e)
    (h : (runAll Env.init ops).any q = true) : ∃ e, Reach e ∧ P e := by
  obtain ⟨e, h1, h2⟩ := (Option.any_eq_true _ _).1 h
  exact ⟨e, runAll_reach ops .init h1, hq e h2⟩

/-- A root transaction (0), one inside it (1) and one inside that (2), and another root (3); rows
were changed in 0, 2 and 3. -/
def story : List Op :=
  [.begin none 0#32, .write 0 10, .begin (some 0) 0#32, .begin (some 1) 0#32, .write 2 11,
   .begin none DB_READ_COMMITTED, .write 3 12]

/-! ### C18: beginning -/

/-- **C18.** A root transaction: for every flag word, either it begins with exactly the promised
isolation level and access, or the word promises nothing and nothing happens. -/
theorem begin_root {e : Env} (hr : Reach e) (hp : e.panicked = false) (w : Word) :
    (∃ iso ro e' x, BeginOK w none iso ro ∧ begin e none w = some (e', .ok) ∧
      e.txns e.next = none ∧ e'.txns e.next = some x ∧ x.parent = none ∧ x.child = none ∧
      x.iso = iso ∧ x.ro = ro ∧ has x.flags bNoSync = has w bNoSync ∧
      (∀ i, i ≠ e.next → e'.txns i = e.txns i)) ∨
    ((∀ iso ro, ¬ BeginOK w none iso ro) ∧ begin e none w = some (e, .einval)) := by
  have hi := (reach_inv hr).1
  rcases begin_ok hi hp none none rfl w with ⟨h, h1 | h1 | h1⟩ | ⟨tf, iso, ro, n, e', h1, h2, h3, h4, h5, h6, h7⟩
  · obtain ⟨y, hy, _⟩ := h1; cases hy
  · exact Or.inr ⟨h1, h⟩
  · obtain ⟨y, hy, _⟩ := h1; cases hy
  · left
    subst h7
    refine ⟨iso, ro, _, ⟨none, none, none, tf, iso, snapType iso, ro, .live,
              false, false, 0, 0, false, n, []⟩, h4, h1, (hi.fut _ (Nat.le_refl _)).1, ?_, rfl, rfl, rfl, rfl,
      h6, ?_⟩
    · simp
    · intro i h8; simp [h8]

/-- **C18.** A nested transaction: it begins exactly if the parent has no other child, the flags
promise a child of this parent, and, unless it is read-only, the parent is nested at most 252 deep.
It then runs at the parent's isolation level and is read-only exactly if the parent is. A refused
request changes nothing. -/
theorem begin_nested {e : Env} (hr : Reach e) (hp : e.panicked = false) (w : Word) {p : Id} {y : Txn}
    (hy : e.txns p = some y) {d : Nat} (hd : Depth e p d) :
    (∃ iso ro, BeginOK w (some (y.iso, y.ro)) iso ro ∧ y.child = none ∧ (y.ro = true ∨ d ≤ 252) ∧
      ∃ e' x, begin e (some p) w = some (e', .ok) ∧
      e.txns e.next = none ∧ e'.txns e.next = some x ∧ x.parent = some p ∧ x.child = none ∧
      x.iso = y.iso ∧ x.ro = y.ro ∧ has x.flags bNoSync = has w bNoSync ∧
      (∃ y', e'.txns p = some y' ∧ y'.child = some e.next ∧ y'.parent = y.parent) ∧
      (∀ i, i ≠ e.next → i ≠ p → e'.txns i = e.txns i)) ∨
    (((∀ iso ro, ¬ BeginOK w (some (y.iso, y.ro)) iso ro) ∨ y.child ≠ none ∨ (y.ro = false ∧ 252 < d)) ∧
      begin e (some p) w = some (e, .einval)) := by
  have hi := (reach_inv hr).1
  have hlook : parentOf e (some p) = some (some y) := by simp [parentOf, hy]
  have hmax : MAX_TRANSACTION_RECORDS = 254 := rfl
  rcases begin_ok hi hp (some p) (some y) hlook w with
    ⟨h, h1 | h1 | h1⟩ | ⟨tf, iso, ro, n, e', h1, h2, h3, h4, h5, h6, h7⟩
  · obtain ⟨z, hz, h1⟩ := h1
    simp only [Option.some.injEq] at hz; subst hz
    refine Or.inr ⟨Or.inr (Or.inl ?_), h⟩
    intro h2; rw [h2] at h1; cases h1
  · exact Or.inr ⟨Or.inl h1, h⟩
  · obtain ⟨z, hz, h1, h2⟩ := h1
    simp only [Option.some.injEq] at hz; subst hz
    have := depth_nXids hi hd y hy h1
    exact Or.inr ⟨Or.inr (Or.inr ⟨h1, by omega⟩), h⟩
  · left
    have hpn : p ≠ e.next := Nat.ne_of_lt (hi.ok p y hy).lt
    have hiso : iso = y.iso := h4.same _ rfl
    have hro : ro = y.ro := h4.child _ rfl
    refine ⟨iso, ro, h4, (h2 y rfl).1, ?_, e', ⟨some p, none, none, tf, iso, snapType iso, ro, .live,
              false, false, 0, 0, false, n, []⟩, h1, (hi.fut _ (Nat.le_refl _)).1, ?_, rfl, rfl, hiso, hro, h6, ?_, ?_⟩
    · cases hyr : y.ro with
      | true => exact Or.inl rfl
      | false =>
        right
        have h8 := (h2 y rfl).2 (by rw [hro, hyr])
        have := depth_nXids hi hd y hy hyr
        omega
    · subst h7; simp
    · subst h7
      exact ⟨{ y with child := some e.next, tchild := some e.next }, by simp [hpn, hy], rfl, rfl⟩
    · intro i h8 h9
      subst h7
      have : ¬ (p = i) := fun h => h9 h.symm
      simp [h8, this]

/-- **C18.** In every state a client can reach, a nested transaction runs at its parent's level and
with its parent's access, a transaction has at most one child, and writable transactions are nested
at most 253 deep. -/
theorem nested_like_parent {e : Env} (hr : Reach e) {t p : Id} {x : Txn} (hx : e.txns t = some x)
    (hp : x.parent = some p) :
    ∃ y, e.txns p = some y ∧ y.child = some t ∧ x.iso = y.iso ∧ x.ro = y.ro ∧
      ∀ d, Depth e t d → x.ro = false → d ≤ 253 := by
  have hi := (reach_inv hr).1
  obtain ⟨_, y, h1, h2, h3, h4, _⟩ := (hi.ok t x hx).par p hp
  refine ⟨y, h1, h2, h3.symm, h4.symm, ?_⟩
  intro d hd hro
  have := depth_nXids hi hd x hx hro
  have := ((hi.ok t x hx).dep hro).1
  have hmax : MAX_TRANSACTION_RECORDS = 254 := rfl
  omega

/-- The hypotheses are met: in the story, transaction 1 is nested in 0, which is a live root. -/
example : ∃ e, Reach e ∧ e.panicked = false ∧ ∃ x y, e.txns 1 = some x ∧ x.parent = some 0 ∧
    e.txns 0 = some y ∧ y.child = some 1 ∧ Depth e 1 2 := by
  obtain ⟨e, h1, h2⟩ := witness (P := fun e => e.panicked = false ∧ (∃ x, e.txns 1 = some x ∧ x.parent = some 0) ∧
      (∃ y, e.txns 0 = some y ∧ y.child = some 1 ∧ y.parent = none)) story
    (fun e => !e.panicked && (e.txns 1).any (fun x => decide (x.parent = some 0)) &&
      (e.txns 0).any (fun y => decide (y.child = some 1 ∧ y.parent = none)))
    (by
      intro e h
      simp only [Bool.and_eq_true, Bool.not_eq_true', Option.any_eq_true, decide_eq_true_eq] at h
      exact ⟨h.1.1, h.1.2, h.2⟩)
    (by decide +kernel)
  obtain ⟨h2, ⟨x, h3, h4⟩, y, h5, h6, h7⟩ := h2
  exact ⟨e, h1, h2, x, y, h3, h4, h5, h6, .child 1 x 0 1 h3 h4 (.root 0 y h5 h7)⟩

/-- What some words promise: nothing given, serializable; a child asking for its parent's level by
name or by inheritance gets it. -/
example : BeginOK 0#32 none .serializable false ∧
    BeginOK DB_TXN_SNAPSHOT (some (.snapshot, false)) .snapshot false ∧
    (∀ iso ro, ¬ BeginOK DB_TXN_SNAPSHOT (some (.serializable, false)) iso ro) ∧
    (∀ iso ro, ¬ BeginOK (DB_TXN_SNAPSHOT ||| DB_READ_COMMITTED) none iso ro) := by
  have hbits : ∀ w : Word, (∀ b, b < 32 → has w b = true → b ∈ beginBits) → Only w beginBits := by
    intro w h b hb
    rcases Nat.lt_or_ge b 32 with h1 | h1
    · exact h b h1 hb
    · simp [has, BitVec.getLsbD_of_ge w b h1] at hb
  refine ⟨⟨hbits _ (by decide), by decide, by simp, by simp, by simp, by decide⟩,
    ⟨hbits _ (by decide), by decide, ?_, ?_, ?_, by simp⟩, ?_, ?_⟩
  · intro p h; cases h; rfl
  · intro p h; cases h; rfl
  · intro p h h2; exact absurd h2 (by decide)
  · intro iso ro h
    have h1 := h.asked
    have h2 := h.same _ rfl
    subst h2
    exact absurd h1 (by decide)
  · intro iso ro h
    have h1 := h.asked
    have : askedLevel (DB_TXN_SNAPSHOT ||| DB_READ_COMMITTED) none = none := by decide
    simp only [Option.map_none, this] at h1
    cases h1

/-! ### C55: ending -/

theorem filter_began {e : Env} (hi : Inv e) {t : Id} {l : List Id} (hl : Family e t l) (l' : List Id)
    (hs : ∀ i ∈ l', i ∈ l) : l'.filter (loggedIn e) = l'.filter (began e.log) := by
  apply List.filter_congr
  intro i h
  obtain ⟨_, x, hx⟩ := family_gt hi hl i (hs i h)
  rw [began_iff hi hx]
  simp [loggedIn, hx]

/-- **C55.** No request of a client that keeps the contract stops the program. -/
theorem no_crash {e : Env} (hr : Reach e) (op : Op) (hl : Legal e op) :
    ∃ e' r, step e op = some (e', r) := by
  obtain ⟨e', r, h, _⟩ := step_next (reach_inv hr).1 op hl
  exact ⟨e', r, h⟩

/-- **C55.** Commit ends the transaction and every transaction inside it, the innermost first; each
one that is on the log gets its commit record there, in that order and nothing else; no other
transaction is touched, except that the parent is free to begin another child. -/
theorem commit_family {e : Env} (hr : Reach e) (hp : e.panicked = false) {t : Id} {x : Txn}
    (hx : e.txns t = some x) {l : List Id} (hl : Family e t l) {w : Word} (hw : Only w [bSync, bNoSync]) :
    ∃ e', commit e t w = some (e', .ok) ∧ e'.panicked = false ∧
      (∀ i ∈ l, e'.txns i = none) ∧
      (∀ i, i ∉ l → x.parent ≠ some i → e'.txns i = e.txns i) ∧
      (∀ p, x.parent = some p → ∃ y y', e.txns p = some y ∧ e'.txns p = some y' ∧ y'.child = none ∧
        y'.parent = y.parent ∧ y'.locks = y.locks) ∧
      e'.log = e.log ++ (l.reverse.filter (began e.log)).map Rec.commit ∧
      e'.trace = e.trace ++ l.reverse.flatMap (fun i => [Ev.complete i, Ev.release i]) := by
  have hi := (reach_inv hr).1
  obtain ⟨e', h1, h2⟩ := commit_good hi hp hx hl ((bad_iff w).2 hw)
  refine ⟨e', h1, by rw [h2.pan, hp], h2.gone, h2.rest, ?_, ?_, h2.trace⟩
  · intro p hpp
    obtain ⟨_, y, hy, _⟩ := (hi.ok t x hx).par p hpp
    obtain ⟨f, n, h3, _⟩ := h2.par p y hpp hy
    exact ⟨y, _, hy, h3, rfl, rfl, rfl⟩
  · rw [h2.log, filter_began hi hl _ (fun i h => List.mem_reverse.1 h)]

/-- **C55.** Abort commits the transactions inside, the innermost first, and then aborts the
transaction itself, so that nothing of them survives. -/
theorem abort_family {e : Env} (hr : Reach e) (hp : e.panicked = false) {t : Id} {x : Txn}
    (hx : e.txns t = some x) {l : List Id} (hl : Family e t l) :
    ∃ e', abort e t = some (e', .ok) ∧ e'.panicked = false ∧
      (∀ i ∈ l, e'.txns i = none) ∧
      (∀ i, i ∉ l → x.parent ≠ some i → e'.txns i = e.txns i) ∧
      (∀ p, x.parent = some p → ∃ y y', e.txns p = some y ∧ e'.txns p = some y' ∧ y'.child = none ∧
        y'.parent = y.parent ∧ y'.locks = y.locks) ∧
      e'.log = e.log ++ (l.tail.reverse.filter (began e.log)).map Rec.commit ++
        (if began e.log t then [.abort t] else []) ∧
      (∀ i, i ∉ l → surviving e'.log i = surviving e.log i) := by
  have hi := (reach_inv hr).1
  obtain ⟨e', h1, h2, h3, h4, h5, h6, h7, h8⟩ := abort_full hi hp hx hl
  have hlog : e'.log = e.log ++ (l.tail.reverse.filter (began e.log)).map Rec.commit ++
        (if began e.log t then [.abort t] else []) := by
    rw [h7, filter_began hi hl _ (fun i h => List.mem_of_mem_tail (List.mem_reverse.1 h)), began_iff hi hx]
    simp [loggedIn, hx]
  refine ⟨e', h1, h3, h4, h5, ?_, hlog, ?_⟩
  · intro p hpp
    obtain ⟨_, y, hy, _⟩ := (hi.ok t x hx).par p hpp
    exact ⟨y, _, hy, h6 p y hpp hy, rfl, rfl, rfl⟩
  · intro i hil
    -- the commits only move work inside the family
    have hmain : ∀ (l' : List Id) (L : List Rec),
        (∀ j ∈ l', j ∈ l ∧ ∃ z q, e.txns j = some z ∧ z.parent = some q ∧ q ∈ l) →
        surviving L i = surviving e.log i → (∀ j, parentIn L j = parentIn e.log j) →
        surviving (L ++ (l'.filter (began e.log)).map Rec.commit) i = surviving e.log i := by
      intro l'
      induction l' with
      | nil => intro L _ h _; simpa using h
      | cons j l' ih =>
        intro L h g1 g2
        obtain ⟨hj, z, q, hz, hzq, hq⟩ := h j (by simp)
        cases hb : began e.log j with
        | false =>
          simp only [List.filter_cons, hb, Bool.false_eq_true, if_false]
          exact ih L (fun k hk => h k (List.mem_cons_of_mem _ hk)) g1 g2
        | true =>
          simp only [List.filter_cons, hb, if_true, List.map_cons]
          rw [show L ++ Rec.commit j :: (l'.filter (began e.log)).map Rec.commit =
            (L ++ [.commit j]) ++ (l'.filter (began e.log)).map Rec.commit by simp]
          apply ih _ (fun k hk => h k (List.mem_cons_of_mem _ hk))
          · rw [surviving_append]
            simp only [account, g2]
            rw [began_iff hi hz] at hb
            rw [((hi.ok j z hz).lpar hb).2, hzq]
            have : ¬ (some q = some i) := by
              intro h; simp only [Option.some.injEq] at h; subst h; exact hil hq
            rw [if_neg this, g1]
          · intro k
            rw [parentIn_append _ _ _ (by simp), g2]
    have htail : ∀ j ∈ l.tail.reverse, j ∈ l ∧ ∃ z q, e.txns j = some z ∧ z.parent = some q ∧ q ∈ l := by
      intro j hj
      have hj' := List.mem_reverse.1 hj
      refine ⟨List.mem_of_mem_tail hj', ?_⟩
      exact tail_parent hi hl j hj'
    have g1 := hmain _ e.log htail rfl (fun _ => rfl)
    rw [hlog]
    cases hb : began e.log t with
    | false => simpa using g1
    | true =>
      simp only [if_true]
      rw [surviving_append]
      exact g1

/-- **C58, the part that holds** (missing: a transaction with a child). A commit with flags it does not know ends the innermost transaction by aborting it and
returns `EINVAL`. If that is the transaction itself, nothing else happens. -/
theorem commit_unknown_leaf_partial {e : Env} (hr : Reach e) (hp : e.panicked = false) {t : Id} {x : Txn}
    (hx : e.txns t = some x) (hc : x.child = none) {w : Word} (hw : ¬ Only w [bSync, bNoSync]) :
    ∃ e', commit e t w = some (e', .einval) ∧ abort e t = some (e', .ok) := by
  have hi := (reach_inv hr).1
  have hb : bad w = true := by
    cases h : bad w with
    | true => rfl
    | false => exact absurd ((bad_iff w).1 h) hw
  have hl : Family e t [t] := .leaf t x hx hc
  refine ⟨ended e t x true false false, ?_, ?_⟩
  · simp only [commit, commitRec, hp, Bool.false_eq_true, if_false, hx, hc]
    rw [commitSelf_eq hi hx hc, hb]
    simp only [if_true]
    have : ∀ f ns, ended e t x true f ns = ended e t x true false false := by
      intro f ns; simp [ended]
    rw [this]
  · simp only [abort, hp, Bool.false_eq_true, if_false, hx, hc]
    exact abortSelf_eq hi hx hc

/-- **C58 fails.** With a transaction open inside, the same mistake stops the whole
environment: it is marked as panicked, and the handle, still open, can no longer be ended. -/
theorem commit_unknown_panics {e : Env} (hr : Reach e) (hp : e.panicked = false) {t c : Id} {x : Txn}
    (hx : e.txns t = some x) (hc : x.child = some c) {w : Word} (hw : ¬ Only w [bSync, bNoSync]) :
    ∃ e', commit e t w = some (e', .einval) ∧ e'.panicked = true ∧ (e'.txns t).isSome = true ∧
      (∀ w', commit e' t w' = some (e', .einval)) ∧ abort e' t = some (e', .einval) := by
  have hi := (reach_inv hr).1
  have hb : bad w = true := by
    cases h : bad w with
    | true => rfl
    | false => exact absurd ((bad_iff w).1 h) hw
  obtain ⟨l, h1, h2⟩ := family_of hi hx
  obtain ⟨b, d, z, h3, h4, h5, h6, h7⟩ := commitRec_bad hb (e.next + 1) hi hp h1 h2
  have hlen : 1 < l.length := by
    cases h1 with
    | leaf _ y hy hyc =>
      rw [hx] at hy; simp only [Option.some.injEq] at hy; subst hy
      rw [hc] at hyc; cases hyc
    | node _ y c' l hy hyc hl =>
      obtain ⟨m, rfl⟩ := family_head hl
      simp
  have hbt : b = true := by rw [h7]; simpa using hlen
  subst hbt
  have hdt : t ≠ d := by
    intro h; subst h
    rw [hx] at h4; simp only [Option.some.injEq] at h4; subst h4
    rw [hc] at h5; cases h5
  refine ⟨_, h6, rfl, ?_, fun w' => commit_panicked rfl t w', by simp [abort]⟩
  simp only [ended, hdt, if_false, hx, Option.map_some]
  split <;> rfl

/-- The hypotheses are met: in the story, transactions 0, 1 and 2 are a family. -/
theorem story_family : ∃ e, Reach e ∧ e.panicked = false ∧ (∃ x, e.txns 0 = some x ∧ x.parent = none ∧ x.child = some 1) ∧
    Family e 0 [0, 1, 2] ∧ began e.log 0 = true ∧ began e.log 1 = true ∧ began e.log 2 = true ∧
    (∃ x, e.txns 3 = some x) ∧ surviving e.log 0 = 1 ∧ surviving e.log 2 = 1 := by
  obtain ⟨e, h1, h2⟩ := witness (P := fun e => e.panicked = false ∧
      (∃ x, e.txns 0 = some x ∧ x.parent = none ∧ x.child = some 1) ∧
      (∃ x, e.txns 1 = some x ∧ x.child = some 2) ∧ (∃ x, e.txns 2 = some x ∧ x.child = none) ∧
      (began e.log 0 = true ∧ began e.log 1 = true ∧ began e.log 2 = true) ∧ (∃ x, e.txns 3 = some x) ∧
      surviving e.log 0 = 1 ∧ surviving e.log 2 = 1) story
    (fun e => !e.panicked && ((e.txns 0).any (fun x => decide (x.parent = none ∧ x.child = some 1)) &&
      ((e.txns 1).any (fun y => decide (y.child = some 2)) && ((e.txns 2).any (fun y => decide (y.child = none)) &&
      (decide (began e.log 0 = true ∧ began e.log 1 = true ∧ began e.log 2 = true) &&
      ((e.txns 3).isSome && decide (surviving e.log 0 = 1 ∧ surviving e.log 2 = 1)))))))
    (by
      intro e h
      simp only [Bool.and_eq_true, Bool.not_eq_true', Option.any_eq_true, decide_eq_true_eq,
        Option.isSome_iff_exists] at h
      exact h)
    (by decide +kernel)
  obtain ⟨h2, ⟨x, h3, h3p, h4⟩, ⟨y, h5, h6⟩, ⟨z, h7, h8⟩, h9, h10, h11⟩ := h2
  exact ⟨e, h1, h2, ⟨x, h3, h3p, h4⟩, .node 0 x 1 _ h3 h4 (.node 1 y 2 _ h5 h6 (.leaf 2 z h7 h8)), h9.1, h9.2.1, h9.2.2,
    h10, h11.1, h11.2⟩

/-- Committing it writes the three commit records, the innermost first. -/
example : ∃ e e', Reach e ∧ commit e 0 0#32 = some (e', .ok) ∧
    e'.log = e.log ++ [.commit 2, .commit 1, .commit 0] := by
  obtain ⟨e, h1, h2, ⟨x, h3, _⟩, h4, h5, h6, h7, _⟩ := story_family
  obtain ⟨e', g1, _, _, _, _, g2, _⟩ := commit_family h1 h2 h3 h4 (w := 0#32) (by intro b hb; simp [has] at hb)
  exact ⟨e, e', h1, g1, by rw [g2]; simp [List.filter, h5, h6, h7]⟩

/-- **C55.** A row operation is refused, without effect, exactly on a read-only transaction and on one with
an open child; otherwise it is recorded, after the begins of the transaction and its ancestors where
they were still due, and counts as work of this transaction and of no other. -/
theorem write_outcome {e : Env} (hr : Reach e) (hp : e.panicked = false) {t : Id} {x : Txn}
    (hx : e.txns t = some x) (k : Nat) :
    ((x.child ≠ none ∨ x.ro = true) ∧ write e t k = some (e, .einval)) ∨
    (x.child = none ∧ x.ro = false ∧ ∃ e' l, write e t k = some (e', .ok) ∧
      e'.log = e.log ++ l ++ [.work t] ∧ (∀ r ∈ l, ∃ u p, r = Rec.begin u p) ∧ began e'.log t = true ∧
      (∀ p, x.parent = some p → began e'.log p = true) ∧
      surviving e'.log t = surviving e.log t + 1 ∧
      ∀ i, i ≠ t → surviving e'.log i = surviving e.log i) := by
  have hi := (reach_inv hr).1
  rcases write_ok hi hp hx k with ⟨h, h'⟩ | ⟨h0, h0', e', a, y, h1, h2, h3, h4, h5, h6, ⟨l, h7, h8⟩, h9, h10, h11, h12⟩
  · exact Or.inl ⟨h', h⟩
  · right
    have hb : ∀ (l : List Rec) (L : List Rec), (∀ r ∈ l, ∃ u p, r = Rec.begin u p) → ∀ i,
        surviving (L ++ l) i = surviving L i := by
      intro l
      induction l with
      | nil => intro L _ i; simp
      | cons r l ih =>
        intro L h i
        rw [show L ++ r :: l = (L ++ [r]) ++ l by simp, ih _ (fun r hr => h r (List.mem_cons_of_mem _ hr)),
          surviving_append]
        obtain ⟨u, p, rfl⟩ := h r (by simp)
        rfl
    have hs : ∀ i, surviving e'.log i = if i = t then surviving e.log i + 1 else surviving e.log i := by
      intro i
      rw [h7, surviving_append]
      simp only [account, hb l e.log h8]
    obtain ⟨b, n, hx'⟩ := h12 t
    rw [hx] at hx'
    simp only [Option.map_some] at hx'
    have hlg : b = true := by
      cases hb' : b with
      | true => rfl
      | false =>
        subst hb'
        have h14 : n = 0 := ((h2.ok t _ hx').unl rfl).1
        have h15 : n = surviving e'.log t := (h2.ok t _ hx').roll
        have h13 := hs t
        rw [← h15, h14, if_pos rfl] at h13
        cases h13
    subst hlg
    refine ⟨h0, h0', e', l, h1, h7, h8, ?_, ?_, ?_, ?_⟩
    · rw [began_iff h2 hx']
    · intro p hpp
      obtain ⟨_, z, hz, _, _, _, hzl, _⟩ := (h2.ok t _ hx').par p hpp
      rw [began_iff h2 hz]; exact hzl rfl
    · rw [hs]; simp
    · intro i hit; rw [hs]; simp [hit]

/-- **C55.** Discarding a prepared transaction without children forgets it: it is gone, the log is as
before and every other transaction is untouched. Anything else is refused without effect. -/
theorem discard_outcome {e : Env} (hr : Reach e) {t : Id} {x : Txn} (hx : e.txns t = some x)
    (hc : x.child = none) (w : Word) :
    (w = 0#32 ∧ x.state = .preparing ∧ ∃ e', discard e t w = some (e', .ok) ∧ e'.log = e.log ∧
      e'.txns t = none ∧ ∀ i, i ≠ t → e'.txns i = e.txns i) ∨
    ((w ≠ 0#32 ∨ x.state ≠ .preparing) ∧ discard e t w = some (e, .einval)) := by
  have hi := (reach_inv hr).1
  by_cases hw : w = 0#32
  · by_cases hs : x.state = .preparing
    · left
      refine ⟨hw, hs, ?_⟩
      rcases discard_self hi hx hc w with h | ⟨e', h1, h2, h3, h4, h5, h6, h7⟩
      · exfalso
        simp only [discard, hw, ne_eq, not_true_eq_false, if_false, hx, hs] at h
        split at h
        · cases h
        · split at h
          · cases h
          · simp at h
      · exact ⟨e', h1, h3, by simp [h7], fun i hi => by simp [h7, hi]⟩
    · exact Or.inr ⟨Or.inr hs, by simp [discard, hw, hx, hs]⟩
  · exact Or.inr ⟨Or.inl hw, by simp [discard, hw]⟩

/-! ### C56: durability -/

/-- **C56.** The log only grows, no record on it is ever changed, and what is on disk stays there; so
a transaction that is durable stays durable. Nothing counts as on disk that was never written. -/
theorem log_grows {e e' : Env} (hr : Reach e) (h : Later e e') :
    e.log <+: e'.log ∧ e.fsynced ≤ e'.fsynced ∧ e'.fsynced ≤ e'.log.length ∧
    ∀ t, Durable e t → Durable e' t := by
  have ⟨hi, hf⟩ := reach_inv hr
  have hn := later_next hi h
  refine ⟨hn.log, hn.fs, hn.fsle hf, ?_⟩
  rintro t ⟨a, b, h1, h2⟩
  obtain ⟨m, hm⟩ := hn.log
  exact ⟨a, b ++ m, by rw [← hm, h1]; simp, Nat.le_trans h2 hn.fs⟩

/-- **C56.** A successful commit of a root transaction returns only after its commit record is on
disk if the client asked for it with `DB_TXN_SYNC`, or if the transaction has surviving changes and
the client waived it neither when beginning nor when committing. -/
theorem commit_durable {e e' : Env} (hr : Reach e) {t : Id} {x : Txn} (hx : e.txns t = some x)
    (hroot : x.parent = none) {w : Word} (hc : commit e t w = some (e', .ok))
    (h : (has w bSync = true ∧ began e.log t = true) ∨
      (has w bNoSync = false ∧ has x.flags bNoSync = false ∧ 0 < surviving e'.log t)) :
    Durable e' t := by
  have hi := (reach_inv hr).1
  cases hp : e.panicked with
  | true => rw [commit_panicked hp] at hc; cases hc
  | false =>
    obtain ⟨l, h1, h2⟩ := family_of hi hx
    cases hb : bad w with
    | true =>
      obtain ⟨b, d, z, _, _, _, h6, _⟩ := commitRec_bad hb (e.next + 1) hi hp h1 h2
      rw [commit, h6] at hc
      simp at hc
    | false =>
      obtain ⟨e1, h3, h4⟩ := commit_good hi hp hx h1 hb
      rw [h3] at hc
      simp only [Option.some.injEq, Prod.mk.injEq, and_true] at hc
      subst hc
      obtain ⟨m, rfl⟩ := family_head h1
      have hlg : x.logged = true := by
        rcases h with h | ⟨_, _, h⟩
        · rw [← began_iff hi hx]; exact h.2
        · exact logged_of_surviving hi hx h1 h4 h
      have hdur : e1.log.length ≤ e1.fsynced := by
        apply h4.dur hroot hlg
        rcases h with h | h
        · exact Or.inr (Or.inl h.1)
        · exact Or.inr (Or.inr h)
      have hlog := h4.log
      have hli : loggedIn e t = true := by simp [loggedIn, hx, hlg]
      refine ⟨e.log ++ (m.reverse.filter (loggedIn e)).map Rec.commit, [], ?_, ?_⟩
      · rw [hlog]; simp [List.filter, hli]
      · rw [hlog] at hdur
        simp [List.filter, hli] at hdur
        simp
        omega

/-- **C56.** A nested commit with `DB_TXN_SYNC` promises nothing by itself, but obliges its parent: if
the parent is a root transaction, its own successful commit is on disk when it returns, even with
`DB_TXN_NOSYNC`, however many requests come between. -/
theorem nested_sync {e e1 e2 e3 : Env} (hr : Reach e) {t p : Id} {x y : Txn} (hx : e.txns t = some x)
    (hpt : x.parent = some p) {w : Word} (hw : has w bSync = true) (hc : commit e t w = some (e1, .ok))
    (hl : Later e1 e2) (hy : e2.txns p = some y) (hroot : y.parent = none) (hb : began e2.log p = true)
    {w' : Word} (hc' : commit e2 p w' = some (e3, .ok)) : Durable e3 p := by
  have hi := (reach_inv hr).1
  cases hp : e.panicked with
  | true => rw [commit_panicked hp] at hc; cases hc
  | false =>
    obtain ⟨l, h1, h2⟩ := family_of hi hx
    cases hbw : bad w with
    | true =>
      obtain ⟨b, d, z, _, _, _, h6, _⟩ := commitRec_bad hbw (e.next + 1) hi hp h1 h2
      rw [commit, h6] at hc
      simp at hc
    | false =>
      obtain ⟨e1', h3, h4⟩ := commit_good hi hp hx h1 hbw
      rw [h3] at hc
      simp only [Option.some.injEq, Prod.mk.injEq, and_true] at hc
      subst hc
      obtain ⟨_, u, hu, _⟩ := (hi.ok t x hx).par p hpt
      obtain ⟨f, n, h5, h6⟩ := h4.par p u hpt hu
      have hn := later_next h4.inv hl
      have hforce : y.force = true := (hn.keep p _ y h5 hy).1 (h6 (Or.inr (Or.inr hw)))
      have hi2 := hn.inv
      cases hp2 : e2.panicked with
      | true => rw [commit_panicked hp2] at hc'; cases hc'
      | false =>
        obtain ⟨l2, g1, g2⟩ := family_of hi2 hy
        cases hbw' : bad w' with
        | true =>
          obtain ⟨b, d, z, _, _, _, h6, _⟩ := commitRec_bad hbw' (e2.next + 1) hi2 hp2 g1 g2
          rw [commit, h6] at hc'
          simp at hc'
        | false =>
          obtain ⟨e3', g3, g4⟩ := commit_good hi2 hp2 hy g1 hbw'
          rw [g3] at hc'
          simp only [Option.some.injEq, Prod.mk.injEq, and_true] at hc'
          subst hc'
          obtain ⟨m, rfl⟩ := family_head g1
          have hlg : y.logged = true := by rw [← began_iff hi2 hy]; exact hb
          have hdur := g4.dur hroot hlg (Or.inl hforce)
          have hlog := g4.log
          have hli : loggedIn e2 p = true := by simp [loggedIn, hy, hlg]
          refine ⟨e2.log ++ (m.reverse.filter (loggedIn e2)).map Rec.commit, [], ?_, ?_⟩
          · rw [hlog]; simp [List.filter, hli]
          · rw [hlog] at hdur
            simp [List.filter, hli] at hdur
            simp
            omega

/-- **C56.** A successful prepare of a root transaction returns only after its prepare record is on disk
if the transaction has surviving changes and the client waived it neither when beginning nor here.
The transactions inside were committed first. -/
theorem prepare_durable {e e' : Env} (hr : Reach e) {t : Id} {x : Txn} (hx : e.txns t = some x)
    (hroot : x.parent = none) (hs : x.state ≠ .preparing) {w : Word} (hc : prepare e t w = some (e', .ok))
    (h : has w bNoSync = false ∧ has x.flags bNoSync = false ∧ 0 < surviving e'.log t) :
    ∃ a, e'.log = a ++ [.prepare t] ∧ a.length + 1 ≤ e'.fsynced ∧ ∃ x', e'.txns t = some x' ∧ x'.child = none := by
  have hi := (reach_inv hr).1
  have main : ∀ {e1 : Env} {x1 : Txn}, Inv e1 → e1.txns t = some x1 → x1.child = none → x1.state ≠ .preparing →
      x1.parent = none → x1.flags = x.flags → prepareSelf e1 t w = some (e', .ok) →
      ∃ a, e'.log = a ++ [.prepare t] ∧ a.length + 1 ≤ e'.fsynced ∧ ∃ x', e'.txns t = some x' ∧ x'.child = none := by
    intro e1 x1 hi1 hx1 hc1 hs1 hp1 hf1 hq
    obtain ⟨e2, h1, h2, h3, h4, h5, h6, h7, h8, h9, h10⟩ := prepareSelf_ok hi1 hx1 hc1 hs1 hp1 w
    rw [h1] at hq
    simp only [Option.some.injEq, Prod.mk.injEq, and_true] at hq
    subst hq
    have ok := hi1.ok t x1 hx1
    have hroll : surviving e2.log t = x1.nRoll := by
      rw [h5, ok.roll]
      split
      · rw [surviving_append]; rfl
      · simp
    have hlg : x1.logged = true := by
      cases hl : x1.logged with
      | true => rfl
      | false => rw [hroll, (ok.unl hl).1] at h; exact absurd h.2.2 (Nat.lt_irrefl _)
    have hd := h9 hlg (Or.inr ⟨h.1, by rw [hf1]; exact h.2.1, by rw [← hroll]; exact h.2.2⟩)
    rw [hlg] at h5
    refine ⟨e1.log, h5, ?_, ?_⟩
    · rw [h5] at hd; simpa using hd
    · obtain ⟨s, d, l, hh⟩ := h10 t
      rw [hx1] at hh
      exact ⟨_, hh, by simpa using hc1⟩
  simp only [prepare, hx, hroot, Option.isSome_none, Bool.false_eq_true, if_false] at hc
  cases hp : e.panicked with
  | true => simp [hp] at hc
  | false =>
    simp only [hp, Bool.false_eq_true, if_false] at hc
    cases hch : x.child with
    | none =>
      simp only [hch] at hc
      exact main hi hx hch hs hroot rfl hc
    | some c =>
      obtain ⟨e1, z, l', f, n, h1, hz, hzp, h2, h3, h4, h5⟩ := children_first hi hp hx hch zero_good
      have hp1 : e1.panicked = false := by rw [h3.pan, hp]
      simp only [hch, h1, ne_eq, not_true_eq_false, if_false, hp1, Bool.false_eq_true] at hc
      exact main h3.inv h4 rfl hs hroot rfl hc

/-- The hypotheses are met: the root transaction of the story commits with changes of its own and of
transaction 2, and is durable. -/
example : ∃ e e', Reach e ∧ commit e 0 0#32 = some (e', .ok) ∧ surviving e'.log 0 = 2 ∧ Durable e' 0 := by
  have h : (runAll Env.init story).any (fun e => (commit e 0 0#32).any (fun s => decide (s.2 = .ok ∧
      surviving s.1.log 0 = 2))) = true := by decide +kernel
  have h0 : (runAll Env.init story).any (fun e => (e.txns 0).any (fun x => decide (x.parent = none ∧
      has x.flags bNoSync = false))) = true := by decide +kernel
  obtain ⟨e, h1, h2⟩ := (Option.any_eq_true _ _).1 h
  obtain ⟨e0, g1, g2⟩ := (Option.any_eq_true _ _).1 h0
  rw [h1] at g1
  simp only [Option.some.injEq] at g1; subst g1
  obtain ⟨⟨e', r⟩, h3, h4⟩ := (Option.any_eq_true _ _).1 h2
  obtain ⟨x, g3, g4⟩ := (Option.any_eq_true _ _).1 g2
  simp only [decide_eq_true_eq] at h4 g4
  obtain ⟨rfl, h4⟩ := h4
  have hr := runAll_reach story .init h1
  exact ⟨e, e', hr, h3, h4, commit_durable hr g3 g4.1 h3 (Or.inr ⟨by decide, g4.2, by rw [h4]; decide⟩)⟩

/-! ### C57: row locks -/

/-- **C57.** A row lock is charged to the root of the transaction that takes it; transactions inside
hold none of their own. -/
theorem lock_charged {e : Env} (hr : Reach e) {t a : Id} (ha : Root e t a) (k : Nat) :
    ∃ e' y y', lock e t k = some (e', .ok) ∧ e.txns a = some y ∧ e'.txns a = some y' ∧
      y'.locks = y.locks ++ [k] ∧ ∀ i, i ≠ a → e'.txns i = e.txns i := by
  have hi := (reach_inv hr).1
  have hx : ∃ x, e.txns t = some x := by
    cases ha with
    | root _ x hx _ => exact ⟨x, hx⟩
    | child _ x _ _ hx _ _ => exact ⟨x, hx⟩
  obtain ⟨x, hx⟩ := hx
  obtain ⟨a', y, h1, h2, h3, h4, _⟩ := lock_ok hi hx k
  have := Root.unique h1 a ha
  subst this
  exact ⟨_, y, { y with locks := y.locks ++ [k] }, h4, h2, by simp, rfl, fun i h => by simp [h]⟩

theorem nested_no_locks {e : Env} (hr : Reach e) {t : Id} {x : Txn} (hx : e.txns t = some x)
    (hp : x.parent ≠ none) : x.locks = [] :=
  ((reach_inv hr).1.ok t x hx).lck hp

/-- **C57.** While a transaction lives, none of its locks is given up, whatever else happens: its
locks only grow, and no release has been done for it. -/
theorem locks_kept {e e' : Env} (hr : Reach e) (h : Later e e') {a : Id} {y y' : Txn}
    (hy : e.txns a = some y) (hy' : e'.txns a = some y') :
    y.locks <+: y'.locks ∧ Ev.release a ∉ e'.trace := by
  have hi := (reach_inv hr).1
  refine ⟨((later_next hi h).keep a y y' hy hy').2.1, ?_⟩
  intro hm
  have hr' : Reach e' := by
    induction h with
    | refl => exact hr
    | step e1 op e2 r h1 hl hs ih =>
      refine .step e1 op e2 r ?_ hl hs
      exact later_reach hr h1
  have := ((reach_rel hr').1 a hm).2
  rw [hy'] at this; cases this

/-- **C57.** Locks are released exactly for the transactions that have ended, and a transaction has left
the set of live transactions before its locks are released: whoever gets one of the locks no longer
sees it as running. -/
theorem released_after_end {e : Env} (hr : Reach e) (t : Id) :
    (Ev.release t ∈ e.trace ↔ t < e.next ∧ e.txns t = none) ∧
    ∀ a b, e.trace = a ++ Ev.release t :: b → Ev.complete t ∈ a := by
  have h1 := reach_rel hr
  exact ⟨⟨h1.1 t, fun h => h1.2 t h.1 h.2⟩, (reach_inv hr).1.rel t⟩

/-- The hypotheses are met: the lock that transaction 2 took in the story is held by its root. -/
example : ∃ e, Reach e ∧ ∃ y, e.txns 0 = some y ∧ y.locks = [10, 11] ∧ Root e 2 0 := by
  obtain ⟨e, h1, h2⟩ := witness (P := fun e => (∃ x, e.txns 0 = some x ∧ x.locks = [10, 11] ∧ x.parent = none) ∧
      (∃ x, e.txns 1 = some x ∧ x.parent = some 0) ∧ (∃ x, e.txns 2 = some x ∧ x.parent = some 1)) story
    (fun e => (e.txns 0).any (fun x => decide (x.locks = [10, 11] ∧ x.parent = none)) &&
      ((e.txns 1).any (fun x => decide (x.parent = some 0)) && (e.txns 2).any (fun x => decide (x.parent = some 1))))
    (by
      intro e h
      simp only [Bool.and_eq_true, Option.any_eq_true, decide_eq_true_eq] at h
      exact h)
    (by decide +kernel)
  obtain ⟨⟨x, a1, a2, a3⟩, ⟨y, b1, b2⟩, z, c1, c2⟩ := h2
  exact ⟨e, h1, x, a1, a2, .child 2 z 1 0 c1 c2 (.child 1 y 0 0 b1 b2 (.root 0 x a1 a3))⟩

/-! ### Where the code stops -/

/-- Preparing a transaction a second time stops the program: the contract's clause is needed. -/
theorem prepare_twice_stops : ∃ e, Reach e ∧ (∃ x, e.txns 0 = some x ∧ x.state = .preparing) ∧
    prepare e 0 0#32 = none := by
  obtain ⟨e, h1, h2, h3⟩ := witness (P := fun e => (∃ x, e.txns 0 = some x ∧ x.state = .preparing) ∧
      prepare e 0 0#32 = none) [.begin none 0#32, .write 0 10, .prepare 0 0#32]
    (fun e => (e.txns 0).any (fun x => decide (x.state = .preparing)) && (prepare e 0 0#32).isNone)
    (by
      intro e h
      simp only [Bool.and_eq_true, Option.any_eq_true, decide_eq_true_eq, Option.isNone_iff_eq_none] at h
      exact h)
    (by decide +kernel)
  exact ⟨e, h1, h2, h3⟩

/-- A prepared transaction is not closed to changes: a row operation on it succeeds. -/
theorem prepared_can_write : ∃ e e', Reach e ∧ (∃ x, e.txns 0 = some x ∧ x.state = .preparing) ∧
    write e 0 11 = some (e', .ok) ∧ e'.log = e.log ++ [.work 0] := by
  obtain ⟨e, h1, h2, e', h3⟩ := witness (P := fun e => (∃ x, e.txns 0 = some x ∧ x.state = .preparing) ∧
      ∃ e', write e 0 11 = some (e', .ok) ∧ e'.log = e.log ++ [.work 0]) [.begin none 0#32, .write 0 10, .prepare 0 0#32]
    (fun e => (e.txns 0).any (fun x => decide (x.state = .preparing)) &&
      (write e 0 11).any (fun s => decide (s.2 = .ok ∧ s.1.log = e.log ++ [.work 0])))
    (by
      intro e h
      simp only [Bool.and_eq_true, Option.any_eq_true, decide_eq_true_eq] at h
      obtain ⟨h1, ⟨e', r⟩, h2, h3, h4⟩ := h
      simp only at h3 h4
      subst h3
      exact ⟨h1, e', h2, h4⟩)
    (by decide +kernel)
  exact ⟨e, e', h1, h2, h3⟩

end Verif.Ydb
