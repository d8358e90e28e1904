import Verif.Ydb.BeginLemmas

set_option linter.unusedSectionVars false

namespace Verif.Ydb

open Spec

/-! ### Reading the log -/

theorem surviving_append (log : List Rec) (r : Rec) :
    surviving (log ++ [r]) = account log (surviving log) r := by
  have h : ∀ (l : List Rec) (s : List Rec × (Id → Nat)),
      (l.foldl (fun (s : List Rec × (Id → Nat)) r => (s.1 ++ [r], account s.1 s.2 r)) s).1 = s.1 ++ l := by
    intro l
    induction l with
    | nil => simp
    | cons a l ih => intro s; simp [ih]
  simp only [surviving, List.foldl_append, List.foldl_cons, List.foldl_nil, h, List.nil_append]

theorem parentIn_append (log : List Rec) (r : Rec) (t : Id)
    (h : ∀ p, r ≠ .begin t p) : parentIn (log ++ [r]) t = parentIn log t := by
  induction log with
  | nil =>
    cases r with
    | begin u p =>
      have : u ≠ t := by intro hu; subst hu; exact h p rfl
      simp [parentIn, this]
    | _ => simp [parentIn]
  | cons a l ih =>
    cases a <;> simp only [List.cons_append, parentIn, ih]

theorem parentIn_begin (log : List Rec) (t : Id) (p : Option Id)
    (h : ∀ q, Rec.begin t q ∉ log) : parentIn (log ++ [.begin t p]) t = p := by
  induction log with
  | nil => simp [parentIn]
  | cons a l ih =>
    have ih' := ih (fun q hq => h q (List.mem_cons_of_mem _ hq))
    cases a with
    | begin u q =>
      have : u ≠ t := by intro hu; subst hu; exact h q (List.mem_cons_self)
      simp [parentIn, this, ih']
    | _ => simpa [parentIn] using ih'

theorem began_mem (log : List Rec) (t : Id) : began log t = true ↔ ∃ p, Rec.begin t p ∈ log := by
  simp only [began, List.any_eq_true]
  constructor
  · rintro ⟨r, h1, h2⟩
    cases r with
    | «begin» u p => simp only [decide_eq_true_eq] at h2; subst h2; exact ⟨p, h1⟩
    | _ => cases h2
  · rintro ⟨p, h⟩
    exact ⟨_, h, by simp⟩

theorem parentIn_none (log : List Rec) (t : Id) (h : ∀ q, Rec.begin t q ∉ log) :
    parentIn log t = none := by
  induction log with
  | nil => rfl
  | cons a l ih =>
    have ih' := ih (fun q hq => h q (List.mem_cons_of_mem _ hq))
    cases a with
    | begin u q =>
      have : u ≠ t := by intro hu; subst hu; exact h q (List.mem_cons_self)
      simp [parentIn, this, ih']
    | _ => simpa [parentIn] using ih'

/-! ### The invariant -/

/-- What is true of each live handle. -/
structure Ok (e : Env) (t : Id) (x : Txn) : Prop where
  lt : t < e.next
  par : ∀ p, x.parent = some p → p < t ∧ ∃ y, e.txns p = some y ∧ y.child = some t ∧
    y.iso = x.iso ∧ y.ro = x.ro ∧ (x.logged = true → y.logged = true) ∧
    (x.ro = false → x.nXids = y.nXids + 1)
  chi : ∀ c, x.child = some c → ∃ z, e.txns c = some z ∧ z.parent = some t
  tch : x.tchild = x.child
  flg : has x.flags bReadOnly = x.ro
  st : x.state = .live ∨ (x.state = .preparing ∧ x.parent = none ∧ x.logged = true)
  unl : x.logged = false → x.nRoll = 0 ∧ x.fsyncLsn = 0 ∧ ∀ p, Rec.begin t p ∉ e.log
  dep : x.ro = false → x.nXids < MAX_TRANSACTION_RECORDS ∧ (x.parent = none → x.nXids = 1)
  roll : x.nRoll = surviving e.log t
  lck : x.parent ≠ none → x.locks = []
  lpar : x.logged = true → Rec.begin t x.parent ∈ e.log ∧ parentIn e.log t = x.parent
  rolog : x.ro = true → x.logged = false

/-- What is true of the environment between calls. -/
structure Inv (e : Env) : Prop where
  ok : ∀ t x, e.txns t = some x → Ok e t x
  fut : ∀ t, e.next ≤ t → e.txns t = none ∧ surviving e.log t = 0 ∧ ∀ p, Rec.begin t p ∉ e.log
  open_ : e.logOpen = true ∧ e.initTxn = true
  rel : ∀ t a b, e.trace = a ++ Ev.release t :: b → Ev.complete t ∈ a

@[simp] theorem set_txns (e : Env) (t : Id) (x : Option Txn) (i : Id) :
    (e.set t x).txns i = if i = t then x else e.txns i := rfl
@[simp] theorem set_log (e : Env) (t : Id) (x : Option Txn) : (e.set t x).log = e.log := rfl
@[simp] theorem set_next (e : Env) (t : Id) (x : Option Txn) : (e.set t x).next = e.next := rfl
@[simp] theorem set_trace (e : Env) (t : Id) (x : Option Txn) : (e.set t x).trace = e.trace := rfl
@[simp] theorem set_fsynced (e : Env) (t : Id) (x : Option Txn) : (e.set t x).fsynced = e.fsynced := rfl
@[simp] theorem set_panicked (e : Env) (t : Id) (x : Option Txn) : (e.set t x).panicked = e.panicked := rfl
@[simp] theorem append_txns (e : Env) (r : Rec) : (e.append r).txns = e.txns := rfl
@[simp] theorem append_log (e : Env) (r : Rec) : (e.append r).log = e.log ++ [r] := rfl

theorem inv_init : Inv Env.init := by
  refine ⟨(by intro t x h; cases h), (by intro t _; exact ⟨rfl, rfl, by simp [Env.init]⟩), ⟨rfl, rfl⟩, ?_⟩
  intro t a b h
  simp [Env.init] at h

/-- The flags of `commit` that are neither of the two it knows. -/
def bad (w : Word) : Bool := (w &&& ~~~DB_TXN_SYNC &&& ~~~DB_TXN_NOSYNC) != 0#32

theorem bad_iff (w : Word) : bad w = false ↔ Only w [bSync, bNoSync] := by
  simp only [bad, bne_eq_false_iff_eq]
  constructor
  · intro h b hb
    have hlt := has_lt hb
    obtain ⟨-, -, -, -, -, -, -, hI, hN, hW, hS, hR⟩ := one_bits b hlt
    have := congrArg (fun v : Word => v.getLsbD b) h
    simp only [BitVec.getLsbD_and, BitVec.getLsbD_not, hlt, hN, hS, has] at this hb
    rw [hb] at this
    simp [bSync, bNoSync] at this ⊢
    omega
  · intro h
    apply BitVec.eq_of_getLsbD_eq
    intro i hi
    obtain ⟨-, -, -, -, -, -, -, hI, hN, hW, hS, hR⟩ := one_bits i hi
    simp only [BitVec.getLsbD_and, BitVec.getLsbD_not, hi, hN, hS]
    cases hw : w.getLsbD i
    · simp
    · have := h i hw
      simp [bSync, bNoSync] at this
      simp
      omega

/-- The state in which a childless transaction has ended. -/
def ended (e : Env) (t : Id) (x : Txn) (ab force ns : Bool) : Env :=
  { e with
    txns := fun i => if i = t then none else if x.parent = some i then
        (e.txns i).map (fun y => { y with
          child := none
          tchild := none
          force := if ab then y.force else y.force || force
          nRoll := if ab then y.nRoll else y.nRoll + x.nRoll })
      else e.txns i
    log := if x.logged then e.log ++ [if ab then .abort t else .commit t] else e.log
    trace := e.trace ++ [.complete t, .release t]
    fsynced := if !ab && x.parent.isNone && (force || (!ns && decide (x.nRoll > 0))) then
        max e.fsynced (if x.logged then e.log.length + 1 else 0) else e.fsynced }

theorem isReadOnly_eq (x : Txn) (h : x.logged = false → x.nRoll = 0 ∧ x.fsyncLsn = 0) :
    isReadOnly x = some (!x.logged) := by
  cases hl : x.logged with
  | true => simp [isReadOnly, hl]
  | false => simp [isReadOnly, hl, h hl]

theorem noteEnd_eq (x : Txn) (s : St) (h : x.logged = false → x.nRoll = 0 ∧ x.fsyncLsn = 0)
    (hs : x.logged = false → x.state = .live) : noteEnd x s = some { x with state := s } := by
  simp only [noteEnd, isReadOnly_eq x h]
  cases hl : x.logged with
  | true => simp
  | false => simp [hs hl]

theorem Env.ext_txns {a b : Env} (h1 : a.panicked = b.panicked) (h2 : a.logOpen = b.logOpen)
    (h3 : a.initTxn = b.initTxn) (h4 : ∀ i, a.txns i = b.txns i) (h5 : a.next = b.next)
    (h6 : a.log = b.log) (h7 : a.fsynced = b.fsynced) (h8 : a.trace = b.trace) : a = b := by
  cases a; cases b
  simp only [Env.mk.injEq] at *
  exact ⟨h1, h2, h3, funext h4, h5, h6, h7, h8⟩

/-- Both ends of a transaction share their last steps. -/
def finished (e : Env) (t : Id) (x : Txn) : Env :=
  { e with
    txns := fun i => if i = t then none else if x.parent = some i then
        (e.txns i).map (fun y => { y with tchild := none }) else e.txns i
    trace := e.trace ++ [.complete t, .release t] }

/-- The state in which a transaction has left the live transactions. -/
def completed (e : Env) (t : Id) (x : Txn) : Env :=
  { e with
    txns := fun i => if x.parent = some i then
        (e.txns i).map (fun y => { y with tchild := none }) else e.txns i
    trace := e.trace ++ [.complete t] }

theorem completeTxn_eq {e : Env} {t : Id} {x : Txn} (hx : e.txns t = some x) (hs : x.state ≠ .live)
    (hp : ∀ p, x.parent = some p → p ≠ t ∧ ∃ y, e.txns p = some y) :
    completeTxn e t = some (completed e t x) ∧ (completed e t x).txns t = some x := by
  cases hpar : x.parent with
  | none => simp [completeTxn, hx, hs, hpar, completed]
  | some p =>
    obtain ⟨hne, y, hy⟩ := hp p hpar
    have hne' : ¬ t = p := fun h => hne h.symm
    constructor
    · simp only [completeTxn, hx, hs, if_false, hpar, hy, Option.some.injEq]
      apply Env.ext_txns <;> first | rfl | skip
      intro i
      by_cases hip : i = p
      · subst hip; simp [completed, hpar, hy]
      · have : ¬ p = i := fun h => hip h.symm
        simp [completed, hpar, hip, this]
    · simp [completed, hpar, hne, hx]

theorem destroy_release {e : Env} {t : Id} {x : Txn} (hx : e.txns t = some x) (hs : x.state ≠ .live)
    (hp : ∀ p, x.parent = some p → p ≠ t ∧ ∃ y, e.txns p = some y) (l : Nat) (b : Bool) :
    ∃ e1 e2, completeTxn e t = some e1 ∧ releaseLocks e1 t = some e2 ∧
      destroy (maybeFsync e2 l b) t = maybeFsync (finished e t x) l b := by
  obtain ⟨h1, h2⟩ := completeTxn_eq hx hs hp
  refine ⟨completed e t x, { (completed e t x).set t (some { x with locks := [] }) with
    trace := (completed e t x).trace ++ [.release t] }, h1, by simp only [releaseLocks, h2], ?_⟩
  cases b <;>
  · apply Env.ext_txns <;> first | rfl | skip
    · intro i
      simp only [maybeFsync, destroy, finished, completed, set_txns]
      by_cases hit : i = t <;> simp [hit]
    · simp [maybeFsync, destroy, finished, completed, Env.set]

theorem finishCommit_eq {e : Env} {t : Id} {x : Txn} (hx : e.txns t = some x) (hs : x.state ≠ .live)
    (hp : ∀ p, x.parent = some p → p ≠ t ∧ ∃ y, e.txns p = some y) (w : Word) :
    finishCommit e t w = some (maybeFsync (finished e t x) x.fsyncLsn x.doFsync,
      if w ≠ 0#32 then .einval else .ok) := by
  obtain ⟨e1, e2, h1, h2, h3⟩ := destroy_release hx hs hp x.fsyncLsn x.doFsync
  simp only [finishCommit, hx, h1, h2, h3]

/-- The state after the commit or abort record, before the handle is taken out. -/
def marked (e : Env) (t : Id) (x : Txn) (ab ns : Bool) : Env :=
  { e with
    txns := fun i => if i = t then some { x with
          state := if ab then .aborting else .committing
          doFsync := !ab && (x.parent.isNone && (x.force || (!ns && decide (x.nRoll > 0))))
          fsyncLsn := if x.logged then e.log.length + 1 else x.fsyncLsn }
      else if x.parent = some i && !ab then
        (e.txns i).map (fun y => { y with force := y.force || x.force, nRoll := y.nRoll + x.nRoll })
      else e.txns i
    log := if x.logged then e.log ++ [if ab then .abort t else .commit t] else e.log }

theorem commitTxn_eq {e : Env} {t : Id} {x : Txn} (hx : e.txns t = some x) (ht : x.tchild = none)
    (hp : ∀ p, x.parent = some p → p ≠ t ∧ ∃ y, e.txns p = some y)
    (hu : x.logged = false → x.nRoll = 0 ∧ x.fsyncLsn = 0) (hs : x.logged = false → x.state = .live)
    (ns : Bool) : commitTxn e t ns = some (marked e t x false ns) := by
  simp only [commitTxn, hx, ht, Option.isSome_none, Bool.false_eq_true, if_false, noteEnd_eq x _ hu hs]
  have hro : ∀ x' : Txn, x'.logged = x.logged → x'.nRoll = x.nRoll → x'.fsyncLsn = x.fsyncLsn →
      isReadOnly x' = some (!x.logged) := by
    intro x' h1 h2 h3
    rw [isReadOnly_eq x' (by rw [h1, h2, h3]; exact hu), h1]
  rw [hro { x with state := .committing, tchild := none, doFsync := x.parent.isNone && (x.force || !ns && decide (x.nRoll > 0)) } rfl rfl rfl]
  cases hl : x.logged <;> cases hpar : x.parent with
  | none =>
    simp only [hl, Bool.not_true, Bool.not_false, Bool.false_eq_true, if_true, if_false, hpar, set_txns]
    simp only [Option.some.injEq]
    apply Env.ext_txns <;> first | rfl | skip
    all_goals simp [marked, hpar, hl, ht]
  | some p =>
    obtain ⟨hne, y, hy⟩ := hp p hpar
    have hne' : ¬ t = p := fun h => hne h.symm
    simp only [hl, Bool.not_true, Bool.not_false, Bool.false_eq_true, if_true, if_false, hpar, set_txns,
      append_txns, hne, hy, Option.some.injEq]
    apply Env.ext_txns <;> first | rfl | skip
    · intro i
      by_cases hit : i = t
      · subst hit; simp [marked, hne', hl, hpar, ht]
      · by_cases hip : i = p
        · subst hip; simp [marked, hne, hpar, hy]
        · have : ¬ p = i := fun h => hip h.symm
          simp [marked, hit, hip, hpar, this]
    · simp [marked, hl]

theorem abortTxn_eq {e : Env} {t : Id} {x : Txn} (hx : e.txns t = some x) (ht : x.tchild = none)
    (hu : x.logged = false → x.nRoll = 0 ∧ x.fsyncLsn = 0) (hs : x.logged = false → x.state = .live)
    (ns : Bool) : abortTxn e t = some (marked e t x true ns) := by
  simp only [abortTxn, hx, ht, Option.isSome_none, Bool.false_eq_true, if_false, noteEnd_eq x _ hu hs]
  have hro : ∀ x' : Txn, x'.logged = x.logged → x'.nRoll = x.nRoll → x'.fsyncLsn = x.fsyncLsn →
      isReadOnly x' = some (!x.logged) := by
    intro x' h1 h2 h3
    rw [isReadOnly_eq x' (by rw [h1, h2, h3]; exact hu), h1]
  rw [hro { x with state := .aborting, tchild := none, doFsync := false } rfl rfl rfl]
  cases hl : x.logged
  all_goals
    simp only [hl, Bool.not_true, Bool.not_false, Bool.false_eq_true, if_true, if_false, set_txns]
    simp only [Option.some.injEq]
    apply Env.ext_txns <;> first | rfl | skip
    all_goals simp [marked, hl, ht]


/-- The state in which a childless transaction is no longer its parent's child. -/
def detached (e : Env) (t : Id) (x : Txn) : Env :=
  { e with txns := fun i => if x.parent = some i then
        (e.txns i).map (fun y => { y with child := none }) else e.txns i }

theorem detach_eq {e : Env} {t : Id} {x : Txn} (hx : e.txns t = some x) (hc : x.child = none)
    (hp : ∀ p, x.parent = some p → p ≠ t ∧ ∃ y, e.txns p = some y ∧ y.child = some t) :
    detach e t = some (detached e t x) ∧ (detached e t x).txns t = some x := by
  cases hpar : x.parent with
  | none => simp [detach, hx, hc, hpar, detached]
  | some p =>
    obtain ⟨hne, y, hy, hyc⟩ := hp p hpar
    constructor
    · simp only [detach, hx, hc, Option.isSome_none, Bool.false_eq_true, if_false, hpar, hy, hyc,
        if_true, Option.some.injEq]
      apply Env.ext_txns <;> first | rfl | skip
      intro i
      by_cases hip : i = p
      · subst hip; simp [detached, hpar, hy]
      · have : ¬ p = i := fun h => hip h.symm
        simp [detached, hpar, hip, this]
    · simp [detached, hpar, hne, hx]

theorem ended_eq (e : Env) (t : Id) (x : Txn) (ab ns f : Bool)
    (hp : x.parent ≠ some t) (hu : x.logged = false → x.fsyncLsn = 0) (f' : Bool)
    (hf : f' = (x.force || f)) (e1 : Env)
    (he1 : e1 = (if f then (detached e t x).set t (some { x with force := true }) else detached e t x))
    (x1 : Txn) (hx1 : x1 = { x with force := f' })
    (x2 : Txn) (hx2 : (marked e1 t x1 ab ns).txns t = some x2) :
    maybeFsync (finished (marked e1 t x1 ab ns) t x2) x2.fsyncLsn x2.doFsync = ended e t x ab f' ns := by
  subst hf
  simp only [marked, if_true, Option.some.injEq] at hx2
  have hlen : e1.log = e.log := by subst he1; cases f <;> rfl
  have hpar : x2.parent = x.parent := by subst hx2; subst hx1; rfl
  have htx : ∀ i, i ≠ t → e1.txns i = (detached e t x).txns i := by
    intro i hi; subst he1; cases f <;> simp [hi]
  have hfs : e1.fsynced = e.fsynced := by subst he1; cases f <;> rfl
  have htr : e1.trace = e.trace := by subst he1; cases f <;> rfl
  have hrest : e1.panicked = e.panicked ∧ e1.logOpen = e.logOpen ∧ e1.initTxn = e.initTxn ∧
      e1.next = e.next := by subst he1; cases f <;> exact ⟨rfl, rfl, rfl, rfl⟩
  have hlog : x1.logged = x.logged := by subst hx1; rfl
  have hroll : x1.nRoll = x.nRoll := by subst hx1; rfl
  have hpar1 : x1.parent = x.parent := by subst hx1; rfl
  have hfor : x1.force = (x.force || f) := by subst hx1; rfl
  have key : ∀ i, (finished (marked e1 t x1 ab ns) t x2).txns i = (ended e t x ab (x.force || f) ns).txns i := by
    intro i
    simp only [finished, marked, ended, hpar, hpar1]
    by_cases hit : i = t
    · simp [hit]
    · simp only [hit, if_false, htx i hit, detached, hroll, hfor]
      by_cases hpi : x.parent = some i
      · cases ab <;> simp [hpi, Function.comp_def]
      · simp [hpi]
  have hl2 : x2.fsyncLsn = if x.logged then e.log.length + 1 else 0 := by
    subst hx2
    simp only [hlog, hlen]
    cases hl : x.logged
    · have := hu hl
      subst hx1; simpa using this
    · simp
  have hd2 : x2.doFsync = (!ab && x.parent.isNone && ((x.force || f) || (!ns && decide (x.nRoll > 0)))) := by
    subst hx2
    simp only [hpar1, hfor, hroll]
    cases ab <;> simp
  have hlogs : (marked e1 t x1 ab ns).log = (ended e t x ab (x.force || f) ns).log := by
    simp only [marked, ended, hlog, hlen]
  rw [hl2, hd2]
  apply Env.ext_txns
  · simp only [maybeFsync]; split <;> exact hrest.1
  · simp only [maybeFsync]; split <;> exact hrest.2.1
  · simp only [maybeFsync]; split <;> exact hrest.2.2.1
  · intro i; simp only [maybeFsync]; split <;> exact key i
  · simp only [maybeFsync]; split <;> exact hrest.2.2.2
  · simp only [maybeFsync]; split <;> exact hlogs
  · simp only [maybeFsync, ended]
    split
    · rename_i h; simp only [finished, marked, hfs]
    · rename_i h; simp only [finished, marked, hfs]
  · simp only [maybeFsync, ended]; split <;> simp [finished, marked, htr]

theorem commitSelf_eq {e : Env} (hi : Inv e) {t : Id} {x : Txn} (hx : e.txns t = some x)
    (hc : x.child = none) (w : Word) :
    commitSelf e t w = some (ended e t x (bad w) (x.force || has w bSync)
      (has w bNoSync || has x.flags bNoSync), if bad w then .einval else .ok) := by
  obtain ⟨lt, par, chi, tch, flg, st, unl, dep, roll, lck, lpar, rolog⟩ := hi.ok t x hx
  have hns : has (w &&& ~~~DB_TXN_SYNC) bNoSync = has w bNoSync := by
    rw [has_and, has_not _ _ (by decide)]
    have : has DB_TXN_SYNC bNoSync = false := by decide
    rw [this]; simp
  have hcl : (if has w bSync = true then w &&& ~~~DB_TXN_SYNC else w) = w &&& ~~~DB_TXN_SYNC := by
    rw [← sync_bit]; exact cond_clear w _
  have hunl : x.logged = false → x.nRoll = 0 ∧ x.fsyncLsn = 0 := fun h => ⟨(unl h).1, (unl h).2.1⟩
  have hst : x.logged = false → x.state = .live := by
    intro h
    rcases st with h1 | ⟨_, _, h1⟩
    · exact h1
    · rw [h] at h1; cases h1
  have hpt : x.parent ≠ some t := fun h => absurd (par t h).1 (Nat.lt_irrefl t)
  have hpp : ∀ p, x.parent = some p → p ≠ t ∧ ∃ y, e.txns p = some y ∧ y.child = some t := by
    intro p h
    obtain ⟨h1, y, h2, h3, _⟩ := par p h
    exact ⟨Nat.ne_of_lt h1, y, h2, h3⟩
  obtain ⟨hd1, hd2⟩ := detach_eq hx hc hpp
  -- the state after the request to force an fsync
  generalize he1 : (if has w bSync = true then (detached e t x).set t (some { x with force := true })
    else detached e t x) = e1
  have hf : forceFsync (detached e t x) t (has w bSync) = some e1 := by
    simp only [forceFsync, hd2, he1]
  generalize hx1 : ({ x with force := x.force || has w bSync } : Txn) = x1
  have hx1' : e1.txns t = some x1 := by
    subst he1; subst hx1
    cases has w bSync
    · simp [hd2]
    · simp
  have hp1 : ∀ p, x1.parent = some p → p ≠ t ∧ ∃ y, e1.txns p = some y := by
    intro p h
    have h' : x.parent = some p := by subst hx1; exact h
    obtain ⟨h1, y, h2, _⟩ := hpp p h'
    refine ⟨h1, { y with child := none }, ?_⟩
    subst he1
    cases has w bSync <;> simp [h1, detached, h', h2]
  have hu1 : x1.logged = false → x1.nRoll = 0 ∧ x1.fsyncLsn = 0 := by subst hx1; exact hunl
  have hs1 : x1.logged = false → x1.state = .live := by subst hx1; exact hst
  have ht1 : x1.tchild = none := by subst hx1; simp [tch, hc]
  have hfl : x1.flags = x.flags := by subst hx1; rfl
  have hbranch : (if w &&& ~~~DB_TXN_SYNC &&& ~~~DB_TXN_NOSYNC ≠ 0#32 then abortTxn e1 t
      else commitTxn e1 t (has w bNoSync || has x.flags bNoSync)) =
      some (marked e1 t x1 (bad w) (has w bNoSync || has x.flags bNoSync)) := by
    by_cases hb : bad w = true
    · have hb' : w &&& ~~~DB_TXN_SYNC &&& ~~~DB_TXN_NOSYNC ≠ 0#32 := by simpa [bad] using hb
      rw [if_pos hb', hb]
      exact abortTxn_eq hx1' ht1 hu1 hs1 _
    · have hb' : ¬ w &&& ~~~DB_TXN_SYNC &&& ~~~DB_TXN_NOSYNC ≠ 0#32 := by simpa [bad] using hb
      rw [if_neg hb', Bool.eq_false_iff.2 hb]
      exact commitTxn_eq hx1' ht1 hp1 hu1 hs1 _
  simp only [commitSelf, hd1, sync_bit, hcl, hf, hx1', nosync_bit, hns, hfl, hbranch]
  generalize hns2 : (has w bNoSync || has x.flags bNoSync) = ns
  cases hx2 : (marked e1 t x1 (bad w) ns).txns t with
  | none => simp [marked] at hx2
  | some x2 =>
    have hx2' := hx2
    simp only [marked, if_true, Option.some.injEq] at hx2'
    have hs2 : x2.state ≠ .live := by subst hx2'; cases bad w <;> simp
    have hp2 : ∀ p, x2.parent = some p → p ≠ t ∧ ∃ y, (marked e1 t x1 (bad w) ns).txns p = some y := by
      intro p h
      have h' : x1.parent = some p := by subst hx2'; exact h
      obtain ⟨h1, y, h2⟩ := hp1 p h'
      refine ⟨h1, ?_⟩
      simp only [marked, h1, if_false, h', h2]
      cases bad w <;> simp
    rw [finishCommit_eq hx2 hs2 hp2]
    rw [ended_eq e t x (bad w) ns (has w bSync) hpt (fun h => (hunl h).2) _ rfl e1 he1.symm x1 hx1.symm x2 hx2]
    simp only [bad, bne_iff_ne, ne_eq]

end Verif.Ydb
