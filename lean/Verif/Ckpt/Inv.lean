import Verif.Ckpt.Spec
/-! The invariant, node by node. -/
set_option linter.unusedVariables false
set_option linter.unusedSimpArgs false
namespace Verif.Ckpt
variable {V : Type}

/-- What the holder of a node is doing with it. -/
inductive Role where
  | free | cpu | bad
  | locked
  | dep (dd : Bool)
  | held
  | item (f dd : Bool)
  | hold | wrote
  | fetch (keep : Bool) | fetchD (keep : Bool)
  | rem | remD
  | evQ | evGo (f : Bool) | evHold (f : Bool) | evWrote (f : Bool) | evLast | evRm
deriving DecidableEq

def itemRole (w : List Item) (m : Nat) : Role :=
  match w.find? (·.node = m) with
  | some i => .item i.flag i.dd
  | none => .held

def workRole (w : List Item) (k : Then) (m : Nat) : Role :=
  if k = .fetch m then .fetch true else itemRole w m

def roleOf (c : Pc) (m : Nat) : Role :=
  match c with
  | .idle => .held
  | .locked n deps => if m = n then .locked else
    match deps.find? (·.1 = m) with
    | some d => .dep d.2
    | none => .held
  | .work w k => workRole w k m
  | .hold n w k => if m = n then .hold else workRole w k m
  | .wrote n w k => if m = n then .wrote else workRole w k m
  | .fetch n keep => if m = n then .fetch keep else .held
  | .fetchD n keep => if m = n then .fetchD keep else .held
  | .rem n => if m = n then .rem else .held
  | .remD n => if m = n then .remD else .held
  | .evQ n => if m = n then .evQ else .held
  | .evGo n f => if m = n then .evGo f else .held
  | .evHold n f => if m = n then .evHold f else .held
  | .evWrote n f => if m = n then .evWrote f else .held
  | .evLast n _ => if m = n then .evLast else .held
  | .evRm n _ => if m = n then .evRm else .held

def lockRole (pc : Nat → Pc) (n : Nat) : Option Own → Role
  | none => .free
  | some .cp => .cpu
  | some .job => .bad
  | some (.thr t) => roleOf (pc t) n

inductive At where
  | no | look | hold | wrote
deriving DecidableEq

def cpAt (c : Cp) (n : Nat) : At :=
  match c with
  | .look m => if m = n then .look else .no
  | .hold m => if m = n then .hold else .no
  | .wrote m => if m = n then .wrote else .no
  | _ => .no

def Cp.running : Cp → Bool
  | .idle => false
  | .header => false
  | _ => true

/-- All there is about a node. -/
structure NV (V : Type) where
  p : Option (Pair V)
  cur : Option V
  inp : Option V
  L : Option V
  B : Option V
  O : Bool
  role : Role
  run : Bool
  hdr : Bool
  incl : Bool
  inPl : Bool
  inJob : Bool
  at_ : At

def St.roleAt (s : St V) (n : Nat) : Role :=
  match s.pair n with
  | none => .free
  | some p => lockRole s.pc n p.lock

def view (s : St V) (sp : Spec.S V) (n : Nat) : NV V :=
  ⟨s.pair n, s.cur n, s.inp n, sp.latest n, sp.image n, sp.old n, s.roleAt n, s.cp.running, s.cp = .header, s.incl n, n ∈ s.plist, n ∈ s.jobs, cpAt s.cp n⟩

def Role.disk : Role → Bool
  | .hold | .wrote | .fetchD _ | .remD | .evHold _ | .evWrote _ | .evRm => true
  | _ => false

/-- The bit was set when it was read, and the node has not been written yet. -/
def Role.flagged : Role → Bool
  | .item f _ => f
  | .hold | .wrote => true
  | .evGo f => f
  | .evHold f => f
  | .evWrote f => f
  | _ => false

/-- A phase has been started. -/
def Role.started : Role → Bool
  | .dep _ | .held | .item .. | .hold | .wrote | .fetch true | .fetchD true | .rem | .remD => true
  | _ => false

def Role.fetching : Role → Bool
  | .fetch _ | .fetchD _ => true
  | _ => false

def Role.removing : Role → Bool
  | .rem | .remD => true
  | _ => false

/-- The bit is known to be clear. -/
def Role.clear : Role → Bool
  | .item f _ => f
  | .hold | .wrote | .evGo _ | .evHold _ | .evWrote _ => true
  | _ => false

/-- Changes are known to the cache, up to what the holder still tells. -/
def Role.told : Role → Option Bool
  | .held | .rem | .remD => none
  | .dep dd => some dd
  | .item _ dd => some dd
  | _ => some false

/-- The invariant of a cached node. -/
structure GoodP (v : NV V) (p : Pair V) : Prop where
  bad : p.lock ≠ some .job
  free : v.role = .free ↔ p.lock = none
  cpu : v.role = .cpu ↔ p.lock = some .cp
  atc : v.at_ = .no ↔ p.lock ≠ some .cp
  atrun : v.at_ ≠ .no → v.run = true
  readers : p.lock ≠ none → p.readers = 0
  val : p.val = none ↔ v.role.fetching = true
  latest : p.val ≠ none → v.L = p.val
  exist : v.L ≠ none
  fetch : v.role.fetching = true → p.dirty = false ∧ p.chg = false ∧ v.cur = v.L ∧ p.clone = none ∧ p.disk ≠ some .job
  clean : p.dirty = false → p.chg = false → v.role.removing = false → (if p.clone = none then v.cur else p.clone) = v.L
  told : ∀ dd, v.role.told = some dd → p.chg = true → p.dirty = true ∨ dd = true
  clone : p.clone ≠ none → p.disk = some .job
  job : (p.disk = some .job → v.run = true) ∧ (p.disk = some .job ↔ v.inJob = true)
  disk1 : v.role.disk = true → p.disk = p.lock
  disk2 : ∀ t, p.disk = some (.thr t) → v.role.disk = true ∧ p.lock = some (.thr t)
  disk3 : p.disk = some .cp ↔ v.at_ = .hold ∨ v.at_ = .wrote
  pend : p.pending = true → v.run = true ∧ v.incl = true ∧ (v.inPl = true ∨ v.at_ ≠ .no) ∧ v.B = v.L ∧ p.disk ≠ some .job ∧ v.inp = v.cur
  flag : v.role.flagged = true → v.run = true ∧ v.incl = true ∧ v.inPl = true ∧ v.B = v.L ∧ p.disk ≠ some .job ∧ v.inp = v.cur
  done : v.run = true ∨ v.hdr = true → v.incl = true → p.pending = false → v.role.flagged = false → (if p.clone = none then v.inp else p.clone) = v.B
  old : v.run = true ∨ v.hdr = true → v.incl = true → v.role.started = true → v.O = p.pending
  clr : v.role.clear = true → p.pending = false
  hold : v.role = .hold ∨ (∃ f, v.role = .evHold f) → p.dirty = true
  wrote : v.role = .wrote ∨ (∃ f, v.role = .evWrote f) → v.cur = v.L ∧ p.chg = false ∧ p.clone = none
  last : v.role = .evLast ∨ v.role = .evRm → p.dirty = false
  athold : v.at_ = .hold → p.dirty = true ∧ p.pending = true
  atwrote : v.at_ = .wrote → p.pending = true ∧ v.cur = v.L ∧ p.chg = false ∧ p.clone = none
  hdrpl : v.hdr = true → v.inPl = false ∧ v.inJob = false ∧ v.run = false

/-- The invariant of a node that is not cached. -/
structure GoodN (v : NV V) : Prop where
  cur : v.cur = v.L
  inp : v.run = true ∨ v.hdr = true → v.incl = true → v.inp = v.B
  pl : v.inPl = false
  at_ : v.at_ = .no
  job : v.inJob = false

def Good (v : NV V) : Prop :=
  match v.p with
  | some p => GoodP v p
  | none => GoodN v

def Then.nodes : Then → List Nat
  | .ret => []
  | .fetch n => [n]

def nodesOf : Pc → List Nat
  | .idle => []
  | .locked n deps => n :: deps.map (·.1)
  | .work w k => k.nodes ++ w.map (·.node)
  | .hold n w k => n :: (k.nodes ++ w.map (·.node))
  | .wrote n w k => n :: (k.nodes ++ w.map (·.node))
  | .fetch n _ | .fetchD n _ | .rem n | .remD n | .evQ n | .evGo n _ | .evHold n _ | .evWrote n _ | .evLast n _ | .evRm n _ => [n]

/-- The thread is inside the expensive pending lock. -/
def inExp : Pc → Bool
  | .evGo .. | .evHold .. | .evWrote .. => true
  | .evLast _ e => e
  | .evRm _ e => e
  | _ => false

structure Inv (s : St V) (sp : Spec.S V) : Prop where
  node : ∀ n, Good (view s sp n)
  nodup : ∀ t, (nodesOf (s.pc t)).Nodup
  held : ∀ t, ∀ n ∈ nodesOf (s.pc t), Spec.Held s t n
  exp : ∀ t, inExp (s.pc t) = true → t ∈ s.exp
  tab : ∀ n, n ∈ s.tab ↔ s.pair n ≠ none

theorem inv_init (disk : Nat → Option V) : Inv (init disk) (Spec.init disk) := by
  refine ⟨fun n => ?_, fun t => by simp [init, nodesOf], fun t n h => by simp [init, nodesOf] at h, fun t h => by simp [init, inExp] at h, fun n => by simp [init]⟩
  simp only [Good, view, init]
  constructor <;> simp [Spec.init, Cp.running, cpAt]

/-- Nodes that a step does not touch. -/
theorem view_same {s s' : St V} {sp sp' : Spec.S V} {m : Nat} (hp : s'.pair m = s.pair m) (hc : s'.cur m = s.cur m) (hi : s'.inp m = s.inp m)
    (hl : sp'.latest m = sp.latest m) (hb : sp'.image m = sp.image m) (ho : sp'.old m = sp.old m)
    (hr : ∀ t, (∃ p, s.pair m = some p ∧ p.lock = some (.thr t)) → roleOf (s'.pc t) m = roleOf (s.pc t) m)
    (h1 : s'.cp.running = s.cp.running) (h2 : (s'.cp = .header) ↔ (s.cp = .header)) (h3 : s'.incl m = s.incl m) (h4 : m ∈ s'.plist ↔ m ∈ s.plist)
    (h5 : m ∈ s'.jobs ↔ m ∈ s.jobs) (h6 : cpAt s'.cp m = cpAt s.cp m) : view s' sp' m = view s sp m := by
  have hrole : s'.roleAt m = s.roleAt m := by
    simp only [St.roleAt, hp]
    cases e : s.pair m with
    | none => rfl
    | some p =>
      simp only
      cases e2 : p.lock with
      | none => rfl
      | some o =>
        cases o with
        | thr t => exact hr t ⟨p, e, e2⟩
        | cp => rfl
        | job => rfl
  simp only [view, hp, hc, hi, hl, hb, ho, hrole, h1, h2, h3, h4, h5, h6]

end Verif.Ckpt
