import Verif.Ckpt.Model
/-!
What a checkpoint is to hold, from what callers do.  A caller changes a node in phases: a phase of a node starts when the node is pinned or is given along as
dependent when another one is pinned.  A change counts for a checkpoint if its phase started before the checkpoint began.
-/
namespace Verif.Ckpt.Spec

/-- The content of every node; what the checkpoint is to hold; whether the latest phase of the node started before the checkpoint. -/
structure S (V : Type) where
  latest : Nat → Option V
  image : Nat → Option V
  old : Nat → Bool

variable {V : Type}

def init (disk : Nat → Option V) : S V := ⟨disk, disk, fun _ => true⟩

def ev (s : S V) : Ev V → S V
  | .start ns => { s with old := fun n => if n ∈ ns then false else s.old n }
  | .write n v => { s with
      latest := fun m => if m = n then v else s.latest m
      image := fun m => if m = n ∧ s.old n then v else s.image m }
  | .begin => ⟨s.latest, s.latest, fun _ => true⟩

def evs (s : S V) (es : List (Ev V)) : S V := es.foldl ev s

/-- A thread holds a node. -/
def Held (s : St V) (t n : Nat) : Prop := ∃ p, s.pair n = some p ∧ p.lock = some (.thr t)

/-- The dependent nodes a thread gives are different nodes that it holds, and it says that they are dirty if it has changed them. -/
def Deps (s : St V) (t : Nat) (deps : List (Nat × Bool)) : Prop :=
  (deps.map (·.1)).Nodup ∧ ∀ d ∈ deps, ∃ p, s.pair d.1 = some p ∧ p.lock = some (.thr t) ∧ (p.chg → d.2)

/-- What callers have to keep to: they pin nodes that exist and create nodes that do not, and tell when they have changed a node. -/
def Legal (s : St V) (sp : S V) : Act V → Prop
  | .lock t _ deps => Deps s t deps
  | .miss t n deps => Deps s t deps ∧ sp.latest n ≠ none
  | .prefetch _ n => sp.latest n ≠ none
  | .put t n _ deps => Deps s t deps ∧ sp.latest n = none
  | .unpin _ n d => ∀ p, s.pair n = some p → p.chg → d
  | _ => True

end Verif.Ckpt.Spec

namespace Verif.Ckpt
variable {V : Type}

/-- The states that can be reached, from a disk and an empty cache, with what the callers have done. -/
inductive Reached (cl : Nat → Bool) (disk : Nat → Option V) : St V → Spec.S V → Prop
  | init : Reached cl disk (init disk) (Spec.init disk)
  | step {s sp a s' es} : Reached cl disk s sp → Spec.Legal s sp a → step cl s a = .ok s' es → Reached cl disk s' (Spec.evs sp es)

/-- Steps of the checkpoint thread and of background writes. -/
def Own.step : Act V → Prop
  | .take | .cpStep | .finish | .endCp | .job _ => True
  | _ => False

/-- No caller is in the middle of anything or has a node pinned. -/
structure Quiet (s : St V) : Prop where
  pc : ∀ t, s.pc t = .idle
  lock : ∀ n p, s.pair n = some p → (∀ t, p.lock ≠ some (.thr t)) ∧ p.readers = 0

/-- The state can get there by steps of the checkpoint thread and of background writes. -/
inductive Goes (cl : Nat → Bool) : St V → St V → Prop
  | refl {s : St V} : Goes cl s s
  | step {s s1 s' : St V} {a : Act V} : Own.step a → Verif.Ckpt.step cl s a = .ok s1 [] → Goes cl s1 s' → Goes cl s s'

/-- Steps one after the other, with what callers do in them. -/
inductive Path (cl : Nat → Bool) : St V → Spec.S V → List (Act V) → List (Ev V) → St V → Prop
  | nil {s : St V} {sp : Spec.S V} : Path cl s sp [] [] s
  | cons {s s1 s' : St V} {sp : Spec.S V} {a : Act V} {as : List (Act V)} {es fs : List (Ev V)} : Spec.Legal s sp a → Verif.Ckpt.step cl s a = .ok s1 es →
      Path cl s1 (Spec.evs sp es) as fs s' → Path cl s sp (a :: as) (es ++ fs) s'

/-- No phase of a node starts. -/
def NoStart (n : Nat) (es : List (Ev V)) : Prop := ∀ ns, Ev.start ns ∈ es → n ∉ ns

/-- A node is changed only after a phase of it has started. -/
def StartsFirst (n : Nat) : List (Ev V) → Prop
  | [] => True
  | .start ns :: es => n ∈ ns ∨ StartsFirst n es
  | .write m _ :: es => m ≠ n ∧ StartsFirst n es
  | .begin :: es => StartsFirst n es

end Verif.Ckpt
