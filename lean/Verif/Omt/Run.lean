import Verif.Omt.Spec
/-!
The calls of `Spec.Op` on the model of the container.
-/
namespace Verif.Omt
open Spec (Op Res note ofE)

variable {α : Type}

/-- The values of a container, as `iterate` gives them. -/
def O.values (o : O α) : Option (List α) :=
  match iterate o (note fun _ _ => 0) 0 o.size [] with
  | some (.ok (s, _)) => some (s.map (·.1))
  | _ => none

/-- `split_at`, and which part to go on with. -/
def splitStep (sm : Bool) (o : O α) (i : Nat) (right : Bool) : Option (Res α × O α) :=
  match splitAt sm o i with
  | none => none
  | some (.error e, o) => some (.fails e, o)
  | some (.ok new, o) => if right then o.values.map (fun l => (.rest l, new)) else new.values.map (fun l => (.rest l, o))

/-- `merge` with a new container. -/
def mergeStep (sm : Bool) (o : O α) (vs : List α) (right : Bool) : Option (O α) :=
  match createFrom sm vs with
  | none => none
  | some n => if right then merge sm o n else merge sm n o

/-- One call. -/
def step (sm : Bool) (o : O α) : Op α → Option (Res α × O α)
  | .size => some (.num o.size, o)
  | .insertAt v i => (insertAt sm o v i).map (fun x => (ofE x.1, x.2))
  | .setAt v i => (setAt sm o v i).map (fun x => (ofE x.1, x.2))
  | .deleteAt i => (deleteAt sm o i).map (fun x => (ofE x.1, x.2))
  | .fetch i => (fetch o i).map (fun x => ((match x with | .ok v => .value v | .error e => .fails e), o))
  | .findZero h => (findZero o h).map (fun x => (.found x.1 x.2, o))
  | .find h plus => (find o h plus).map (fun x => (.place x, o))
  | .insert v h => (insert sm o v h).map (fun x => (.put x.1.1 x.1.2, x.2))
  | .iterate ret left right => (iterate o (note ret) left right []).map (fun x => ((match x with | .ok x => .seen x.1 x.2 | .error e => .fails e), o))
  | .iteratePtr new => (iteratePtr o (fun v i (u : Unit) => (new v i, u)) ()).map (fun x => (.done, x.1))
  | .iterateMark ret left right => (iterateMark o (note ret) left right []).map (fun x => ((match x.1 with | .ok x => .seen x.1 x.2 | .error e => .fails e), x.2))
  | .iterateMarked ret => (iterateMarked o (note ret) []).map (fun x => (.seen x.1 x.2, o))
  | .deleteMarked => (deleteMarked o).map (fun o => (.done, o))
  | .clear => some (.done, clear o)
  | .split i right => splitStep sm o i right
  | .merge vs right => (mergeStep sm o vs right).map (fun o => (.done, o))
  | .clone => (clone sm o).map (fun o => (.done, o))

/-- The results of a history. -/
def runFrom (sm : Bool) : O α → List (Op α) → Option (List (Res α))
  | _, [] => some []
  | o, op :: ops =>
    match step sm o op with
    | none => none
    | some (r, o) => (runFrom sm o ops).map (r :: ·)

/-- The results of a history of a new container. -/
def run (sm : Bool) (ops : List (Op α)) : Option (List (Res α)) :=
  match create sm with
  | none => none
  | some o => runFrom sm o ops

/-- A container that a history has led to, and the list the same history leads to. -/
inductive Reached (sm : Bool) : Spec.S α → O α → Prop
  | new {o : O α} : create sm = some o → Reached sm [] o
  | step {s s' : Spec.S α} {o o' : O α} {op : Op α} {r r' : Res α} : Reached sm s o → Spec.Legal sm s op → Spec.step s op = some (r, s') → step sm o op = some (r', o') → Reached sm s' o'

end Verif.Omt
