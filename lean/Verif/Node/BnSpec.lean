/-!
What a part of a leaf is: each object is a list of rows, a row being its key and the bytes of its record.
-/
namespace Verif.Node.BnSpec

abbrev Row := List Nat × List Nat

/-- The size of rows: 4 bytes for each, the keys, and the records. -/
def size (rows : List Row) : Nat := (rows.map fun r => 4 + r.1.length + r.2.length).sum

/-- The calls on a collection of objects; objects are named by the order in which they were made.  `build` makes an object of
sorted rows, `split` makes a new object from the rows at and after a position, `copy` and `reload` make a new object, the latter
by way of its bytes on disk. -/
inductive Op where
  | new
  | build (rows : List Row)
  | insert (o i : Nat) (key rec : List Nat)
  | overwrite (o i : Nat) (rec : List Nat)
  | delete (o i : Nat)
  | split (o i : Nat)
  | copy (o : Nat)
  | reload (o : Nat)
deriving Repr, DecidableEq

/-- An object has less than 512 MiB, and keys are bytes. -/
def Fits (rows : List Row) : Prop := size rows < 2 ^ 29 ∧ ∀ r ∈ rows, ∀ b ∈ r.1, b < 256

instance (rows : List Row) : Decidable (Fits rows) := by unfold Fits; infer_instance

/-- `rows` in place of what object `o` held. -/
def put (s : List (List Row)) (o : Nat) (rows : List Row) : Option (List (List Row)) := if Fits rows then some (s.set o rows) else none

/-- The lists after one call; `none` for a call that nobody may make. -/
def step (s : List (List Row)) : Op → Option (List (List Row))
  | .new => some (s ++ [[]])
  | .build rows => if Fits rows then some (s ++ [rows]) else none
  | .insert o i key rec => match s[o]? with
    | some rows => if i ≤ rows.length then put s o (rows.take i ++ (key, rec) :: rows.drop i) else none
    | none => none
  | .overwrite o i rec => match s[o]? with
    | some rows => match rows[i]? with
      | some (key, _) => put s o (rows.set i (key, rec))
      | none => none
    | none => none
  | .delete o i => match s[o]? with
    | some rows => if i < rows.length then some (s.set o (rows.eraseIdx i)) else none
    | none => none
  | .split o i => match s[o]? with
    | some rows => some (s.set o (rows.take i) ++ [rows.drop i])
    | none => none
  | .copy o => match s[o]? with
    | some rows => some (s ++ [rows])
    | none => none
  | .reload o => match s[o]? with
    | some rows => some (s ++ [rows])
    | none => none

/-- The lists after a sequence of calls. -/
def run (s : List (List Row)) : List Op → Option (List (List Row))
  | [] => some s
  | op :: ops => (step s op).bind fun s => run s ops

/-- The records a call brings. -/
def records : Op → List (List Nat)
  | .build rows => rows.map Prod.snd
  | .insert _ _ _ rec => [rec]
  | .overwrite _ _ rec => [rec]
  | _ => []

end Verif.Node.BnSpec
