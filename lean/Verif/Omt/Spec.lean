import Verif.Omt.Model
/-!
What an ordered container should do: it is a list of values, some of them marked, and the position of a value in the list is its index.

`none` is a failed assertion: a container with marks must not be changed by position.
-/
namespace Verif.Omt.Spec

variable {α σ : Type}

/-- The contents: the values in order, each with its mark. -/
abbrev S (α : Type) := List (α × Bool)

def vals (s : S α) : List α := s.map (·.1)

def noMarks (s : S α) : Bool := !s.any (·.2)

def fresh (vs : List α) : S α := vs.map (fun v => (v, false))

def insertAt (s : S α) (v : α) (i : Nat) : Option (Except Err Unit × S α) :=
  if noMarks s then
    some (if i ≤ s.length then (.ok (), s.take i ++ (v, false) :: s.drop i) else (.error .inval, s))
  else none

def setAt (s : S α) (v : α) (i : Nat) : Option (Except Err Unit × S α) :=
  if noMarks s then
    some (if i < s.length then (.ok (), s.set i (v, false)) else (.error .inval, s))
  else none

def deleteAt (s : S α) (i : Nat) : Option (Except Err Unit × S α) :=
  if noMarks s then
    some (if i < s.length then (.ok (), s.eraseIdx i) else (.error .inval, s))
  else none

def fetch (s : S α) (i : Nat) : Except Err α :=
  match (vals s)[i]? with
  | some v => .ok v
  | none => .error .inval

/-- The heaviside function goes from negative to zero to positive along the list. -/
def Mono (h : α → Int) (s : S α) : Prop :=
  (vals s).Pairwise (fun a b => (h b < 0 → h a < 0) ∧ (h b ≤ 0 → h a ≤ 0))

/-- The first value at which `h` is zero; if there is none, the index it would have. -/
def findZero (h : α → Int) (s : S α) : Option α × Nat :=
  match ((vals s).zipIdx.filter (fun x => h x.1 = 0)).head? with
  | some (v, i) => (some v, i)
  | none => (none, ((vals s).filter (fun v => h v < 0)).length)

/-- The first value at which `h` is positive, or the last at which it is negative. -/
def find (h : α → Int) (plus : Bool) (s : S α) : Option (α × Nat) :=
  if plus then ((vals s).zipIdx.filter (fun x => h x.1 > 0)).head?
  else ((vals s).zipIdx.filter (fun x => h x.1 < 0)).getLast?

/-- The callback on each value in turn, until it does not return 0. -/
def visit (f : α → Nat → σ → σ × Int) : List (α × Nat) → σ → σ × Int
  | [], s => (s, 0)
  | (v, i) :: l, s =>
    match f v i s with
    | (s, e) => if e ≠ 0 then (s, e) else visit f l s

/-- The values with indexes from `left` to before `right`. -/
def range (s : S α) (left right : Nat) : List (α × Nat) := ((vals s).zipIdx.take right).drop left

/-- How many values the callback is called on. -/
def visited (f : α → Nat → σ → σ × Int) : List (α × Nat) → σ → Nat
  | [], _ => 0
  | (v, i) :: l, s =>
    match f v i s with
    | (s, e) => if e ≠ 0 then 1 else 1 + visited f l s

/-- Marks on the `n` values from `left` on. -/
def setMarks (s : S α) (left n : Nat) : S α :=
  s.zipIdx.map (fun x => (x.1.1, x.1.2 || (left ≤ x.2 && x.2 < left + n)))

/-- The marked values with their indexes. -/
def markedOnes (s : S α) : List (α × Nat) := (s.zipIdx.filter (fun x => x.1.2)).map (fun x => (x.1.1, x.2))

/-- Each value changed in turn. -/
def change (f : α → Nat → σ → α × σ) : Nat → S α → σ → S α × σ
  | _, [], s => ([], s)
  | i, (v, m) :: l, s =>
    match f v i s with
    | (v, s) => match change f (i + 1) l s with
      | (l, s) => ((v, m) :: l, s)

/-! ## Histories -/

/-- A call.  In the calls with a callback, it is one that notes what it is called on and returns what is given here. -/
inductive Op (α : Type) where
  | size
  | insertAt (v : α) (i : Nat)
  | setAt (v : α) (i : Nat)
  | deleteAt (i : Nat)
  | fetch (i : Nat)
  | findZero (h : α → Int)
  | find (h : α → Int) (plus : Bool)
  | insert (v : α) (h : α → Int)
  | iterate (ret : α → Nat → Int) (left right : Nat)
  | iteratePtr (new : α → Nat → α)
  | iterateMark (ret : α → Nat → Int) (left right : Nat)
  | iterateMarked (ret : α → Nat → Int)
  | deleteMarked
  | clear
  /-- split, and go on with the left or the right part -/
  | split (i : Nat) (right : Bool)
  /-- merge with a container made of these values, on the right or on the left -/
  | merge (vs : List α) (right : Bool)
  /-- go on with a clone -/
  | clone

instance : DecidableEq (Except Err Unit)
  | .ok (), .ok () => .isTrue rfl
  | .error a, .error b => if h : a = b then .isTrue (by rw [h]) else .isFalse (by intro e; cases e; exact h rfl)
  | .ok _, .error _ => .isFalse (by intro e; cases e)
  | .error _, .ok _ => .isFalse (by intro e; cases e)

inductive Res (α : Type) where
  | done
  | fails (e : Err)
  | num (n : Nat)
  | value (v : α)
  | found (v : Option α) (i : Nat)
  | place (r : Option (α × Nat))
  | put (r : Except Err Unit) (i : Nat)
  | seen (l : List (α × Nat)) (e : Int)
  /-- the values of the part that is not kept -/
  | rest (l : List α)
deriving DecidableEq

/-- The callback that notes what it is called on. -/
def note (ret : α → Nat → Int) : α → Nat → List (α × Nat) → List (α × Nat) × Int :=
  fun v i s => (s ++ [(v, i)], ret v i)

def ofE : Except Err Unit → Res α
  | .ok _ => .done
  | .error e => .fails e

/-- One call on the list. -/
def step (s : S α) : Op α → Option (Res α × S α)
  | .size => some (.num s.length, s)
  | .insertAt v i => (insertAt s v i).map (fun x => (ofE x.1, x.2))
  | .setAt v i => (setAt s v i).map (fun x => (ofE x.1, x.2))
  | .deleteAt i => (deleteAt s i).map (fun x => (ofE x.1, x.2))
  | .fetch i => some ((match fetch s i with | .ok v => .value v | .error e => .fails e), s)
  | .findZero h => some (.found (findZero h s).1 (findZero h s).2, s)
  | .find h plus => some (.place (find h plus s), s)
  | .insert v h =>
    match findZero h s with
    | (some _, i) => some (.put (.error .exists) i, s)
    | (none, i) => (insertAt s v i).map (fun x => (.put x.1 i, x.2))
  | .iterate ret left right =>
    if right > s.length then some (.fails .inval, s)
    else
      let x := visit (note ret) (range s left right) []
      some (.seen x.1 x.2, s)
  | .iteratePtr new => some (.done, (change (fun v i (u : Unit) => (new v i, u)) 0 s ()).1)
  | .iterateMark ret left right =>
    if right > s.length then some (.fails .inval, s)
    else
      let x := visit (note ret) (range s left right) []
      some (.seen x.1 x.2, setMarks s left (visited (note ret) (range s left right) []))
  | .iterateMarked ret =>
    let x := visit (note ret) (markedOnes s) []
    some (.seen x.1 x.2, s)
  | .deleteMarked => some (.done, s.filter (fun x => !x.2))
  | .clear => some (.done, [])
  | .split i right =>
    if noMarks s then
      if i ≤ s.length then
        some (if right then (.rest (vals (s.take i)), s.drop i) else (.rest (vals (s.drop i)), s.take i))
      else some (.fails .inval, s)
    else none
  | .merge vs right => some (.done, if right then fresh (vals s ++ vs) else fresh (vs ++ vals s))
  | .clone => some (.done, fresh (vals s))

/-- What a caller must see to: heaviside functions are monotone, ranges are ranges, and marks are used only in a container that has them. -/
def Legal (sm : Bool) (s : S α) : Op α → Prop
  | .findZero h => Mono h s
  | .find h _ => Mono h s
  | .insert _ h => Mono h s
  | .iterate _ left right => left ≤ right
  | .iterateMark _ left right => sm = true ∧ left ≤ right
  | .iterateMarked _ => sm = true
  | .deleteMarked => sm = true
  | _ => True

/-- The results of a history, `none` from the first call that fails an assertion. -/
def run : S α → List (Op α) → Option (List (Res α))
  | _, [] => some []
  | s, op :: ops =>
    match step s op with
    | none => none
    | some (r, s) => (run s ops).map (r :: ·)

def LegalRun (sm : Bool) : S α → List (Op α) → Prop
  | _, [] => True
  | s, op :: ops => Legal sm s op ∧
    match step s op with
    | none => True
    | some (_, s) => LegalRun sm s ops

instance (h : α → Int) (s : S α) : Decidable (Mono h s) := by unfold Mono; infer_instance

instance (sm : Bool) (s : S α) (op : Op α) : Decidable (Legal sm s op) := by
  cases op <;> simp only [Legal] <;> infer_instance

instance decRun (sm : Bool) : (s : S α) → (ops : List (Op α)) → Decidable (LegalRun sm s ops)
  | _, [] => .isTrue trivial
  | s, op :: ops => by
    unfold LegalRun
    have : Decidable (match step s op with | none => True | some (_, s) => LegalRun sm s ops) := by
      split
      · exact .isTrue trivial
      · exact decRun sm _ ops
    infer_instance

end Verif.Omt.Spec
