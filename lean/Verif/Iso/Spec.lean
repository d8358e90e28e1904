import Mathlib.Order.Defs.LinearOrder

/-! What "one after another" means: questions, answers, and running the calls of one transaction alone. -/
namespace Verif.Iso

variable {K V : Type} [LinearOrder K]

inductive Dir where
  | up | down
  deriving DecidableEq

/-- `x` comes before `y` for a cursor that moves in this direction. -/
def Dir.lt : Dir → K → K → Prop
  | .up, x, y => x < y
  | .down, x, y => y < x

/-- Where a search starts: at the end, at a key, or beyond a key. -/
inductive Start (K : Type) where
  | inf
  | incl (k : K)
  | excl (k : K)
  deriving DecidableEq

/-- The keys ahead of a start. -/
def Start.ahead (d : Dir) : Start K → K → Prop
  | .inf, _ => True
  | .incl k, x => ¬ d.lt x k
  | .excl k, x => d.lt k x

/-- The keys within a bound, if there is one. -/
def within (d : Dir) : Option K → K → Prop
  | none, _ => True
  | some m, x => ¬ d.lt m x

/-- A question: the first row from `start` on, not beyond `bound`.  All reads are of this form: a point read of `k`
starts at `k` and is bounded by `k` (`point`), the first row starts at the end, the next one beyond the row before. -/
structure Query (K : Type) where
  dir : Dir
  start : Start K
  bound : Option K
  point : Bool
  deriving DecidableEq

/-- A point read. -/
def Query.get (k : K) : Query K := ⟨.up, .incl k, some k, true⟩

abbrev Store (K V : Type) := K → Option V

/-- The answer to a question on a store. -/
def IsAnswer (s : Store K V) (q : Query K) : Option (K × V) → Prop
  | some (r, v) => q.start.ahead q.dir r ∧ within q.dir q.bound r ∧ s r = some v ∧
      ∀ x, q.start.ahead q.dir x → q.dir.lt x r → s x = none
  | none => ∀ x, q.start.ahead q.dir x → within q.dir q.bound x → s x = none

/-- What a transaction did, as its user saw it; `begin`, `commit` and `abort` are of transactions inside it. -/
inductive Ev (K V : Type) where
  | ask (q : Query K) (a : Option (K × V))
  | wrote (k : K) (v : Option V)
  | «begin»
  | commit
  | abort

def upd (s : Store K V) (k : K) (v : Option V) : Store K V := fun x => if x = k then v else s x

/-- One thing done alone.  The list has the store as it is now, then as it was when each of the open inner transactions
began. -/
def alone : Ev K V → List (Store K V) → List (Store K V)
  | .wrote k v, s :: r => upd s k v :: r
  | .«begin», s :: r => s :: s :: r
  | .commit, s :: _ :: r => s :: r
  | .abort, _ :: s :: r => s :: r
  | _, st => st

def runAlone : List (Ev K V) → List (Store K V) → List (Store K V)
  | [], st => st
  | e :: l, st => runAlone l (alone e st)

/-- The store as it is now. -/
def now (st : List (Store K V)) : Store K V := st.head?.getD fun _ => none

/-- All answers are right when the transaction is run alone. -/
def Right : List (Ev K V) → List (Store K V) → Prop
  | [], _ => True
  | e :: l, st => (match e with | .ask q a => IsAnswer (now st) q a | _ => True) ∧ Right l (alone e st)

/-- The store a transaction leaves behind. -/
def after (s : Store K V) (l : List (Ev K V)) : Store K V := now (runAlone l [s])

/-- Run one after another from `s`, every transaction gets the answers it got. -/
def Serial (s : Store K V) : List (List (Ev K V)) → Prop
  | [] => True
  | l :: ls => Right l [s] ∧ Serial (after s l) ls

/-- The store all of them leave behind. -/
def afterAll (s : Store K V) (ls : List (List (Ev K V))) : Store K V := ls.foldl after s

/-- There is an order in which the transactions could have been run one after another. -/
def Serializable (s : Store K V) (ls : List (List (Ev K V))) : Prop := ∃ l, l.Perm ls ∧ Serial s l

end Verif.Iso
