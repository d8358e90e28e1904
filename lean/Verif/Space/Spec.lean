import Verif.Space.Model

/-!
# The reserve of disk space, as a user reads the manual
-/

namespace Verif.Space

/-- The share set before the environment was opened: 5 percent unless changed. -/
def share : Int → List Event → Int
  | z, [] => z
  | _, .setRedzone z' :: vs => share z' vs
  | z, .openEnv _ :: _ => z
  | z, _ :: vs => share z vs

/-- The looks at the file systems, in order: at the opening and from then on. -/
def looks : Bool → List Event → List (Nat → Fs)
  | _, [] => []
  | false, .openEnv f :: vs => f :: looks true vs
  | true, .look f :: vs => f :: looks true vs
  | o, _ :: vs => looks o vs

/-- One of the three directories has less than `k` times `z` percent left. -/
def Low (d : Dirs) (k z : Nat) (f : Nat → Fs) : Prop :=
  ∃ n, (n = d.home ∨ n = d.data ∨ n = d.log) ∧ (f n).avail < k * ((f n).total * z / 100)

/-- The file systems are not so large that the percentage overflows. -/
def Sane (z : Nat) (f : Nat → Fs) : Prop := ∀ n, (f n).total * z < 18446744073709551616

/-- Calls that can make the data larger by what the user gives. -/
def grows : Op → Bool
  | .put | .update | .updateBroadcast | .putMultiple | .updateMultiple | .indexRow => true
  | .del | .other => false

/-- Look number `i` (counted from 1; nothing is low before the first) finds the zone `r` and the one before it found one in `from_`. -/
def Enters (r : Zone) (from_ : Zone → Prop) (zs : List Zone) (i : Nat) : Prop :=
  ∃ j z, i = j + 1 ∧ zs[j]? = some r ∧ (Zone.green :: zs)[j]? = some z ∧ from_ z

/-- A warning of a zone at look `i`: it is entered, and either it is one of the first eleven looks, or one after the twelfth and
the zone was not entered at any of the twelve looks before. -/
def Warned (r : Zone) (P : Zone → Prop) (zs : List Zone) (i : Nat) : Prop :=
  Enters r P zs i ∧ (i < 12 ∨ 12 < i ∧ ∀ k, Enters r P zs k → k < i → k + 12 < i)

/-- The warnings of the looks, in order. -/
def warnings : List Out → List (Option Zone)
  | [] => []
  | .warned w :: os => w :: warnings os
  | _ :: os => warnings os

open Classical in
/-- What a look finds. -/
noncomputable def found (d : Dirs) (z : Nat) (f : Nat → Fs) : Zone :=
  if Low d 1 z f then .red else if Low d 2 z f then .yellow else .green

end Verif.Space
