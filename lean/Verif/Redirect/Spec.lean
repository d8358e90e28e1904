import Verif.Redirect.Model

/-!
# What the user of a dictionary sees of bulk loads

Written without files: a dictionary has contents, and a transaction has the contents to go back to.
-/

namespace Verif.Redirect

/-- The contents; in a transaction, what they were when it began; and whether a bulk load failed after it had begun to
write its file, in a transaction that was not undone. -/
structure A where
  cont : List Nat
  left : Bool
  saved : Option (List Nat × Bool)
deriving DecidableEq, Repr

def A.init : A := ⟨[], false, none⟩

/-- A put adds a row; a bulk load replaces the contents by its rows; a bulk load that fails leaves an empty dictionary;
an abort goes back; all else changes nothing. -/
def A.step (a : A) : Ev → A
  | .begin => { a with saved := some (a.cont, a.left) }
  | .put _ r => { a with cont := r :: a.cont }
  | .loadEnd _ rows => { a with cont := rows }
  | .loadFail _ part => { a with cont := [], left := a.left || part.isSome }
  | .commit => { a with saved := none }
  | .abort => match a.saved with | some (c, l) => ⟨c, l, none⟩ | none => a
  | _ => a

def A.run (a : A) (es : List Ev) : A := es.foldl A.step a

/-- At most one loader is open at any time of a run. -/
def OneLoader (s : S) : List Ev → Prop
  | [] => True
  | e :: es =>
    match step s e with
    | some (some (s', _)) => s'.pending.length ≤ 1 ∧ OneLoader s' es
    | _ => True

end Verif.Redirect
