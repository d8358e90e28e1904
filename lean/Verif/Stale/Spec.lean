import Verif.Stale.Model

/-! # What opening, closing and opening again promises

A directory of files; each file ever made has its own contents.  Pages, inodes and memory do not occur. -/

namespace Verif.Stale

structure T where
  /-- Which file a name stands for. -/
  dir : Nat → Option Nat
  /-- The file open under a number, with the name it was opened by. -/
  handle : Nat → Option (Nat × Nat)
  /-- To be deleted when closed. -/
  doomed : Nat → Bool
  /-- The value at a key of a file. -/
  content : Nat → Nat → Nat
  /-- The next file to be made. -/
  fresh : Nat

def T.start : T := ⟨fun _ => none, fun _ => none, fun _ => false, fun _ _ => 0, 0⟩

/-- What may be answered, and what changes. -/
inductive Step : T → Ev → Ans → T → Prop
  | create (t : T) (n i : Nat) : t.dir n = none → Step t (.create n i) .done
      { t with dir := upd t.dir n (some t.fresh), content := upd t.content t.fresh (fun _ => 0), fresh := t.fresh + 1 }
  | noent (t : T) (n : Nat) (w : Option Nat) : t.dir n = none → Step t (.open n w) .noent t
  | again (t : T) (n f num m : Nat) (w : Option Nat) : t.dir n = some f → t.handle num = some (m, f) →
      Step t (.open n w) (.opened num true) t
  | opens (t : T) (n f num : Nat) (w : Option Nat) : t.dir n = some f → (∀ k m, t.handle k ≠ some (m, f)) →
      t.handle num = none → num ≠ none32 → (∀ x, w = some x → x = num) → Step t (.open n w) (.opened num false)
      { t with handle := upd t.handle num (some (n, f)), doomed := upd t.doomed num false }
  | put (t : T) (num k v m f : Nat) : t.handle num = some (m, f) → Step t (.put num k v) .done
      { t with content := upd t.content f (upd (t.content f) k v) }
  | get (t : T) (num k m f : Nat) : t.handle num = some (m, f) → Step t (.get num k) (.val (t.content f k)) t
  | drop (t : T) (num k : Nat) : Step t (.drop num k) .done t
  | mark (t : T) (num : Nat) : t.handle num ≠ none → Step t (.mark num) .done { t with doomed := upd t.doomed num true }
  | close (t : T) (num m f : Nat) : t.handle num = some (m, f) → Step t (.close num) .done
      { t with handle := upd t.handle num none, dir := if t.doomed num then upd t.dir m none else t.dir }
  | loadOpen (t : T) (num n f : Nat) : t.handle num = some (n, f) → Step t (.rollbackLoad n) .done
      { t with doomed := upd t.doomed num true }
  | loadClosed (t : T) (n : Nat) : (∀ num f, t.handle num ≠ some (n, f)) → Step t (.rollbackLoad n) .done
      { t with dir := upd t.dir n none }
  | evBegin (t : T) (i : Nat) : Step t (.evBegin i) .done t
  | evEnd (t : T) (a : Ans) : Step t .evEnd a t
  | shutdown (t : T) : Step t .shutdown .done t

inductive Steps : T → List Ev → List Ans → T → Prop
  | nil (t : T) : Steps t [] [] t
  | cons {t t1 t2 : T} {e : Ev} {es : List Ev} {a : Ans} {as : List Ans} :
      Step t e a t1 → Steps t1 es as t2 → Steps t (e :: es) (a :: as) t2

/-- The caller asks for what the cachetable does not allow: to delete or to open a file already to be deleted, or to
open a file under a number that is no number or is in use. -/
def Asked (t : T) (e : Ev) : Prop :=
  (∃ num, e = .mark num ∧ t.doomed num = true) ∨
  (∃ n w num m f, e = .open n w ∧ t.dir n = some f ∧ t.handle num = some (m, f) ∧ t.doomed num = true) ∨
  (∃ n num f, e = .rollbackLoad n ∧ t.handle num = some (n, f) ∧ t.doomed num = true) ∨
  (∃ n x, e = .open n (some x) ∧ (x = none32 ∨ t.handle x ≠ none))

/-- No file with pages still in memory is unlinked behind the cachetable's back. -/
def tidy (s : S) : List Ev → Prop
  | [] => True
  | e :: es =>
    (∀ n i, e = .rollbackLoad n → s.active.find? (fun c => c.name == n) = none → nameOf s.dir n = some i →
      ∀ c ∈ s.stale, c.ino ≠ i) ∧
    (∀ s' a, act s e = some (some (s', a)) → tidy s' es)

/-- Nothing is opened, and the cachetable is not closed, between the two halves of an eviction. -/
def quiet : Bool → List Ev → Bool
  | _, [] => true
  | _, .evBegin _ :: es => quiet true es
  | _, .evEnd :: es => quiet false es
  | b, .open _ _ :: es => !b && quiet b es
  | b, .shutdown :: es => !b && quiet b es
  | b, _ :: es => quiet b es

end Verif.Stale
