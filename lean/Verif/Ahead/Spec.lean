import Verif.Ahead.Model

/-! # What reading ahead promises -/

namespace Verif.Ahead

/-- The file a step of a client is about. -/
def Ev.file : Ev → Option Nat
  | .call i _ => some i
  | .look i => some i
  | _ => none

/-- The bytes a step delivered to the reader of a file. -/
def gave (i : Nat) (e : Ev) (a : Ans) : List Nat :=
  match a with
  | .data l => if e.file = some i then l else []
  | _ => []

/-- All bytes delivered to the reader of a file. -/
def delivered (i : Nat) : List Ev → List Ans → List Nat
  | e :: es, a :: as => gave i e a ++ delivered i es as
  | _, _ => []

/-- No read of the background thread failed. -/
def Ev.fine : Ev → Bool
  | .ioFail _ => false
  | _ => true

/-- Nobody gave up. -/
def Ev.calm : Ev → Bool
  | .panic => false
  | _ => true

def C.held : C → List Nat
  | .idle => []
  | .asks _ h => h
  | .sleeps _ h => h

/-- What is left for the reader of a file. -/
def F.left (f : F) : List Nat := f.c.held ++ f.buf0 ++ (if f.ready then f.buf1 else []) ++ f.rest

/-- How many bytes the last call for a file asked for (`n` if there was none). -/
def asked (i : Nat) : Nat → List Ev → Nat
  | n, [] => n
  | n, .call j m :: es => asked i (if j = i then m else n) es
  | n, _ :: es => asked i n es

/-- The reader of a file was told that it is at its end. -/
def toldEof (i : Nat) : List Ev → List Ans → Bool
  | e :: es, a :: as => (e.file == some i && a == .err .eof) || toldEof i es as
  | _, _ => false

/-- A step of the background thread. -/
def Ev.ofIo : Ev → Bool
  | .io => true
  | .ioRead _ => true
  | .ioFail _ => true
  | _ => false

/-- The reader of a file sleeps. -/
def S.sleeps (s : S) (i : Nat) : Prop := ∃ f w h, s.fs[i]? = some f ∧ f.c = .sleeps w h

end Verif.Ahead
