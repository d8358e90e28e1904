import Verif.Rowcount.Model

/-!
# What the reported number of rows and size should be
-/

namespace Verif.Rowcount

variable {σ μ : Type}

/-- The corrections of a series of messages, applied in order to a content. -/
def tally (O : Ops σ μ) : σ → List (Nat × μ) → Int
  | _, [] => 0
  | v, (_, m) :: r => O.corr v m + tally O (O.apply v m) r

/-- The number of the newest message that is in the version of a basement node a reader would find: the one in
memory, or else the one on disk. -/
def Base.seenTo (b : Base σ μ) : Nat :=
  match b.mem with
  | some m => m.upto
  | none => b.dupto

/-- The content a reader would find, before messages are applied. -/
def Base.view (b : Base σ μ) : σ :=
  match b.mem with
  | some m => m.val
  | none => b.disk

/-- The corrections of all messages up to a number, each counted once, from the content at the start. -/
def Base.dueAt (O : Ops σ μ) (b : Base σ μ) (u : Nat) : Int :=
  tally O b.init (b.hist.filter (fun x => decide (x.1 ≤ u)))

/-- The corrections of the messages that are in the version a reader would find. -/
def Base.due (O : Ops σ μ) (b : Base σ μ) : Int := b.dueAt O b.seenTo

/-- Sum over all basement nodes. -/
def total (f : Base σ μ → Int) (ls : List (Leaf σ μ)) : Int := (ls.map (fun l => (l.bases.map f).sum)).sum

/-- What the senders of an event said they would add. -/
def saidBy (O : Ops σ μ) : Ev μ → Int
  | .put _ _ m => O.said m
  | _ => 0

/-- The row count due: the count at the start, what senders said, and the corrections known so far. -/
def due (O : Ops σ μ) (r : Int) (evs : List (Ev μ)) (s : St σ μ) : Int :=
  r + (evs.map (saidBy O)).sum + total (Base.due O) s.leaves

/-- Not a restart and not a replayed update: what happens while the dictionary is open and in use. -/
def Ev.ordinary : Ev μ → Bool
  | .restart => false
  | .oldUpdate => false
  | _ => true

/-- Sends a message. -/
def Ev.sends : Ev μ → Bool
  | .put .. => true
  | .broadcast .. => true
  | _ => false

/-- `R` relates contents that no later message can tell apart as far as row counts go, and garbage collection
stays within it. -/
structure Silent (O : Ops σ μ) (R : σ → σ → Prop) : Prop where
  refl : ∀ v, R v v
  trans : ∀ u v w, R u v → R v w → R u w
  corr : ∀ v w m, R v w → O.corr v m = O.corr w m
  apply : ∀ v w m, R v w → R (O.apply v m) (O.apply w m)
  gc : ∀ v, R (O.gc v) v

/-- The row count due is never below zero and never too large, from state `s` on, where `base` is the count at
the start and what senders have said so far. -/
def bounded (O : Ops σ μ) (base : Int) (s : St σ μ) : List (Ev μ) → Bool
  | [] => decide (0 ≤ base + total (Base.due O) s.leaves ∧ base + total (Base.due O) s.leaves < 2 ^ 63)
  | e :: es =>
    decide (0 ≤ base + total (Base.due O) s.leaves ∧ base + total (Base.due O) s.leaves < 2 ^ 63) &&
    match step O s e with
    | none => true
    | some t => bounded O (base + saidBy O e) t es

/-- Every basement node is in memory with all messages applied: what a scan of the dictionary brings about. -/
def Scanned (s : St σ μ) : Prop :=
  ∀ l, l ∈ s.leaves → ∀ b, b ∈ l.bases → ∃ m, b.mem = some m ∧ ∀ x, x ∈ b.hist → x.1 ≤ m.upto

/-- No reader's corrections are outstanding: every basement node in memory is as it is on disk, as far as
row counts go. -/
def Settled (s : St σ μ) : Prop :=
  ∀ l, l ∈ s.leaves → l.dirty = false ∧ l.cloned = false ∧ ∀ b, b ∈ l.bases → ∀ m, b.mem = some m → m.lrd = 0

/-- The physical count of the versions a reader would find. -/
def actual (O : Ops σ μ) (s : St σ μ) : Int := total (fun b => O.size b.view) s.leaves

/-- Neither of the two things that spoil the physical counts happens at this event: a leaf that readers have
changed is evicted as a whole; a checkpoint begins while a dirty leaf holds garbage. -/
def harmless (O : Ops σ μ) (s : St σ μ) : Ev μ → Bool
  | .evict l =>
    match s.leaves[l]? with
    | none => true
    | some lf => lf.bases.all (fun b => match b.mem with | none => true | some m => decide (m.sd = 0))
  | .beginCkpt =>
    s.leaves.all (fun lf => !lf.dirty || lf.bases.all (fun b =>
      match b.mem with | none => true | some m => decide (O.size (O.gc m.val) = O.size m.val)))
  | _ => true

/-- None of them happens in a series of events. -/
def harmlessRun (O : Ops σ μ) (s : St σ μ) : List (Ev μ) → Bool
  | [] => true
  | e :: es =>
    harmless O s e &&
    match step O s e with
    | none => true
    | some t => harmlessRun O t es

end Verif.Rowcount
