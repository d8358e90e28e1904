import Verif.Blk.BlockTableSpec

/-!
Concrete histories, for the examples beside the theorems: a script of operations that is checked, operation by operation,
to be a sequence of `Step`s.  Not part of the model.
-/
namespace Verif.Blk

inductive Op where
  | new | write (b size : Nat) | desc (size : Nat) | free (b : Nat) | freeUnused (root : Nat) | done
  | start (P : List Nat) | ser | fin | crash

def room? (al : Alloc) (size : Nat) : Bool := (allocatedLimit al).any fun lim => decide (lim + algn + size < 2 ^ 63)

theorem room?_iff {al : Alloc} {size : Nat} : room? al size = true ↔ hasRoom al size := by
  unfold room? hasRoom
  cases allocatedLimit al with
  | none => simp
  | some lim => simp

/-- One operation, if it is allowed. -/
def exec (w : World) : Op → Option World
  | .new => (allocateBlocknum w.bt).map fun r => { w with bt := r.2, held := r.1 :: w.held }
  | .write b size =>
    if b ∈ w.held ∧ (∀ x ∈ w.writes, x.1 ≠ b) ∧ 0 < size ∧ room? w.bt.alloc size = true then
      (reallocOnDisk w.bt b size (w.pending.contains b)).map fun r =>
        { w with bt := r.1, writes := (b, ⟨r.2.toNat, size⟩) :: w.writes, pending := w.pending.filter (· ≠ b) }
    else none
  | .desc size =>
    if (∀ x ∈ w.writes, x.1 ≠ bnDescriptor) ∧ 0 < size ∧ room? w.bt.alloc size = true then
      (reallocDescriptor w.bt size).map fun r => { w with bt := r.1, writes := (bnDescriptor, ⟨r.2.toNat, size⟩) :: w.writes }
    else none
  | .free b =>
    if b ∈ w.held ∧ (∀ x ∈ w.writes, x.1 ≠ b) then
      (freeBlocknum w.bt b (w.pending.contains b)).map fun bt' =>
        { w with bt := bt', held := w.held.filter (· ≠ b), pending := w.pending.filter (· ≠ b) }
    else none
  | .freeUnused root =>
    if w.pending = [] then
      (freeUnusedBlocknums w.bt root).map fun bt' => { w with bt := bt', held := w.held.filter (fun b => bt'.cur.inUse b) }
    else none
  | .done => match w.writes with
    | [] => none
    | x :: _ => some { w with writes := w.writes.erase x }
  | .start P => if ∀ b ∈ P, b ∈ w.held then (noteStart w.bt).map fun bt' => { w with bt := bt', pending := P } else none
  | .ser => match w.bt.inp with
    | none => none
    | some inp =>
      if w.pending = [] ∧ w.bt.skipped = false ∧ inp.block bnTranslation = none ∧ room? w.bt.alloc (sizeOnDisk inp) = true ∧
          (∀ x ∈ w.writes, x.1 ≠ bnTranslation) then
        (allocTranslation w.bt).map fun r => { w with bt := r.1, writes := (bnTranslation, ⟨r.2, sizeOnDisk inp⟩) :: w.writes }
      else none
  | .fin => if w.pending = [] ∧ w.writes = [] then (noteEnd w.bt).map fun bt' => { w with bt := bt' } else none
  | .crash => (openBT w.bt.ckp).map fun bt' =>
      { w with bt := bt', writes := [], held := (List.range bt'.cur.smallest).filter (fun b => bt'.cur.inUse b), pending := [] }

theorem exec_step {w w' : World} {o : Op} (h : exec w o = some w') : Step w w' := by
  cases o with
  | new => obtain ⟨r, h1, rfl⟩ := Option.map_eq_some_iff.mp h; exact .newNumber h1
  | write b size =>
    simp only [exec] at h
    split at h
    · rename_i hg
      obtain ⟨r, h1, rfl⟩ := Option.map_eq_some_iff.mp h; exact .writeNode hg.1 hg.2.1 hg.2.2.1 (room?_iff.mp hg.2.2.2) h1
    · cases h
  | desc size =>
    simp only [exec] at h
    split at h
    · rename_i hg
      obtain ⟨r, h1, rfl⟩ := Option.map_eq_some_iff.mp h; exact .writeDescriptor hg.1 hg.2.1 (room?_iff.mp hg.2.2) h1
    · cases h
  | free b =>
    simp only [exec] at h
    split at h
    · rename_i hg
      obtain ⟨r, h1, rfl⟩ := Option.map_eq_some_iff.mp h; exact .freeNumber hg.1 hg.2 h1
    · cases h
  | freeUnused root =>
    simp only [exec] at h
    split at h
    · rename_i hg
      obtain ⟨r, h1, rfl⟩ := Option.map_eq_some_iff.mp h; exact .freeUnused hg h1
    · cases h
  | done =>
    simp only [exec] at h
    split at h
    · cases h
    · rename_i x xs hx; cases h; exact .writeDone (by rw [hx]; simp)
  | start P =>
    simp only [exec] at h
    split at h
    · rename_i hg
      obtain ⟨r, h1, rfl⟩ := Option.map_eq_some_iff.mp h; exact .beginCheckpoint hg h1
    · cases h
  | ser =>
    simp only [exec] at h
    split at h
    · cases h
    · rename_i inp hi
      split at h
      · rename_i hg
        obtain ⟨r, h1, rfl⟩ := Option.map_eq_some_iff.mp h
        exact .serialize hg.1 hg.2.1 hi hg.2.2.1 (room?_iff.mp hg.2.2.2.1) hg.2.2.2.2 h1
      · cases h
  | fin =>
    simp only [exec] at h
    split at h
    · rename_i hg
      obtain ⟨r, h1, rfl⟩ := Option.map_eq_some_iff.mp h; exact .endCheckpoint hg.1 (by simp [hg.2]) h1
    · cases h
  | crash => obtain ⟨r, h1, rfl⟩ := Option.map_eq_some_iff.mp h; exact .crash h1

def execAll (w : World) : List Op → Option World
  | [] => some w
  | o :: os => (exec w o).bind fun w' => execAll w' os

theorem execAll_reach {w w' : World} {os : List Op} (hw : Reach w) (h : execAll w os = some w') : Reach w' := by
  induction os generalizing w with
  | nil => cases h; exact hw
  | cons o os ih =>
    obtain ⟨w1, h1, h2⟩ := Option.bind_eq_some_iff.mp h
    exact ih (hw.step (exec_step h1)) h2

theorem execAll_append {w : World} {os os' : List Op} : execAll w (os ++ os') = (execAll w os).bind fun w' => execAll w' os' := by
  induction os generalizing w with
  | nil => rfl
  | cons o os ih =>
    simp only [List.cons_append, execAll]
    cases exec w o with
    | none => rfl
    | some w1 => exact ih

/-- A history from an empty dictionary. -/
def history (os : List Op) : Option World := createBT.bind fun bt => execAll ⟨bt, fun _ => 0, [], [], []⟩ os

theorem history_reach {w : World} {os : List Op} (h : history os = some w) : Reach w := by
  obtain ⟨bt, h1, h2⟩ := Option.bind_eq_some_iff.mp h
  exact execAll_reach (.created h1) h2

/-- A history that satisfies a test gives a reachable state that satisfies it. -/
theorem history_witness {os : List Op} {P : World → Bool} (h : (history os).any P = true) : ∃ w, Reach w ∧ P w = true := by
  cases hh : history os with
  | none => rw [hh] at h; cases h
  | some w => rw [hh] at h; exact ⟨w, history_reach hh, h⟩

end Verif.Blk
