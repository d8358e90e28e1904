import Verif.Blk.CkptLemmas
import Verif.Blk.Exec

/-!
The two histories with 8191 block numbers in which a free-list link is taken for a disk offset.
-/
namespace Verif.Blk

/-- The length of the array after `n` numbers. -/
def capAfter : Nat → Nat
  | 0 => 3
  | n + 1 => if capAfter n ≤ 3 + n then (3 + n) * 2 else capAfter n

def heldAfter : Nat → List Nat
  | 0 => []
  | n + 1 => (3 + n) :: heldAfter n

/-- The state after `n` new block numbers. -/
def bigWorld (n : Nat) : World :=
  { bt := { cur := ⟨List.replicate (3 + n) ⟨diskUnused, 0⟩ ++ List.replicate (capAfter n - (3 + n)) ⟨flNull, sizeFree⟩, 3 + n, flNull⟩
            inp := none
            ckp := ⟨List.replicate reservedBn ⟨diskUnused, 0⟩, reservedBn, flNull⟩
            alloc := ⟨hdr, algn, 0, hdr, (create hdr algn).elim .nil (·.tree)⟩
            skipped := false }
    disk := fun _ => 0
    writes := []
    held := heldAfter n
    pending := [] }

theorem bigWorld_reach (n : Nat) : Reach (bigWorld n) := by
  have hcap : ∀ n, 3 + n ≤ capAfter n := by
    intro n
    induction n with
    | zero => decide
    | succ n ih => rw [capAfter]; split <;> omega
  induction n with
  | zero => exact Reach.created (by decide +kernel)
  | succ n ih =>
    refine ih.step (Step.newNumber (b := 3 + n) ?_)
    have hc := hcap n
    have hset : ∀ m, (List.replicate (3 + n) (⟨diskUnused, 0⟩ : Pair) ++ List.replicate (m + 1) (⟨flNull, sizeFree⟩ : Pair)).set (3 + n) (⟨diskUnused, 0⟩ : Pair) =
        List.replicate (3 + (n + 1)) (⟨diskUnused, 0⟩ : Pair) ++ List.replicate m (⟨flNull, sizeFree⟩ : Pair) := by
      intro m
      rw [List.set_append_right _ _ (by simp), List.length_replicate, Nat.sub_self, List.replicate_succ, List.set_cons_zero,
        show 3 + (n + 1) = (3 + n) + 1 by omega, List.replicate_succ' (n := 3 + n), List.append_assoc]
      rfl
    have hexp : expand (bigWorld n).bt.cur = ⟨List.replicate (3 + n) ⟨diskUnused, 0⟩ ++ List.replicate (capAfter (n + 1) - (3 + (n + 1)) + 1) ⟨flNull, sizeFree⟩, 3 + n, flNull⟩ := by
      unfold expand bigWorld
      simp only [List.length_append, List.length_replicate, capAfter]
      by_cases hle : capAfter n ≤ 3 + n
      · rw [if_pos (by omega), if_pos hle, List.append_assoc, List.replicate_append_replicate]
        congr 3; omega
      · rw [if_neg (by omega), if_neg hle]
        congr 3; omega
    simp only [allocateBlocknum, allocateBn]
    rw [if_pos (by rfl), hexp]
    simp only [List.length_append, List.length_replicate]
    rw [if_pos (by unfold reservedBn; omega)]
    rw [hset]
    rfl


end Verif.Blk
namespace Verif.Blk

def nBig : Nat := 8194
/-- The size of the translation. -/
def szBig : Nat := 131124

def p0 : Pair := ⟨diskUnused, 0⟩

/-- The entries from number 4 on: nothing was written. -/
structure Rest (Z : List Pair) : Prop where
  len : Z.length = 8190
  zero : ∀ (i : Nat) (p : Pair), Z[i]? = some p → p = p0

theorem freeOld_skip {inp cur : Tr} {ps : List Pair} {i : Nat} {al : Alloc} (h : ∀ p ∈ ps, ¬ 0 < p.size) : freeOld inp cur i ps al = some al := by
  induction ps generalizing i with
  | nil => rfl
  | cons p ps ih => rw [freeOld, if_neg (by intro hh; exact h p (by simp) hh.1)]; exact ih (fun q hq => h q (by simp [hq]))

def al0 : Alloc := ⟨hdr, algn, 0, hdr, (create hdr algn).elim .nil (·.tree)⟩
def al1 : Alloc := ((allocBlock al0 700).getD (0, al0)).2
def al2 : Alloc := ((allocBlock al1 szBig).getD (0, al0)).2
theorem al1_eq : allocBlock al0 700 = some (8192, al1) := by decide +kernel
theorem al2_eq : allocBlock al1 szBig = some (12288, al2) := by decide +kernel

/-- Number 3 is checkpointed at offset 8192. -/
def stA (Z pad : List Pair) : BT :=
  { cur := ⟨p0 :: p0 :: p0 :: ⟨8192, 700⟩ :: (Z ++ pad), nBig, flNull⟩, inp := none,
    ckp := ⟨p0 :: ⟨12288, szBig⟩ :: p0 :: ⟨8192, 700⟩ :: Z, nBig, flNull⟩, alloc := al2, skipped := false }

theorem noteStart_big {Z pad : List Pair} (hl : Z.length = 8190) {q : Pair} (hq : Z[8189]? = some q) (hz : q.size ≠ sizeFree) {x y : Pair} {hd : Int} {ckp : Tr} {al : Alloc} {sk : Bool} :
    noteStart ⟨⟨p0 :: p0 :: x :: y :: (Z ++ pad), nBig, hd⟩, none, ckp, al, sk⟩ =
      some ⟨⟨p0 :: p0 :: x :: y :: (Z ++ pad), nBig, hd⟩, some ⟨p0 :: p0 :: x :: y :: Z, nBig, hd⟩, ckp, al, false⟩ := by
  have hopt : optimize ⟨p0 :: p0 :: x :: y :: (Z ++ pad), nBig, hd⟩ = ⟨p0 :: p0 :: x :: y :: (Z ++ pad), nBig, hd⟩ := by
    have ht : trimTo (p0 :: p0 :: x :: y :: (Z ++ pad)) nBig = nBig := by
      rw [show nBig = 8193 + 1 from rfl, trimTo, if_neg]
      rintro ⟨-, h2⟩
      have : (p0 :: p0 :: x :: y :: (Z ++ pad))[8193]? = some q := by
        rw [show (8193 : Nat) = 8189 + 1 + 1 + 1 + 1 from rfl]
        simp only [List.getElem?_cons_succ]
        rw [List.getElem?_append_left (by omega)]; exact hq
      rw [this] at h2
      exact hz (by simpa using h2)
    unfold optimize
    simp only [ht, Nat.lt_irrefl, if_false]
  unfold noteStart
  simp only [hopt, Option.isSome_none, Bool.false_eq_true, if_false]
  unfold copyTr
  simp only
  rw [if_pos (by simp only [List.length_cons, List.length_append]; unfold nBig; omega), if_pos (by decide)]
  simp only [Option.map_some, Option.some.injEq, BT.mk.injEq, Tr.mk.injEq, true_and, and_true]
  rw [show nBig = 8190 + 1 + 1 + 1 + 1 from rfl]
  simp only [List.take_succ_cons]
  rw [List.take_append_of_le_length (by omega), List.take_of_length_le (by omega)]
  rfl

theorem stA_reach : ∃ Z pad held, Rest Z ∧ (∀ p ∈ pad, p.size ≤ 0) ∧ 3 ∈ held ∧ 8192 ∈ held ∧ Reach ⟨stA Z pad, fun _ => 0, [], held, []⟩ := by
  have hcap : ∀ n, 3 + n ≤ capAfter n := by
    intro n
    induction n with
    | zero => decide
    | succ n ih => rw [capAfter]; split <;> omega
  have hheld : ∀ n i, i < n → 3 + i ∈ heldAfter n := by
    intro n
    induction n with
    | zero => intro i hi; omega
    | succ n ih =>
      intro i hi
      rw [heldAfter]
      by_cases h : i = n
      · subst h; simp
      · exact List.mem_cons_of_mem _ (ih i (by omega))
  obtain ⟨m, hm⟩ : ∃ m : Nat, m = 8191 := ⟨_, rfl⟩
  have h0 := bigWorld_reach m
  have hh3 : 3 ∈ heldAfter m := hheld m 0 (by omega)
  have hh8 : 8192 ∈ heldAfter m := hheld m 8189 (by omega)
  obtain ⟨Z, hZ⟩ : ∃ Z, Z = List.replicate (m - 1) p0 := ⟨_, rfl⟩
  obtain ⟨pad, hpad⟩ : ∃ pad, pad = List.replicate (capAfter m - (3 + m)) (⟨flNull, sizeFree⟩ : Pair) := ⟨_, rfl⟩
  have hR : Rest Z := by
    refine ⟨by rw [hZ, List.length_replicate]; omega, fun i p hp => ?_⟩
    rw [hZ] at hp
    have := List.mem_of_getElem? hp
    exact (List.mem_replicate.mp this).2
  refine ⟨Z, pad, heldAfter m, hR, fun p hp => (by rw [hpad] at hp; rw [(List.mem_replicate.mp hp).2]; decide), hh3, hh8, ?_⟩
  have hb : bigWorld m = ⟨⟨⟨p0 :: p0 :: p0 :: p0 :: (Z ++ pad), nBig, flNull⟩, none, ⟨[p0, p0, p0], 3, flNull⟩, al0, false⟩, fun _ => 0, [], heldAfter m, []⟩ := by
    unfold bigWorld
    rw [← hpad, show 3 + m = m - 1 + 1 + 1 + 1 + 1 by omega]
    simp only [List.replicate_succ, List.cons_append]
    rw [show (⟨diskUnused, 0⟩ : Pair) = p0 from rfl, ← hZ, show m - 1 + 1 + 1 + 1 + 1 = nBig by unfold nBig; omega]
    rfl
  rw [hb] at h0
  have hl8 : ∃ q, Z[8189]? = some q := ⟨_, List.getElem?_eq_getElem (by rw [hR.len]; decide)⟩
  obtain ⟨q, hq⟩ := hl8
  have hqz : q.size ≠ sizeFree := by rw [hR.zero _ q hq]; decide
  -- number 3 is written
  have h1 := h0.step (Step.writeNode (b := 3) (size := 700) (off := 8192)
    (bt' := ⟨⟨p0 :: p0 :: p0 :: ⟨8192, 700⟩ :: (Z ++ pad), nBig, flNull⟩, none, ⟨[p0, p0, p0], 3, flNull⟩, al1, false⟩) hh3 (by simp) (by decide)
    (room?_iff.mp (by show room? al0 700 = true; decide +kernel)) (by
      show reallocOnDisk _ 3 700 false = _
      unfold reallocOnDisk realloc
      rw [if_pos ⟨by decide, (by decide : 3 < nBig)⟩]
      simp only [List.getElem?_cons_succ, List.getElem?_cons_zero, Option.bind_some, Bool.not_false, Bool.true_and, prevents]
      simp only [p0, ne_eq, not_true_eq_false, decide_false, Bool.and_false, Bool.false_eq_true, if_false, Option.bind_some]
      rw [if_pos (by decide), al1_eq]
      rfl))
  have h2 := h1.step (Step.writeDone (x := (3, ⟨8192, 700⟩)) (by simp))
  -- a checkpoint
  have h3 := h2.step (Step.beginCheckpoint (P := []) (by simp) (noteStart_big hR.len hq hqz))
  have hsz : sizeOnDisk ⟨p0 :: p0 :: p0 :: ⟨8192, 700⟩ :: Z, nBig, flNull⟩ = szBig := by simp only [sizeOnDisk, nBig, szBig]
  have h4 := h3.step (Step.serialize (inp := ⟨p0 :: p0 :: p0 :: ⟨8192, 700⟩ :: Z, nBig, flNull⟩) (off := 12288)
    (bt' := ⟨⟨p0 :: p0 :: p0 :: ⟨8192, 700⟩ :: (Z ++ pad), nBig, flNull⟩, some ⟨p0 :: ⟨12288, szBig⟩ :: p0 :: ⟨8192, 700⟩ :: Z, nBig, flNull⟩, ⟨[p0, p0, p0], 3, flNull⟩, al2, false⟩)
    rfl rfl rfl rfl (room?_iff.mp (by rw [hsz]; show room? al1 szBig = true; decide +kernel)) (by simp) (by
      unfold allocTranslation
      simp only [Option.bind_some, hsz, al2_eq]
      rw [if_pos (by simp [bnTranslation])]
      rfl))
  have h5 := h4.step (Step.writeDone (x := (1, ⟨12288, szBig⟩)) (by rw [hsz]; simp [bnTranslation]))
  have h6 := h5.step (Step.endCheckpoint (bt' := stA Z pad) rfl (by rw [hsz]; intro x hx; revert hx; simp [bnTranslation]) (by
    unfold noteEnd
    simp only [Option.bind_some, Bool.false_eq_true, if_false, bnTranslation, List.getElem?_cons_succ, List.getElem?_cons_zero]
    rw [if_pos (by decide), freeOld_skip (by decide)]
    rfl))
  rw [hsz] at h6
  exact h6

theorem freeOld_none {inp cur : Tr} {ps : List Pair} {i j : Nat} {p : Pair} {al : Alloc} (h : ps[j]? = some p) (hs : 0 < p.size)
    (h1 : prevents (some inp) (i + j) p = false) (h2 : prevents (some cur) (i + j) p = true) : freeOld inp cur i ps al = none := by
  induction ps generalizing i j al with
  | nil => simp at h
  | cons q ps ih =>
    rw [freeOld]
    cases j with
    | zero =>
      simp only [List.getElem?_cons_zero, Option.some.injEq] at h; subst h
      rw [Nat.add_zero] at h1 h2
      rw [if_pos ⟨hs, h1⟩, if_pos h2]
    | succ j =>
      simp only [List.getElem?_cons_succ] at h
      have e : i + (j + 1) = i + 1 + j := by omega
      rw [e] at h1 h2
      split
      · split
        · rfl
        · cases freeBlock al q.u.toNat q.size.toNat with
          | none => rfl
          | some al1 => exact ih h h1 h2
      · exact ih h h1 h2

def al3 : Alloc := ((allocBlock al2 800).getD (0, al0)).2
def al4 : Alloc := ((allocBlock al3 szBig).getD (0, al0)).2
theorem al3_eq : allocBlock al2 800 = some (147456, al3) := by decide +kernel
theorem al4_eq : allocBlock al3 szBig = some (151552, al4) := by decide +kernel

def pFree : Pair := ⟨flNull, sizeFree⟩

theorem get_big {Z pad : List Pair} (hl : Z.length = 8190) (x y z t : Pair) : (x :: y :: z :: t :: (Z ++ pad))[8192]? = Z[8188]? := by
  rw [show (8192 : Nat) = 8188 + 1 + 1 + 1 + 1 from rfl]
  simp only [List.getElem?_cons_succ]
  rw [List.getElem?_append_left (by omega)]

theorem freeIn_big {Z pad : List Pair} (hl : Z.length = 8190) (x y z t : Pair) :
    freeIn ⟨x :: y :: z :: t :: (Z ++ pad), nBig, flNull⟩ 8192 = some ⟨x :: y :: z :: t :: (Z.set 8188 pFree ++ pad), nBig, 8192⟩ := by
  unfold freeIn
  rw [if_pos ⟨by decide, (by decide : 8192 < nBig), by simp only [List.length_cons, List.length_append, hl]; omega⟩]
  rw [show (8192 : Nat) = 8188 + 1 + 1 + 1 + 1 from rfl]
  simp only [List.set_cons_succ]
  rw [List.set_append_left _ _ (by omega)]
  rfl

theorem freeIn_three {Z pad : List Pair} (x y z t : Pair) :
    freeIn ⟨x :: y :: z :: t :: (Z ++ pad), nBig, 8192⟩ 3 = some ⟨x :: y :: z :: ⟨8192, sizeFree⟩ :: (Z ++ pad), nBig, 3⟩ := by
  unfold freeIn
  rw [if_pos ⟨by decide, (by decide : 3 < nBig), by simp only [List.length_cons]; omega⟩]
  rfl

/-- The history that fails: everything is written, the checkpoint is about to end. -/
theorem abort_reach : ∃ (w : World) (inp : Tr), Reach w ∧ w.pending = [] ∧ w.writes = [] ∧ w.bt.inp = some inp ∧ w.bt.skipped = false ∧
    (inp.block bnTranslation).isSome ∧ noteEnd w.bt = none := by
  obtain ⟨Z, pad, held, hR, hpd, hh3, hh8, h0⟩ := stA_reach
  obtain ⟨q, hq⟩ : ∃ q, Z[8189]? = some q := ⟨_, List.getElem?_eq_getElem (by rw [hR.len]; decide)⟩
  obtain ⟨q8, hq8⟩ : ∃ q, Z[8188]? = some q := ⟨_, List.getElem?_eq_getElem (by rw [hR.len]; decide)⟩
  have hqz : q.size ≠ sizeFree := by rw [hR.zero _ q hq]; decide
  have hq80 := hR.zero _ q8 hq8
  -- number 3 is written again
  have h1 := h0.step (Step.writeNode (b := 3) (size := 800) (off := 147456)
    (bt' := ⟨⟨p0 :: p0 :: p0 :: ⟨147456, 800⟩ :: (Z ++ pad), nBig, flNull⟩, none, (stA Z pad).ckp, al3, false⟩) hh3 (by simp) (by decide)
    (room?_iff.mp (by show room? al2 800 = true; decide +kernel)) (by
      show reallocOnDisk (stA Z pad) 3 800 false = _
      unfold reallocOnDisk realloc
      rw [if_pos ⟨by decide, (by decide : 3 < nBig)⟩]
      simp only [stA, List.getElem?_cons_succ, List.getElem?_cons_zero, Option.bind_some, Bool.not_false, Bool.true_and, prevents, Option.map_some, decide_true, Bool.and_true,
        Bool.false_or, show decide (3 < nBig) = true from rfl, Bool.not_true, Bool.false_and, Bool.false_eq_true, if_false]
      rw [if_neg (by simp [nBig])]
      simp only [Option.bind_some]
      rw [if_pos (by decide), al3_eq]
      rfl))
  have h2 := h1.step (Step.writeDone (x := (3, ⟨147456, 800⟩)) (by simp))
  have h3 := h2.step (Step.beginCheckpoint (P := []) (by simp) (noteStart_big hR.len hq hqz))
  have h4 := h3.step (Step.freeNumber (b := 8192)
    (bt' := ⟨⟨p0 :: p0 :: p0 :: ⟨147456, 800⟩ :: (Z.set 8188 pFree ++ pad), nBig, 8192⟩, some ⟨p0 :: p0 :: p0 :: ⟨147456, 800⟩ :: Z, nBig, flNull⟩, (stA Z pad).ckp, al3, false⟩)
    hh8 (by simp) (by
      show freeBlocknum _ 8192 false = _
      unfold freeBlocknum
      simp only [get_big hR.len, hq8, Option.bind_some, freeIn_big hR.len, Bool.false_eq_true, if_false]
      rw [if_neg (by rw [hq80]; intro hh; exact absurd hh.1 (by decide))]))
  have h5 := h4.step (Step.freeNumber (b := 3)
    (bt' := ⟨⟨p0 :: p0 :: p0 :: ⟨8192, sizeFree⟩ :: (Z.set 8188 pFree ++ pad), nBig, 3⟩, some ⟨p0 :: p0 :: p0 :: ⟨147456, 800⟩ :: Z, nBig, flNull⟩, (stA Z pad).ckp, al3, false⟩)
    (by simp only [List.mem_filter]; exact ⟨hh3, by decide⟩) (by simp) (by
      show freeBlocknum _ 3 false = _
      unfold freeBlocknum
      simp only [List.getElem?_cons_succ, List.getElem?_cons_zero, Option.bind_some, freeIn_three, Bool.false_eq_true, if_false]
      rw [if_neg (by
        rintro ⟨-, hh⟩
        simp [prevents, nBig] at hh)]))
  have hsz : sizeOnDisk ⟨p0 :: p0 :: p0 :: ⟨147456, 800⟩ :: Z, nBig, flNull⟩ = szBig := by simp only [sizeOnDisk, nBig, szBig]
  have h6 := h5.step (Step.serialize (inp := ⟨p0 :: p0 :: p0 :: ⟨147456, 800⟩ :: Z, nBig, flNull⟩) (off := 151552)
    (bt' := ⟨⟨p0 :: p0 :: p0 :: ⟨8192, sizeFree⟩ :: (Z.set 8188 pFree ++ pad), nBig, 3⟩, some ⟨p0 :: ⟨151552, szBig⟩ :: p0 :: ⟨147456, 800⟩ :: Z, nBig, flNull⟩, (stA Z pad).ckp, al4, false⟩)
    rfl rfl rfl rfl (room?_iff.mp (by rw [hsz]; show room? al3 szBig = true; decide +kernel)) (by simp) (by
      unfold allocTranslation
      simp only [Option.bind_some, hsz, al4_eq]
      rw [if_pos (by simp [bnTranslation])]
      rfl))
  have h7 := h6.step (Step.writeDone (x := (1, ⟨151552, szBig⟩)) (by rw [hsz]; simp [bnTranslation]))
  rw [hsz] at h7
  refine ⟨_, _, h7, rfl, ?_, rfl, rfl, rfl, ?_⟩
  · simp [bnTranslation]
  · unfold noteEnd
    simp only [Option.bind_some, Bool.false_eq_true, if_false, bnTranslation, List.getElem?_cons_succ, List.getElem?_cons_zero]
    rw [if_pos (by decide), freeOld_none (j := 3) (p := ⟨8192, 700⟩) (by rfl) (by decide)]
    · rfl
    · simp [prevents]
    · simp [prevents, nBig]

def al5 : Alloc := ((allocBlock al2 szBig).getD (0, al0)).2
def al6 : Alloc := (freeBlock al5 12288 szBig).getD al0
theorem al5_eq : allocBlock al2 szBig = some (147456, al5) := by decide +kernel
theorem al6_eq : freeBlock al5 12288 szBig = some al6 := by decide +kernel

/-- The history that loses a block: nothing is in progress any more. -/
theorem leak_reach : ∃ (w : World) (Z : List Pair), Reach w ∧ w.pending = [] ∧ w.writes = [] ∧ w.bt.inp = none ∧ (∀ (i : Nat) (p : Pair), Z[i]? = some p → p.size ≤ 0) ∧
    w.bt.cur.arr = p0 :: p0 :: p0 :: ⟨8192, sizeFree⟩ :: Z ∧ (∃ Z', (∀ (i : Nat) (p : Pair), Z'[i]? = some p → p.size ≤ 0) ∧
      w.bt.ckp.arr = p0 :: ⟨147456, szBig⟩ :: p0 :: ⟨8192, sizeFree⟩ :: Z') ∧ w.bt.alloc = al6 := by
  obtain ⟨Z, pad, held, hR, hpd, hh3, hh8, h0⟩ := stA_reach
  obtain ⟨q, hq⟩ : ∃ q, Z[8189]? = some q := ⟨_, List.getElem?_eq_getElem (by rw [hR.len]; decide)⟩
  obtain ⟨q8, hq8⟩ : ∃ q, Z[8188]? = some q := ⟨_, List.getElem?_eq_getElem (by rw [hR.len]; decide)⟩
  have hqz : q.size ≠ sizeFree := by rw [hR.zero _ q hq]; decide
  have hq80 := hR.zero _ q8 hq8
  have h4 := h0.step (Step.freeNumber (b := 8192)
    (bt' := ⟨⟨p0 :: p0 :: p0 :: ⟨8192, 700⟩ :: (Z.set 8188 pFree ++ pad), nBig, 8192⟩, none, (stA Z pad).ckp, al2, false⟩)
    hh8 (by simp) (by
      show freeBlocknum _ 8192 false = _
      unfold freeBlocknum stA
      simp only [get_big hR.len, hq8, Option.bind_some, freeIn_big hR.len, Bool.false_eq_true, if_false]
      rw [if_neg (by rw [hq80]; intro hh; exact absurd hh.1 (by decide))]))
  have h5 := h4.step (Step.freeNumber (b := 3)
    (bt' := ⟨⟨p0 :: p0 :: p0 :: ⟨8192, sizeFree⟩ :: (Z.set 8188 pFree ++ pad), nBig, 3⟩, none, (stA Z pad).ckp, al2, false⟩)
    (by simp only [List.mem_filter]; exact ⟨hh3, by decide⟩) (by simp) (by
      show freeBlocknum _ 3 false = _
      unfold freeBlocknum
      simp only [List.getElem?_cons_succ, List.getElem?_cons_zero, Option.bind_some, freeIn_three, Bool.false_eq_true, if_false]
      rw [if_neg (by
        rintro ⟨-, hh⟩
        simp [prevents, nBig, stA] at hh)]))
  have h3 := h5.step (Step.beginCheckpoint (P := []) (by simp) (noteStart_big (Z := Z.set 8188 pFree) (by rw [List.length_set]; exact hR.len) (q := q)
    (by rw [List.getElem?_set_ne (by decide)]; exact hq) hqz))
  have hsz : sizeOnDisk ⟨p0 :: p0 :: p0 :: ⟨8192, sizeFree⟩ :: Z.set 8188 pFree, nBig, 3⟩ = szBig := by simp only [sizeOnDisk, nBig, szBig]
  have h6 := h3.step (Step.serialize (inp := ⟨p0 :: p0 :: p0 :: ⟨8192, sizeFree⟩ :: Z.set 8188 pFree, nBig, 3⟩) (off := 147456)
    (bt' := ⟨⟨p0 :: p0 :: p0 :: ⟨8192, sizeFree⟩ :: (Z.set 8188 pFree ++ pad), nBig, 3⟩, some ⟨p0 :: ⟨147456, szBig⟩ :: p0 :: ⟨8192, sizeFree⟩ :: Z.set 8188 pFree, nBig, 3⟩, (stA Z pad).ckp, al5, false⟩)
    rfl rfl rfl rfl (room?_iff.mp (by rw [hsz]; show room? al2 szBig = true; decide +kernel)) (by simp) (by
      unfold allocTranslation
      simp only [Option.bind_some, hsz, al5_eq]
      rw [if_pos (by simp [bnTranslation])]
      rfl))
  have h7 := h6.step (Step.writeDone (x := (1, ⟨147456, szBig⟩)) (by rw [hsz]; simp [bnTranslation]))
  have h8 := h7.step (Step.endCheckpoint
    (bt' := ⟨⟨p0 :: p0 :: p0 :: ⟨8192, sizeFree⟩ :: (Z.set 8188 pFree ++ pad), nBig, 3⟩, none, ⟨p0 :: ⟨147456, szBig⟩ :: p0 :: ⟨8192, sizeFree⟩ :: Z.set 8188 pFree, nBig, 3⟩, al6, false⟩)
    rfl (by rw [hsz]; intro x hx; revert hx; simp [bnTranslation]) (by
      unfold noteEnd
      simp only [Option.bind_some, Bool.false_eq_true, if_false, bnTranslation, List.getElem?_cons_succ, List.getElem?_cons_zero]
      rw [if_pos (by decide)]
      have : freeOld ⟨p0 :: ⟨147456, szBig⟩ :: p0 :: ⟨8192, sizeFree⟩ :: Z.set 8188 pFree, nBig, 3⟩ ⟨p0 :: p0 :: p0 :: ⟨8192, sizeFree⟩ :: (Z.set 8188 pFree ++ pad), nBig, 3⟩ 0
          (stA Z pad).ckp.arr al5 = some al6 := by
        unfold stA
        simp only
        rw [freeOld, if_neg (by intro hh; exact absurd hh.1 (by decide)), freeOld, if_pos ⟨by decide, by simp [prevents]⟩, if_neg (by simp [prevents, p0, diskUnused]),
          show (12288 : Int).toNat = 12288 from rfl, show ((szBig : Nat) : Int).toNat = szBig from rfl, al6_eq]
        simp only [Option.bind_some]
        rw [freeOld, if_neg (by intro hh; exact absurd hh.1 (by decide)), freeOld, if_neg (by rintro ⟨-, hh⟩; simp [prevents, nBig] at hh)]
        exact freeOld_skip (fun p hp => by
          obtain ⟨i, hi⟩ := List.mem_iff_getElem?.mp hp
          rw [hR.zero i p hi]; decide)
      rw [this]
      rfl))
  have hz1 : ∀ (i : Nat) (p : Pair), (Z.set 8188 pFree)[i]? = some p → p.size ≤ 0 := by
    intro i p hp
    rw [List.getElem?_set] at hp
    split at hp
    · split at hp
      · cases hp; decide
      · cases hp
    · rw [hR.zero i p hp]; decide
  rw [hsz] at h8
  refine ⟨_, _, h8, rfl, ?_, rfl, ?_, rfl, ⟨_, hz1, rfl⟩, rfl⟩
  · simp [bnTranslation]
  · intro i p hp
    rw [List.getElem?_append] at hp
    split at hp
    · exact hz1 i p hp
    · exact hpd p (List.mem_of_getElem? hp)

end Verif.Blk
