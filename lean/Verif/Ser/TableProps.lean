import Verif.Ser.TableLemmas
import Verif.Blk.Exec

/-!
C52: the block table on disk.
-/
namespace Verif.TrDisk
open Verif.Ser Verif.Blk

/-- C52: any block table whose entries are 64-bit numbers, and which takes less than 4 GB, is read back as it was written: the bytes
written are a multiple of 512, and whatever follows them on disk does not matter. -/
theorem C52_block_table_is_read_back {t : Tr} {location : Nat} (hlen : t.smallest ≤ t.arr.length) (hres : 3 ≤ t.smallest) (hsize : 16 * t.smallest + 20 + 511 < 2 ^ 32)
    (hhead : - 2 ^ 63 ≤ t.head ∧ t.head < 2 ^ 63)
    (hv : ∀ (b : Nat) (p : Pair), b < t.smallest → t.arr[b]? = some p → (- 2 ^ 63 ≤ p.u ∧ p.u < 2 ^ 63) ∧ (- 2 ^ 63 ≤ p.size ∧ p.size < 2 ^ 63))
    (hloc : 0 < location) (htr : t.arr[1]? = some ⟨location, (16 * t.smallest + 20 : Nat)⟩) :
    ∃ bytes, serializeTr t = .ok bytes ∧ bytes.length % 512 = 0 ∧
      ∀ rest, deserializeTr location (16 * t.smallest + 20) (bytes ++ rest) = .ok (.ok ⟨t.arr.take t.smallest, t.smallest, t.head⟩) := by
  have hso : sizeOnDisk t = 16 * t.smallest + 20 := by unfold sizeOnDisk; omega
  refine ⟨_, serialize_ok hlen (by omega), ?_, ?_⟩
  · have := fieldsOf_length hlen
    simp only [List.length_append, digits_length, List.length_replicate]
    unfold roundup512
    omega
  · intro rest
    rw [← hso, List.append_assoc]
    exact readBack hlen hres (by omega) hhead hv hloc (by rw [hso]; exact htr) _

/-- C52: a table on disk whose checksum does not match is refused with an error, whatever else its bytes say: nothing is made of it. -/
theorem C52_damaged_table_is_refused {location size : Nat} {bytes : List Nat} (hb : ∀ b ∈ bytes, b < 256) (hloc : 0 < location) (h4 : 4 ≤ size) (hlen : size ≤ bytes.length)
    (hbad : XSpec.checksum (bytes.take (size - 4)) ≠ le ((bytes.drop (size - 4)).take 4)) : deserializeTr location size bytes = .ok (.error .badChecksum) := by
  unfold deserializeTr
  rw [if_neg (by omega), if_neg (by omega), if_pos]
  rw [memory_spec (fun b h => hb b (List.mem_of_mem_take h))]
  exact hbad

def exTr : Tr := ⟨[⟨-2, 0⟩, ⟨8192, 84⟩, ⟨4096, 30⟩, ⟨12288, 1000⟩, ⟨7, 7⟩], 4, -1⟩

example : ∃ bytes, serializeTr exTr = .ok bytes ∧ bytes.length % 512 = 0 ∧ ∀ rest, deserializeTr 8192 84 (bytes ++ rest) = .ok (.ok ⟨exTr.arr.take 4, 4, -1⟩) :=
  C52_block_table_is_read_back (t := exTr) (by decide) (by decide) (by decide) (by decide)
    (fun b p hb hp => by
      have : b = 0 ∨ b = 1 ∨ b = 2 ∨ b = 3 := by simp only [exTr] at hb; omega
      rcases this with rfl | rfl | rfl | rfl <;> simp [exTr] at hp <;> subst hp <;> decide) (by decide) (by decide)

example : deserializeTr 8192 84 (List.replicate 83 7 ++ [8]) = .ok (.error .badChecksum) := by
  have hb : ∀ b ∈ List.replicate 83 7 ++ [8], b < 256 := by decide
  refine C52_damaged_table_is_refused hb (by decide) (by decide) (by decide) ?_
  rw [← memory_spec (fun b h => hb b (List.mem_of_mem_take h))]
  decide +kernel

/-- C52: at every checkpoint of every history, the table that is written at the place it is given is, read from that place, exactly the
table of the checkpoint (for tables of less than 4 GB and files of less than 2^63 bytes). -/
theorem C52_checkpoint_table_is_read_back {w : World} (h : Reach w) {inp inp' : Tr} {bt' : BT} {off : Nat} (hp : w.pending = []) (hk : w.bt.skipped = false) (hi : w.bt.inp = some inp)
    (hn : inp.block bnTranslation = none) (hroom : hasRoom w.bt.alloc (sizeOnDisk inp)) (hw : ∀ x ∈ w.writes, x.1 ≠ bnTranslation) (ha : allocTranslation w.bt = some (bt', off))
    (hi' : bt'.inp = some inp') (hsize : 16 * inp.smallest + 20 + 511 < 2 ^ 32) (hfile : ∀ b k, inp'.block b = some k → k.off + k.size < 2 ^ 63) :
    ∃ bytes, serializeTr inp' = .ok bytes ∧ ∀ rest, deserializeTr off (sizeOnDisk inp') (bytes ++ rest) = .ok (.ok inp') := by
  have hr := Reach.step h (Step.serialize hp hk hi hn hroom hw ha)
  obtain ⟨L, hb⟩ := hr.inv.bt
  have hok : inp'.OK := hb.inp inp' hi'
  have hlen : inp'.arr.length = inp'.smallest := hb.inpLen inp' hi'
  -- what allocation does
  unfold allocTranslation at ha
  rw [hi] at ha
  simp only [Option.bind_some] at ha
  cases hal : allocBlock w.bt.alloc (sizeOnDisk inp) with
  | none => rw [hal] at ha; cases ha
  | some r =>
    rw [hal] at ha
    simp only [Option.bind_some] at ha
    split at ha
    · rename_i hlt
      cases ha
      simp only [Option.some.injEq] at hi'
      subst hi'
      have htr : (inp.arr.set bnTranslation ⟨r.1, sizeOnDisk inp⟩)[bnTranslation]? = some ⟨r.1, sizeOnDisk inp⟩ := by rw [List.getElem?_set_self hlt]
      have hso : sizeOnDisk ({ inp with arr := inp.arr.set bnTranslation ⟨r.1, sizeOnDisk inp⟩ } : Tr) = sizeOnDisk inp := rfl
      have hpos : (0 : Int) < sizeOnDisk inp := by unfold sizeOnDisk; omega
      have hblk : ({ inp with arr := inp.arr.set bnTranslation ⟨r.1, sizeOnDisk inp⟩ } : Tr).block bnTranslation = some ⟨r.1, sizeOnDisk inp⟩ := by
        unfold Tr.block
        simp only [htr]
        rw [if_pos hpos]
        simp
      have hmem := hb.live bnTranslation _ (Or.inr (Or.inr ⟨_, rfl, hblk⟩))
      have hoff := (Run.ok hb.run hmem).2.1
      have hrg := ok_range hok (by simp only; omega) hfile
      have hs' : sizeOnDisk inp + 511 < 2 ^ 32 := by unfold sizeOnDisk; omega
      refine ⟨_, serialize_ok hok.len hs', ?_⟩
      intro rest
      rw [List.append_assoc]
      have := readBack (location := r.1) hok.len hok.res hs' hrg.1 hrg.2 (by unfold hdr at hoff; simp only at hoff; omega) (by rw [hso]; exact htr)
        (List.replicate (roundup512 (sizeOnDisk inp) - sizeOnDisk inp) 0 ++ rest)
      rw [List.take_of_length_le (by rw [hlen]; exact Nat.le_refl _)] at this
      exact this
    · cases ha

/-- A history that meets the hypotheses: two nodes are written and a checkpoint has begun. -/
example : ∃ w inp, Reach w ∧ w.pending = [] ∧ w.bt.skipped = false ∧ w.bt.inp = some inp ∧ inp.block bnTranslation = none ∧ hasRoom w.bt.alloc (sizeOnDisk inp) ∧
    w.writes = [] ∧ (allocTranslation w.bt).isSome ∧ inp.smallest = 5 := by
  obtain ⟨w, h1, h2⟩ := history_witness (os := [.new, .write 3 700, .done, .new, .write 4 9000, .done, .start []])
    (P := fun w => decide (w.pending = [] ∧ w.bt.skipped = false ∧ w.writes = [] ∧ (allocTranslation w.bt).isSome) &&
      w.bt.inp.any fun (inp : Tr) => decide (inp.block bnTranslation = none) && room? w.bt.alloc (sizeOnDisk inp) && decide (inp.smallest = 5)) (by decide +kernel)
  rw [Bool.and_eq_true] at h2
  obtain ⟨ha, hb⟩ := h2
  obtain ⟨a1, a2, a3, a4⟩ := of_decide_eq_true ha
  cases hi : w.bt.inp with
  | none => rw [hi] at hb; cases hb
  | some inp =>
    rw [hi] at hb
    simp only [Option.any_some, Bool.and_eq_true, decide_eq_true_eq] at hb
    exact ⟨w, inp, h1, a1, a2, hi, hb.1.1, room?_iff.mp hb.1.2, a3, a4, hb.2⟩

end Verif.TrDisk
