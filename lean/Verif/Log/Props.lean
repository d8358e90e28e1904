import Verif.Log.RepairLemmas
/-!
C39: log records are read back as written, forwards and backwards; the cursor walks over exactly the records of the log; a
record cut short or damaged is reported.
-/
namespace Verif.Log.Props
open Verif.Log Verif.Log.Spec Verif.Ser Verif.Ser.BufSpec

/-! ### Concrete records used below -/

def bytesFrom : R (List Nat) → List Nat
  | .ok b => b
  | _ => []

/-- Transaction 1 begins; it commits; transaction 2 begins. -/
def e1 : Entry := ⟨'b'.toNat, 1, [.pair 1 0, .pair 0 0]⟩
def e2 : Entry := ⟨'C'.toNat, 2, [.pair 1 0]⟩
def e3 : Entry := ⟨'b'.toNat, 3, [.pair 2 0, .pair 0 0]⟩
def e4 : Entry := ⟨'I'.toNat, 4, [.num 7, .pair 2 0, .bytes [1, 2], .bytes [255]]⟩
def img (e : Entry) : List Nat := bytesFrom (write 77 e)

theorem e1_written : Written (e1, img e1) :=
  ⟨77, e1, by decide, ⟨[.pair, .pair], by decide, by decide, by decide, by decide, trivial⟩, by decide +kernel, by decide +kernel, by decide +kernel⟩
theorem e2_written : Written (e2, img e2) :=
  ⟨77, e2, by decide, ⟨[.pair], by decide, by decide, by decide, trivial⟩, by decide +kernel, by decide +kernel, by decide +kernel⟩
theorem e3_written : Written (e3, img e3) :=
  ⟨77, e3, by decide, ⟨[.pair, .pair], by decide, by decide, by decide, by decide, trivial⟩, by decide +kernel, by decide +kernel, by decide +kernel⟩
theorem e4_written : Written (e4, img e4) :=
  ⟨77, e4, by decide, ⟨[.filenum, .pair, .bytes, .bytes], by decide, by decide, by decide, by decide, by decide, by decide, trivial⟩, by decide +kernel, by decide +kernel, by decide +kernel⟩

/-! ### Single records -/

/-- Any record whose values belong to the types of its fields can be logged, and the bytes written are a sealed image of it. -/
theorem written_sealed (now : Nat) (hnow : now < 2 ^ 64) (e : Entry) (h : Good e) :
    ∃ bs, write now e = .ok bs ∧ Sealed (logged now e) bs ∧ ∀ b ∈ bs, b < 256 := by
  obtain ⟨tys, ht, hl, hf⟩ := h
  have hc := fieldsOf_char ht
  have hb := good_small (lsn := e.lsn) ht hf now
  have hw : write now e = .ok (recBytes now e.cmd tys e.lsn e.vals) := by
    simp only [write, ht]; exact writeRecord_ok hnow hc hl hf hb
  have hbytes : ∀ b ∈ recBytes now e.cmd tys e.lsn e.vals, b < 256 := by
    intro b hm
    simp only [recBytes, List.mem_append] at hm
    rcases hm with (hm | hm) | hm
    · exact body_bytes hnow hc hf b hm
    · exact digits_bytes _ _ b hm
    · exact digits_bytes _ _ b hm
  refine ⟨_, hw, ?_, hbytes⟩
  have hr := fread_ok hnow ht hl hf hb []
  rw [List.append_nil] at hr
  obtain ⟨bs, h1, h2⟩ := fread_sealed hbytes hb hr
  rw [List.append_nil] at h1
  rw [← h1] at h2
  have : logged now e = ⟨e.cmd, e.lsn, stamped now tys e.vals⟩ := by rw [logged, ht]; rfl
  rw [this]; exact h2

example : Good e4 := ⟨[.filenum, .pair, .bytes, .bytes], by decide, by decide, by decide, by decide, by decide, by decide, trivial⟩
example : (img e4).length = 52 := by decide +kernel

/-- The forward reader gives back what was written, whatever follows it in the file, and stops right after it. -/
theorem forward_round_trip (now : Nat) (hnow : now < 2 ^ 64) (e : Entry) (h : Good e) (bs : List Nat) (hw : write now e = .ok bs) (post : List Nat) :
    fread (bs ++ post) = .ok (logged now e, post) := by
  obtain ⟨tys, ht, hl, hf⟩ := h
  have hb := good_small (lsn := e.lsn) ht hf now
  simp only [write, ht, writeRecord_ok hnow (fieldsOf_char ht) hl hf hb] at hw
  have := fread_ok hnow ht hl hf hb post
  rw [R.ok.inj hw] at this
  rw [this, logged, ht]; rfl

example : fread (img e4 ++ [9, 9]) = .ok (e4, [9, 9]) := by decide +kernel

/-- Only a timestamp of zero is changed on the way to the log. -/
theorem logged_same (now : Nat) (e : Entry) (h : Good e) (hz : ∀ t ∈ (fieldsOf e.cmd).getD [], t ≠ .stamp) : logged now e = e := by
  obtain ⟨tys, ht, hl, hf⟩ := h
  have key : ∀ (ts : List Ty) (vs : List Val), FitsAll ts vs → (∀ t ∈ ts, t ≠ .stamp) → stamped now ts vs = vs := by
    intro ts
    induction ts with
    | nil => intro vs h _; cases vs with
      | nil => rfl
      | cons => exact h.elim
    | cons t ts ih => intro vs h hn; cases vs with
      | nil => exact h.elim
      | cons v vs =>
        rw [stamped, ih vs h.2 (fun t ht => hn t (List.mem_cons_of_mem _ ht))]
        have := hn t (by simp)
        cases t <;> first | rfl | (exact absurd rfl this)
  rw [ht] at hz
  rw [logged, ht]
  show { e with vals := stamped now tys e.vals } = e
  rw [key tys e.vals hf hz]

example : logged 77 e4 = e4 := logged_same 77 e4 ⟨[.filenum, .pair, .bytes, .bytes], by decide, by decide, by decide, by decide, by decide, by decide, trivial⟩ (by decide)

/-- The backward reader, at the end of a record anywhere in a file after the 12 bytes of the header, gives back what was written
and stops right before it.  The record must be shorter than 2^31 bytes. -/
theorem backward_round_trip (now : Nat) (hnow : now < 2 ^ 64) (e : Entry) (h : Good e) (bs : List Nat) (hw : write now e = .ok bs) (hs : bs.length < 2 ^ 31)
    (pre post : List Nat) (hp : 12 ≤ pre.length) : freadBackward (pre ++ bs ++ post) (pre.length + bs.length) = .ok (logged now e) pre.length :=
  back_ok (Written.whole (r := (logged now e, bs)) ⟨now, e, hnow, h, hw, rfl, hs⟩) pre post hp

example : freadBackward (header 29 ++ img e1 ++ img e4 ++ [3]) (12 + 53 + 52) = .ok e4 (12 + 53) := by decide +kernel

/-- A record cut short anywhere is reported as the end of the file, never returned. -/
theorem cut_short_reported (now : Nat) (hnow : now < 2 ^ 64) (e : Entry) (h : Good e) (bs : List Nat) (hw : write now e = .ok bs) (n : Nat) (hn : n < bs.length) :
    fread (bs.take n) = .eof := by
  obtain ⟨tys, ht, hl, hf⟩ := h
  have hb := good_small (lsn := e.lsn) ht hf now
  simp only [write, ht, writeRecord_ok hnow (fieldsOf_char ht) hl hf hb] at hw
  refine fread_cut hnow ht hl hf hb (bs.take n) (bs.drop n) (by rw [R.ok.inj hw, List.take_append_drop]) ?_
  intro h0
  have := congrArg List.length h0
  simp at this; omega

example : fread ((img e4).take 51) = .eof := by decide +kernel

/-- Whatever bytes are in the file: a record is returned only if the bytes consumed are sealed — the checksum is that of the
bytes before it, both lengths are the number of bytes consumed, and the fields are those the bytes stand for. -/
theorem returned_is_sealed (f : List Nat) (hb : ∀ b ∈ f, b < 256) (hlen : f.length < 2 ^ 32) (e : Entry) (rest : List Nat) (h : fread f = .ok (e, rest)) :
    ∃ bs, f = bs ++ rest ∧ Sealed e bs := fread_sealed hb hlen h

/-- The same for the backward reader: the bytes between the two positions are sealed. -/
theorem returned_back_is_sealed (f : List Nat) (hb : ∀ b ∈ f, b < 256) (hlen : f.length < 2 ^ 31) (e : Entry) (p pos : Nat) (hpos : pos ≤ f.length)
    (h : freadBackward f p = .ok e pos) : ∃ bs rest, f.drop pos = bs ++ rest ∧ Sealed e bs ∧ pos + bs.length = p := by
  simp only [freadBackward] at h
  split at h
  · cases h
  rename_i hp12
  split at h
  · rename_i len i _
    split at h
    · cases h
    · rename_i start hst
      split at h
      · rename_i e' rest hr
        split at h
        · cases h
        · rename_i hpp
          split at h
          · cases h
          · rename_i q hq
            cases h
            cases hq
            have hbd : ∀ b ∈ f.drop pos, b < 256 := fun b hm => hb b (List.mem_of_mem_drop hm)
            obtain ⟨bs, h1, h2⟩ := fread_sealed hbd (by rw [List.length_drop]; omega) hr
            refine ⟨bs, rest, h1, h2, ?_⟩
            have := congrArg List.length h1
            rw [List.length_drop, List.length_append] at this
            simp only [ne_eq, Decidable.not_not] at hpp
            omega
      · cases h
      · cases h
  · cases h

/-- Non-vacuity, and an instance: one flipped bit is reported. -/
example : fread (img e2) = .ok (e2, []) := by decide +kernel
example : fread ((img e2).set 13 9) = .bad := by decide +kernel
example : fread ((img e2).set 0 38) = .bad := by decide +kernel

/-! ### The cursor -/

/-- Any sequence of `next` and `prev` on a new cursor, over any log whose sequence numbers are consecutive, in any division into
files, some of which may be empty or hold only part of a header, answers as a walk over the list of all entries does, as long
as it does not turn around at once where it began. -/
theorem cursor_walks_partial (segs : List Seg) (hok : ∀ s ∈ segs, s.Ok) (hc : Consecutive (entries segs)) (ms : List Move) (hs : smooth (entries segs) .out ms = true) :
    ((Cur.create (segs.map Seg.bytes)).steps ms).2 = (answers (entries segs) .out ms).map told :=
  steps_ok (fun s h => Seg.Ok.fine (hok s h)) hc ms (p := .out) ⟨rfl, rfl, rfl⟩ hs

/-- Four entries in two files, between an empty file and a torn one. -/
def log4 : List Seg := [.full 29 [(e1, img e1), (e2, img e2)], .full 28 [], .full 29 [(e3, img e3), (e4, img e4)], .torn 29 7]

theorem log4_ok : ∀ s ∈ log4, s.Ok := by
  intro s hs
  simp only [log4, List.mem_cons, List.not_mem_nil, or_false] at hs
  rcases hs with rfl | rfl | rfl | rfl
  · refine ⟨by decide, by decide, ?_⟩
    intro r hr
    simp only [List.mem_cons, List.not_mem_nil, or_false] at hr
    rcases hr with rfl | rfl
    · exact e1_written
    · exact e2_written
  · exact ⟨by decide, by decide, by simp⟩
  · refine ⟨by decide, by decide, ?_⟩
    intro r hr
    simp only [List.mem_cons, List.not_mem_nil, or_false] at hr
    rcases hr with rfl | rfl
    · exact e3_written
    · exact e4_written
  · show (7 : Nat) < 12; decide

theorem log4_consecutive : Consecutive (entries log4) := ⟨rfl, rfl, rfl, trivial⟩

example : ((Cur.create (log4.map Seg.bytes)).steps [.prev, .prev, .prev, .next, .next, .next, .next]).2 =
    [.ok e4, .ok e3, .ok e2, .ok e3, .ok e4, .notfound, .ok e1] := by
  rw [cursor_walks_partial log4 log4_ok log4_consecutive _ (by decide)]; decide

/-- What recovery does: it goes back over the last `k` entries, at least two, and then forward over those after the turning
point. -/
theorem recovery_walk (segs : List Seg) (hok : ∀ s ∈ segs, s.Ok) (hc : Consecutive (entries segs)) (k : Nat) (h2 : 2 ≤ k) (hk : k ≤ (entries segs).length) :
    ((Cur.create (segs.map Seg.bytes)).steps (List.replicate k .prev ++ List.replicate k .next)).2 =
      (((entries segs).drop ((entries segs).length - k)).reverse ++ (entries segs).drop ((entries segs).length - k + 1)).map .ok ++ [.notfound] := by
  generalize hes : entries segs = es at *
  -- going back
  have back : ∀ (j i : Nat) (fr : Option Move) (ms : List Move), j ≤ i → i < es.length → fr ≠ some .next →
      smooth es (.on i fr) (List.replicate j .prev ++ ms) = smooth es (if j = 0 then .on i fr else .on (i - j) none) ms ∧
      answers es (.on i fr) (List.replicate j .prev ++ ms) = ((es.drop (i - j)).take j).reverse.map some ++ answers es (if j = 0 then .on i fr else .on (i - j) none) ms := by
    intro j
    induction j with
    | zero => intro i fr ms _ _ _; simp
    | succ j ih =>
      intro i fr ms hj hi hfr
      rw [List.replicate_succ, List.cons_append]
      have hsh : (Place.on i fr).sharp .prev = false := by
        rcases fr with _ | _ | _ <;> first | rfl | exact absurd rfl hfr
      have hmv : (Place.on i fr).move es .prev = .on (i - 1) none := by rw [Place.move, if_neg (by omega)]
      have := ih (i - 1) none ms (by omega) (by omega) (by simp)
      simp only [smooth, answers, hsh, hmv, this.1, this.2, Bool.not_false, Bool.true_and]
      have hij : i - 1 - j = i - (j + 1) := by omega
      have hif : (if j = 0 then Place.on (i - 1) none else Place.on (i - 1 - j) none) = .on (i - (j + 1)) none := by
        split
        · rename_i h; subst h; rfl
        · rw [hij]
      rw [hif, if_neg (by omega)]
      refine ⟨rfl, ?_⟩
      rw [hij]
      have hget : es[i - 1]? = some es[i - 1] := List.getElem?_eq_getElem (by omega)
      have htake : (es.drop (i - (j + 1))).take (j + 1) = (es.drop (i - (j + 1))).take j ++ [es[i - 1]] := by
        rw [List.take_succ, List.getElem?_drop, show i - (j + 1) + j = i - 1 by omega, hget]; rfl
      rw [htake]
      simp only [Place.entry, hget, List.reverse_append, List.reverse_cons, List.reverse_nil, List.nil_append, List.map_append, List.map_cons, List.map_nil, List.cons_append]
  -- going forward
  have forth : ∀ (j i : Nat), i + j + 1 = es.length →
      smooth es (.on i none) (List.replicate (j + 1) .next) = true ∧
      answers es (.on i none) (List.replicate (j + 1) .next) = (es.drop (i + 1)).map some ++ [none] := by
    intro j
    induction j with
    | zero =>
      intro i hi
      have hm : (Place.on i none).move es .next = .out := by rw [Place.move, if_neg (by omega)]
      rw [show (0 + 1) = 1 from rfl, List.replicate_succ, List.replicate_zero]
      simp only [smooth, answers, hm, Place.sharp, Place.entry]
      rw [List.drop_eq_nil_of_le (by omega)]
      exact ⟨rfl, rfl⟩
    | succ j ih =>
      intro i hi
      have hm : (Place.on i none).move es .next = .on (i + 1) none := by rw [Place.move, if_pos (by omega)]
      have := ih (i + 1) (by omega)
      rw [List.replicate_succ]
      simp only [smooth, answers, hm, Place.sharp, this.1, this.2, Place.entry]
      refine ⟨rfl, ?_⟩
      have hd : es.drop (i + 1) = es[i + 1] :: es.drop (i + 1 + 1) := List.drop_eq_getElem_cons (by omega)
      rw [hd, List.getElem?_eq_getElem (by omega), List.map_cons, List.cons_append]
  obtain ⟨j, rfl⟩ : ∃ j, k = j + 2 := ⟨k - 2, by omega⟩
  have hstart : Place.move es .out .prev = .on (es.length - 1) (some .prev) := by rw [Place.move, if_neg (by omega)]
  have hb := back (j + 1) (es.length - 1) (some .prev) (List.replicate (j + 2) .next) (by omega) (by omega) (by simp)
  have hfw := forth (j + 1) (es.length - 1 - (j + 1)) (by omega)
  rw [if_neg (by omega)] at hb
  have hms : List.replicate (j + 2) Move.prev ++ List.replicate (j + 2) .next = .prev :: (List.replicate (j + 1) .prev ++ List.replicate (j + 2) .next) := by
    rw [show j + 2 = (j + 1) + 1 from rfl, List.replicate_succ]; rfl
  have hlast : es[es.length - 1]? = some es[es.length - 1] := List.getElem?_eq_getElem (by omega)
  rw [hms, cursor_walks_partial segs hok (by rw [hes]; exact hc), hes]
  · simp only [answers, hstart, hb.2, hfw.2, Place.entry, hlast]
    have hn : es.length - (j + 2) = es.length - 1 - (j + 1) := by omega
    rw [hn]
    have hsplit : (es.drop (es.length - 1 - (j + 1))) = (es.drop (es.length - 1 - (j + 1))).take (j + 1) ++ [es[es.length - 1]] := by
      have h1 : (es.drop (es.length - 1 - (j + 1))).take (j + 2) = es.drop (es.length - 1 - (j + 1)) := List.take_of_length_le (by rw [List.length_drop]; omega)
      conv => lhs; rw [← h1]
      rw [List.take_succ, List.getElem?_drop, show es.length - 1 - (j + 1) + (j + 1) = es.length - 1 by omega, hlast]; rfl
    conv => rhs; rw [hsplit]
    simp only [List.map_append, List.map_reverse, List.reverse_append, List.reverse_cons, List.reverse_nil, List.nil_append, List.map_cons, List.map_nil, List.cons_append, told, List.map_map]
    have hco : (told ∘ some) = Ret.ok := rfl
    rw [hco]
    simp
  · rw [hes]
    simp only [smooth, hstart, hb.1, hfw.1, Place.sharp]; rfl

example : ((Cur.create (log4.map Seg.bytes)).steps (List.replicate 3 .prev ++ List.replicate 3 .next)).2 = [.ok e4, .ok e3, .ok e2, .ok e3, .ok e4, .notfound] := by
  rw [recovery_walk log4 log4_ok log4_consecutive 3 (by decide) (by decide)]; decide

/-- The cases left out above: a cursor that has just begun at the front of the log and is asked for the previous entry (there is
none), or has just begun at the end and is asked for the next one, fails with `DB_RUNRECOVERY`. -/
theorem sharp_turn_fails (segs : List Seg) (hok : ∀ s ∈ segs, s.Ok) (hne : entries segs ≠ []) :
    ((Cur.create (segs.map Seg.bytes)).step .next).1.prev.2 = .runrecovery ∧ ((Cur.create (segs.map Seg.bytes)).step .prev).1.next.2 = .runrecovery := by
  have hf : ∀ s ∈ segs, Seg.Fine s := fun s h => Seg.Ok.fine (hok s h)
  have hl : (entries segs).length ≠ 0 := fun h => hne (List.length_eq_zero_iff.mp h)
  have h1 := (first_ok hf (c := Cur.create (segs.map Seg.bytes)) rfl rfl).1
  have h2 := (last_ok hf (c := Cur.create (segs.map Seg.bytes)) rfl rfl).1
  simp only [Place.move, if_neg hl] at h1 h2
  exact ⟨sharp_front hf h1, sharp_back hf h2⟩

example : entries log4 ≠ [] := by decide

/-- The entries of a log whose numbers are not consecutive are not all returned: the step over the gap fails. -/
theorem gap_reported (c : Cur) (e : Entry) (h : e.lsn ≠ (c.lsn + 1) % 2 ^ 64) : (c.finish .forward (.ok e)).2 = .runrecovery := by
  have : c.check .forward e = none := by rw [Cur.check]; exact if_pos (.inl ⟨rfl, h⟩)
  simp only [Cur.finish, this]

/-- A gap between two entries of a file. -/
example : ((Cur.create [header 29 ++ img e1 ++ img e3]).steps [.next, .next]).2 = [.ok e1, .runrecovery] := by decide +kernel

/-- A log whose last file ends with bytes that are not a record — a record cut short, or one whose checksum is wrong — and whose
end the backward reader does not take for a record: the first call of `prev` removes those bytes, and the cursor then walks
over the entries before them. -/
theorem repaired_log_walks_partial (A : List Seg) (rs : List (Entry × List Nat)) (tail : List Nat) (hok : ∀ s ∈ A ++ [.full 29 rs], s.Ok)
    (hc : Consecutive (entries (A ++ [.full 29 rs])))
    (ht : fread tail = .eof ∨ fread tail = .bad)
    (hb : freadBackward (Seg.bytes (.full 29 rs) ++ tail) (Seg.bytes (.full 29 rs) ++ tail).length = .err)
    (ms : List Move) (hs : smooth (entries (A ++ [.full 29 rs])) .out (.prev :: ms) = true) :
    ((Cur.create (A.map Seg.bytes ++ [Seg.bytes (.full 29 rs) ++ tail])).steps (.prev :: ms)).2 = (answers (entries (A ++ [.full 29 rs])) .out (.prev :: ms)).map told ∧
    ((Cur.create (A.map Seg.bytes ++ [Seg.bytes (.full 29 rs) ++ tail])).step .prev).1.files = (A ++ [Seg.full 29 rs]).map Seg.bytes := by
  have hf : ∀ s ∈ A ++ [Seg.full 29 rs], Seg.Fine s := fun s h => Seg.Ok.fine (hok s h)
  have h1 := repair_ok hf ht hb
  simp only [smooth, Bool.and_eq_true] at hs
  refine ⟨?_, ?_⟩
  · simp only [Cur.steps, answers, List.map_cons]
    rw [h1.2, steps_ok hf hc ms h1.1 hs.2]
  · have hr := h1.1
    cases hp : Place.move (entries (A ++ [.full 29 rs])) .out .prev with
    | out => rw [hp] at hr; exact hr.2.2
    | on i fr =>
      rw [hp] at hr
      obtain ⟨_, r, _, h3⟩ := hr
      rcases fr with _ | _ | _
      · rcases h3 with ⟨_, h⟩ | ⟨_, h⟩ <;> exact h.files
      · exact h3.2.files
      · exact h3.2.files

/-- In particular for a last record cut short. -/
theorem torn_log_walks_partial (A : List Seg) (rs : List (Entry × List Nat)) (r : Entry × List Nat) (hr : Written r) (n : Nat) (hn : n < r.2.length) (hok : ∀ s ∈ A ++ [.full 29 rs], s.Ok)
    (hc : Consecutive (entries (A ++ [.full 29 rs])))
    (hb : freadBackward (Seg.bytes (.full 29 rs) ++ r.2.take n) (Seg.bytes (.full 29 rs) ++ r.2.take n).length = .err)
    (ms : List Move) (hs : smooth (entries (A ++ [.full 29 rs])) .out (.prev :: ms) = true) :
    ((Cur.create (A.map Seg.bytes ++ [Seg.bytes (.full 29 rs) ++ r.2.take n])).steps (.prev :: ms)).2 = (answers (entries (A ++ [.full 29 rs])) .out (.prev :: ms)).map told := by
  refine (repaired_log_walks_partial A rs (r.2.take n) hok hc (.inl ?_) hb ms hs).1
  refine Written.cut hr (q := r.2.drop n) (List.take_append_drop n r.2).symm ?_
  intro h0
  have := congrArg List.length h0
  simp at this; omega

example : ((Cur.create ([header 29 ++ img e1, header 29 ++ img e2 ++ (img e3).take 40])).steps [.prev, .prev, .next]).2 = [.ok e2, .ok e1, .ok e2] := by
  have := torn_log_walks_partial [.full 29 [(e1, img e1)]] [(e2, img e2)] (e3, img e3) e3_written 40 (by decide +kernel)
    (by
      intro s hs
      simp only [List.cons_append, List.nil_append, List.mem_cons, List.not_mem_nil, or_false] at hs
      rcases hs with rfl | rfl
      · refine ⟨by decide, by decide, ?_⟩
        intro r hr; simp only [List.mem_cons, List.not_mem_nil, or_false] at hr; subst hr; exact e1_written
      · refine ⟨by decide, by decide, ?_⟩
        intro r hr; simp only [List.mem_cons, List.not_mem_nil, or_false] at hr; subst hr; exact e2_written)
    ⟨rfl, trivial⟩ (by decide +kernel) [.prev, .next] (by decide)
  have e : ([Seg.full 29 [(e1, img e1)]].map Seg.bytes ++ [Seg.bytes (.full 29 [(e2, img e2)]) ++ (img e3).take 40]) = [header 29 ++ img e1, header 29 ++ img e2 ++ (img e3).take 40] := by
    simp [Seg.bytes]
  rw [e] at this
  rw [this]; decide

/-! ### Where the code does not keep the property -/

/-- A record that says the environment was shut down cleanly. -/
def shutdown9 : Entry := ⟨'0'.toNat, 9, [.num 5, .num 3]⟩

/-- A row inserted by a user whose value holds the bytes of that record. -/
def trap : Entry := ⟨'I'.toNat, 2, [.num 7, .pair 1 0, .bytes [1], .bytes (img shutdown9 ++ [0])]⟩

/-- If the log is cut just after those bytes, the record in the value is returned as the last record of the log: the hypothesis
on the backward reader in the theorems above is needed. -/
theorem torn_value_forges_record :
    Written (trap, img trap) ∧
    ((Cur.create [header 29 ++ img e1 ++ (img trap).take 79]).step .prev).2 = .ok shutdown9 := by
  refine ⟨⟨77, trap, by decide, ⟨[.filenum, .pair, .bytes, .bytes], by decide, by decide, by decide, by decide, by decide, by decide +kernel, trivial⟩, by decide +kernel, by decide +kernel, by decide +kernel⟩, by decide +kernel⟩

/-- A record of a type that does not exist is reported as bad, not taken for the end of the file. -/
theorem unknown_type_is_bad (a b c d cmd : Nat) (rest : List Nat) (h : fieldsOf cmd = none) : fread (a :: b :: c :: d :: cmd :: rest) = .bad := by
  simp only [fread, rd32, rd8, bind, Out.bind, pure, h]

example : fieldsOf 7 = none := by decide

/-- Damaged lengths in the identifier of a prepared transaction overrun the 128 bytes of the identifier before the checksum is
looked at. -/
theorem damaged_identifier_overruns :
    fread (digits 4 300 ++ ['P'.toNat] ++ List.replicate 8 0 ++ List.replicate 16 0 ++ List.replicate 4 0 ++ [255, 255] ++ List.replicate 265 0) = .smash := by
  decide +kernel

/-- A format number that is negative, such as the -1 of a null identifier, or more than 32 bits wide is not read back. -/
theorem format_number_truncated :
    fread (bytesFrom (write 0 ⟨'P'.toNat, 1, [.pair 1 0, .xid ⟨-1, 1, 1, [5, 6]⟩]⟩)) = (.ok (⟨'P'.toNat, 1, [.pair 1 0, .xid ⟨4294967295, 1, 1, [5, 6]⟩]⟩, [])) := by
  decide +kernel

/-- `toku_logcursor_first` does not go back to the first entry if the cursor is in the first file. -/
theorem first_does_not_rewind : ((Cur.create [header 29 ++ img e1 ++ img e2 ++ img e3]).steps [.next, .next]).1.first.2 = .ok e3 := by
  decide +kernel

/-- If the last file has no records and the one before it ends in a torn record, the repair lengthens the last file with zeros
and no entry is found. -/
theorem repair_of_wrong_file : ((Cur.create [header 29 ++ img e1 ++ (img e2).take 20, header 29]).step .prev).2 = .notfound ∧
    ((Cur.create [header 29 ++ img e1 ++ (img e2).take 20, header 29]).step .prev).1.files =
      [header 29 ++ img e1 ++ (img e2).take 20, header 29 ++ List.replicate (img e1).length 0] := by
  decide +kernel

end Verif.Log.Props
