import Verif.Node.Le
/-!
The pool and the ordered elements of a part of a leaf hold the list of its rows through every operation.
-/
set_option linter.unusedVariables false
set_option linter.unusedSimpArgs false
namespace Verif.Node
open Verif.Ser

/-- The bytes `l` lie at offset `o`. -/
def AtOff (mem : List Nat) (o : Nat) (l : List Nat) : Prop := ∃ post, mem.drop o = l ++ post

theorem AtOff.mono {mem x : List Nat} {o : Nat} {l : List Nat} (h : AtOff mem o l) (hl : 0 < l.length) : AtOff (mem ++ x) o l := by
  obtain ⟨post, h⟩ := h
  have : o < mem.length := by
    have := congrArg List.length h
    simp only [List.length_drop, List.length_append] at this
    omega
  exact ⟨post ++ x, by rw [List.drop_append_of_le_length (by omega), h, List.append_assoc]⟩

theorem AtOff.end (mem l x : List Nat) : AtOff (mem ++ (l ++ x)) mem.length l := ⟨x, by simp⟩

theorem AtOff.read {mp : Mp} {o : Nat} {l : List Nat} (h : AtOff mp.mem o l) (hs : Shape l) : leAt mp o = .ok l := by
  obtain ⟨post, h⟩ := h
  have hp := hs.pos
  have hl := congrArg List.length h
  simp only [List.length_drop, List.length_append] at hl
  rw [leAt, h, hs.size post]
  simp only
  rw [if_pos (by omega), List.take_left]

/-- Each element points at its row's record. -/
inductive Pts (mem : List Nat) : List (List Nat × Nat) → List (List Nat × List Nat) → Prop
  | nil : Pts mem [] []
  | cons {k l : List Nat} {o : Nat} {vs : List (List Nat × Nat)} {rows : List (List Nat × List Nat)} (h : AtOff mem o l) (t : Pts mem vs rows) :
      Pts mem ((k, o) :: vs) ((k, l) :: rows)

abbrev Rows := List (List Nat × List Nat)

/-- The bytes of all records of `rows`. -/
def recs (rows : Rows) : List Nat := rows.flatMap Prod.snd
/-- The room of the keys of `rows`. -/
def keyRoom (rows : Rows) : Nat := (rows.map fun r => 4 + r.1.length).sum

def Shapes (rows : Rows) : Prop := ∀ r ∈ rows, Shape r.2

theorem Pts.length {mem : List Nat} {vs : List (List Nat × Nat)} {rows : Rows} (h : Pts mem vs rows) : vs.length = rows.length := by
  induction h with
  | nil => rfl
  | cons h t ih => simp [ih]

theorem Pts.mono {mem x : List Nat} {vs : List (List Nat × Nat)} {rows : Rows} (h : Pts mem vs rows) (hs : Shapes rows) : Pts (mem ++ x) vs rows := by
  induction h with
  | nil => exact .nil
  | cons h t ih => exact .cons (h.mono (hs _ (List.mem_cons_self ..)).pos) (ih fun r hr => hs r (List.mem_cons_of_mem _ hr))

theorem Pts.append {mem : List Nat} {vs vs' : List (List Nat × Nat)} {rows rows' : Rows} (h : Pts mem vs rows) (h' : Pts mem vs' rows') : Pts mem (vs ++ vs') (rows ++ rows') := by
  induction h with
  | nil => exact h'
  | cons h t ih => exact .cons h ih

theorem Pts.take {mem : List Nat} {vs : List (List Nat × Nat)} {rows : Rows} (h : Pts mem vs rows) (i : Nat) : Pts mem (vs.take i) (rows.take i) := by
  induction h generalizing i with
  | nil => simpa using Pts.nil
  | cons h t ih => cases i with
    | zero => exact .nil
    | succ i => exact .cons h (ih i)

theorem Pts.drop {mem : List Nat} {vs : List (List Nat × Nat)} {rows : Rows} (h : Pts mem vs rows) (i : Nat) : Pts mem (vs.drop i) (rows.drop i) := by
  induction h generalizing i with
  | nil => simpa using Pts.nil
  | cons h t ih => cases i with
    | zero => exact .cons h t
    | succ i => exact ih i

theorem Pts.get {mem : List Nat} {vs : List (List Nat × Nat)} {rows : Rows} (h : Pts mem vs rows) {i : Nat} {k l : List Nat} (hr : rows[i]? = some (k, l)) :
    ∃ o, vs[i]? = some (k, o) ∧ AtOff mem o l := by
  induction h generalizing i with
  | nil => simp at hr
  | cons h t ih => cases i with
    | zero => simp only [List.getElem?_cons_zero, Option.some.injEq, Prod.mk.injEq] at hr; obtain ⟨rfl, rfl⟩ := hr; exact ⟨_, rfl, h⟩
    | succ i => exact ih (by simpa using hr)

theorem Pts.set {mem : List Nat} {vs : List (List Nat × Nat)} {rows : Rows} (h : Pts mem vs rows) {i : Nat} {k l : List Nat} {o : Nat} (ho : AtOff mem o l) :
    Pts mem (vs.set i (k, o)) (rows.set i (k, l)) := by
  induction h generalizing i with
  | nil => simpa using Pts.nil
  | cons h t ih => cases i with
    | zero => exact .cons ho t
    | succ i => exact .cons h ih

theorem Pts.keys {mem : List Nat} {vs : List (List Nat × Nat)} {rows : Rows} (h : Pts mem vs rows) : vs.map Prod.fst = rows.map Prod.fst := by
  induction h with
  | nil => rfl
  | cons h t ih => simp [ih]

/-- The flags of the ordered elements say the truth about their sizes. -/
structure Dmt.OK (d : Dmt) : Prop where
  same : d.same = true → ∀ v ∈ d.vals, kl v = d.len
  arr : d.isArray = true → d.same = true
  nil : d.vals = [] → d.isArray = true

theorem Dmt.OK.empty : Dmt.empty.OK := ⟨by simp [Dmt.empty], by simp [Dmt.empty], by simp [Dmt.empty]⟩

theorem Dmt.insertAt_vals {d : Dmt} {v : List Nat × Nat} {i : Nat} (h : i ≤ d.vals.length) : (d.insertAt v i).vals = d.vals.take i ++ v :: d.vals.drop i := by
  unfold Dmt.insertAt
  rw [if_neg (by omega)]
  simp only
  split
  · rename_i hc
    simp only [Bool.and_eq_true, beq_iff_eq] at hc
    rw [hc.2]; simp
  · rfl

theorem Dmt.OK.insertAt {d : Dmt} (h : d.OK) (v : List Nat × Nat) (i : Nat) : (d.insertAt v i).OK := by
  unfold Dmt.insertAt
  split
  · exact h
  · rename_i hi
    simp only
    split
    · rename_i hc
      simp only [Bool.and_eq_true, beq_iff_eq, Bool.or_eq_true] at hc
      refine ⟨fun hs x hx => ?_, h.arr, fun _ => hc.1.1⟩
      simp only [List.mem_append, List.mem_singleton] at hx
      simp only at hs ⊢
      by_cases h0 : d.vals.length = 0
      · rw [if_pos h0]
        rcases hx with hx | rfl
        · rw [List.length_eq_zero_iff.mp h0] at hx; simp at hx
        · rfl
      · rw [if_neg h0]
        rcases hx with hx | rfl
        · exact h.same hs x hx
        · have := hc.1.2.2
          rcases this with h' | h'
          · omega
          · exact h'
    · rename_i hc
      refine ⟨fun hs x hx => ?_, fun h' => by simp at h', fun h' => by simp at h'⟩
      simp only at hs hx ⊢
      rw [if_pos hs]
      simp only [Bool.and_eq_true, Bool.or_eq_true, beq_iff_eq] at hs hc
      have hold : ∀ y ∈ d.vals, kl y = d.len := h.same hs.1
      simp only [List.mem_append, List.mem_cons] at hx
      rcases hx with hx | rfl | hx
      · exact hold x (List.mem_of_mem_take hx)
      · rcases hs.2 with h' | h'
        · exfalso
          have := h.nil (List.length_eq_zero_iff.mp h')
          exact hc ⟨⟨this, hs.1, Or.inl h'⟩, by omega⟩
        · exact h'
      · exact hold x (List.mem_of_mem_drop hx)

theorem Dmt.OK.append {d : Dmt} (h : d.OK) (v : List Nat × Nat) : (d.append v).OK := by
  unfold Dmt.append
  split
  · rename_i hc
    simp only [Bool.and_eq_true, beq_iff_eq, Bool.or_eq_true] at hc
    refine ⟨fun hs x hx => ?_, h.arr, fun h' => by simp at h'⟩
    simp only [List.mem_append, List.mem_singleton] at hx
    simp only at hs ⊢
    by_cases h0 : d.vals.length = 0
    · rw [if_pos h0]
      rcases hx with hx | rfl
      · rw [List.length_eq_zero_iff.mp h0] at hx; simp at hx
      · rfl
    · rw [if_neg h0]
      rcases hx with hx | rfl
      · exact h.same hs x hx
      · rcases hc.2 with h' | h'
        · omega
        · exact h'
  · exact ⟨fun hs => by simp at hs, fun hs => by simp at hs, fun hs => by simp at hs⟩

theorem Dmt.append_vals (d : Dmt) (v : List Nat × Nat) : (d.append v).vals = d.vals ++ [v] := by
  unfold Dmt.append; split <;> rfl

theorem Dmt.deleteAt_vals {d : Dmt} {i : Nat} (h : i < d.vals.length) : (d.deleteAt i).vals = d.vals.eraseIdx i := by
  unfold Dmt.deleteAt
  rw [if_neg (by omega)]
  split
  · rename_i h1
    obtain ⟨a, ha⟩ := List.length_eq_one_iff.mp h1
    have : i = 0 := by omega
    rw [ha, this]; rfl
  · rfl

theorem Dmt.OK.deleteAt {d : Dmt} (h : d.OK) (i : Nat) : (d.deleteAt i).OK := by
  unfold Dmt.deleteAt
  split
  · exact h
  · split
    · exact Dmt.OK.empty
    · rename_i h1 h2
      refine ⟨fun hs x hx => h.same hs x (List.mem_of_mem_eraseIdx hx), fun h' => by simp at h', fun h' => ?_⟩
      have := congrArg List.length h'
      simp only [List.length_eraseIdx_of_lt (show i < d.vals.length by omega), List.length_nil] at this
      omega

theorem Dmt.OK.reval {d : Dmt} (h : d.OK) {vs : List (List Nat × Nat)} (hv : vs.map Prod.fst = d.vals.map Prod.fst) : ({ d with vals := vs } : Dmt).OK := by
  refine ⟨fun hs x hx => ?_, h.arr, fun h' => h.nil ?_⟩
  · have : x.1 ∈ d.vals.map Prod.fst := by rw [← hv]; exact List.mem_map_of_mem hx
    obtain ⟨y, hy, he⟩ := List.mem_map.mp this
    have := h.same hs y hy
    simp only [kl] at *
    rw [← he]; exact this
  · simp only at h'
    rw [h'] at hv
    simpa using hv.symm

/-- The object holds exactly `rows`, and `extra` further bytes that are not yet anybody's. -/
structure Bn.Core (b : Bn) (rows : Rows) (extra : Nat) : Prop where
  pts : Pts b.mp.mem b.dmt.vals rows
  shapes : Shapes rows
  ok : b.dmt.OK
  room : b.mp.mem.length ≤ b.mp.size
  used : b.mp.mem.length = b.mp.frag + ((recs rows).length + extra)

/-- The object holds exactly `rows`. -/
structure Bn.Holds (b : Bn) (rows : Rows) : Prop where
  core : b.Core rows 0
  keys : b.keysz = keyRoom rows

theorem Bn.Core.rekey {b : Bn} {rows : Rows} {x : Nat} (h : b.Core rows x) (n : Nat) : ({ b with keysz := n } : Bn).Core rows x :=
  ⟨h.pts, h.shapes, h.ok, h.room, h.used⟩

theorem Bn.Core.usedSize {b : Bn} {rows : Rows} {x : Nat} (h : b.Core rows x) : b.mp.used = (recs rows).length + x := by
  have := h.used
  unfold Mp.used; omega

theorem construct_size (n : Nat) : n ≤ (Mp.construct n).size ∧ (Mp.construct n).mem = [] ∧ (Mp.construct n).frag = 0 := by
  unfold Mp.construct
  split
  · subst_vars; exact ⟨Nat.le_refl _, rfl, rfl⟩
  · exact ⟨by simp only; omega, rfl, rfl⟩

theorem Mp.malloc_ok {mp : Mp} {l : List Nat} (h : mp.mem.length + l.length ≤ mp.size) : mp.malloc l = some (mp.mem.length, { mp with mem := mp.mem ++ l }) := by
  unfold Mp.malloc; rw [if_neg (by omega)]

theorem recs_cons (k l : List Nat) (rows : Rows) : recs ((k, l) :: rows) = l ++ recs rows := rfl
theorem recs_append (a b : Rows) : recs (a ++ b) = recs a ++ recs b := by simp [recs]
theorem keyRoom_cons (r : List Nat × List Nat) (rows : Rows) : keyRoom (r :: rows) = 4 + r.1.length + keyRoom rows := by simp [keyRoom]
theorem keyRoom_append (a b : Rows) : keyRoom (a ++ b) = keyRoom a + keyRoom b := by simp [keyRoom]

theorem moveAll_ok {old : Mp} {vs : List (List Nat × Nat)} {rows : Rows} (h : Pts old.mem vs rows) (hs : Shapes rows) (mp : Mp)
    (hf : mp.mem.length + (recs rows).length ≤ mp.size) :
    ∃ vs', moveAll old vs mp = .ok (vs', { mp with mem := mp.mem ++ recs rows }) ∧ Pts (mp.mem ++ recs rows) vs' rows := by
  induction h generalizing mp with
  | nil => exact ⟨[], by simp [moveAll, recs], .nil⟩
  | @cons k l o vs rows h t ih =>
    have hl : Shape l := hs (k, l) (List.mem_cons_self ..)
    have hs' : Shapes rows := fun r hr => hs r (List.mem_cons_of_mem _ hr)
    rw [recs_cons, List.length_append] at hf
    obtain ⟨vs', he, hp⟩ := ih hs' { mp with mem := mp.mem ++ l } (by simp only [List.length_append]; omega)
    refine ⟨(k, mp.mem.length) :: vs', ?_, ?_⟩
    · rw [moveAll, h.read hl, R.bind_ok, Mp.malloc_ok (by omega)]
      simp only
      rw [he, R.bind_ok, recs_cons]
      simp only [List.append_assoc, R.pure_ok]
    · rw [recs_cons]
      refine .cons (AtOff.end _ _ _) ?_
      simpa only [List.append_assoc] using hp

theorem Bn.Core.compress {b : Bn} {rows : Rows} (h : b.Core rows 0) (added : Nat) (force : Bool) (hn : (recs rows).length + added < 2 ^ 30) :
    ∃ b', b.compress added force = .ok b' ∧ b'.Core rows 0 ∧ b'.mp.frag = 0 ∧ b'.mp.mem.length + added ≤ b'.mp.size ∧
      b'.dmt.isArray = b.dmt.isArray ∧ b'.dmt.same = b.dmt.same ∧ b'.dmt.len = b.dmt.len ∧ b'.keysz = b.keysz ∧
      (force = true → b'.mp.mem = recs rows) := by
  have hu := h.usedSize
  rw [Nat.add_zero] at hu
  have hm : m32 (b.mp.used + added) = (recs rows).length + added := by unfold m32; omega
  rw [Bn.compress.eq_def]
  simp only [hm]
  split
  · obtain ⟨c1, c2, c3⟩ := construct_size (if force = true then (recs rows).length + added else m32 (((recs rows).length + added) * 3) / 2)
    generalize Mp.construct (if force = true then (recs rows).length + added else m32 (((recs rows).length + added) * 3) / 2) = mp at c1 c2 c3
    have c4 : (recs rows).length + added ≤ mp.size := by
      refine Nat.le_trans ?_ c1
      split
      · exact Nat.le_refl _
      · have h3 : m32 (((recs rows).length + added) * 3) = ((recs rows).length + added) * 3 := by
          unfold m32; exact Nat.mod_eq_of_lt (by omega)
        rw [h3]; omega
    obtain ⟨vs', he, hp⟩ := moveAll_ok h.pts h.shapes mp (by rw [c2]; simp only [List.length_nil]; omega)
    rw [he, R.bind_ok]
    rw [c2, List.nil_append] at hp
    refine ⟨_, rfl, ⟨?_, h.shapes, ?_, ?_, ?_⟩, c3, ?_, rfl, rfl, rfl, rfl, ?_⟩
    · simpa only [c2, List.nil_append] using hp
    · exact h.ok.reval (by rw [hp.keys, h.pts.keys])
    · simp only [c2, List.nil_append]; omega
    · simp only [c2, List.nil_append, c3]; omega
    · simp only [c2, List.nil_append]; omega
    · simp [c2]
  · rename_i hc
    have hfr : b.mp.frag = 0 := by
      rcases Nat.eq_zero_or_pos b.mp.frag with h0 | h0
      · exact h0
      · exact absurd (Or.inl h0) hc
    obtain ⟨c1, c2, c3⟩ := construct_size ((recs rows).length + added)
    have hmem := h.used
    rw [Mp.malloc_ok (by rw [c2]; simp only [List.length_nil]; omega)]
    refine ⟨_, rfl, ⟨?_, h.shapes, h.ok, ?_, ?_⟩, c3, ?_, rfl, rfl, rfl, rfl, ?_⟩
    · simpa only [c2, List.nil_append] using h.pts
    · simp only [c2, List.nil_append]; omega
    · simp only [c2, List.nil_append, c3]; omega
    · simp only [c2, List.nil_append]; omega
    · intro hf; exact absurd (Or.inr hf) hc

theorem Bn.Core.malloc {b : Bn} {rows : Rows} (h : b.Core rows 0) {l : List Nat} (hl : Shape l) (hn : (recs rows).length + l.length < 2 ^ 30) :
    ∃ o b', b.malloc l = .ok (o, b') ∧ b'.Core rows l.length ∧ AtOff b'.mp.mem o l ∧ b'.keysz = b.keysz := by
  have fin : ∀ b' : Bn, b'.Core rows 0 → b'.keysz = b.keysz → b'.mp.mem.length + l.length ≤ b'.mp.size →
      ({ b' with mp := { b'.mp with mem := b'.mp.mem ++ l } } : Bn).Core rows l.length ∧ AtOff (b'.mp.mem ++ l) b'.mp.mem.length l := by
    intro b' hb hk hr
    refine ⟨⟨hb.pts.mono hb.shapes, hb.shapes, hb.ok, by simpa using hr, ?_⟩, ?_⟩
    · have := hb.used
      simp only [List.length_append]; omega
    · simpa using AtOff.end b'.mp.mem l []
  unfold Bn.malloc
  by_cases hr : b.mp.mem.length + l.length ≤ b.mp.size
  · rw [Mp.malloc_ok hr]
    obtain ⟨f1, f2⟩ := fin b h rfl hr
    exact ⟨_, _, rfl, f1, f2, rfl⟩
  · have : b.mp.malloc l = none := by unfold Mp.malloc; rw [if_pos (by omega)]
    rw [this]
    obtain ⟨b', he, hb, _, hr', _, _, _, hk, _⟩ := h.compress l.length false hn
    simp only
    rw [he, R.bind_ok, Mp.malloc_ok hr']
    obtain ⟨f1, f2⟩ := fin b' hb hk hr'
    exact ⟨_, _, rfl, f1, f2, hk⟩

theorem split_sizes (rows : Rows) (i : Nat) : (recs rows).length = (recs (rows.take i)).length + (recs (rows.drop i)).length ∧
    keyRoom rows = keyRoom (rows.take i) + keyRoom (rows.drop i) := by
  constructor
  · rw [← List.length_append, ← recs_append, List.take_append_drop]
  · rw [← keyRoom_append, List.take_append_drop]

theorem get_sizes {rows : Rows} {i : Nat} {k l : List Nat} (h : rows[i]? = some (k, l)) :
    (recs rows).length = (recs (rows.take i)).length + (l.length + (recs (rows.drop (i + 1))).length) ∧
    keyRoom rows = keyRoom (rows.take i) + (4 + k.length + keyRoom (rows.drop (i + 1))) := by
  obtain ⟨hi, he⟩ := List.getElem?_eq_some_iff.mp h
  have hd : rows.drop i = (k, l) :: rows.drop (i + 1) := by rw [List.drop_eq_getElem_cons hi, he]
  obtain ⟨h1, h2⟩ := split_sizes rows i
  rw [h1, h2, hd, recs_cons, keyRoom_cons, List.length_append]
  exact ⟨rfl, rfl⟩

theorem Shapes.insert {rows : Rows} (h : Shapes rows) {i : Nat} {key l : List Nat} (hl : Shape l) : Shapes (rows.take i ++ (key, l) :: rows.drop i) := by
  intro r hr
  simp only [List.mem_append, List.mem_cons] at hr
  rcases hr with hr | rfl | hr
  · exact h r (List.mem_of_mem_take hr)
  · exact hl
  · exact h r (List.mem_of_mem_drop hr)

theorem Bn.Holds.insert {b : Bn} {rows : Rows} (h : b.Holds rows) {i : Nat} {key l : List Nat} (hi : i ≤ rows.length) (hl : Shape l)
    (hn : (recs rows).length + l.length < 2 ^ 30) :
    ∃ b', b.insert i key l = .ok b' ∧ b'.Holds (rows.take i ++ (key, l) :: rows.drop i) := by
  obtain ⟨o, b', he, hc, ho, hk⟩ := (h.core.rekey (b.keysz + (4 + key.length))).malloc hl hn
  rw [Bn.insert]
  simp only
  rw [he, R.bind_ok]
  have hv : i ≤ b'.dmt.vals.length := by rw [hc.pts.length]; exact hi
  obtain ⟨s1, s2⟩ := split_sizes rows i
  refine ⟨_, rfl, ⟨⟨?_, h.core.shapes.insert hl, hc.ok.insertAt _ _, hc.room, ?_⟩, ?_⟩⟩
  · simp only
    rw [Dmt.insertAt_vals hv]
    exact (hc.pts.take i).append (.cons ho (hc.pts.drop i))
  · have := hc.used
    simp only [recs_append, recs_cons, List.length_append] at this ⊢
    omega
  · simp only [hk, h.keys, keyRoom_append, keyRoom_cons]
    omega

theorem mfree_ok {mp : Mp} {n : Nat} (h1 : mp.frag + n ≤ mp.mem.length) (h2 : mp.mem.length ≤ mp.size) : mp.mfree n = .ok { mp with frag := mp.frag + n } := by
  unfold Mp.mfree; rw [if_pos ⟨h1, by omega⟩]

theorem Bn.Holds.overwrite {b : Bn} {rows : Rows} (h : b.Holds rows) {i : Nat} {key old l : List Nat} (hi : rows[i]? = some (key, old)) (hl : Shape l)
    (hn : (recs rows).length + l.length < 2 ^ 30) :
    ∃ b', b.overwrite i key.length old.length l = .ok b' ∧ b'.Holds (rows.set i (key, l)) := by
  obtain ⟨o, b', he, hc, ho, hk⟩ := h.core.malloc hl hn
  obtain ⟨g1, g2⟩ := get_sizes hi
  have hu := hc.used
  obtain ⟨o', hv, _⟩ := hc.pts.get hi
  obtain ⟨hlt, _⟩ := List.getElem?_eq_some_iff.mp hi
  rw [Bn.overwrite, he, R.bind_ok]
  simp only
  rw [mfree_ok (by omega) hc.room, R.bind_ok]
  simp only [hv, if_true]
  have hset : rows.set i (key, l) = rows.take i ++ (key, l) :: rows.drop (i + 1) := List.set_eq_take_append_cons_drop .. |>.trans (if_pos hlt)
  refine ⟨_, rfl, ⟨⟨hc.pts.set ho, ?_, ?_, hc.room, ?_⟩, ?_⟩⟩
  · intro r hr
    rcases List.mem_or_eq_of_mem_set hr with hr | rfl
    · exact h.core.shapes r hr
    · exact hl
  · refine hc.ok.reval ?_
    rw [(hc.pts.set (i := i) (k := key) ho).keys, hc.pts.keys, hset]
    conv => rhs; rw [← List.take_append_drop i rows, List.drop_eq_getElem_cons hlt]
    have := (List.getElem?_eq_some_iff.mp hi).2
    simp [this]
  · rw [hset]
    simp only [recs_append, recs_cons, List.length_append]
    omega
  · rw [hset]
    simp only [hk, h.keys, keyRoom_append, keyRoom_cons]
    omega

theorem Bn.Holds.delete {b : Bn} {rows : Rows} (h : b.Holds rows) {i : Nat} {key old : List Nat} (hi : rows[i]? = some (key, old)) :
    ∃ b', b.delete i key.length old.length = .ok b' ∧ b'.Holds (rows.eraseIdx i) := by
  obtain ⟨g1, g2⟩ := get_sizes hi
  have hu := h.core.used
  obtain ⟨hlt, _⟩ := List.getElem?_eq_some_iff.mp hi
  rw [Bn.delete, mfree_ok (by omega) h.core.room, R.bind_ok]
  have hv : i < b.dmt.vals.length := by rw [h.core.pts.length]; exact hlt
  refine ⟨_, rfl, ⟨⟨?_, ?_, h.core.ok.deleteAt i, h.core.room, ?_⟩, ?_⟩⟩
  · simp only
    rw [Dmt.deleteAt_vals hv, List.eraseIdx_eq_take_drop_succ, List.eraseIdx_eq_take_drop_succ]
    exact (h.core.pts.take i).append (h.core.pts.drop (i + 1))
  · exact fun r hr => h.core.shapes r (List.mem_of_mem_eraseIdx hr)
  · rw [List.eraseIdx_eq_take_drop_succ]
    simp only [recs_append, List.length_append]
    omega
  · rw [List.eraseIdx_eq_take_drop_succ]
    simp only [h.keys, keyRoom_append]
    omega

theorem Bn.Holds.fetch {b : Bn} {rows : Rows} (h : b.Holds rows) (i : Nat) : b.fetch i = .ok rows[i]? := by
  rw [Bn.fetch.eq_def]
  cases hr : rows[i]? with
  | none =>
    have : b.dmt.vals[i]? = none := by
      rw [List.getElem?_eq_none_iff] at hr ⊢
      rw [h.core.pts.length]; exact hr
    rw [this]
  | some r =>
    obtain ⟨k, l⟩ := r
    obtain ⟨o, hv, ho⟩ := h.core.pts.get hr
    rw [hv]
    simp only
    rw [ho.read (h.core.shapes _ (List.mem_of_getElem? hr)), R.bind_ok]
    rfl

theorem Bn.Holds.num {b : Bn} {rows : Rows} (h : b.Holds rows) : b.num = rows.length := h.core.pts.length

theorem Bn.Holds.diskSize {b : Bn} {rows : Rows} (h : b.Holds rows) : b.diskSize = keyRoom rows + (recs rows).length := by
  rw [Bn.diskSize, h.keys, h.core.usedSize]; rfl

theorem Bn.Holds.empty : Bn.empty.Holds [] :=
  ⟨⟨.nil, fun r hr => by simp at hr, Dmt.OK.empty, by decide, by decide⟩, rfl⟩

theorem Bn.Holds.clone {b : Bn} {rows : Rows} (h : b.Holds rows) : b.clone.Holds rows :=
  ⟨⟨h.core.pts, h.core.shapes, h.core.ok, Nat.le_refl _, h.core.used⟩, h.keys⟩

theorem Shapes.append {a b : Rows} (ha : Shapes a) (hb : Shapes b) : Shapes (a ++ b) := by
  intro r hr
  rcases List.mem_append.mp hr with hr | hr
  · exact ha r hr
  · exact hb r hr

theorem Bn.Holds.push {b : Bn} {rows : Rows} (h : b.Holds rows) {key l : List Nat} (hl : Shape l) (hr : b.mp.mem.length + l.length ≤ b.mp.size) :
    (Bn.mk (b.dmt.append (key, b.mp.mem.length)) { b.mp with mem := b.mp.mem ++ l } (b.keysz + (4 + key.length))).Holds (rows ++ [(key, l)]) := by
  refine ⟨⟨?_, h.core.shapes.append (fun r hr => ?_), h.core.ok.append _, by simpa using hr, ?_⟩, ?_⟩
  · simp only
    rw [Dmt.append_vals]
    refine (h.core.pts.mono h.core.shapes).append (.cons ?_ .nil)
    simpa using AtOff.end b.mp.mem l []
  · rw [List.mem_singleton.mp hr]; exact hl
  · have := h.core.used
    have hz : recs [] = [] := rfl
    simp only [recs_append, List.length_append, recs_cons, hz, List.length_nil] at this ⊢
    omega
  · simp only [h.keys, keyRoom_append, keyRoom_cons]
    simp [keyRoom]

theorem copyAll_ok {old : Mp} {vs : List (List Nat × Nat)} {rows : Rows} (h : Pts old.mem vs rows) (hs : Shapes rows) (b : Bn) (done : Rows) (hb : b.Holds done)
    (hf : b.mp.mem.length + (recs rows).length ≤ b.mp.size) :
    ∃ b', copyAll old vs b = .ok b' ∧ b'.Holds (done ++ rows) ∧ b'.mp.frag = b.mp.frag := by
  induction h generalizing b done with
  | nil => exact ⟨b, rfl, by simpa using hb, rfl⟩
  | @cons k l o vs rows h t ih =>
    have hl : Shape l := hs (k, l) (List.mem_cons_self ..)
    have hs' : Shapes rows := fun r hr => hs r (List.mem_cons_of_mem _ hr)
    rw [recs_cons, List.length_append] at hf
    obtain ⟨b', he, hp, hfr⟩ := ih hs' _ _ (hb.push (key := k) hl (by omega)) (by simp only [List.length_append]; omega)
    refine ⟨b', ?_, by simpa only [List.append_assoc, List.singleton_append] using hp, hfr⟩
    rw [copyAll, h.read hl, R.bind_ok, Mp.malloc_ok (by omega)]
    exact he

theorem setAll_ok {rows : Rows} (hs : Shapes rows) (b : Bn) (done : Rows) (hb : b.Holds done)
    (hf : b.mp.mem.length + (recs rows).length ≤ b.mp.size) :
    ∃ b', setAll rows b = .ok b' ∧ b'.Holds (done ++ rows) := by
  induction rows generalizing b done with
  | nil => exact ⟨b, rfl, by simpa using hb⟩
  | cons r rows ih =>
    obtain ⟨k, l⟩ := r
    have hl : Shape l := hs (k, l) (List.mem_cons_self ..)
    have hs' : Shapes rows := fun r hr => hs r (List.mem_cons_of_mem _ hr)
    rw [recs_cons, List.length_append] at hf
    obtain ⟨b', he, hp⟩ := ih hs' _ _ (hb.push (key := k) hl (by omega)) (by simp only [List.length_append]; omega)
    refine ⟨b', ?_, by simpa only [List.append_assoc, List.singleton_append] using hp⟩
    rw [setAll, Mp.malloc_ok (by omega)]
    exact he

theorem fresh_holds (n : Nat) : (Bn.mk Dmt.empty (Mp.construct n) 0).Holds [] := by
  obtain ⟨c1, c2, c3⟩ := construct_size n
  exact ⟨⟨.nil, fun r hr => by simp at hr, Dmt.OK.empty, by simp [c2], by simp [c2, c3, recs]⟩, rfl⟩

theorem Bn.setContents_ok {rows : Rows} (hs : Shapes rows) : ∃ b, Bn.setContents rows (recs rows).length = .ok b ∧ b.Holds rows := by
  obtain ⟨c1, c2, c3⟩ := construct_size (recs rows).length
  exact setAll_ok hs _ [] (fresh_holds _) (by simp only [c2, List.length_nil]; omega)

theorem reallocLarger_holds {b : Bn} {rows : Rows} (h : b.Holds rows) (hf : b.mp.frag = 0) :
    ∃ mp, b.mp.reallocLarger b.mp.used = .ok mp ∧ ({ b with mp := mp } : Bn).Holds rows := by
  have hu : b.mp.used = b.mp.mem.length := by unfold Mp.used; omega
  rw [Mp.reallocLarger, hu, if_pos (Nat.le_refl _)]
  refine ⟨_, rfl, ⟨⟨h.core.pts, h.core.shapes, h.core.ok, ?_, h.core.used⟩, h.keys⟩⟩
  simp only; omega

theorem Bn.Holds.split {b : Bn} {rows : Rows} (h : b.Holds rows) (i : Nat) :
    ∃ l r, b.split i = .ok (l, r) ∧ l.Holds (rows.take i) ∧ r.Holds (rows.drop i) := by
  obtain ⟨c1, c2, c3⟩ := construct_size b.mp.used
  obtain ⟨s1, _⟩ := split_sizes rows i
  have hu := h.core.usedSize
  have hk : b.keysz - (b.dmt.vals.map fun v => 4 + v.1.length).sum = 0 := by
    have : (b.dmt.vals.map fun v => 4 + v.1.length) = (rows.map fun r => 4 + r.1.length) := by
      have := congrArg (List.map fun k : List Nat => 4 + k.length) h.core.pts.keys
      rw [List.map_map, List.map_map] at this
      exact this
    rw [this, h.keys]; simp [keyRoom]
  obtain ⟨l, hl, hl1, hl2⟩ := copyAll_ok (h.core.pts.take i) (fun r hr => h.core.shapes r (List.mem_of_mem_take hr)) _ [] (fresh_holds b.mp.used)
    (by simp only [c2, List.length_nil]; omega)
  obtain ⟨r, hr, hr1, hr2⟩ := copyAll_ok (h.core.pts.drop i) (fun r hr => h.core.shapes r (List.mem_of_mem_drop hr)) _ [] (fresh_holds b.mp.used)
    (by simp only [c2, List.length_nil]; omega)
  rw [List.nil_append] at hl1 hr1
  obtain ⟨lm, le, lh⟩ := reallocLarger_holds hl1 (by rw [hl2]; exact c3)
  obtain ⟨rm, re, rh⟩ := reallocLarger_holds hr1 (by rw [hr2]; exact c3)
  rw [Bn.split]
  try simp only
  rw [hk, hl, R.bind_ok, hr, R.bind_ok, le, R.bind_ok, re, R.bind_ok]
  exact ⟨_, _, rfl, lh, rh⟩

end Verif.Node
