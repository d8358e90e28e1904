import Verif.Node.BnDisk
import Verif.Node.BnRun
/-!
C60: a part of a leaf holds exactly the rows it was given, through every sequence of calls.
-/
set_option linter.unusedVariables false
namespace Verif.Node
open Verif.Ser BnSpec

theorem size_eq (rows : Rows) : BnSpec.size rows = keyRoom rows + (recs rows).length := by
  induction rows with
  | nil => rfl
  | cons r rows ih =>
    rw [keyRoom_cons, recs_cons, List.length_append]
    simp only [BnSpec.size, List.map_cons, List.sum_cons] at *
    omega

/-- Every object holds its rows. -/
structure BHold (h : List Bn) (s : List (List Row)) : Prop where
  len : h.length = s.length
  rep : ∀ (o : Nat) (rows : List Row), s[o]? = some rows → ∃ b, h[o]? = some b ∧ b.Holds rows
  fits : ∀ rows ∈ s, Fits rows

theorem BHold.get {h : List Bn} {s : List (List Row)} (hh : BHold h s) {o : Nat} {rows : List Row} (ho : s[o]? = some rows) : ∃ b, bnGet h o = .ok b ∧ b.Holds rows := by
  obtain ⟨p, hp, hr⟩ := hh.rep o rows ho
  exact ⟨p, by simp [bnGet, hp], hr⟩

theorem BHold.set {h : List Bn} {s : List (List Row)} (hh : BHold h s) {o : Nat} {b : Bn} {rows : List Row} (hr : b.Holds rows) (hk : Fits rows) : BHold (h.set o b) (s.set o rows) := by
  refine ⟨by simp [hh.len], fun o' rows' ho => ?_, fun rows' hks => ?_⟩
  · rw [List.getElem?_set] at ho
    rw [List.getElem?_set]
    split at ho
    · rename_i he
      split at ho
      · rename_i hl
        simp only [Option.some.injEq] at ho
        subst ho
        exact ⟨b, by rw [if_pos (by omega), if_pos (by rw [hh.len]; omega)], hr⟩
      · simp at ho
    · rename_i he
      obtain ⟨q, hq, hr'⟩ := hh.rep o' rows' ho
      exact ⟨q, by rw [if_neg he]; exact hq, hr'⟩
  · rcases List.mem_or_eq_of_mem_set hks with h' | rfl
    · exact hh.fits rows' h'
    · exact hk

theorem BHold.push {h : List Bn} {s : List (List Row)} (hh : BHold h s) {b : Bn} {rows : List Row} (hr : b.Holds rows) (hk : Fits rows) : BHold (h ++ [b]) (s ++ [rows]) := by
  refine ⟨by simp [hh.len], fun o' rows' ho => ?_, fun rows' hks => ?_⟩
  · rcases Nat.lt_or_ge o' s.length with hl | hl
    · rw [List.getElem?_append_left hl] at ho
      obtain ⟨q, hq, hr'⟩ := hh.rep o' rows' ho
      exact ⟨q, by rw [List.getElem?_append_left (by rw [hh.len]; exact hl)]; exact hq, hr'⟩
    · rw [List.getElem?_append_right hl] at ho
      rw [List.getElem?_append_right (by rw [hh.len]; exact hl), hh.len]
      cases hx : o' - s.length with
      | zero => rw [hx] at ho; simp at ho; subst ho; exact ⟨b, rfl, hr⟩
      | succ n => rw [hx] at ho; simp at ho
  · rcases List.mem_append.mp hks with h' | h'
    · exact hh.fits rows' h'
    · rw [List.mem_singleton.mp h']; exact hk

theorem BHold.same {h : List Bn} {s : List (List Row)} (hh : BHold h s) {o : Nat} {b : Bn} {rows : List Row} (ho : s[o]? = some rows) (hr : b.Holds rows) : BHold (h.set o b) s := by
  have := hh.set (o := o) hr (hh.fits rows (List.mem_of_getElem? ho))
  have e : s.set o rows = s := by
    obtain ⟨hl, he⟩ := List.getElem?_eq_some_iff.mp ho
    rw [← he]; exact List.set_getElem_self hl
  rwa [e] at this

theorem Bn.Holds.reload {b : Bn} {rows : Rows} (h : b.Holds rows) (hf : Fits rows) : ∃ b' q, b.reload = .ok (b', q) ∧ b'.Holds rows ∧ q.Holds rows := by
  have hsz := hf.1
  rw [size_eq] at hsz
  obtain ⟨b', bs, hw, h', hl, _, hr⟩ := h.round (by omega) (by omega) hf.2
  obtain ⟨q, hq, hh⟩ := hr ⟨bs, 0⟩ [] (by rw [List.append_nil]; exact At.start bs)
  have := hw (W.init (14 + b.diskSize)) (by simp [W.init, hl])
  refine ⟨b', q, ?_, h', hh⟩
  rw [Bn.reload, this, R.bind_ok, h.num]
  simp only [W.push, W.init, List.nil_append]
  rw [hq, R.bind_ok]
  simp only [adv_ndone, Nat.zero_add]
  rw [if_pos ⟨hl, trivial⟩]
  rfl

theorem Bn.Holds.row {b : Bn} {rows : Rows} (h : b.Holds rows) {i : Nat} {r : Row} (hi : rows[i]? = some r) : b.row i = .ok r := by
  rw [Bn.row, h.fetch, R.bind_ok, hi]

theorem fits_sub {rows rows' : Rows} (h : Fits rows) (hs : List.Sublist rows' rows) : Fits rows' := by
  refine ⟨Nat.lt_of_le_of_lt ?_ h.1, fun r hr => h.2 r (hs.subset hr)⟩
  unfold BnSpec.size
  induction hs with
  | slnil => simp
  | cons a t ih => simp only [List.map_cons, List.sum_cons]; have := ih ⟨by have := h.1; simp only [BnSpec.size, List.map_cons, List.sum_cons] at this ⊢; omega, fun r hr => h.2 r (List.mem_cons_of_mem _ hr)⟩; omega
  | cons_cons a t ih => simp only [List.map_cons, List.sum_cons]; have := ih ⟨by have := h.1; simp only [BnSpec.size, List.map_cons, List.sum_cons] at this ⊢; omega, fun r hr => h.2 r (List.mem_cons_of_mem _ hr)⟩; omega

theorem bstep_holds {h : List Bn} {s s' : List (List Row)} {op : Op} (hh : BHold h s) (hrec : ∀ l ∈ records op, Stored l) (hs : step s op = some s') :
    ∃ h', Bn.step h op = .ok h' ∧ BHold h' s' := by
  cases op with
  | new =>
    rw [step] at hs; cases hs
    exact ⟨_, rfl, hh.push Bn.Holds.empty (by decide)⟩
  | build rows =>
    rw [step] at hs
    split at hs
    · rename_i hk
      cases hs
      obtain ⟨b, hb, hr⟩ := Bn.setContents_ok (rows := rows) fun r hr => (hrec r.2 (List.mem_map_of_mem hr)).shape
      have e : (rows.map fun r => r.2.length).sum = (recs rows).length := by
        clear hb hr hrec hk
        induction rows with
        | nil => rfl
        | cons r rows ih => rw [recs_cons, List.length_append, List.map_cons, List.sum_cons, ih]
      exact ⟨_, by rw [Bn.step, e, hb, R.bind_ok]; rfl, hh.push hr hk⟩
    · simp at hs
  | insert o i k l =>
    rw [step] at hs
    split at hs
    · rename_i rows ho
      split at hs
      · rename_i hi
        unfold put at hs
        split at hs
        · rename_i hf
          cases hs
          have hl : Shape l := (hrec l (by simp [records])).shape
          obtain ⟨b, hb, hr⟩ := hh.get ho
          obtain ⟨s1, _⟩ := split_sizes rows i
          have hsz := hf.1
          rw [size_eq, keyRoom_append, keyRoom_cons, recs_append, recs_cons, List.length_append, List.length_append] at hsz
          obtain ⟨q, hq, hr'⟩ := hr.insert (key := k) hi hl (by omega)
          exact ⟨_, by rw [Bn.step, hb, R.bind_ok, hq, R.bind_ok]; rfl, hh.set hr' hf⟩
        · simp at hs
      · simp at hs
    · simp at hs
  | overwrite o i l =>
    rw [step] at hs
    split at hs
    · rename_i rows ho
      split at hs
      · rename_i k old hi
        unfold put at hs
        split at hs
        · rename_i hf
          cases hs
          have hl : Shape l := (hrec l (by simp [records])).shape
          obtain ⟨b, hb, hr⟩ := hh.get ho
          have h0 := (hh.fits rows (List.mem_of_getElem? ho)).1
          have hsz := hf.1
          have hlt := (List.getElem?_eq_some_iff.mp hi).1
          have hset : rows.set i (k, l) = rows.take i ++ (k, l) :: rows.drop (i + 1) := List.set_eq_take_append_cons_drop .. |>.trans (if_pos hlt)
          rw [hset, size_eq, keyRoom_append, keyRoom_cons, recs_append, recs_cons, List.length_append, List.length_append] at hsz
          rw [size_eq] at h0
          obtain ⟨q, hq, hr'⟩ := hr.overwrite hi hl (by omega)
          exact ⟨_, by rw [Bn.step, hb, R.bind_ok, hr.row hi, R.bind_ok]; simp only; rw [hq, R.bind_ok]; rfl, hh.set hr' hf⟩
        · simp at hs
      · simp at hs
    · simp at hs
  | delete o i =>
    rw [step] at hs
    split at hs
    · rename_i rows ho
      split at hs
      · rename_i hi
        cases hs
        obtain ⟨b, hb, hr⟩ := hh.get ho
        obtain ⟨q, hq, hr'⟩ := hr.delete (key := rows[i].1) (old := rows[i].2) (List.getElem?_eq_getElem hi)
        exact ⟨_, by rw [Bn.step, hb, R.bind_ok, hr.row (List.getElem?_eq_getElem hi), R.bind_ok]; simp only; rw [hq, R.bind_ok]; rfl,
          hh.set hr' (fits_sub (hh.fits rows (List.mem_of_getElem? ho)) (List.eraseIdx_sublist ..))⟩
      · simp at hs
    · simp at hs
  | split o i =>
    rw [step] at hs
    split at hs
    · rename_i rows ho
      cases hs
      obtain ⟨b, hb, hr⟩ := hh.get ho
      have hf := hh.fits rows (List.mem_of_getElem? ho)
      obtain ⟨l, r, hq, h1, h2⟩ := hr.split i
      exact ⟨_, by rw [Bn.step, hb, R.bind_ok, hq, R.bind_ok]; rfl, (hh.set h1 (fits_sub hf (List.take_sublist ..))).push h2 (fits_sub hf (List.drop_sublist ..))⟩
    · simp at hs
  | copy o =>
    rw [step] at hs
    split at hs
    · rename_i rows ho
      cases hs
      obtain ⟨b, hb, hr⟩ := hh.get ho
      exact ⟨_, by rw [Bn.step, hb, R.bind_ok]; rfl, hh.push hr.clone (hh.fits rows (List.mem_of_getElem? ho))⟩
    · simp at hs
  | reload o =>
    rw [step] at hs
    split at hs
    · rename_i rows ho
      cases hs
      obtain ⟨b, hb, hr⟩ := hh.get ho
      have hf := hh.fits rows (List.mem_of_getElem? ho)
      obtain ⟨b', q, hq, h1, h2⟩ := hr.reload hf
      exact ⟨_, by rw [Bn.step, hb, R.bind_ok, hq, R.bind_ok]; rfl, (hh.same ho h1).push h2 hf⟩
    · simp at hs

theorem brun_holds {ops : List Op} {h : List Bn} {s s' : List (List Row)} (hh : BHold h s) (hrec : ∀ op ∈ ops, ∀ l ∈ records op, Stored l) (hs : run s ops = some s') :
    ∃ h', Bn.run h ops = .ok h' ∧ BHold h' s' := by
  induction ops generalizing h s with
  | nil => rw [run] at hs; cases hs; exact ⟨h, rfl, hh⟩
  | cons op ops ih =>
    rw [run, Option.bind_eq_some_iff] at hs
    obtain ⟨s1, h1, h2⟩ := hs
    obtain ⟨h', e1, hh'⟩ := bstep_holds hh (hrec op (List.mem_cons_self ..)) h1
    obtain ⟨h'', e2, hh''⟩ := ih hh' (fun op hop => hrec op (List.mem_cons_of_mem _ hop)) h2
    exact ⟨h'', by rw [Bn.run, e1, R.bind_ok, e2], hh''⟩

/-- **C60** After every sequence of calls, with records that store version stacks, no check fails, nothing outside the memory of
an object is touched, and each object has exactly the rows of its list: the same number, the same key and record bytes at each
position, nothing behind the last, and the size it reports is the size of those rows. -/
theorem C60_a_leaf_part_holds_its_rows (ops : List Op) (s : List (List Row)) (hrec : ∀ op ∈ ops, ∀ l ∈ records op, Stored l) (hs : run [] ops = some s) :
    ∃ h, Bn.run [] ops = .ok h ∧ h.length = s.length ∧
      ∀ (o : Nat) (rows : List Row), s[o]? = some rows → ∃ b, h[o]? = some b ∧ b.num = rows.length ∧ (∀ i, b.fetch i = .ok rows[i]?) ∧ b.diskSize = size rows := by
  obtain ⟨h, e, hh⟩ := brun_holds (h := []) ⟨rfl, by simp, by simp⟩ hrec hs
  refine ⟨h, e, hh.len, fun o rows ho => ?_⟩
  obtain ⟨b, hb, hr⟩ := hh.rep o rows ho
  exact ⟨b, hb, hr.num, hr.fetch, by rw [size_eq]; exact hr.diskSize⟩

/-- A record with one committed value. -/
def plain (v : List UInt8) : List Nat := nat ((Ule.pack ⟨[⟨0, .insert v⟩], []⟩).bind id |>.getD [])
/-- A record with four versions. -/
def stacked : List Nat := nat ((Ule.pack Ule.sample).bind id |>.getD [])

theorem stored_plain (v : List UInt8) (hv : v.length < 2 ^ 31) : Stored (plain v) := by
  have hp : Ule.Packable ⟨[⟨0, .insert v⟩], []⟩ :=
    ⟨⟨_, rfl, rfl⟩, by simp, by simp, by simp, by simp, by simp, by simpa [Ule.XrVal.vallen] using hv⟩
  refine ⟨_, _, hp, Ule.pack_clean hp rfl, ?_⟩
  unfold plain
  rw [Ule.pack_clean hp rfl]
  rfl

theorem stored_stacked : Stored stacked := ⟨_, _, Ule.sample_packable, by decide +kernel, rfl⟩

/-- Rows come and go, keys of one length and of several, records of both kinds; the objects are split, copied and reloaded. -/
def sampleBnOps : List Op :=
  [.new, .insert 0 0 [5, 5] (plain [1]), .insert 0 0 [1, 1] stacked, .insert 0 2 [7, 7] (plain [1, 2, 3]), .overwrite 0 1 (plain [9, 9, 9, 9]), .reload 0,
    .insert 1 1 [3] stacked, .delete 1 0, .overwrite 1 0 (plain []), .reload 1, .split 2 1, .build [([4], plain [4]), ([6], stacked)], .reload 4, .copy 3, .delete 6 0,
    .insert 6 1 [8] (plain [8]), .delete 5 0, .delete 5 0, .reload 5]

theorem sampleBnOps_stored : ∀ op ∈ sampleBnOps, ∀ l ∈ records op, Stored l := by
  intro op hop l hl
  simp only [sampleBnOps, List.mem_cons, List.not_mem_nil, or_false] at hop
  rcases hop with rfl | rfl | rfl | rfl | rfl | rfl | rfl | rfl | rfl | rfl | rfl | rfl | rfl | rfl | rfl | rfl | rfl | rfl | rfl <;>
    simp only [records, List.map_cons, List.map_nil, List.mem_cons, List.not_mem_nil, or_false] at hl <;>
    first
      | (rw [hl]; first | exact stored_stacked | exact stored_plain _ (by decide))
      | (rcases hl with rfl | rfl <;> first | exact stored_stacked | exact stored_plain _ (by decide))

example : run [] sampleBnOps =
    some [[([1, 1], stacked), ([5, 5], plain [9, 9, 9, 9]), ([7, 7], plain [1, 2, 3])], [([3], plain []), ([5, 5], plain [9, 9, 9, 9]), ([7, 7], plain [1, 2, 3])],
      [([3], plain [])], [([5, 5], plain [9, 9, 9, 9]), ([7, 7], plain [1, 2, 3])], [([4], plain [4]), ([6], stacked)], [], [([7, 7], plain [1, 2, 3]), ([8], plain [8])], []] := by
  decide +kernel

end Verif.Node
