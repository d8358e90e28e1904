import Verif.Log.WalkLemmas
set_option linter.unusedVariables false
set_option linter.unusedSimpArgs false
/-! Repair of the last file, and turning around at once. -/
namespace Verif.Log
open Verif.Ser Verif.Ser.BufSpec Spec

theorem Written.cut {r : Entry × List Nat} (h : Written r) {p q : List Nat} (hp : r.2 = p ++ q) (hq : q ≠ []) : fread p = .eof := by
  obtain ⟨now, e, hnow, ⟨tys, ht, hl, hf⟩, hw, hr, hsz⟩ := h
  have hc := fieldsOf_char ht
  have hb := good_small (lsn := e.lsn) ht hf now
  have hw2 := writeRecord_ok hnow hc hl hf hb
  simp only [write, ht] at hw
  rw [hw2] at hw
  have hr2 : r.2 = recBytes now e.cmd tys e.lsn e.vals := (R.ok.inj hw).symm
  exact fread_cut hnow ht hl hf hb p q (by rw [← hr2, hp]) hq

theorem scanGood_ok : ∀ (rs : List (Entry × List Nat)) (tail : List Nat) (n p : Nat), (∀ r ∈ rs, Whole r) → (fread tail = .eof ∨ fread tail = .bad) → rs.length ≤ n →
    scanGood n (bytesOf rs ++ tail) p = some (p + (bytesOf rs).length) := by
  intro rs
  induction rs with
  | nil =>
    intro tail n p _ ht _
    cases n with
    | zero => rfl
    | succ n =>
      simp only [bytesOf, List.flatMap_nil, List.nil_append, scanGood]
      rcases ht with ht | ht <;> rw [ht] <;> rfl
  | cons r rs ih =>
    intro tail n p hw ht hn
    obtain ⟨m, rfl⟩ : ∃ m, n = m + 1 := ⟨n - 1, by simp at hn; omega⟩
    simp only [scanGood, bytesOf_cons, List.append_assoc, (hw r (by simp)).full]
    rw [ih tail m _ (fun x hx => hw x (by simp [hx])) ht (by simpa using hn)]
    simp only [List.length_append]
    congr 1; omega

theorem bytesOf_count {rs : List (Entry × List Nat)} (h : ∀ r ∈ rs, Whole r) : rs.length ≤ (bytesOf rs).length := by
  induction rs with
  | nil => simp
  | cons r rs ih =>
    rw [bytesOf_cons, List.length_append, List.length_cons]
    have := (h r (by simp)).pos
    have := ih (fun x hx => h x (by simp [hx]))
    omega

/-- The first call of `prev` on a log whose last file ends with bytes that are no record. -/
theorem repair_ok {A : List Seg} {rs : List (Entry × List Nat)} {tail : List Nat} (hf : ∀ s ∈ A ++ [.full 29 rs], Seg.Fine s)
    (ht : fread tail = .eof ∨ fread tail = .bad)
    (hb : freadBackward (Seg.bytes (.full 29 rs) ++ tail) (Seg.bytes (.full 29 rs) ++ tail).length = .err) :
    let c := Cur.create (A.map Seg.bytes ++ [Seg.bytes (.full 29 rs) ++ tail])
    let segs := A ++ [.full 29 rs]
    Rel segs (c.step .prev).1 (Place.move (entries segs) .out .prev) ∧ (c.step .prev).2 = told ((Place.move (entries segs) .out .prev).entry (entries segs)) := by
  intro c segs
  have hw : ∀ r ∈ rs, Whole r := (hf (.full 29 rs) (by simp)).2.2
  have e : segs = A ++ .full 29 rs :: [] := rfl
  have hsegs : segs.map Seg.bytes = A.map Seg.bytes ++ [Seg.bytes (.full 29 rs)] := by simp [segs]
  have hlen : c.files.length - 1 = A.length := by simp [c, Cur.create]
  have hn : c.files.length = A.length + 1 := by simp [c, Cur.create]
  have hget : c.files[A.length]? = some (Seg.bytes (.full 29 rs) ++ tail) := by
    show (A.map Seg.bytes ++ [_])[A.length]? = _
    rw [List.getElem?_append_right (by simp)]; simp
  have hlen12 : 12 ≤ (Seg.bytes (.full 29 rs) ++ tail).length := by rw [List.length_append, full_length]; omega
  have hop : openPos c.files (c.files.length - 1) = .ok 12 := by
    have hm : readMagic (Seg.bytes (.full 29 rs) ++ tail) = some 29 := by
      show readMagic (header 29 ++ bytesOf rs ++ tail) = _
      rw [List.append_assoc]; exact readMagic_header 29 (by decide) _
    rw [hlen, openPos, hget]
    dsimp only
    rw [if_pos hlen12, hm]
    dsimp only
    rw [if_neg (by decide)]
  have h0 : c.valid = false := rfl
  have hpos : c.pos = .closed := rfl
  have h1 : (if c.idx ≠ c.files.length - 1 then { c with valid := false, pos := .closed } else { c with valid := false } : Cur) = c := by
    split <;> rfl
  simp only [Cur.step, Cur.prev, h0, Cur.last, Bool.false_eq_true, if_false]
  rw [h1, if_pos hpos, hop]
  dsimp only
  rw [hlen]
  -- the loop
  have hfile : (Cur.file { c with idx := A.length }) = Seg.bytes (.full 29 rs) ++ tail := by
    simp only [Cur.file, hget]; rfl
  have hfix : Cur.fix { c with idx := A.length } = .ok ({ c with idx := A.length, files := segs.map Seg.bytes, pos := .at (Seg.bytes (.full 29 rs)).length },
      Seg.bytes (.full 29 rs), (Seg.bytes (.full 29 rs)).length) := by
    have hm : readMagic (Seg.bytes (.full 29 rs) ++ tail) = some 29 := by
      show readMagic (header 29 ++ bytesOf rs ++ tail) = _
      rw [List.append_assoc]; exact readMagic_header 29 (by decide) _
    have hsc : scanGood (Seg.bytes (.full 29 rs) ++ tail).length ((Seg.bytes (.full 29 rs) ++ tail).drop 12) 12 = some (12 + (bytesOf rs).length) := by
      have : (Seg.bytes (.full 29 rs) ++ tail).drop 12 = bytesOf rs ++ tail := by
        show (header 29 ++ bytesOf rs ++ tail).drop 12 = _
        rw [List.append_assoc, show 12 = (header 29).length from rfl, List.drop_left]
      rw [this]
      exact scanGood_ok rs tail _ 12 hw ht (by have := bytesOf_count hw; rw [List.length_append, full_length]; omega)
    have htr : truncateTo (Seg.bytes (.full 29 rs) ++ tail) (12 + (bytesOf rs).length) = Seg.bytes (.full 29 rs) := by
      rw [truncateTo, ← full_length 29 rs, List.take_left]
      have : (Seg.bytes (.full 29 rs)).length - (Seg.bytes (.full 29 rs) ++ tail).length = 0 := by rw [List.length_append]; omega
      rw [this]; simp
    have hset : c.files.set A.length (Seg.bytes (.full 29 rs)) = segs.map Seg.bytes := by
      show (A.map Seg.bytes ++ [_]).set A.length _ = _
      rw [hsegs, List.set_append_right _ _ (by simp)]
      simp
    have hop2 := openPos_ok hf e
    simp only [Cur.fix, hfile, hm, hlen, hget, Option.getD_some, hsc, htr, hset]
    rw [if_neg (by decide), hop2]
    dsimp only
    have : (segs.map Seg.bytes)[A.length]? = some (Seg.bytes (.full 29 rs)) := by
      rw [hsegs, List.getElem?_append_right (by simp)]; simp
    rw [this]; rfl
  have hloop : Cur.lastLoop (c.files.length + 1) { c with idx := A.length } =
      Cur.lastLoop (c.files.length + 1) { c with idx := A.length, files := segs.map Seg.bytes, pos := .at (Seg.bytes (.full 29 rs)).length } ∨
      (rs = [] ∧ ∃ A' s, A = A' ++ [s] ∧ Cur.lastLoop (c.files.length + 1) { c with idx := A.length } =
        Cur.lastLoop c.files.length { c with idx := A'.length, files := segs.map Seg.bytes, pos := .at (Seg.bytes (.full 29 rs)).length }) := by
    have hfile2 : (Cur.file { c with idx := A.length, files := segs.map Seg.bytes, pos := .at (Seg.bytes (.full 29 rs)).length }) = Seg.bytes (.full 29 rs) :=
      file_at e rfl rfl
    rcases gapB_cases (hf (.full 29 rs) (by simp)) (endGap (hf (.full 29 rs) (by simp))) with ⟨g0, g1⟩ | ⟨v, a, r, g0, g2, g1⟩
    · rcases List.eq_nil_or_concat A with rfl | ⟨A', s, hA⟩
      · left
        conv => lhs; simp only [Cur.lastLoop, hfile, hb, hfix, g1]
        conv => rhs; simp only [Cur.lastLoop, hfile2, g1]
      · right
        have hA' : A = A' ++ [s] := by rw [hA]; simp
        refine ⟨g0, A', s, hA', ?_⟩
        conv => lhs; simp only [Cur.lastLoop, hfile, hb, hfix, g1]
        have hl : A.length = A'.length + 1 := by rw [hA']; simp
        rw [hl, if_neg (by omega), Nat.add_sub_cancel]
        have hop2 := openPos_ok hf (show segs = A' ++ s :: [.full 29 rs] by simp [segs, hA'])
        rw [hop2]
    · left
      conv => lhs; simp only [Cur.lastLoop, hfile, hb, hfix, g1]
      conv => rhs; simp only [Cur.lastLoop, hfile2, g1]
      rw [if_pos (by simp [segs])]
  simp only [Place.move, entries_length]
  have hfin : ∀ (k : Nat) (A₁ B₁ : List Seg) (s₁ : Seg) (n : Nat), segs = A₁ ++ s₁ :: B₁ → recsOf A₁ ++ s₁.recs = recsOf segs → A₁.length + 1 ≤ n →
      Cur.lastLoop (c.files.length + 1) { c with idx := A.length } = Cur.lastLoop n { c with idx := A₁.length, files := segs.map Seg.bytes, pos := .at (Seg.bytes (.full 29 rs)).length } →
      let x := (let (c, r) := Cur.lastLoop (c.files.length + 1) { c with idx := A.length }; c.finish .last r)
      Rel segs x.1 (if (recsOf segs).length = 0 then .out else .on ((recsOf segs).length - 1) (some .prev)) ∧
        x.2 = told (Place.entry (entries segs) (if (recsOf segs).length = 0 then .out else .on ((recsOf segs).length - 1) (some .prev))) := by
    intro k A₁ B₁ s₁ n e1 hr hn1 heq
    have := lastLoop_gap hf A₁.length A₁ B₁ s₁ { c with idx := A₁.length, files := segs.map Seg.bytes, pos := .at (Seg.bytes (.full 29 rs)).length } n rfl e1 rfl rfl hn1
    rw [hr] at this
    dsimp only
    rw [heq]
    rcases List.eq_nil_or_concat (recsOf segs) with hrs | ⟨t, r, hrs⟩
    · rw [this.1 hrs, hrs]
      dsimp only
      rw [finish_err]
      exact ⟨⟨rfl, rfl, rfl⟩, rfl⟩
    · have hrs : recsOf segs = t ++ [r] := by rw [hrs]; simp
      obtain ⟨k, q, h2, h3⟩ := this.2 t r hrs
      rw [h2]
      have hl : (recsOf segs).length = t.length + 1 := by rw [hrs]; simp
      rw [hl, if_neg (by omega), Nat.add_sub_cancel]
      dsimp only
      rw [finish_last]
      refine ⟨⟨rfl, r, rfl, rfl, h3.congr rfl rfl rfl⟩, ?_⟩
      have hg : (entries segs)[t.length]? = some r.1 := entries_get h3.get
      simp only [Place.entry, told]
      rw [hg]
  rcases hloop with h | ⟨hrs, A', s, hA, h⟩
  · exact hfin 0 A [] (.full 29 rs) (c.files.length + 1) e (by simp [segs, recsOf]) (by omega) h
  · refine hfin 0 A' [.full 29 rs] s c.files.length (by simp [segs, hA]) ?_ ?_ h
    · simp [segs, hA, recsOf, hrs, Seg.recs]
    · rw [hn, hA]; simp

/-- Right after the walk began at the front, `prev` meets the same entry again and takes it for a gap. -/
theorem sharp_front {segs : List Seg} (hf : ∀ s ∈ segs, Seg.Fine s) {c : Cur} {i : Nat} (h : Rel segs c (.on i (some .next))) : c.prev.2 = .runrecovery := by
  obtain ⟨h1, r, h2, h3, h4⟩ := h
  have hw := h4.whole hf
  obtain ⟨p, q, g1, g2, g3⟩ := junk_backward hf h4
  simp only [Cur.prev, h1, if_true, h3]
  rw [if_neg (by decide)]
  have g2' : freadBackward (Cur.file { c with valid := false, pos := .at p, dir := .first }) p = .ok r.1 q := g2
  simp only [Cur.readBack, g1, g2']
  simp only [Cur.finish]
  have hl := hw.lsn
  have : Cur.check { files := c.files, idx := c.idx, pos := .at q, valid := false, lsn := c.lsn, dir := .first } .backward r.1 = none := by
    rw [Cur.check]
    refine if_pos (.inr ⟨rfl, ?_⟩)
    rw [h2]; omega
  rw [this]

theorem sharp_back {segs : List Seg} (hf : ∀ s ∈ segs, Seg.Fine s) {c : Cur} {i : Nat} (h : Rel segs c (.on i (some .prev))) : c.next.2 = .runrecovery := by
  obtain ⟨h1, r, h2, h3, h4⟩ := h
  have hw := h4.whole hf
  obtain ⟨p, rest, g1, g2, g3⟩ := junk_forward hf h4
  simp only [Cur.next, h1, if_true, h3]
  rw [if_neg (by decide)]
  have g2' : fread (List.drop p (Cur.file { c with valid := false, pos := .at p, dir := .last })) = .ok (r.1, rest) := g2
  simp only [Cur.read, g1, g2']
  simp only [Cur.finish]
  have hl := hw.lsn
  have : ∀ q, Cur.check { files := c.files, idx := c.idx, pos := q, valid := false, lsn := c.lsn, dir := .last } .forward r.1 = none := by
    intro q
    rw [Cur.check]
    refine if_pos (.inl ⟨rfl, ?_⟩)
    rw [h2]; omega
  rw [this]

end Verif.Log
