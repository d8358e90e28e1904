import Verif.Log.Walk
set_option linter.unusedVariables false
set_option linter.unusedSimpArgs false
/-! The cursor follows the walk. -/
namespace Verif.Log
open Verif.Ser Verif.Ser.BufSpec Spec

theorem consecutive_get {es : List Entry} (h : Consecutive es) : ∀ {i : Nat} {a b : Entry}, es[i]? = some a → es[i + 1]? = some b → b.lsn = a.lsn + 1 := by
  induction es with
  | nil => intro i a b h1; simp at h1
  | cons x xs ih =>
    cases xs with
    | nil => intro i a b h1 h2; simp at h2
    | cons y ys =>
      intro i a b h1 h2
      cases i with
      | zero => simp at h1 h2; subst h1 h2; exact h.1
      | succ i => exact ih h.2 (by simpa using h1) (by simpa using h2)

theorem entries_eq (segs : List Seg) : entries segs = (recsOf segs).map (·.1) := rfl

theorem at_split {segs A B : List Seg} {v : Nat} {pre post : List (Entry × List Nat)} {r : Entry × List Nat} (e : segs = A ++ .full v (pre ++ r :: post) :: B) :
    recsOf segs = (recsOf A ++ pre) ++ r :: (post ++ recsOf B) := by
  rw [e, recsOf_append, recsOf_cons]; simp [Seg.recs]

theorem At.get {segs : List Seg} {c : Cur} {a : Bool} {i : Nat} {r : Entry × List Nat} (h : At segs c a i r) : (recsOf segs)[i]? = some r := by
  obtain ⟨A, v, pre, post, B, e, _, _, _, rfl⟩ := h
  rw [at_split e, List.getElem?_append_right (by simp)]; simp

theorem At.congr {segs : List Seg} {c d : Cur} {a : Bool} {i : Nat} {r : Entry × List Nat} (h : At segs c a i r) (h1 : d.files = c.files) (h2 : d.idx = c.idx) (h3 : d.pos = c.pos) : At segs d a i r := by
  obtain ⟨A, v, pre, post, B, e, g1, g2, g3, g4⟩ := h
  exact ⟨A, v, pre, post, B, e, by rw [h1, g1], by rw [h2, g2], by rw [h3, g3], g4⟩

theorem At.whole {segs : List Seg} (hf : ∀ s ∈ segs, Seg.Fine s) {c : Cur} {a : Bool} {i : Nat} {r : Entry × List Nat} (h : At segs c a i r) : Whole r := by
  obtain ⟨A, v, pre, post, B, e, _⟩ := h
  have := hf (.full v (pre ++ r :: post)) (by rw [e]; simp)
  exact this.2.2 r (by simp)

/-- Reading on from right after entry `i`. -/
theorem read_after {segs : List Seg} (hf : ∀ s ∈ segs, Seg.Fine s) {c : Cur} {i : Nat} {r : Entry × List Nat} (h : At segs c true i r) :
    ((recsOf segs).length = i + 1 → ∃ k, c.read (c.files.length + 1) = ({ c with idx := k, pos := .closed }, .notfound)) ∧
    (∀ r2, (recsOf segs)[i + 1]? = some r2 → ∃ k q, c.read (c.files.length + 1) = ({ c with idx := k, pos := q }, .ok r2.1) ∧ At segs { c with idx := k, pos := q } true (i + 1) r2) := by
  obtain ⟨A, v, pre, post, B, e, h1, h2, h3, rfl⟩ := h
  have hsp := at_split e
  have hp : c.pos = .at (12 + (bytesOf (pre ++ [r])).length) := by
    rw [h3]; simp [bytesOf]; omega
  have hrd := read_gap hf B A (.full v (pre ++ r :: post)) c _ (pre ++ [r]) post (c.files.length + 1) e ⟨by simp, rfl⟩ h2 hp h1 (by rw [h1, e]; simp; omega)
  constructor
  · intro hl
    rw [hsp] at hl
    simp only [List.length_append, List.length_cons] at hl
    exact ⟨_, hrd.1 (by apply List.eq_nil_of_length_eq_zero; simp only [List.length_append]; omega)⟩
  · intro r2 hr2
    rw [hsp] at hr2
    have hr2' : (post ++ recsOf B)[0]? = some r2 := by
      rw [List.getElem?_append_right (by simp)] at hr2
      have : (recsOf A).length + pre.length + 1 - (recsOf A ++ pre).length = 0 + 1 := by simp only [List.length_append]; omega
      rw [this, List.getElem?_cons_succ] at hr2; exact hr2
    cases hq : post ++ recsOf B with
    | nil => rw [hq] at hr2'; simp at hr2'
    | cons x t =>
      rw [hq] at hr2'
      have : x = r2 := by simpa using hr2'
      subst this
      obtain ⟨k, q, g1, g2⟩ := hrd.2 x t hq
      refine ⟨k, q, g1, ?_⟩
      have : (recsOf A).length + (pre ++ [r]).length = (recsOf A).length + pre.length + 1 := by simp; omega
      rw [this] at g2; exact g2

/-- Reading back from right before entry `i`. -/
theorem readBack_before {segs : List Seg} (hf : ∀ s ∈ segs, Seg.Fine s) {c : Cur} {i : Nat} {r : Entry × List Nat} (h : At segs c false i r) :
    (i = 0 → ∃ k, c.readBack (c.files.length + 1) = ({ c with idx := k, pos := .closed }, .notfound)) ∧
    (∀ j r2, i = j + 1 → (recsOf segs)[j]? = some r2 → ∃ k q, c.readBack (c.files.length + 1) = ({ c with idx := k, pos := q }, .ok r2.1) ∧ At segs { c with idx := k, pos := q } false j r2) := by
  obtain ⟨A, v, pre, post, B, e, h1, h2, h3, rfl⟩ := h
  have hsp := at_split e
  have hp : c.pos = .at (12 + (bytesOf pre).length) := by rw [h3]; simp
  have hrd := readBack_gap hf A.length A B (.full v (pre ++ r :: post)) c _ pre (r :: post) (c.files.length + 1) rfl e ⟨rfl, rfl⟩ h2 hp h1 (by rw [h1, e]; simp)
  constructor
  · intro hl
    exact ⟨_, hrd.1 (by apply List.eq_nil_of_length_eq_zero; simp only [List.length_append]; omega)⟩
  · intro j r2 hj hr2
    rcases List.eq_nil_or_concat (recsOf A ++ pre) with h0 | ⟨t, x, h0⟩
    · exfalso
      have := congrArg List.length h0
      simp only [List.length_append, List.length_nil] at this; omega
    · rw [List.concat_eq_append] at h0
      have hlen := congrArg List.length h0
      simp only [List.length_append, List.length_cons, List.length_nil] at hlen
      have htj : t.length = j := by omega
      have : x = r2 := by
        rw [hsp, h0, List.append_assoc, List.getElem?_append_right (by omega), htj, Nat.sub_self] at hr2
        simpa using hr2
      subst this
      obtain ⟨k, q, g1, g2⟩ := hrd.2 t x h0
      exact ⟨k, q, g1, by rw [← htj]; exact g2⟩

/-- The junk read before going forward. -/
theorem junk_forward {segs : List Seg} (hf : ∀ s ∈ segs, Seg.Fine s) {c : Cur} {i : Nat} {r : Entry × List Nat} (h : At segs c false i r) :
    ∃ p rest, c.pos = .at p ∧ fread (c.file.drop p) = .ok (r.1, rest) ∧ At segs { c with pos := .at (c.file.length - rest.length) } true i r := by
  have hw := h.whole hf
  obtain ⟨A, v, pre, post, B, e, h1, h2, h3, rfl⟩ := h
  have hfile := file_at e h1 h2
  refine ⟨12 + (bytesOf pre).length, bytesOf post, by rw [h3]; simp, ?_, A, v, pre, post, B, e, h1, h2, ?_, rfl⟩
  · have hd : c.file.drop (12 + (bytesOf pre).length) = r.2 ++ bytesOf post := by
      rw [hfile]
      show (header v ++ bytesOf (pre ++ r :: post)).drop _ = _
      rw [bytesOf_append, bytesOf_cons, ← List.append_assoc (header v)]
      rw [show 12 + (bytesOf pre).length = (header v ++ bytesOf pre).length by rw [List.length_append, header_length]]
      rw [List.drop_left]
    rw [hd, hw.full]
  · rw [hfile, full_length, bytesOf_append, bytesOf_cons]
    simp only [List.length_append, if_true]
    congr 1; omega

/-- The junk read before going backward. -/
theorem junk_backward {segs : List Seg} (hf : ∀ s ∈ segs, Seg.Fine s) {c : Cur} {i : Nat} {r : Entry × List Nat} (h : At segs c true i r) :
    ∃ p q, c.pos = .at p ∧ freadBackward c.file p = .ok r.1 q ∧ At segs { c with pos := .at q } false i r := by
  have hw := h.whole hf
  obtain ⟨A, v, pre, post, B, e, h1, h2, h3, rfl⟩ := h
  have hfile := file_at e h1 h2
  refine ⟨12 + (bytesOf (pre ++ [r])).length, 12 + (bytesOf pre).length, ?_, ?_, A, v, pre, post, B, e, h1, h2, by simp, rfl⟩
  · rw [h3]; simp [bytesOf]; omega
  · rw [hfile]; exact back_at hw rfl

/-- The cursor stands where the walk is. -/
def Rel (segs : List Seg) (c : Cur) : Place → Prop
  | .out => c.valid = false ∧ c.pos = .closed ∧ c.files = segs.map Seg.bytes
  | .on i fr => c.valid = true ∧ ∃ r, c.lsn = r.1.lsn ∧
      match fr with
      | some .next => c.dir = .first ∧ At segs c true i r
      | some .prev => c.dir = .last ∧ At segs c false i r
      | none => (c.dir = .forward ∧ At segs c true i r) ∨ (c.dir = .backward ∧ At segs c false i r)

theorem At.files {segs : List Seg} {c : Cur} {a : Bool} {i : Nat} {r : Entry × List Nat} (h : At segs c a i r) : c.files = segs.map Seg.bytes := by
  obtain ⟨A, v, pre, post, B, e, h1, _⟩ := h; exact h1

theorem entries_get {segs : List Seg} {i : Nat} {r : Entry × List Nat} (h : (recsOf segs)[i]? = some r) : (entries segs)[i]? = some r.1 := by
  rw [entries_eq, List.getElem?_map, h]; rfl

theorem entries_length (segs : List Seg) : (entries segs).length = (recsOf segs).length := by rw [entries_eq, List.length_map]

theorem finish_err (c : Cur) (d : Dir) : c.finish d .notfound = (c, .notfound) := by simp only [Cur.finish]

theorem finish_first (c : Cur) (e : Entry) : c.finish .first (.ok e) = ({ c with lsn := e.lsn, dir := .first, valid := true }, .ok e) := by
  have h : c.check .first e = some { c with lsn := e.lsn } := by
    rw [Cur.check]
    exact if_neg (by rintro (⟨h, _⟩ | ⟨h, _⟩) <;> cases h)
  simp only [Cur.finish, h]

theorem finish_last (c : Cur) (e : Entry) : c.finish .last (.ok e) = ({ c with lsn := e.lsn, dir := .last, valid := true }, .ok e) := by
  have h : c.check .last e = some { c with lsn := e.lsn } := by
    rw [Cur.check]
    exact if_neg (by rintro (⟨h, _⟩ | ⟨h, _⟩) <;> cases h)
  simp only [Cur.finish, h]

theorem finish_forward (c : Cur) (e : Entry) (he : e.lsn = c.lsn + 1) (hl : e.lsn < 2 ^ 64) : c.finish .forward (.ok e) = ({ c with lsn := e.lsn, dir := .forward, valid := true }, .ok e) := by
  have h : c.check .forward e = some { c with lsn := e.lsn } := by
    rw [Cur.check]
    have : (c.lsn + 1) % 2 ^ 64 = e.lsn := by rw [← he]; exact Nat.mod_eq_of_lt hl
    exact if_neg (by rintro (⟨_, h⟩ | ⟨h, _⟩); exact h this.symm; cases h)
  simp only [Cur.finish, h]

theorem finish_backward (c : Cur) (e : Entry) (he : c.lsn = e.lsn + 1) (hl : c.lsn < 2 ^ 64) : c.finish .backward (.ok e) = ({ c with lsn := e.lsn, dir := .backward, valid := true }, .ok e) := by
  have h : c.check .backward e = some { c with lsn := e.lsn } := by
    rw [Cur.check]
    have : (c.lsn + 2 ^ 64 - 1) % 2 ^ 64 = e.lsn := by omega
    exact if_neg (by rintro (⟨h, _⟩ | ⟨_, h⟩); cases h; exact h this.symm)
  simp only [Cur.finish, h]

/-- From right after an entry, reading on and finishing. -/
theorem forward_ok {segs : List Seg} (hf : ∀ s ∈ segs, Seg.Fine s) (hc : Consecutive (entries segs)) {c : Cur} {i : Nat} {r : Entry × List Nat} (h : At segs c true i r)
    (hv : c.valid = false) (hl : c.lsn = r.1.lsn) (fr : Option Move) :
    let x := (let (c, r) := c.read (c.files.length + 1); c.finish .forward r)
    Rel segs x.1 (Place.move (entries segs) (.on i fr) .next) ∧ x.2 = told ((Place.move (entries segs) (.on i fr) .next).entry (entries segs)) := by
  have hr := read_after hf h
  have hg := h.get
  have hlen : i < (recsOf segs).length := (List.getElem?_eq_some_iff.mp hg).1
  simp only [Place.move, entries_length]
  by_cases hi : i + 1 < (recsOf segs).length
  · rw [if_pos hi]
    obtain ⟨r2, hr2⟩ : ∃ r2, (recsOf segs)[i + 1]? = some r2 := ⟨_, List.getElem?_eq_getElem hi⟩
    obtain ⟨k, q, h1, h2⟩ := hr.2 r2 hr2
    have hlsn := consecutive_get hc (entries_get hg) (entries_get hr2)
    have hw := (h2.whole hf).lsn
    rw [h1]
    dsimp only
    rw [finish_forward _ _ (by dsimp only; rw [hl, hlsn]) hw]
    refine ⟨⟨rfl, r2, rfl, .inl ⟨rfl, h2.congr rfl rfl rfl⟩⟩, ?_⟩
    simp only [Place.entry, entries_get hr2, told]
  · rw [if_neg hi]
    obtain ⟨k, h1⟩ := hr.1 (by omega)
    rw [h1]
    dsimp only
    rw [finish_err]
    exact ⟨⟨hv, rfl, h.files⟩, rfl⟩

theorem backward_ok {segs : List Seg} (hf : ∀ s ∈ segs, Seg.Fine s) (hc : Consecutive (entries segs)) {c : Cur} {i : Nat} {r : Entry × List Nat} (h : At segs c false i r)
    (hv : c.valid = false) (hl : c.lsn = r.1.lsn) (fr : Option Move) :
    let x := (let (c, r) := c.readBack (c.files.length + 1); c.finish .backward r)
    Rel segs x.1 (Place.move (entries segs) (.on i fr) .prev) ∧ x.2 = told ((Place.move (entries segs) (.on i fr) .prev).entry (entries segs)) := by
  have hr := readBack_before hf h
  have hg := h.get
  have hlen : i < (recsOf segs).length := (List.getElem?_eq_some_iff.mp hg).1
  simp only [Place.move]
  by_cases hi : i = 0
  · rw [if_pos hi]
    obtain ⟨k, h1⟩ := hr.1 hi
    rw [h1]
    dsimp only
    rw [finish_err]
    exact ⟨⟨hv, rfl, h.files⟩, rfl⟩
  · rw [if_neg hi]
    obtain ⟨j, rfl⟩ : ∃ j, i = j + 1 := ⟨i - 1, by omega⟩
    obtain ⟨r2, hr2⟩ : ∃ r2, (recsOf segs)[j]? = some r2 := ⟨_, List.getElem?_eq_getElem (by omega)⟩
    obtain ⟨k, q, h1, h2⟩ := hr.2 j r2 rfl hr2
    have hlsn := consecutive_get hc (entries_get hr2) (entries_get hg)
    have hw := (h.whole hf).lsn
    rw [h1]
    dsimp only
    rw [finish_backward _ _ (by dsimp only; rw [hl, hlsn]) (by dsimp only; rw [hl]; exact hw)]
    refine ⟨⟨rfl, r2, rfl, .inr ⟨rfl, h2.congr rfl rfl rfl⟩⟩, ?_⟩
    simp only [Place.entry, Nat.add_sub_cancel, entries_get hr2, told]

theorem first_ok {segs : List Seg} (hf : ∀ s ∈ segs, Seg.Fine s) {c : Cur} (h : c.pos = .closed) (hfi : c.files = segs.map Seg.bytes) :
    Rel segs c.first.1 (Place.move (entries segs) .out .next) ∧ c.first.2 = told ((Place.move (entries segs) .out .next).entry (entries segs)) := by
  have h1 : (if c.idx ≠ 0 then { c with valid := false, pos := .closed } else { c with valid := false } : Cur) = { c with valid := false } := by
    split
    · rw [← h]
    · rfl
  simp only [Cur.first]
  rw [h1]
  rw [if_pos h]
  simp only [Place.move, entries_length]
  cases segs with
  | nil =>
    have hop : openPos c.files 0 = .error .notfound := by rw [hfi]; rfl
    rw [hop]
    exact ⟨⟨rfl, h, hfi⟩, rfl⟩
  | cons s B =>
    have hop := openPos_ok hf (A := []) (s := s) (B := B) rfl
    rw [List.length_nil] at hop
    rw [hfi, hop]
    dsimp only
    have hgap : Gap s (startPos s) [] s.recs := by
      cases s with
      | full v rs => exact ⟨rfl, rfl⟩
      | torn v k => exact ⟨by simp [startPos], rfl, rfl, rfl⟩
    have := read_gap hf B [] s { c with valid := false, idx := 0, pos := .at (startPos s) } _ [] s.recs (c.files.length + 1) rfl hgap rfl rfl hfi (by rw [hfi]; simp)
    rw [← recsOf_cons] at this
    rw [← hfi]
    cases hrs : recsOf (s :: B) with
    | nil =>
      rw [this.1 hrs]
      dsimp only
      rw [finish_err]
      exact ⟨⟨rfl, rfl, hfi⟩, rfl⟩
    | cons r t =>
      obtain ⟨k, q, h2, h3⟩ := this.2 r t hrs
      rw [h2]
      dsimp only
      rw [finish_first]
      refine ⟨⟨rfl, r, rfl, rfl, h3.congr rfl rfl rfl⟩, ?_⟩
      have := entries_get h3.get
      have : (entries (s :: B))[0]? = some r.1 := this
      simp only [List.length_cons, Nat.add_one_ne_zero, if_false, Place.entry, this, told]

theorem last_ok {segs : List Seg} (hf : ∀ s ∈ segs, Seg.Fine s) {c : Cur} (h : c.pos = .closed) (hfi : c.files = segs.map Seg.bytes) :
    Rel segs c.last.1 (Place.move (entries segs) .out .prev) ∧ c.last.2 = told ((Place.move (entries segs) .out .prev).entry (entries segs)) := by
  have h1 : (if c.idx ≠ c.files.length - 1 then { c with valid := false, pos := .closed } else { c with valid := false } : Cur) = { c with valid := false } := by
    split
    · rw [← h]
    · rfl
  simp only [Cur.last]
  rw [h1]
  rw [if_pos h]
  simp only [Place.move, entries_length]
  rcases List.eq_nil_or_concat segs with rfl | ⟨A, s, rfl⟩
  · have hop : openPos c.files (c.files.length - 1) = .error .notfound := by rw [hfi]; rfl
    rw [hop]
    exact ⟨⟨rfl, h, hfi⟩, rfl⟩
  · have e : A.concat s = A ++ s :: [] := by simp
    have hop := openPos_ok hf e
    have hlen : c.files.length - 1 = A.length := by rw [hfi]; simp
    rw [hlen]
    rw [hfi, hop]
    dsimp only
    have := lastLoop_gap hf A.length A [] s { c with valid := false, idx := A.length } (c.files.length + 1) rfl e rfl hfi (by rw [hfi]; simp)
    have hr : recsOf A ++ s.recs = recsOf (A.concat s) := by simp [recsOf]
    rw [hr] at this
    rw [← hfi]
    rcases List.eq_nil_or_concat (recsOf (A.concat s)) with hrs | ⟨t, r, hrs⟩
    · rw [this.1 hrs, hrs]
      dsimp only
      rw [finish_err]
      exact ⟨⟨rfl, rfl, hfi⟩, rfl⟩
    · have hrs : recsOf (A.concat s) = t ++ [r] := by rw [hrs]; simp
      obtain ⟨k, q, h2, h3⟩ := this.2 t r hrs
      rw [h2]
      have hl : (recsOf (A.concat s)).length = t.length + 1 := by rw [hrs]; simp
      rw [hl, if_neg (by omega), Nat.add_sub_cancel]
      dsimp only
      rw [finish_last]
      refine ⟨⟨rfl, r, rfl, rfl, h3.congr rfl rfl rfl⟩, ?_⟩
      have := entries_get h3.get
      simp only [Place.entry, this, told]

theorem step_ok {segs : List Seg} (hf : ∀ s ∈ segs, Seg.Fine s) (hc : Consecutive (entries segs)) {c : Cur} {p : Place} (h : Rel segs c p) (m : Move) (hm : p.sharp m = false) :
    Rel segs (c.step m).1 (p.move (entries segs) m) ∧ (c.step m).2 = told ((p.move (entries segs) m).entry (entries segs)) := by
  cases p with
  | out =>
    obtain ⟨h1, h2, h3⟩ := h
    cases m with
    | next => simp only [Cur.step, Cur.next, h1]; exact first_ok hf h2 h3
    | prev => simp only [Cur.step, Cur.prev, h1]; exact last_ok hf h2 h3
  | on i fr =>
    obtain ⟨h1, r, h2, h3⟩ := h
    cases m with
    | next =>
      simp only [Cur.step, Cur.next, h1, if_true]
      have key : (c.dir ≠ .backward ∧ At segs c true i r) ∨ (c.dir = .backward ∧ At segs c false i r) := by
        rcases fr with _ | _ | _
        · rcases h3 with ⟨d, a⟩ | ⟨d, a⟩
          · exact .inl ⟨by rw [d]; decide, a⟩
          · exact .inr ⟨d, a⟩
        · exact .inl ⟨by rw [h3.1]; decide, h3.2⟩
        · cases hm
      rcases key with ⟨d, a⟩ | ⟨d, a⟩
      · rw [if_neg d]
        exact forward_ok hf hc (c := { c with valid := false }) (a.congr rfl rfl rfl) rfl h2 fr
      · rw [if_pos d]
        obtain ⟨p, rest, g1, g2, g3⟩ := junk_forward hf a
        rw [g1]
        have g2' : fread (List.drop p (Cur.file { c with valid := false, pos := .at p })) = .ok (r.1, rest) := g2
        simp only [g2']
        exact forward_ok hf hc (c := { c with valid := false, pos := .at (c.file.length - rest.length) }) (g3.congr rfl rfl rfl) rfl h2 fr
    | prev =>
      simp only [Cur.step, Cur.prev, h1, if_true]
      have key : (c.dir ≠ .forward ∧ At segs c false i r) ∨ (c.dir = .forward ∧ At segs c true i r) := by
        rcases fr with _ | _ | _
        · rcases h3 with ⟨d, a⟩ | ⟨d, a⟩
          · exact .inr ⟨d, a⟩
          · exact .inl ⟨by rw [d]; decide, a⟩
        · cases hm
        · exact .inl ⟨by rw [h3.1]; decide, h3.2⟩
      rcases key with ⟨d, a⟩ | ⟨d, a⟩
      · rw [if_neg d]
        exact backward_ok hf hc (c := { c with valid := false }) (a.congr rfl rfl rfl) rfl h2 fr
      · rw [if_pos d]
        obtain ⟨p, q, g1, g2, g3⟩ := junk_backward hf a
        rw [g1]
        have g2' : freadBackward (Cur.file { c with valid := false, pos := .at p }) p = .ok r.1 q := g2
        simp only [g2']
        exact backward_ok hf hc (c := { c with valid := false, pos := .at q }) (g3.congr rfl rfl rfl) rfl h2 fr

theorem steps_ok {segs : List Seg} (hf : ∀ s ∈ segs, Seg.Fine s) (hc : Consecutive (entries segs)) : ∀ (ms : List Move) {c : Cur} {p : Place}, Rel segs c p → smooth (entries segs) p ms = true →
    (c.steps ms).2 = (answers (entries segs) p ms).map told := by
  intro ms
  induction ms with
  | nil => intro c p _ _; rfl
  | cons m ms ih =>
    intro c p h hs
    simp only [smooth, Bool.and_eq_true, Bool.not_eq_true'] at hs
    have h1 := step_ok hf hc h m hs.1
    simp only [Cur.steps, answers, List.map_cons]
    rw [h1.2, ih h1.1 hs.2]

end Verif.Log
