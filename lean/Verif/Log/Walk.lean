import Verif.Log.Sound
set_option linter.unusedVariables false
set_option linter.unusedSimpArgs false
/-! Walking over the log. -/
namespace Verif.Log
open Verif.Ser Verif.Ser.BufSpec Spec

/-- What reading needs of a record. -/
structure Whole (r : Entry × List Nat) : Prop where
  full : ∀ post, fread (r.2 ++ post) = .ok (r.1, post)
  tail : ∃ a, r.2 = a ++ digits 4 r.2.length
  pos : 0 < r.2.length
  small : r.2.length < 2 ^ 31
  lsn : r.1.lsn < 2 ^ 64

/-- The most bytes a field can take. -/
def maxLen : Ty → Nat
  | .bytes => 2 ^ 30 + 4
  | .filenums => 2 ^ 30 + 4
  | _ => 134

theorem enc_max {t : Ty} {v : Val} (h : Fits t v) (now : Nat) : (enc now t v).length ≤ maxLen t := by
  have hs := enc_size h now
  cases t <;> cases v <;> try (exact h.elim)
  case xid.xid x =>
    obtain ⟨f0, f1, f2, f3, f4⟩ := h
    simp only [logsizeof, if_pos f1, if_pos f2] at hs
    have := R.ok.inj hs
    rw [← this]; show _ ≤ 134; omega
  case filenums.nums ns =>
    have := R.ok.inj hs
    rw [← this]; have := h.1; show _ ≤ 2 ^ 30 + 4; omega
  case bytes.bytes bs =>
    have := R.ok.inj hs
    rw [← this]; have := h.1; show _ ≤ 2 ^ 30 + 4; omega
  all_goals
    have := R.ok.inj hs
    rw [← this]; simp only [maxLen]; omega

theorem all_max (now : Nat) : ∀ {ts : List Ty} {vs : List Val}, FitsAll ts vs → (layout (writesAll now ts vs)).length ≤ (ts.map maxLen).sum := by
  intro ts
  induction ts with
  | nil => intro vs h; cases vs with
    | nil => exact Nat.le_refl _
    | cons => exact h.elim
  | cons t ts ih => intro vs h; cases vs with
    | nil => exact h.elim
    | cons v vs =>
      have h1 := enc_max h.1 now
      have h2 := ih h.2
      simp only [writesAll, layout, List.flatMap_append, List.length_append, enc, List.map_cons, List.sum_cons] at h1 h2 ⊢
      omega

theorem good_small {cmd lsn : Nat} {tys : List Ty} {vals : List Val} (ht : fieldsOf cmd = some tys) (hf : FitsAll tys vals) (now : Nat) :
    (recBytes now cmd tys lsn vals).length < 2 ^ 32 := by
  rw [rec_length]
  have h1 := all_max now hf
  have h2 : (tys.map maxLen).sum + 21 < 2 ^ 32 := by
    simp only [fieldsOf, Option.map_eq_some_iff] at ht
    obtain ⟨t, ht, rfl⟩ := ht
    have := List.mem_of_find?_eq_some ht
    revert this
    have : ∀ t ∈ logtypes, (t.fields.map maxLen).sum + 21 < 2 ^ 32 := by decide
    exact this t
  omega

theorem Written.whole {r : Entry × List Nat} (h : Written r) : Whole r := by
  obtain ⟨now, e, hnow, ⟨tys, ht, hl, hf⟩, hw, hr, hsz⟩ := h
  have hc := fieldsOf_char ht
  have hb := good_small (lsn := e.lsn) ht hf now
  have hw2 := writeRecord_ok hnow hc hl hf hb
  simp only [write, ht] at hw
  rw [hw2] at hw
  have hr2 : r.2 = recBytes now e.cmd tys e.lsn e.vals := (R.ok.inj hw).symm
  have hr1 : r.1 = ⟨e.cmd, e.lsn, stamped now tys e.vals⟩ := by rw [hr, logged, ht]; rfl
  refine ⟨?_, ?_, ?_, hsz, ?_⟩
  · intro post; rw [hr2, hr1]; exact fread_ok hnow ht hl hf hb post
  · refine ⟨body now e.cmd tys e.lsn e.vals ++ digits 4 (XSpec.checksum (body now e.cmd tys e.lsn e.vals)), ?_⟩
    rw [hr2, rec_length]; rfl
  · rw [hr2, rec_length]; omega
  · rw [hr1]; exact hl

theorem back_ok {r : Entry × List Nat} (h : Whole r) (pre post : List Nat) (hp : 12 ≤ pre.length) :
    freadBackward (pre ++ r.2 ++ post) (pre.length + r.2.length) = .ok r.1 pre.length := by
  obtain ⟨a, ha⟩ := h.tail
  have h4 : r.2.length = a.length + 4 := by
    have := congrArg List.length ha
    rw [List.length_append, digits_length] at this; exact this
  have hpos := h.pos
  have hs := h.small
  simp only [freadBackward]
  rw [if_neg (by omega)]
  have hd : (pre ++ r.2 ++ post).drop (pre.length + r.2.length - 4) = digits 4 r.2.length ++ post := by
    have e : pre ++ r.2 ++ post = (pre ++ a) ++ (digits 4 r.2.length ++ post) := by
      rw [← List.append_assoc, List.append_assoc pre a, ← ha]
    rw [e, show pre.length + r.2.length - 4 = (pre ++ a).length by rw [List.length_append]; omega, List.drop_left]
  rw [hd, (reads32 (by omega : r.2.length < 2 ^ 32)).full]
  dsimp only
  have hsb : seekBack (pre.length + r.2.length) r.2.length = some pre.length := by
    rw [seekBack, if_pos hs, if_pos (by omega)]; congr 1; omega
  rw [hsb]
  dsimp only
  rw [List.append_assoc, List.drop_left, h.full]
  dsimp only
  rw [if_neg (by simp only [List.length_append]; omega)]

/-! ### Files -/

def Seg.Fine : Seg → Prop
  | .full v rs => 13 ≤ v ∧ v ≤ 29 ∧ ∀ r ∈ rs, Whole r
  | .torn _ n => n < 12

theorem Seg.Ok.fine {s : Seg} (h : s.Ok) : Seg.Fine s := by
  cases s with
  | full v rs => exact ⟨h.1, h.2.1, fun r hr => Written.whole (h.2.2 r hr)⟩
  | torn v n => exact h

theorem header_length (v : Nat) : (header v).length = 12 := rfl

theorem readMagic_header (v : Nat) (hv : v < 2 ^ 32) (t : List Nat) : readMagic (header v ++ t) = some v := by
  have e : header v ++ t = 116 :: 111 :: 107 :: 117 :: 108 :: 111 :: 103 :: 103 :: (v / 2 ^ 24 % 256) :: (v / 2 ^ 16 % 256) :: (v / 2 ^ 8 % 256) :: (v % 256) :: t := rfl
  rw [e]
  simp only [readMagic, List.take_succ_cons, List.take_zero, List.drop_succ_cons, List.drop_zero]
  rw [if_neg (by decide)]
  congr 1; omega

theorem fread_torn (v n : Nat) (hn : n < 12) : fread ((header v).take n) = .eof := by
  have e : header v = 116 :: 111 :: 107 :: 117 :: 108 :: 111 :: 103 :: 103 :: (v / 2 ^ 24 % 256) :: (v / 2 ^ 16 % 256) :: (v / 2 ^ 8 % 256) :: (v % 256) :: [] := rfl
  rw [e]
  have hl : fieldsOf 108 = some [.pair, .filenum, .bytes] := by decide
  match n, hn with
  | 0, _ | 1, _ | 2, _ | 3, _ | 4, _ | 5, _ | 6, _ | 7, _ | 8, _ | 9, _ | 10, _ | 11, _ =>
    simp [fread, rd32, rd8, rd64, rdRecord, hl, Out.bind_ok, Out.bind_eof, Out.pure_ok]
  | n + 12, h => omega

theorem fread_nil : fread [] = .eof := by simp [fread, rd32, rd8, Out.bind_eof]

/-- Where an open file is read from. -/
def startPos : Seg → Nat
  | .full _ _ => 12
  | .torn _ _ => 0

theorem openPos_ok {segs : List Seg} (hf : ∀ s ∈ segs, Seg.Fine s) {A B : List Seg} {s : Seg} (e : segs = A ++ s :: B) :
    openPos (segs.map Seg.bytes) A.length = .ok (startPos s) := by
  have hs : Seg.Fine s := hf s (by rw [e]; simp)
  have hg : (segs.map Seg.bytes)[A.length]? = some s.bytes := by
    rw [e, List.map_append, List.map_cons]
    rw [List.getElem?_append_right (by simp)]; simp
  simp only [openPos, hg]
  cases s with
  | full v rs =>
    rw [if_pos (by simp only [Seg.bytes, List.length_append, header_length]; omega)]
    have h1 : 13 ≤ v := hs.1
    have h2 : v ≤ 29 := hs.2.1
    simp only [Seg.bytes, readMagic_header v (by omega)]
    rw [if_neg (by rw [show logMinVersion = 13 from rfl, show logVersion = 29 from rfl]; omega)]
    rfl
  | torn v n =>
    have : n < 12 := hs
    rw [if_neg (by simp only [Seg.bytes, List.length_take, header_length]; omega)]
    rfl

def bytesOf (rs : List (Entry × List Nat)) : List Nat := rs.flatMap (·.2)

theorem bytesOf_append (a b : List (Entry × List Nat)) : bytesOf (a ++ b) = bytesOf a ++ bytesOf b := by simp [bytesOf]

theorem bytesOf_cons (r : Entry × List Nat) (b : List (Entry × List Nat)) : bytesOf (r :: b) = r.2 ++ bytesOf b := by simp [bytesOf]

def recsOf (segs : List Seg) : List (Entry × List Nat) := segs.flatMap Seg.recs

theorem recsOf_append (a b : List Seg) : recsOf (a ++ b) = recsOf a ++ recsOf b := by simp [recsOf]

theorem recsOf_cons (a : Seg) (b : List Seg) : recsOf (a :: b) = a.recs ++ recsOf b := by simp [recsOf]

/-- Position `p` in the file is between the records `pre` and `post`. -/
def Gap (s : Seg) (p : Nat) (pre post : List (Entry × List Nat)) : Prop :=
  match s with
  | .full _ rs => rs = pre ++ post ∧ p = 12 + (bytesOf pre).length
  | .torn _ n => p ≤ 12 ∧ p = 0 ∧ pre = [] ∧ post = []

/-- The cursor's file is open right after or right before entry number `i`. -/
def At (segs : List Seg) (c : Cur) (after : Bool) (i : Nat) (r : Entry × List Nat) : Prop :=
  ∃ A v pre post B, segs = A ++ .full v (pre ++ r :: post) :: B ∧ c.files = segs.map Seg.bytes ∧ c.idx = A.length ∧
    c.pos = .at (12 + (bytesOf pre).length + (if after then r.2.length else 0)) ∧ i = (recsOf A).length + pre.length

theorem file_at {segs : List Seg} {A B : List Seg} {s : Seg} (e : segs = A ++ s :: B) {c : Cur} (hc : c.files = segs.map Seg.bytes) (hi : c.idx = A.length) : c.file = s.bytes := by
  rw [Cur.file, hc, hi, e, List.map_append, List.map_cons, List.getElem?_append_right (by simp)]; simp

theorem read_gap {segs : List Seg} (hf : ∀ s ∈ segs, Seg.Fine s) : ∀ (B A : List Seg) (s : Seg) (c : Cur) (p : Nat) (pre post : List (Entry × List Nat)) (n : Nat),
    segs = A ++ s :: B → Gap s p pre post → c.idx = A.length → c.pos = .at p → c.files = segs.map Seg.bytes → B.length + 1 ≤ n →
    (post ++ recsOf B = [] → c.read n = ({ c with idx := A.length + B.length, pos := .closed }, .notfound)) ∧
    (∀ r t, post ++ recsOf B = r :: t → ∃ k q, c.read n = ({ c with idx := k, pos := q }, .ok r.1) ∧ At segs { c with idx := k, pos := q } true ((recsOf A).length + pre.length) r) := by
  intro B
  induction B with
  | nil =>
    intro A s c p pre post n e hg hi hp hc hn
    obtain ⟨m, rfl⟩ : ∃ m, n = m + 1 := ⟨n - 1, by simp at hn; omega⟩
    have hfile := file_at e hc hi
    have hs : Seg.Fine s := hf s (by rw [e]; simp)
    constructor
    · intro h0
      have hpost : post = [] := by simpa [recsOf] using h0
      have heof : fread (c.file.drop p) = .eof := by
        rw [hfile]
        cases s with
        | full v rs =>
          obtain ⟨h1, h2⟩ := hg
          rw [hpost, List.append_nil] at h1
          have : (Seg.bytes (.full v rs)).drop p = [] := by
            apply List.drop_eq_nil_of_le
            simp only [Seg.bytes, List.length_append, header_length, h2, h1]; exact Nat.le_refl _
          rw [this, fread_nil]
        | torn v k => obtain ⟨_, rfl, _, _⟩ := hg; exact fread_torn v k hs
      simp only [Cur.read, hp, heof]
      rw [if_pos (by rw [hi, hc, e]; simp)]
      simp [hi]
    · intro r t h0
      have hpost : post = r :: t := by simpa [recsOf] using h0
      cases s with
      | full v rs =>
        obtain ⟨h1, h2⟩ := hg
        have hw : Whole r := hs.2.2 r (by rw [h1, hpost]; simp)
        have hd : c.file.drop p = r.2 ++ bytesOf t := by
          rw [hfile, h2]
          show (header v ++ bytesOf rs).drop _ = _
          rw [h1, bytesOf_append, hpost, bytesOf_cons, ← List.append_assoc (header v)]
          rw [show 12 + (bytesOf pre).length = (header v ++ bytesOf pre).length by rw [List.length_append, header_length]]
          rw [List.drop_left]
        have hlen : c.file.length - (bytesOf t).length = 12 + (bytesOf pre).length + r.2.length := by
          rw [hfile]
          show (header v ++ bytesOf rs).length - _ = _
          rw [h1, hpost, bytesOf_append, bytesOf_cons]
          simp only [List.length_append, header_length]; omega
        refine ⟨A.length, .at (12 + (bytesOf pre).length + r.2.length), ?_, A, v, pre, t, [], by rw [e, h1, hpost], hc, rfl, by simp, rfl⟩
        simp only [Cur.read, hp, hd, hw.full, hlen, hi]
      | torn v k => obtain ⟨_, _, _, h⟩ := hg; rw [h] at hpost; cases hpost
  | cons s2 B ih =>
    intro A s c p pre post n e hg hi hp hc hn
    obtain ⟨m, rfl⟩ : ∃ m, n = m + 1 := ⟨n - 1, by simp at hn; omega⟩
    have hfile := file_at e hc hi
    have hs : Seg.Fine s := hf s (by rw [e]; simp)
    cases post with
    | nil =>
      have heof : fread (c.file.drop p) = .eof := by
        rw [hfile]
        cases s with
        | full v rs =>
          obtain ⟨h1, h2⟩ := hg
          rw [List.append_nil] at h1
          have : (Seg.bytes (.full v rs)).drop p = [] := by
            apply List.drop_eq_nil_of_le
            simp only [Seg.bytes, List.length_append, header_length, h2, h1]; exact Nat.le_refl _
          rw [this, fread_nil]
        | torn v k => obtain ⟨_, rfl, _, _⟩ := hg; exact fread_torn v k hs
      have e2 : segs = (A ++ [s]) ++ s2 :: B := by rw [e]; simp
      have hop := openPos_ok hf e2
      rw [List.length_append, List.length_singleton] at hop
      have hstep : c.read (m + 1) = Cur.read m { c with idx := A.length + 1, pos := .at (startPos s2) } := by
        conv => lhs; simp only [Cur.read]
        rw [hp]
        dsimp only
        rw [heof]
        dsimp only
        rw [if_neg (by rw [hi, hc, e]; simp), hi, hc, hop]
      have hgap2 : Gap s2 (startPos s2) [] s2.recs := by
        cases s2 with
        | full v rs => exact ⟨rfl, rfl⟩
        | torn v k => exact ⟨by simp [startPos], rfl, rfl, rfl⟩
      have hrec : (recsOf A).length + pre.length = (recsOf (A ++ [s])).length + ([] : List (Entry × List Nat)).length := by
        rw [recsOf_append, recsOf_cons, List.length_append]
        have : s.recs = pre := by
          cases s with
          | full v rs => have h := hg.1; rw [List.append_nil] at h; exact h
          | torn v k => exact hg.2.2.1.symm
        rw [this]; simp [recsOf]
      have := ih (A ++ [s]) s2 { c with idx := A.length + 1, pos := .at (startPos s2) } (startPos s2) [] s2.recs m e2 hgap2 (by simp) rfl hc (by simp only [List.length_cons] at hn; omega)
      constructor
      · intro h0
        rw [hstep, this.1 (by rw [← recsOf_cons]; simpa using h0)]
        simp only [List.length_append, List.length_cons, List.length_nil]
        congr 2; omega
      · intro r t h0
        obtain ⟨k, q, h1, h2⟩ := this.2 r t (by rw [← recsOf_cons]; simpa using h0)
        refine ⟨k, q, by rw [hstep, h1], ?_⟩
        rw [hrec]; exact h2
    | cons r0 post =>
      constructor
      · intro h0; simp at h0
      · intro r t h0
        have hr0 : r0 = r := by simp at h0; exact h0.1
        subst hr0
        cases s with
        | full v rs =>
          obtain ⟨h1, h2⟩ := hg
          have hw : Whole r0 := hs.2.2 r0 (by rw [h1]; simp)
          have hd : c.file.drop p = r0.2 ++ bytesOf post := by
            rw [hfile, h2]
            show (header v ++ bytesOf rs).drop _ = _
            rw [h1, bytesOf_append, bytesOf_cons, ← List.append_assoc (header v)]
            rw [show 12 + (bytesOf pre).length = (header v ++ bytesOf pre).length by rw [List.length_append, header_length]]
            rw [List.drop_left]
          have hlen : c.file.length - (bytesOf post).length = 12 + (bytesOf pre).length + r0.2.length := by
            rw [hfile]
            show (header v ++ bytesOf rs).length - _ = _
            rw [h1, bytesOf_append, bytesOf_cons]
            simp only [List.length_append, header_length]; omega
          refine ⟨A.length, .at (12 + (bytesOf pre).length + r0.2.length), ?_, A, v, pre, post, s2 :: B, by rw [e, h1], hc, rfl, by simp, rfl⟩
          simp only [Cur.read, hp, hd, hw.full, hlen, hi]
        | torn v k => obtain ⟨_, _, _, h⟩ := hg; cases h

/-- The same, backwards. -/
def GapB (s : Seg) (p : Nat) (pre post : List (Entry × List Nat)) : Prop :=
  match s with
  | .full _ rs => rs = pre ++ post ∧ p = 12 + (bytesOf pre).length
  | .torn _ n => p ≤ 12 ∧ pre = [] ∧ post = []

theorem back_top (f : List Nat) (p : Nat) (h : p ≤ 12) : freadBackward f p = .top := by rw [freadBackward, if_pos h]

theorem back_at {v : Nat} {rs pre post : List (Entry × List Nat)} {r : Entry × List Nat} (hw : Whole r) (h1 : rs = pre ++ r :: post) :
    freadBackward (Seg.bytes (.full v rs)) (12 + (bytesOf (pre ++ [r])).length) = .ok r.1 (12 + (bytesOf pre).length) := by
  have e : Seg.bytes (.full v rs) = (header v ++ bytesOf pre) ++ r.2 ++ bytesOf post := by
    show header v ++ bytesOf rs = _
    rw [h1, bytesOf_append, bytesOf_cons]; simp only [List.append_assoc]
  have := back_ok hw (header v ++ bytesOf pre) (bytesOf post) (by rw [List.length_append, header_length]; omega)
  rw [e]
  rw [List.length_append, header_length] at this
  rw [bytesOf_append, List.length_append, show (bytesOf [r]).length = r.2.length by simp [bytesOf], ← Nat.add_assoc]
  exact this

theorem full_length (v : Nat) (rs : List (Entry × List Nat)) : (Seg.bytes (.full v rs)).length = 12 + (bytesOf rs).length := by
  show (header v ++ bytesOf rs).length = _
  rw [List.length_append, header_length]

theorem endGap {s : Seg} (hs : Seg.Fine s) : GapB s s.bytes.length s.recs [] := by
  cases s with
  | full v rs => exact ⟨by simp [Seg.recs], full_length v rs⟩
  | torn v n => exact ⟨by simp only [Seg.bytes, List.length_take]; have : n < 12 := hs; omega, rfl, rfl⟩

theorem gapB_cases {s : Seg} (hs : Seg.Fine s) {p : Nat} {pre post : List (Entry × List Nat)} (hg : GapB s p pre post) :
    (pre = [] ∧ freadBackward s.bytes p = .top) ∨
    ∃ v a r, pre = a ++ [r] ∧ s = .full v (a ++ r :: post) ∧ freadBackward s.bytes p = .ok r.1 (12 + (bytesOf a).length) := by
  cases s with
  | torn v n => exact .inl ⟨hg.2.1, back_top _ _ hg.1⟩
  | full v rs =>
    obtain ⟨h1, h2⟩ := hg
    rcases List.eq_nil_or_concat pre with rfl | ⟨a, r, rfl⟩
    · exact .inl ⟨rfl, back_top _ _ (by rw [h2]; simp [bytesOf])⟩
    · refine .inr ⟨v, a, r, by simp, by rw [h1]; simp, ?_⟩
      have hw : Whole r := hs.2.2 r (by rw [h1]; simp)
      rw [h2]
      have := back_at (v := v) (rs := rs) (pre := a) (post := post) hw (by rw [h1]; simp)
      simpa using this

theorem readBack_gap {segs : List Seg} (hf : ∀ s ∈ segs, Seg.Fine s) : ∀ (k : Nat) (A B : List Seg) (s : Seg) (c : Cur) (p : Nat) (pre post : List (Entry × List Nat)) (n : Nat),
    A.length = k → segs = A ++ s :: B → GapB s p pre post → c.idx = A.length → c.pos = .at p → c.files = segs.map Seg.bytes → A.length + 1 ≤ n →
    (recsOf A ++ pre = [] → c.readBack n = ({ c with idx := 0, pos := .closed }, .notfound)) ∧
    (∀ t r, recsOf A ++ pre = t ++ [r] → ∃ k q, c.readBack n = ({ c with idx := k, pos := q }, .ok r.1) ∧ At segs { c with idx := k, pos := q } false t.length r) := by
  intro k
  induction k with
  | zero =>
    intro A B s c p pre post n hk e hg hi hp hc hn
    obtain ⟨m, rfl⟩ : ∃ m, n = m + 1 := ⟨n - 1, by omega⟩
    have hA : A = [] := List.length_eq_zero_iff.mp hk
    subst hA
    have hfile := file_at e hc hi
    have hs : Seg.Fine s := hf s (by rw [e]; simp)
    rcases gapB_cases hs hg with ⟨rfl, ht⟩ | ⟨v, a, r, rfl, rfl, ht⟩
    · refine ⟨fun _ => ?_, fun t r h => by simp [recsOf] at h⟩
      simp only [Cur.readBack, hp, hfile, ht]
      simp only [List.length_nil] at hi
      rw [if_pos hi, hi]
    · refine ⟨fun h => by simp at h, fun t r' h => ?_⟩
      have h' : a ++ [r] = t ++ [r'] := by simpa [recsOf] using h
      obtain ⟨rfl, h2⟩ := List.append_inj' h' rfl
      cases h2
      refine ⟨0, .at (12 + (bytesOf a).length), ?_, [], v, a, post, B, e, hc, rfl, by simp, by simp [recsOf]⟩
      simp only [Cur.readBack, hp, hfile, ht]
      congr 2
  | succ k ih =>
    intro A B s c p pre post n hk e hg hi hp hc hn
    obtain ⟨m, rfl⟩ : ∃ m, n = m + 1 := ⟨n - 1, by omega⟩
    have hfile := file_at e hc hi
    have hs : Seg.Fine s := hf s (by rw [e]; simp)
    rcases gapB_cases hs hg with ⟨rfl, ht⟩ | ⟨v, a, r, rfl, rfl, ht⟩
    · rcases List.eq_nil_or_concat A with rfl | ⟨A', s', rfl⟩
      · simp at hk
      have hkA : A'.length = k := by simpa using hk
      have e2 : segs = A' ++ s' :: (s :: B) := by rw [e]; simp
      have hs' : Seg.Fine s' := hf s' (by rw [e2]; simp)
      have hop := openPos_ok hf e2
      have hlast : (c.files[A'.length]?.getD []) = s'.bytes := by
        rw [hc, e2, List.map_append, List.map_cons, List.getElem?_append_right (by simp)]; simp
      have hstep : c.readBack (m + 1) = Cur.readBack m { c with idx := A'.length, pos := .at s'.bytes.length } := by
        conv => lhs; simp only [Cur.readBack]
        rw [hp]
        dsimp only
        rw [hfile, ht]
        dsimp only
        have : c.idx = A'.length + 1 := by rw [hi]; simp
        rw [if_neg (by omega), this, Nat.add_sub_cancel, hlast, hc, hop]
      have := ih A' (s :: B) s' { c with idx := A'.length, pos := .at s'.bytes.length } s'.bytes.length s'.recs [] m hkA e2 (endGap hs') rfl rfl hc (by simp at hn; omega)
      have hrec : recsOf (A'.concat s') ++ [] = recsOf A' ++ s'.recs := by simp [recsOf]
      rw [hstep, hrec]
      exact this
    · refine ⟨fun h => by simp at h, fun t r' h => ?_⟩
      have h' : (recsOf A ++ a) ++ [r] = t ++ [r'] := by simpa using h
      obtain ⟨rfl, h2⟩ := List.append_inj' h' rfl
      cases h2
      refine ⟨A.length, .at (12 + (bytesOf a).length), ?_, A, v, a, post, B, e, hc, rfl, by simp, by simp⟩
      simp only [Cur.readBack, hp, hfile, ht]
      congr 2

theorem lastLoop_gap {segs : List Seg} (hf : ∀ s ∈ segs, Seg.Fine s) : ∀ (k : Nat) (A B : List Seg) (s : Seg) (c : Cur) (n : Nat),
    A.length = k → segs = A ++ s :: B → c.idx = A.length → c.files = segs.map Seg.bytes → A.length + 1 ≤ n →
    (recsOf A ++ s.recs = [] → c.lastLoop n = ({ c with idx := 0, pos := .closed }, .notfound)) ∧
    (∀ t r, recsOf A ++ s.recs = t ++ [r] → ∃ k q, c.lastLoop n = ({ c with idx := k, pos := q }, .ok r.1) ∧ At segs { c with idx := k, pos := q } false t.length r) := by
  intro k
  induction k with
  | zero =>
    intro A B s c n hk e hi hc hn
    obtain ⟨m, rfl⟩ : ∃ m, n = m + 1 := ⟨n - 1, by omega⟩
    have hA : A = [] := List.length_eq_zero_iff.mp hk
    subst hA
    have hfile := file_at e hc hi
    have hs : Seg.Fine s := hf s (by rw [e]; simp)
    rcases gapB_cases hs (endGap hs) with ⟨h0, ht⟩ | ⟨v, a, r, h0, rfl, ht⟩
    · refine ⟨fun _ => ?_, fun t r h => by rw [h0] at h; simp [recsOf] at h⟩
      simp only [Cur.lastLoop, hfile, ht]
      simp only [List.length_nil] at hi
      rw [if_pos hi, hi]
    · refine ⟨fun h => by rw [h0] at h; simp at h, fun t r' h => ?_⟩
      have h' : a ++ [r] = t ++ [r'] := by rw [h0] at h; simpa [recsOf] using h
      obtain ⟨rfl, h2⟩ := List.append_inj' h' rfl
      cases h2
      refine ⟨0, .at (12 + (bytesOf a).length), ?_, [], v, a, [], B, e, hc, rfl, by simp, by simp [recsOf]⟩
      simp only [Cur.lastLoop, hfile, ht]
      congr 2
  | succ k ih =>
    intro A B s c n hk e hi hc hn
    obtain ⟨m, rfl⟩ : ∃ m, n = m + 1 := ⟨n - 1, by omega⟩
    have hfile := file_at e hc hi
    have hs : Seg.Fine s := hf s (by rw [e]; simp)
    rcases gapB_cases hs (endGap hs) with ⟨h0, ht⟩ | ⟨v, a, r, h0, rfl, ht⟩
    · rcases List.eq_nil_or_concat A with rfl | ⟨A', s', rfl⟩
      · simp at hk
      have hkA : A'.length = k := by simpa using hk
      have e2 : segs = A' ++ s' :: (s :: B) := by rw [e]; simp
      have hop := openPos_ok hf e2
      have hstep : c.lastLoop (m + 1) = Cur.lastLoop m { c with idx := A'.length } := by
        conv => lhs; simp only [Cur.lastLoop]
        rw [hfile, ht]
        dsimp only
        have : c.idx = A'.length + 1 := by rw [hi]; simp
        rw [if_neg (by omega), this, Nat.add_sub_cancel, hc, hop]
      have := ih A' (s :: B) s' { c with idx := A'.length } m hkA e2 rfl hc (by simp at hn; omega)
      have hrec : recsOf (A'.concat s') ++ s.recs = recsOf A' ++ s'.recs := by rw [h0]; simp [recsOf]
      rw [hstep, hrec]
      exact this
    · refine ⟨fun h => by rw [h0] at h; simp at h, fun t r' h => ?_⟩
      have h' : (recsOf A ++ a) ++ [r] = t ++ [r'] := by rw [h0] at h; simpa using h
      obtain ⟨rfl, h2⟩ := List.append_inj' h' rfl
      cases h2
      refine ⟨A.length, .at (12 + (bytesOf a).length), ?_, A, v, a, [], B, e, hc, rfl, by simp, by simp⟩
      simp only [Cur.lastLoop, hfile, ht]
      congr 2

end Verif.Log
