import Verif.Undo.Spec
import Verif.Log.RecLemmas
import Verif.Node.DiskLemmas
/-!
Records and nodes as bytes, and back.
-/
set_option linter.unusedVariables false
set_option linter.unusedSimpArgs false
namespace Verif.Undo
open Verif.Ser Verif.Log Verif.Node BufSpec
open Verif.Log.Spec (Fits FitsAll)

/-- The types of the fields of undo records. -/
def plain : Ty → Bool
  | .filenum | .u64 | .blocknum | .bool | .pair | .bytes | .filenums => true
  | _ => false

theorem undoFields_mem {cmd : Nat} {tys : List Ty} (h : undoFields cmd = some tys) : (cmd, tys) ∈ rollbacks := by
  unfold undoFields at h
  cases hf : rollbacks.find? (·.1 == cmd) with
  | none => rw [hf] at h; cases h
  | some p =>
    rw [hf] at h
    have h1 := List.mem_of_find?_eq_some hf
    have h2 := List.find?_some hf
    simp only [beq_iff_eq] at h2
    simp only [Option.map_some, Option.some.injEq] at h
    rw [← h2, ← h]
    exact h1

theorem undoFields_plain {cmd : Nat} {tys : List Ty} (h : undoFields cmd = some tys) : ∀ t ∈ tys, plain t = true := by
  have : ∀ p ∈ rollbacks, ∀ t ∈ p.2, plain t = true := by decide
  exact this _ (undoFields_mem h)

theorem undoFields_char {cmd : Nat} {tys : List Ty} (h : undoFields cmd = some tys) : cmd < 256 := by
  have : ∀ p ∈ rollbacks, p.1 < 256 := by decide
  exact this _ (undoFields_mem h)

theorem undoFields_short {cmd : Nat} {tys : List Ty} (h : undoFields cmd = some tys) : tys.length ≤ 4 := by
  have : ∀ p ∈ rollbacks, p.2.length ≤ 4 := by decide
  exact this _ (undoFields_mem h)

/-! ### Fields -/

theorem width_ok {t : Ty} {v : Val} (h : Fits t v) (hp : plain t = true) : (layout (writes 0 t v)).length = Spec.width t v := by
  have := enc_size h 0
  cases t <;> cases v <;> first | (exact h.elim) | (cases hp; done) | skip
  all_goals
    simp only [logsizeof, R.ok.injEq] at this
    simp only [Spec.width]
    show (enc 0 _ _).length = _
    omega

theorem widths_ok : ∀ {ts : List Ty} {vs : List Val}, FitsAll ts vs → (∀ t ∈ ts, plain t = true) → (layout (writesAll 0 ts vs)).length = Spec.widths ts vs := by
  intro ts
  induction ts with
  | nil => intro vs h _; cases vs with
    | nil => rfl
    | cons => exact h.elim
  | cons t ts ih => intro vs h hp; cases vs with
    | nil => exact h.elim
    | cons v vs =>
      have a := width_ok h.1 (hp t (by simp))
      have b := ih h.2 (fun t ht => hp t (by simp [ht]))
      simp only [layout] at a b
      simp only [writesAll, layout, List.flatMap_append, List.length_append, Spec.widths]
      rw [a, b]

theorem width_lt {t : Ty} {v : Val} (h : Fits t v) (hp : plain t = true) : Spec.width t v < 2 ^ 31 := by
  cases t <;> cases v <;> first | (exact h.elim) | (cases hp; done) | skip
  all_goals
    simp only [Fits] at h
    simp only [Spec.width]
    omega

theorem rdNums_ok : ∀ (ns : List Nat) (r : Rd) (b : List Nat), (∀ n ∈ ns, n < 2 ^ 32) → At r (layout (ns.map Field.int) ++ b) →
    ∃ r', rdNums ns.length r = .ok (ns, r') ∧ At r' b := by
  intro ns
  induction ns with
  | nil => intro r b _ h; exact ⟨r, rfl, by simpa [layout] using h⟩
  | cons a ns ih =>
    intro r b hb h
    simp only [List.map_cons, layout, List.flatMap_cons, BufSpec.bytes, List.append_assoc] at h
    obtain ⟨r', e, h'⟩ := ih (Rd.adv r 4) b (fun n hn => hb n (by simp [hn])) h.int_adv
    refine ⟨r', ?_, h'⟩
    simp only [List.length_cons, rdNums]
    rw [h.int (hb a (by simp)), R.bind_ok]
    dsimp only
    rw [e, R.bind_ok]
    rfl

theorem rdVal_ok {t : Ty} {v : Val} (hf : Fits t v) (hp : plain t = true) {r : Rd} {b : List Nat} (h : At r (layout (writes 0 t v) ++ b)) :
    ∃ r', rdVal t r = .ok (v, r') ∧ At r' b := by
  cases t <;> cases v <;> first | (exact hf.elim) | (cases hp; done) | skip
  case filenum.num v =>
    simp only [writes, layout, List.flatMap_cons, List.flatMap_nil, BufSpec.bytes, List.append_nil] at h
    exact ⟨_, by rw [rdVal, h.int hf, R.bind_ok]; rfl, h.int_adv⟩
  case u64.num v =>
    simp only [writes, layout, List.flatMap_cons, List.flatMap_nil, BufSpec.bytes, List.append_nil] at h
    exact ⟨_, by rw [rdVal, h.ull hf, R.bind_ok]; rfl, h.ull_adv⟩
  case blocknum.num v =>
    simp only [writes, layout, List.flatMap_cons, List.flatMap_nil, BufSpec.bytes, List.append_nil] at h
    exact ⟨_, by rw [rdVal, h.ull hf, R.bind_ok]; rfl, h.ull_adv⟩
  case bool.bool v =>
    simp only [writes, layout, List.flatMap_cons, List.flatMap_nil, BufSpec.bytes, List.append_nil] at h
    refine ⟨_, ?_, h.char_adv⟩
    rw [rdVal, Rd.bool, h.char]
    cases v <;> rfl
  case pair.pair p c =>
    simp only [writes, layout, List.flatMap_cons, List.flatMap_nil, BufSpec.bytes, List.append_nil] at h
    rw [List.append_assoc] at h
    refine ⟨_, ?_, h.ull_adv.ull_adv⟩
    rw [rdVal, h.ull hf.1, R.bind_ok]
    dsimp only
    rw [h.ull_adv.ull hf.2, R.bind_ok]
    rfl
  case bytes.bytes bs =>
    simp only [writes, layout, List.flatMap_cons, List.flatMap_nil, BufSpec.bytes, List.append_nil] at h
    have hl : bs.length < 2 ^ 32 := by have := hf.1; omega
    exact ⟨_, by rw [rdVal, h.bytes hl, R.bind_ok]; rfl, h.bytes_adv⟩
  case filenums.nums ns =>
    simp only [writes, layout, List.flatMap_cons, BufSpec.bytes, List.append_assoc] at h
    have hl : ns.length < 2 ^ 32 := by have := hf.1; omega
    obtain ⟨r', e, h'⟩ := rdNums_ok ns (Rd.adv r 4) b hf.2 h.int_adv
    refine ⟨r', ?_, h'⟩
    rw [rdVal, h.int hl, R.bind_ok]
    dsimp only
    rw [e, R.bind_ok]
    rfl

theorem rdVals_ok : ∀ {ts : List Ty} {vs : List Val}, FitsAll ts vs → (∀ t ∈ ts, plain t = true) → ∀ (r : Rd) (b : List Nat),
    At r (layout (writesAll 0 ts vs) ++ b) → ∃ r', rdVals ts r = .ok (vs, r') ∧ At r' b := by
  intro ts
  induction ts with
  | nil => intro vs h _ r b hr; cases vs with
    | nil => exact ⟨r, rfl, by simpa [writesAll, layout] using hr⟩
    | cons => exact h.elim
  | cons t ts ih => intro vs h hp r b hr; cases vs with
    | nil => exact h.elim
    | cons v vs =>
      simp only [writesAll, layout, List.flatMap_append, List.append_assoc] at hr
      obtain ⟨r1, e1, h1⟩ := rdVal_ok h.1 (hp t (by simp)) hr
      obtain ⟨r2, e2, h2⟩ := ih h.2 (fun t ht => hp t (by simp [ht])) r1 b h1
      refine ⟨r2, ?_, h2⟩
      rw [rdVals, e1, R.bind_ok]
      dsimp only
      rw [e2, R.bind_ok]
      rfl

/-! ### Records -/

/-- The part of a record behind its length. -/
def recBody (r : Rec) : List Nat := r.cmd :: layout (writesAll 0 ((undoFields r.cmd).getD []) r.vals)

/-- The bytes of a record. -/
def recBytes (r : Rec) : List Nat := digits 4 (Spec.recSize r) ++ recBody r

theorem recBody_length {r : Rec} (h : Spec.Good r) : (recBody r).length + 4 = Spec.recSize r := by
  obtain ⟨tys, ht, hf⟩ := h
  have := widths_ok hf (undoFields_plain ht)
  simp only [recBody, Spec.recSize, ht, Option.getD_some, List.length_cons]
  omega

theorem recBytes_length {r : Rec} (h : Spec.Good r) : (recBytes r).length = Spec.recSize r := by
  have := recBody_length h
  simp only [recBytes, List.length_append, digits_length]
  omega

theorem recBytes_bytes {r : Rec} (h : Spec.Good r) : Bytes (recBytes r) := by
  obtain ⟨tys, ht, hf⟩ := h
  refine Bytes.append.mpr ⟨digits_bytes _ _, Bytes.cons.mpr ⟨undoFields_char ht, ?_⟩⟩
  simp only [ht, Option.getD_some]
  exact layout_bytes (writesAll_valid (by decide) hf)

theorem fsize_ok {r : Rec} (h : Spec.Good r) (hs : Spec.recSize r < 2 ^ 32) : r.fsize = .ok (Spec.recSize r) := by
  obtain ⟨tys, ht, hf⟩ := h
  have hw := widths_ok hf (undoFields_plain ht)
  simp only [Spec.recSize, ht, Option.getD_some] at hs ⊢
  rw [Rec.fsize, ht]
  dsimp only
  rw [sizes_ok 0 hf, R.bind_ok, hw]
  show R.ok _ = _
  congr 1
  unfold m32
  omega

theorem writeRec_ok {r : Rec} (h : Spec.Good r) (hs : Spec.recSize r < 2 ^ 32) : Puts (writeRec r) (recBytes r) := by
  obtain ⟨tys, ht, hf⟩ := h
  have hw := widths_ok hf (undoFields_plain ht)
  have hl : Spec.recSize r = 5 + Spec.widths tys r.vals := by simp only [Spec.recSize, ht, Option.getD_some]
  have hm : m32 (1 + 4 + (layout (writesAll 0 tys r.vals)).length) = Spec.recSize r := by unfold m32; omega
  have e : recBytes r = layout ([.int (Spec.recSize r), .char r.cmd] ++ writesAll 0 tys r.vals) := by
    simp only [recBytes, recBody, ht, Option.getD_some, layout, List.flatMap_append, List.flatMap_cons, List.flatMap_nil, BufSpec.bytes, List.append_nil, List.append_assoc,
      List.cons_append, List.nil_append]
  intro w hroom
  show writeRec r w = _
  rw [writeRec, ht]
  dsimp only
  rw [sizes_ok 0 hf, R.bind_ok, hm, e]
  rw [e] at hroom
  refine W.fields0_ok ?_ hroom
  intro f hfm
  rcases List.mem_append.mp hfm with hfm | hfm
  · simp only [List.mem_cons, List.not_mem_nil, or_false] at hfm
    rcases hfm with rfl | rfl
    · exact hs
    · exact undoFields_char ht
  · exact writesAll_valid (by decide) hf f hfm

theorem recSize_le_total {rs : List Rec} {r : Rec} (h : r ∈ rs) : Spec.recSize r ≤ Spec.total rs := by
  induction rs with
  | nil => cases h
  | cons a rs ih =>
    simp only [Spec.total, List.map_cons, List.sum_cons] at ih ⊢
    rcases List.mem_cons.mp h with rfl | h
    · omega
    · have := ih h; omega

theorem writeRecs_ok : ∀ (rs : List Rec), (∀ r ∈ rs, Spec.Good r) → Spec.total rs < 2 ^ 32 → Puts (writeRecs rs) (rs.flatMap recBytes) := by
  intro rs
  induction rs with
  | nil => intro _ _; exact Puts.nil
  | cons r rs ih =>
    intro hg ht
    have h1 : Spec.total (r :: rs) = Spec.recSize r + Spec.total rs := rfl
    exact (writeRec_ok (hg r (by simp)) (by omega)).seq (ih (fun r hr => hg r (by simp [hr])) (by omega))

theorem recs_length : ∀ (rs : List Rec), (∀ r ∈ rs, Spec.Good r) → (rs.flatMap recBytes).length = Spec.total rs := by
  intro rs
  induction rs with
  | nil => intro _; rfl
  | cons r rs ih =>
    intro hg
    simp only [List.flatMap_cons, List.length_append, ih (fun r hr => hg r (by simp [hr])), recBytes_length (hg r (by simp))]
    rfl

theorem parse_ok {r : Rec} (h : Spec.Good r) : parse (recBody r) = .ok (some r) := by
  obtain ⟨tys, ht, hf⟩ := h
  have hat : At ⟨recBody r, 1⟩ (layout (writesAll 0 tys r.vals) ++ []) := by
    have := At.mid [r.cmd] (layout (writesAll 0 tys r.vals) ++ [])
    simpa [recBody, ht] using this
  obtain ⟨r', e, _⟩ := rdVals_ok hf (undoFields_plain ht) _ _ hat
  have hb : recBody r = r.cmd :: layout (writesAll 0 tys r.vals) := by simp only [recBody, ht, Option.getD_some]
  rw [hb] at e ⊢
  rw [parse, ht]
  dsimp only
  rw [e, R.bind_ok]
  rfl

theorem readRecs_ok : ∀ (rs : List Rec) (k : Nat) (r : Rd), (∀ x ∈ rs, Spec.Good x) → Spec.total rs < 2 ^ 32 → rs.length < k → At r (rs.flatMap recBytes) →
    readRecs k r = .ok (some rs) := by
  intro rs
  induction rs with
  | nil =>
    intro k r _ _ hk h
    obtain ⟨k, rfl⟩ : ∃ j, k = j + 1 := ⟨k - 1, by simp only [List.length_nil] at hk; omega⟩
    have hl := h.len
    simp only [List.flatMap_nil, List.length_nil] at hl
    rw [readRecs, if_neg (by omega)]
  | cons x rs ih =>
    intro k r hg ht hk h
    obtain ⟨k, rfl⟩ : ∃ j, k = j + 1 := ⟨k - 1, by simp only [List.length_cons] at hk; omega⟩
    have hx := hg x (by simp)
    have h1 : Spec.total (x :: rs) = Spec.recSize x + Spec.total rs := rfl
    have hl := h.len
    have hb := recBody_length hx
    have hz : Spec.recSize x < 2 ^ 32 := by omega
    have h4 : 4 < Spec.recSize x := by simp only [Spec.recSize]; omega
    simp only [List.flatMap_cons, List.length_append, recBytes_length hx] at hl
    simp only [List.flatMap_cons, recBytes, List.append_assoc] at h
    rw [readRecs, if_pos (by omega), h.int hz, R.bind_ok]
    dsimp only
    have hn : m32 (Spec.recSize x + 2 ^ 32 - 4) = (recBody x).length := by unfold m32; omega
    rw [h.int_adv.literal hn, R.bind_ok]
    dsimp only
    rw [parse_ok hx, R.bind_ok]
    dsimp only
    rw [hn, ih k _ (fun x hx => hg x (by simp [hx])) (by omega) (by simp only [List.length_cons] at hk; omega) (h.int_adv.adv rfl), R.bind_ok]
    rfl

/-! ### Nodes -/

/-- The fields in front of the records. -/
def front (n : RNode) (build arena : Nat) : List Field :=
  [.literal magicRoll, .int n.version, .int n.original, .int build, .ull n.parent, .ull n.child, .ull n.seq, .ull n.blocknum, .ull n.prev, .ull n.bytes, .ull arena]

/-- The bytes of a node before compression. -/
def nodeBytes (n : RNode) (build arena : Nat) : List Nat := layout (front n build arena) ++ n.newest.flatMap recBytes

theorem front_length (n : RNode) (build arena : Nat) : (layout (front n build arena)).length = 76 := by
  simp only [front, layout, List.flatMap_cons, List.flatMap_nil, BufSpec.bytes, List.length_append, digits_length, List.length_nil, magicRoll, List.length_cons]

theorem front_valid {n : RNode} (h : Spec.Ok n) {build arena : Nat} (hb : build < 2 ^ 32) (ha : arena < 2 ^ 64) : ∀ f ∈ front n build arena, Valid f := by
  have hm := h.most
  unfold Spec.most at hm
  intro f hf
  simp only [front, List.mem_cons, List.not_mem_nil, or_false] at hf
  rcases hf with rfl | rfl | rfl | rfl | rfl | rfl | rfl | rfl | rfl | rfl | rfl
  · exact ⟨by decide, by decide⟩
  · exact h.version
  · exact h.original
  · exact hb
  · exact h.parent
  · exact h.child
  · exact h.seq
  · exact h.blocknum
  · exact h.prev
  · show n.bytes < 2 ^ 64; omega
  · exact ha

theorem nodeBytes_length {n : RNode} (h : Spec.Ok n) (build arena : Nat) : (nodeBytes n build arena).length = nodeSize n := by
  simp only [nodeBytes, List.length_append, front_length, recs_length n.newest h.good, nodeSize, h.bytes]

theorem nodeBytes_bytes {n : RNode} (h : Spec.Ok n) {build arena : Nat} (hb : build < 2 ^ 32) (ha : arena < 2 ^ 64) : Bytes (nodeBytes n build arena) := by
  refine Bytes.append.mpr ⟨layout_bytes (front_valid h hb ha), ?_⟩
  intro b hb
  obtain ⟨r, hr, hb⟩ := List.mem_flatMap.mp hb
  exact recBytes_bytes (h.good r hr) b hb

theorem toBuf_ok {n : RNode} (h : Spec.Ok n) {build arena : Nat} (hb : build < 2 ^ 32) (ha : arena < 2 ^ 64) :
    toBuf n.version build arena n = .ok (nodeBytes n build arena) := by
  have hm := h.most
  unfold Spec.most at hm
  have hf := front_length n build arena
  have hr := recs_length n.newest h.good
  have hby := h.bytes
  rw [toBuf, if_pos rfl]
  have e1 : (W.init (nodeSize n)).fields0 (front n build arena) = .ok (W.push (W.init (nodeSize n)) (layout (front n build arena))) :=
    W.fields0_ok (front_valid h hb ha) (by simp only [W.init, List.length_nil, nodeSize]; omega)
  rw [show ([.literal magicRoll, .int n.version, .int n.original, .int build, .ull n.parent, .ull n.child, .ull n.seq, .ull n.blocknum, .ull n.prev, .ull n.bytes,
    .ull arena] : List Field) = front n build arena from rfl, e1, R.bind_ok]
  dsimp only
  have hlen : (W.push (W.init (nodeSize n)) (layout (front n build arena))).out.length = 76 := by simp only [push_length, W.init, List.length_nil]; omega
  rw [writeRecs_ok n.newest h.good (by omega) _ (by rw [hlen, hr, push_size]; simp only [W.init, nodeSize]; omega), R.bind_ok, push_push]
  have hl2 : (W.push (W.init (nodeSize n)) (nodeBytes n build arena)).out = nodeBytes n build arena := by simp only [W.push, W.init, List.nil_append]
  rw [show layout (front n build arena) ++ List.flatMap recBytes n.newest = nodeBytes n build arena from rfl, hl2, hlen, nodeBytes_length h]
  rw [if_pos (by simp only [nodeSize]), if_pos rfl]
  rfl

theorem fromBuf_ok {n : RNode} (h : Spec.Ok n) {build arena : Nat} (hb : build < 2 ^ 32) (ha : arena < 2 ^ 64) (hv : readable n.version = true) :
    fromBuf n.blocknum (nodeBytes n build arena) = .ok (some n) := by
  have hm := h.most
  unfold Spec.most at hm
  have hby := h.bytes
  have h0 := At.start (nodeBytes n build arena)
  have hlen := nodeBytes_length h build arena
  have hlen' : 4 < (nodeBytes n build arena).length := by rw [hlen]; simp only [nodeSize]; omega
  have hcount : n.newest.length < (nodeBytes n build arena).length + 1 := by
    have : n.newest.length ≤ Spec.total n.newest := by
      have : ∀ rs : List Rec, rs.length ≤ Spec.total rs := by
        intro rs
        induction rs with
        | nil => exact Nat.zero_le _
        | cons r rs ih =>
          have h1 : Spec.total (r :: rs) = Spec.recSize r + Spec.total rs := rfl
          have h4 : 4 < Spec.recSize r := by simp only [Spec.recSize]; omega
          simp only [List.length_cons]; omega
      exact this _
    rw [hlen]; simp only [nodeSize]; omega
  have hs : nodeBytes n build arena = magicRoll ++ (digits 4 n.version ++ (digits 4 n.original ++ (digits 4 build ++
      (digits 4 (n.parent / 2 ^ 32) ++ digits 4 (n.parent % 2 ^ 32) ++ (digits 4 (n.child / 2 ^ 32) ++ digits 4 (n.child % 2 ^ 32) ++
      (digits 4 (n.seq / 2 ^ 32) ++ digits 4 (n.seq % 2 ^ 32) ++ (digits 4 (n.blocknum / 2 ^ 32) ++ digits 4 (n.blocknum % 2 ^ 32) ++
      (digits 4 (n.prev / 2 ^ 32) ++ digits 4 (n.prev % 2 ^ 32) ++ (digits 4 (n.bytes / 2 ^ 32) ++ digits 4 (n.bytes % 2 ^ 32) ++
      (digits 4 (arena / 2 ^ 32) ++ digits 4 (arena % 2 ^ 32) ++ n.newest.flatMap recBytes)))))))))) := by
    simp only [nodeBytes, front, layout, List.flatMap_cons, List.flatMap_nil, BufSpec.bytes, List.append_assoc, List.append_nil, List.nil_append]
  have h1 : At ⟨nodeBytes n build arena, 0⟩ (magicRoll ++ _) := hs ▸ h0
  rw [fromBuf, h1.literal (n := 8) rfl, R.bind_ok]
  dsimp only
  rw [if_pos rfl]
  have h2 := h1.adv (n := 8) rfl
  rw [h2.int h.version, R.bind_ok]
  dsimp only
  rw [if_pos hv]
  have h3 := h2.int_adv
  rw [h3.int h.original, R.bind_ok]
  dsimp only
  have h4 := h3.int_adv
  rw [h4.int hb, R.bind_ok]
  dsimp only
  have h5 := h4.int_adv
  rw [h5.ull h.parent, R.bind_ok]
  dsimp only
  have h6 := h5.ull_adv
  rw [h6.ull h.child, R.bind_ok]
  dsimp only
  have h7 := h6.ull_adv
  rw [h7.ull h.seq, R.bind_ok]
  dsimp only
  have h8 := h7.ull_adv
  rw [h8.ull h.blocknum, R.bind_ok]
  dsimp only
  rw [if_pos rfl]
  have h9 := h8.ull_adv
  rw [h9.ull h.prev, R.bind_ok]
  dsimp only
  have h10 := h9.ull_adv
  rw [h10.ull (by omega), R.bind_ok]
  dsimp only
  have h11 := h10.ull_adv
  rw [h11.ull ha, R.bind_ok]
  dsimp only
  have h12 := h11.ull_adv
  rw [if_pos hlen', readRecs_ok n.newest _ _ h.good (by omega) hcount h12, R.bind_ok]
  rfl

end Verif.Undo
