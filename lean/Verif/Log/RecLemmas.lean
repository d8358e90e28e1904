import Verif.Log.ReadLemmas
set_option linter.unusedVariables false
set_option linter.unusedSimpArgs false
/-! Whole records: the bytes written, and reading them forwards and backwards. -/
namespace Verif.Log
open Verif.Ser Verif.Ser.BufSpec Spec

theorem writes_valid {t : Ty} {v : Val} (h : Fits t v) {now : Nat} (hnow : now < 2 ^ 64) : ∀ f ∈ writes now t v, Valid f := by
  cases t <;> cases v <;> try (exact h.elim)
  case stamp.num n =>
    intro f hf
    simp only [writes, List.mem_singleton] at hf; subst hf
    show (if n = 0 then now else n) < 2 ^ 64
    split
    · exact hnow
    · exact h
  case xid.xid x =>
    obtain ⟨f0, f1, f2, f3, f4⟩ := h
    intro f hf
    simp only [writes, List.mem_cons, List.not_mem_nil, or_false] at hf
    rcases hf with rfl | rfl | rfl | rfl
    · show _ < 2 ^ 32; omega
    · show _ < 256; omega
    · show _ < 256; omega
    · exact ⟨by omega, f4⟩
  case filenums.nums ns =>
    intro f hf
    simp only [writes, List.mem_cons, List.mem_map] at hf
    rcases hf with rfl | ⟨n, hn, rfl⟩
    · show _ < 2 ^ 32; have := h.1; omega
    · exact h.2 n hn
  case pair.pair p c =>
    intro f hf
    simp only [writes, List.mem_cons, List.not_mem_nil, or_false] at hf
    rcases hf with rfl | rfl
    · exact h.1
    · exact h.2
  case bytes.bytes bs =>
    intro f hf
    simp only [writes, List.mem_singleton] at hf; subst hf
    exact ⟨by have := h.1; omega, h.2⟩
  all_goals
    intro f hf
    simp only [writes, List.mem_singleton] at hf; subst hf
    exact h

theorem writesAll_valid {now : Nat} (hnow : now < 2 ^ 64) : ∀ {ts : List Ty} {vs : List Val}, FitsAll ts vs → ∀ f ∈ writesAll now ts vs, Valid f := by
  intro ts
  induction ts with
  | nil => intro vs h f hf; simp [writesAll] at hf
  | cons t ts ih => intro vs h; cases vs with
    | nil => exact h.elim
    | cons v vs =>
      intro f hf
      simp only [writesAll, List.mem_append] at hf
      rcases hf with hf | hf
      · exact writes_valid h.1 hnow f hf
      · exact ih h.2 f hf

theorem enc_size {t : Ty} {v : Val} (h : Fits t v) (now : Nat) : logsizeof t v = .ok (enc now t v).length := by
  cases t <;> cases v <;> try (exact h.elim)
  case xid.xid x =>
    obtain ⟨f0, f1, f2, f3, f4⟩ := h
    simp only [logsizeof, if_pos f1, if_pos f2, enc, writes, layout, BufSpec.bytes, List.flatMap_cons, List.flatMap_nil, List.length_append, digits_length, List.length_cons, List.length_nil]
    congr 1; omega
  case filenums.nums ns =>
    simp only [logsizeof, enc, writes, layout, BufSpec.bytes, List.flatMap_cons, List.flatMap_map, List.length_append, digits_length]
    congr 2
    clear h
    induction ns with
    | nil => rfl
    | cons n ns ih => simp only [List.flatMap_cons, List.length_append, digits_length, List.length_cons, ← ih]; omega
  all_goals
    simp only [logsizeof, enc, writes, layout, BufSpec.bytes, List.flatMap_cons, List.flatMap_nil, List.length_append, digits_length, List.length_cons, List.length_nil]
    try rfl

theorem sizes_ok (now : Nat) : ∀ {ts : List Ty} {vs : List Val}, FitsAll ts vs → sizes ts vs = .ok (layout (writesAll now ts vs)).length := by
  intro ts
  induction ts with
  | nil => intro vs h; cases vs with
    | nil => rfl
    | cons => exact h.elim
  | cons t ts ih => intro vs h; cases vs with
    | nil => exact h.elim
    | cons v vs =>
      simp only [sizes, enc_size h.1 now, ih h.2, R.bind_ok, R.pure_ok, writesAll, layout, List.flatMap_append, List.length_append, enc]

/-- The bytes before the checksum. -/
def body (now cmd : Nat) (tys : List Ty) (lsn : Nat) (vals : List Val) : List Nat :=
  digits 4 (4 + 1 + 8 + (layout (writesAll now tys vals)).length + 8) ++ [cmd] ++ bytes (.ull lsn) ++ layout (writesAll now tys vals)

/-- The bytes of a record. -/
def recBytes (now cmd : Nat) (tys : List Ty) (lsn : Nat) (vals : List Val) : List Nat :=
  body now cmd tys lsn vals ++ digits 4 (XSpec.checksum (body now cmd tys lsn vals)) ++ digits 4 (4 + 1 + 8 + (layout (writesAll now tys vals)).length + 8)

theorem body_length (now cmd : Nat) (tys : List Ty) (lsn : Nat) (vals : List Val) :
    (body now cmd tys lsn vals).length = 4 + 1 + 8 + (layout (writesAll now tys vals)).length := by
  simp only [body, List.length_append, digits_length, List.length_cons, List.length_nil, BufSpec.bytes]

theorem rec_length (now cmd : Nat) (tys : List Ty) (lsn : Nat) (vals : List Val) :
    (recBytes now cmd tys lsn vals).length = 4 + 1 + 8 + (layout (writesAll now tys vals)).length + 8 := by
  simp only [recBytes, List.length_append, body_length, digits_length]

theorem layout_bytes {fs : List Field} (h : ∀ f ∈ fs, Valid f) : ∀ b ∈ layout fs, b < 256 := by
  intro b hb
  simp only [layout, List.mem_flatMap] at hb
  obtain ⟨f, hf, hb⟩ := hb
  exact Verif.Ser.Valid.bytes (h f hf) b hb

theorem fieldsOf_char {cmd : Nat} {tys : List Ty} (h : fieldsOf cmd = some tys) : cmd < 256 := by
  simp only [fieldsOf, Option.map_eq_some_iff] at h
  obtain ⟨t, ht, _⟩ := h
  have h1 := List.mem_of_find?_eq_some ht
  have h2 := List.find?_some ht
  have : ∀ t ∈ logtypes, t.cmd < 256 := by decide
  have := this t h1
  simp only [beq_iff_eq] at h2
  omega

theorem body_bytes {now cmd lsn : Nat} {tys : List Ty} {vals : List Val} (hnow : now < 2 ^ 64) (hc : cmd < 256) (hf : FitsAll tys vals) :
    ∀ b ∈ body now cmd tys lsn vals, b < 256 := by
  intro b hb
  simp only [body, List.mem_append, List.mem_singleton] at hb
  rcases hb with ((hb | rfl) | hb) | hb
  · exact digits_bytes _ _ b hb
  · exact hc
  · simp only [BufSpec.bytes, List.mem_append] at hb
    rcases hb with hb | hb <;> exact digits_bytes _ _ b hb
  · exact layout_bytes (writesAll_valid hnow hf) b hb

theorem checksum_lt (bs : List Nat) (hb : ∀ b ∈ bs, b < 256) : XSpec.checksum bs < 2 ^ 32 := by
  rw [← memorySimple_spec hb]; simp only [memorySimple, fold32]; omega

theorem fields0_append (a b : List Field) (w : W) : w.fields0 (a ++ b) = (w.fields0 a >>= fun w => w.fields0 b) := by
  induction a generalizing w with
  | nil => rfl
  | cons f a ih =>
    show (w.field0 f >>= fun w => w.fields0 (a ++ b)) = ((w.field0 f >>= fun w => w.fields0 a) >>= fun w => w.fields0 b)
    cases h : w.field0 f with
    | ok w2 => simp only [R.bind_ok, ih]
    | abort => rfl
    | outside => rfl

/-- Writing a record adds exactly its bytes. -/
theorem writeRecord_ok {now cmd lsn : Nat} {tys : List Ty} {vals : List Val} (hnow : now < 2 ^ 64) (hc : cmd < 256) (hl : lsn < 2 ^ 64) (hf : FitsAll tys vals)
    (hsz : (recBytes now cmd tys lsn vals).length < 2 ^ 32) : writeRecord now cmd tys lsn vals = .ok (recBytes now cmd tys lsn vals) := by
  rw [rec_length] at hsz
  have hm : m32 (4 + 1 + 8 + (layout (writesAll now tys vals)).length + 8) = 4 + 1 + 8 + (layout (writesAll now tys vals)).length + 8 := Nat.mod_eq_of_lt hsz
  have hlay : layout ([.int (4 + 1 + 8 + (layout (writesAll now tys vals)).length + 8), .char cmd, .ull lsn] ++ writesAll now tys vals) = body now cmd tys lsn vals := by
    simp [layout, body, BufSpec.bytes]
  have hval : ∀ f ∈ ([.int (4 + 1 + 8 + (layout (writesAll now tys vals)).length + 8), .char cmd, .ull lsn] ++ writesAll now tys vals : List Field), Valid f := by
    intro f h
    simp only [List.cons_append, List.nil_append, List.mem_cons] at h
    rcases h with rfl | rfl | rfl | h
    · exact hsz
    · exact hc
    · exact hl
    · exact writesAll_valid hnow hf f h
  have hbl := body_length now cmd tys lsn vals
  simp only [writeRecord, sizes_ok now hf, R.bind_ok, hm]
  rw [W.fields0_ok hval (by rw [hlay, hbl]; simp only [W.init, List.length_nil]; omega)]
  simp only [R.bind_ok, hlay, W.init, List.nil_append, W.int0]
  rw [memory_spec (body_bytes hnow hc hf)]
  simp only [store32_digits]
  rw [W.put_ok (by simp only [hbl, digits_length]; omega), R.bind_ok]
  rw [W.put_ok (by simp only [List.length_append, hbl, digits_length]; omega), R.bind_ok]
  simp only []
  rw [if_pos (by simp only [List.length_append, hbl, digits_length])]
  rfl

/-- Reading the bytes of a record gives the record and stops after it; any proper beginning of them meets the end of the file. -/
theorem fread_ok {now cmd lsn : Nat} {tys : List Ty} {vals : List Val} (hnow : now < 2 ^ 64) (ht : fieldsOf cmd = some tys) (hl : lsn < 2 ^ 64) (hf : FitsAll tys vals)
    (hsz : (recBytes now cmd tys lsn vals).length < 2 ^ 32) (post : List Nat) :
    fread (recBytes now cmd tys lsn vals ++ post) = .ok (⟨cmd, lsn, stamped now tys vals⟩, post) := by
  rw [rec_length] at hsz
  have hc := fieldsOf_char ht
  have hbb := body_bytes (lsn := lsn) hnow hc hf
  have hck := checksum_lt _ hbb
  generalize hn : 4 + 1 + 8 + (layout (writesAll now tys vals)).length + 8 = n at *
  have e : recBytes now cmd tys lsn vals ++ post = digits 4 n ++ ([cmd] ++ (bytes (.ull lsn) ++ (layout (writesAll now tys vals) ++
      (digits 4 (XSpec.checksum (body now cmd tys lsn vals)) ++ (digits 4 n ++ post))))) := by
    simp only [recBytes, body, hn, List.append_assoc]
  rw [e]
  simp only [fread, (reads32 hsz).full, Out.bind_ok, (reads8 cmd).full, ht, rdRecord, (reads64 hl).full, (readsVals hnow hf).full, (reads32 hck).full]
  have e2 : eat (eat (eat (eat X.init (digits 4 n)) [cmd]) (bytes (.ull lsn))) (layout (writesAll now tys vals)) = eat X.init (body now cmd tys lsn vals) := by
    simp only [body, hn, eat_append]
  have e3 : m32 (0 + (digits 4 n).length + [cmd].length + (bytes (.ull lsn)).length + (layout (writesAll now tys vals)).length + 8) = n := by
    simp only [digits_length, List.length_cons, List.length_nil, BufSpec.bytes, List.length_append]
    rw [m32, Nat.mod_eq_of_lt (by omega)]; omega
  rw [e2, eat_finish _ hbb, e3]
  rw [if_neg (by simp)]
  rfl

theorem fread_cut {now cmd lsn : Nat} {tys : List Ty} {vals : List Val} (hnow : now < 2 ^ 64) (ht : fieldsOf cmd = some tys) (hl : lsn < 2 ^ 64) (hf : FitsAll tys vals)
    (hsz : (recBytes now cmd tys lsn vals).length < 2 ^ 32) (p q : List Nat) (hp : recBytes now cmd tys lsn vals = p ++ q) (hq : q ≠ []) : fread p = .eof := by
  rw [rec_length] at hsz
  have hc := fieldsOf_char ht
  have hbb := body_bytes (lsn := lsn) hnow hc hf
  have hck := checksum_lt _ hbb
  generalize hn : 4 + 1 + 8 + (layout (writesAll now tys vals)).length + 8 = n at *
  -- everything but the final test is a reader
  have hR : Reads (fun i => rd32 i >>= fun (len1, i) => rd8 i >>= fun (c, i) => rd64 i >>= fun (l, i) => rdVals tys i >>= fun (vs, i) => rd32 i >>= fun (k, i) => rd32 i >>= fun (len2, i) => (pure ((), i) : Out (Unit × In)))
      (recBytes now cmd tys lsn vals) () := by
    refine Reads.conv (a := digits 4 n ++ ([cmd] ++ (bytes (.ull lsn) ++ (layout (writesAll now tys vals) ++
      (digits 4 (XSpec.checksum (body now cmd tys lsn vals)) ++ (digits 4 n ++ [])))))) ?_ (by simp only [recBytes, body, hn, List.append_assoc, List.append_nil])
    refine Reads.bind (reads32 hsz) ?_; dsimp only
    refine Reads.bind (reads8 _) ?_; dsimp only
    refine Reads.bind (reads64 hl) ?_; dsimp only
    refine Reads.bind (readsVals hnow hf) ?_; dsimp only
    refine Reads.bind (reads32 hck) ?_; dsimp only
    refine Reads.bind (reads32 hsz) ?_; dsimp only
    exact Reads.ret rfl
  have h := hR.cut p q X.init 0 hp hq
  simp only [fread]
  cases h32 : rd32 ⟨p, X.init, 0⟩ with
  | ok r =>
    simp only [h32, Out.bind_ok] at h ⊢
    obtain ⟨len1, i⟩ := r
    dsimp only at h ⊢
    cases h8 : rd8 i with
    | ok r =>
      simp only [h8, Out.bind_ok] at h ⊢
      obtain ⟨c, i2⟩ := r
      dsimp only at h ⊢
      -- the command is the one written
      have hcmd : c = cmd := by
        have hp5 : 5 ≤ p.length := by
          rcases p with _ | ⟨a, _ | ⟨b, _ | ⟨c', _ | ⟨d, _ | ⟨e, p⟩⟩⟩⟩⟩
          · simp [rd32, rd8, Out.bind_eof] at h32
          · simp [rd32, rd8, Out.bind_eof, Out.bind_ok] at h32
          · simp [rd32, rd8, Out.bind_eof, Out.bind_ok] at h32
          · simp [rd32, rd8, Out.bind_eof, Out.bind_ok] at h32
          · simp [rd32, rd8, Out.bind_eof, Out.bind_ok, Out.pure_ok] at h32
            obtain ⟨_, rfl⟩ := h32
            simp [rd8] at h8
          · simp
        rcases p with _ | ⟨a, _ | ⟨b, _ | ⟨c', _ | ⟨d, _ | ⟨e, p⟩⟩⟩⟩⟩ <;> simp at hp5
        simp [rd32, rd8, Out.bind_eof, Out.bind_ok, Out.pure_ok] at h32
        obtain ⟨_, rfl⟩ := h32
        simp [rd8] at h8
        have : recBytes now cmd tys lsn vals = n % 256 :: n / 256 % 256 :: n / 256 / 256 % 256 :: n / 256 / 256 / 256 % 256 :: cmd :: (bytes (.ull lsn) ++ (layout (writesAll now tys vals) ++
           (digits 4 (XSpec.checksum (body now cmd tys lsn vals)) ++ digits 4 n))) := by
          simp only [recBytes, body, hn, List.append_assoc]; rfl
        rw [this] at hp
        simp at hp
        rw [← h8.1]; exact hp.2.2.2.2.1.symm
      subst hcmd
      simp only [ht, rdRecord]
      revert h
      cases rd64 i2 with
      | ok r => 
        obtain ⟨l, i3⟩ := r
        simp only [Out.bind_ok]
        cases rdVals tys i3 with
        | ok r =>
          obtain ⟨vs, i4⟩ := r
          simp only [Out.bind_ok]
          cases rd32 i4 with
          | ok r =>
            obtain ⟨k, i5⟩ := r
            simp only [Out.bind_ok]
            cases rd32 i5 with
            | ok r => intro h; cases h
            | eof => intro _; rfl
            | bad => intro h; cases h
            | smash => intro h; cases h
          | eof => intro _; rfl
          | bad => intro h; cases h
          | smash => intro h; cases h
        | eof => intro _; rfl
        | bad => intro h; cases h
        | smash => intro h; cases h
      | eof => intro _; rfl
      | bad => intro h; cases h
      | smash => intro h; cases h
    | eof => rfl
    | bad => rw [h8] at h; cases h
    | smash => rw [h8] at h; cases h
  | eof => rfl
  | bad => rw [h32] at h; cases h
  | smash => rw [h32] at h; cases h

end Verif.Log
