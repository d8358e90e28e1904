import Verif.Ser.MsgBufLemmas
/-!
A message buffer on disk and back.
-/
set_option linter.unusedSectionVars false
namespace Verif.Ser
open MsgBufSpec

theorem Rd.char_ok {pre post : List Nat} {v : Nat} : Rd.char ⟨pre ++ ([v] ++ post), pre.length⟩ = .ok (v, ⟨pre ++ ([v] ++ post), pre.length + 1⟩) := by
  unfold Rd.char
  simp only
  rw [if_pos (by simp)]
  simp

theorem Rd.ull_ok {pre post : List Nat} {v : Nat} (hv : v < 2 ^ 64) :
    Rd.ull ⟨pre ++ (BufSpec.bytes (.ull v) ++ post), pre.length⟩ = .ok (v, ⟨pre ++ (BufSpec.bytes (.ull v) ++ post), pre.length + 8⟩) := by
  have h := Rd.field_ok (pre := pre) (post := post) (f := .ull v) hv
  simp only [Rd.field, Field.kind] at h
  cases hr : Rd.ull ⟨pre ++ (BufSpec.bytes (.ull v) ++ post), pre.length⟩ with
  | ok a => obtain ⟨v', r'⟩ := a; rw [hr, R.bind_ok] at h; simp only [R.pure_ok, R.ok.injEq, Prod.mk.injEq, Field.ull.injEq] at h; rw [h.1, h.2]; simp [BufSpec.bytes, digits_length]
  | abort => rw [hr] at h; cases h
  | outside => rw [hr] at h; cases h

theorem Rd.bytes_ok {pre post : List Nat} {bs : List Nat} (hv : bs.length < 2 ^ 32 ∧ ∀ b ∈ bs, b < 256) :
    Rd.bytes ⟨pre ++ (BufSpec.bytes (.bytes bs) ++ post), pre.length⟩ = .ok (bs, ⟨pre ++ (BufSpec.bytes (.bytes bs) ++ post), pre.length + (4 + bs.length)⟩) := by
  have h := Rd.field_ok (pre := pre) (post := post) (f := .bytes bs) hv
  have hl : (BufSpec.bytes (.bytes bs)).length = 4 + bs.length := by simp [BufSpec.bytes, digits_length]
  rw [hl] at h
  simp only [Rd.field, Field.kind] at h
  cases hr : Rd.bytes ⟨pre ++ (BufSpec.bytes (.bytes bs) ++ post), pre.length⟩ with
  | ok a => obtain ⟨v', r'⟩ := a; rw [hr, R.bind_ok] at h; simp only [R.pure_ok, R.ok.injEq, Prod.mk.injEq, Field.bytes.injEq] at h; rw [h.1, h.2]
  | abort => rw [hr] at h; cases h
  | outside => rw [hr] at h; cases h

theorem Rd.xids_ok {xs : List Nat} (hx : ∀ x ∈ xs, x < 2 ^ 64) (pre post : List Nat) :
    Rd.xids ⟨pre ++ (BufSpec.layout (xs.map .ull) ++ post), pre.length⟩ xs.length = .ok (xs, ⟨pre ++ (BufSpec.layout (xs.map .ull) ++ post), pre.length + 8 * xs.length⟩) := by
  induction xs generalizing pre with
  | nil => rfl
  | cons x xs ih =>
    have h1 := Rd.ull_ok (pre := pre) (post := BufSpec.layout (xs.map .ull) ++ post) (hx x (by simp))
    have h2 := ih (fun y hy => hx y (by simp [hy])) (pre ++ BufSpec.bytes (.ull x))
    have e : BufSpec.layout ((x :: xs).map Field.ull) = BufSpec.bytes (.ull x) ++ BufSpec.layout (xs.map .ull) := by simp [BufSpec.layout]
    have hl : (BufSpec.bytes (.ull x)).length = 8 := by simp [BufSpec.bytes, digits_length]
    rw [e, List.length_cons, Rd.xids]
    simp only [List.length_append, List.append_assoc, hl] at h1 h2 ⊢
    rw [h1, R.bind_ok]
    simp only [h2, R.bind_ok]
    rw [show pre.length + 8 + 8 * xs.length = pre.length + 8 * (xs.length + 1) by omega]
    rfl

theorem layout_append (a b : List Field) : BufSpec.layout (a ++ b) = BufSpec.layout a ++ BufSpec.layout b := by simp [BufSpec.layout]

theorem layout_ulls (xs : List Nat) : (BufSpec.layout (xs.map Field.ull)).length = 8 * xs.length := by
  induction xs with
  | nil => rfl
  | cons x xs ih =>
    have : BufSpec.layout ((x :: xs).map Field.ull) = BufSpec.bytes (.ull x) ++ BufSpec.layout (xs.map .ull) := by simp [BufSpec.layout]
    rw [this, List.length_append, ih, List.length_cons]
    simp [BufSpec.bytes, digits_length]; omega

theorem Msg.fields_length (m : Msg) (f : Bool) : (BufSpec.layout (m.fields f)).length = m.memsize := by
  unfold Msg.fields
  rw [layout_append, layout_append, List.length_append, List.length_append, layout_ulls]
  simp only [BufSpec.layout, BufSpec.bytes, List.flatMap_cons, List.flatMap_nil, List.length_append, digits_length, List.length_cons, List.length_nil, Msg.memsize]
  omega

theorem Msg.fields_valid {m : Msg} {f : Bool} (hv : Valid m) (hk : m.key.length < 2 ^ 32) (hl : m.val.length < 2 ^ 32) : ∀ x ∈ m.fields f, BufSpec.Valid x := by
  intro x hx
  simp only [Msg.fields, List.mem_append, List.mem_cons, List.not_mem_nil, or_false, List.mem_map] at hx
  rcases hx with ((rfl | rfl | rfl | rfl) | ⟨y, hy, rfl⟩) | (rfl | rfl)
  · exact Nat.mod_lt _ (by decide)
  · cases f <;> simp [BufSpec.Valid]
  · exact hv.msn
  · exact Nat.mod_lt _ (by decide)
  · exact hv.xids y hy
  · exact ⟨hk, hv.key⟩
  · exact ⟨hl, hv.val⟩

theorem Rd.msg_ok {m : Msg} {f : Bool} (hv : Valid m) (hk : m.key.length < 2 ^ 32) (hl : m.val.length < 2 ^ 32) (pre post : List Nat) :
    Rd.msg ⟨pre ++ (BufSpec.layout (m.fields f) ++ post), pre.length⟩ = .ok (m, f, ⟨pre ++ (BufSpec.layout (m.fields f) ++ post), pre.length + m.memsize⟩) := by
  have hx : m.xids.length % 256 = m.xids.length := Nat.mod_eq_of_lt (by have := hv.depth; omega)
  have ht : m.typ % 256 = m.typ := Nat.mod_eq_of_lt (by have := typ_lt hv; omega)
  have e : BufSpec.layout (m.fields f) = [m.typ] ++ ([if f then 1 else 0] ++ (BufSpec.bytes (.ull m.msn) ++ ([m.xids.length] ++ (BufSpec.layout (m.xids.map .ull) ++
      (BufSpec.bytes (.bytes m.key) ++ BufSpec.bytes (.bytes m.val)))))) := by
    unfold Msg.fields
    rw [layout_append, layout_append, hx, ht]
    simp [BufSpec.layout, BufSpec.bytes]
  generalize hb : pre ++ (BufSpec.layout (m.fields f) ++ post) = buf
  rw [e] at hb
  simp only [List.append_assoc] at hb
  have c1 : Rd.char ⟨buf, pre.length⟩ = .ok (m.typ, ⟨buf, pre.length + 1⟩) := by rw [← hb]; exact Rd.char_ok
  have hb := (List.append_assoc _ _ _).trans hb
  have c2 : Rd.char ⟨buf, pre.length + 1⟩ = .ok (if f then 1 else 0, ⟨buf, pre.length + 2⟩) := by
    have := Rd.char_ok (pre := pre ++ [m.typ]) (v := if f then 1 else 0) (post := BufSpec.bytes (.ull m.msn) ++ ([m.xids.length] ++ (BufSpec.layout (m.xids.map .ull) ++
      (BufSpec.bytes (.bytes m.key) ++ (BufSpec.bytes (.bytes m.val) ++ post)))))
    rw [hb] at this
    simpa using this
  have hb := (List.append_assoc _ _ _).trans hb
  have hu : (BufSpec.bytes (.ull m.msn)).length = 8 := by simp [BufSpec.bytes, digits_length]
  have c3 : Rd.ull ⟨buf, pre.length + 2⟩ = .ok (m.msn, ⟨buf, pre.length + 10⟩) := by
    have := Rd.ull_ok (pre := pre ++ [m.typ] ++ [if f then 1 else 0]) (post := [m.xids.length] ++ (BufSpec.layout (m.xids.map .ull) ++
      (BufSpec.bytes (.bytes m.key) ++ (BufSpec.bytes (.bytes m.val) ++ post)))) hv.msn
    rw [hb] at this
    simpa using this
  have hb := (List.append_assoc _ _ _).trans hb
  have c4 : Rd.char ⟨buf, pre.length + 10⟩ = .ok (m.xids.length, ⟨buf, pre.length + 11⟩) := by
    have := Rd.char_ok (pre := pre ++ [m.typ] ++ [if f then 1 else 0] ++ BufSpec.bytes (.ull m.msn)) (v := m.xids.length) (post := BufSpec.layout (m.xids.map .ull) ++
      (BufSpec.bytes (.bytes m.key) ++ (BufSpec.bytes (.bytes m.val) ++ post)))
    rw [hb] at this
    simpa [hu] using this
  have hb := (List.append_assoc _ _ _).trans hb
  have c5 : Rd.xids ⟨buf, pre.length + 11⟩ m.xids.length = .ok (m.xids, ⟨buf, pre.length + 11 + 8 * m.xids.length⟩) := by
    have := Rd.xids_ok hv.xids (pre ++ [m.typ] ++ [if f then 1 else 0] ++ BufSpec.bytes (.ull m.msn) ++ [m.xids.length])
      (BufSpec.bytes (.bytes m.key) ++ (BufSpec.bytes (.bytes m.val) ++ post))
    rw [hb] at this
    simpa [hu] using this
  have hb := (List.append_assoc _ _ _).trans hb
  have c6 : Rd.bytes ⟨buf, pre.length + 11 + 8 * m.xids.length⟩ = .ok (m.key, ⟨buf, pre.length + 11 + 8 * m.xids.length + (4 + m.key.length)⟩) := by
    have := Rd.bytes_ok (pre := pre ++ [m.typ] ++ [if f then 1 else 0] ++ BufSpec.bytes (.ull m.msn) ++ [m.xids.length] ++ BufSpec.layout (m.xids.map .ull))
      (post := BufSpec.bytes (.bytes m.val) ++ post) ⟨hk, hv.key⟩
    rw [hb] at this
    simp only [List.length_append, List.length_cons, List.length_nil, hu, layout_ulls] at this
    rw [show pre.length + 11 + 8 * m.xids.length = pre.length + (0 + 1) + (0 + 1) + 8 + (0 + 1) + 8 * m.xids.length by omega]
    exact this
  have hb := (List.append_assoc _ _ _).trans hb
  have c7 : Rd.bytes ⟨buf, pre.length + 11 + 8 * m.xids.length + (4 + m.key.length)⟩ = .ok (m.val, ⟨buf, pre.length + 11 + 8 * m.xids.length + (4 + m.key.length) + (4 + m.val.length)⟩) := by
    have := Rd.bytes_ok (pre := pre ++ [m.typ] ++ [if f then 1 else 0] ++ BufSpec.bytes (.ull m.msn) ++ [m.xids.length] ++ BufSpec.layout (m.xids.map .ull) ++ BufSpec.bytes (.bytes m.key))
      (post := post) ⟨hl, hv.val⟩
    rw [hb] at this
    have hkl : (BufSpec.bytes (.bytes m.key)).length = 4 + m.key.length := by simp [BufSpec.bytes, digits_length]
    simp only [List.length_append, List.length_cons, List.length_nil, hu, layout_ulls, hkl] at this
    rw [show pre.length + 11 + 8 * m.xids.length + (4 + m.key.length) = pre.length + (0 + 1) + (0 + 1) + 8 + (0 + 1) + 8 * m.xids.length + (4 + m.key.length) by omega]
    exact this
  unfold Rd.msg
  simp only [c1, R.bind_ok, c2, c3, c4]
  rw [if_pos hv.depth]
  simp only [c5, R.bind_ok, c6, c7]
  rw [show pre.length + m.memsize = pre.length + 11 + 8 * m.xids.length + (4 + m.key.length) + (4 + m.val.length) by unfold Msg.memsize; omega]
  cases f <;> rfl

/-! ### The whole buffer -/

/-- The bytes of the messages of a buffer on disk. -/
def diskOf (s : List (Msg × Bool)) : List Nat := s.flatMap fun x => BufSpec.layout (x.1.fields x.2)

theorem diskOf_length (s : List (Msg × Bool)) : (diskOf s).length = (memOf s).length := by
  induction s with
  | nil => rfl
  | cons x s ih => simp only [diskOf, memOf, List.flatMap_cons, List.length_append, Msg.fields_length, Msg.entry_length] at ih ⊢; rw [ih]

/-- Messages that can be in a buffer. -/
def Good (s : List (Msg × Bool)) : Prop := ∀ x ∈ s, Valid x.1 ∧ x.1.key.length < 2 ^ 32 ∧ x.1.val.length < 2 ^ 32

theorem MB.writeAll_ok {s : List (Msg × Bool)} {os : List Nat} {w : W} (hg : Good s) (ho : os.length = s.length) (hf : w.out.length + (diskOf s).length ≤ w.size) :
    MB.writeAll w (os.zip s) = .ok { w with out := w.out ++ diskOf s } := by
  induction s generalizing os w with
  | nil => simp [MB.writeAll, diskOf]
  | cons x s ih =>
    cases os with
    | nil => simp at ho
    | cons o os =>
      obtain ⟨m, f⟩ := x
      have hd : diskOf ((m, f) :: s) = BufSpec.layout (m.fields f) ++ diskOf s := rfl
      rw [hd, List.length_append] at hf
      obtain ⟨h1, h2, h3⟩ : Valid m ∧ m.key.length < 2 ^ 32 ∧ m.val.length < 2 ^ 32 := hg (m, f) (by simp)
      rw [List.zip_cons_cons, MB.writeAll, W.fields0_ok (Msg.fields_valid h1 h2 h3) (by omega), R.bind_ok,
        ih (fun y hy => hg y (by simp [hy])) (by simpa using ho) (by simp only [List.length_append]; omega), hd]
      simp only [List.append_assoc]

/-- The offsets of the messages with a property. -/
def collect (P : Msg → Bool → Bool) : Nat → List (Msg × Bool) → List Nat
  | _, [] => []
  | base, (m, f) :: s => if P m f then base :: collect P (base + m.memsize) s else collect P (base + m.memsize) s

def isSingle (m : Msg) : Bool := decide (m.typ ∈ single)

theorem appliesOnce_ok {m : Msg} (h : Valid m) : appliesOnce m.typ = .ok (isSingle m) := by
  have h := h.typ
  unfold isSingle appliesOnce
  simp only [single, every, List.mem_cons, List.not_mem_nil, or_false] at h ⊢
  rcases h with h | h
  · rw [if_pos (by omega), decide_eq_true h]
  · rw [if_neg (by omega), if_pos (by omega), decide_eq_false (by omega)]

theorem collect_append (P : Msg → Bool → Bool) (base : Nat) (s t : List (Msg × Bool)) : collect P base (s ++ t) = collect P base s ++ collect P (base + (memOf s).length) t := by
  induction s generalizing base with
  | nil => simp [collect, memOf]
  | cons x s ih =>
    obtain ⟨m, f⟩ := x
    have : (memOf ((m, f) :: s)).length = m.memsize + (memOf s).length := by simp [memOf, Msg.entry_length]
    simp only [List.cons_append, collect, ih, this]
    split <;> simp [Nat.add_assoc]

theorem Filled.loop_ok {s : List (Msg × Bool)} {st : Filled} (hg : Good s) (hf : st.b.mem.length + (memOf s).length ≤ st.b.size) (pre post : List Nat) :
    st.loop ⟨pre ++ (diskOf s ++ post), pre.length⟩ s.length =
      .ok (⟨⟨st.b.mem ++ memOf s, st.b.n + s.length, st.b.size⟩, st.fresh ++ collect (fun m f => isSingle m && f) st.b.mem.length s,
        st.stale ++ collect (fun m f => isSingle m && !f) st.b.mem.length s, st.bcast ++ collect (fun m _ => !isSingle m) st.b.mem.length s⟩,
        ⟨pre ++ (diskOf s ++ post), pre.length + (diskOf s).length⟩) := by
  induction s generalizing st pre with
  | nil => simp [Filled.loop, diskOf, memOf, collect]
  | cons x s ih =>
    obtain ⟨m, f⟩ := x
    have hd : diskOf ((m, f) :: s) = BufSpec.layout (m.fields f) ++ diskOf s := rfl
    have hm : memOf ((m, f) :: s) = m.entry f ++ memOf s := rfl
    rw [hm, List.length_append, Msg.entry_length] at hf
    obtain ⟨h1, h2, h3⟩ := hg (m, f) (by simp)
    have r1 := Rd.msg_ok (f := f) h1 h2 h3 pre (diskOf s ++ post)
    have he : st.b.enqueue m f = _ := MB.enqueue_fits (f := f) (by omega)
    rw [hd, List.length_cons, Filled.loop, List.append_assoc, r1, R.bind_ok]
    simp only [appliesOnce_ok h1, R.bind_ok, he]
    have key : ∀ st' : Filled, st'.b = ⟨st.b.mem ++ m.entry f, st.b.n + 1, st.b.size⟩ →
        st'.loop ⟨pre ++ (BufSpec.layout (m.fields f) ++ (diskOf s ++ post)), pre.length + m.memsize⟩ s.length =
        .ok (⟨⟨st.b.mem ++ memOf ((m, f) :: s), st.b.n + (s.length + 1), st.b.size⟩, st'.fresh ++ collect (fun m f => isSingle m && f) (st.b.mem.length + m.memsize) s,
        st'.stale ++ collect (fun m f => isSingle m && !f) (st.b.mem.length + m.memsize) s, st'.bcast ++ collect (fun m _ => !isSingle m) (st.b.mem.length + m.memsize) s⟩,
        ⟨pre ++ (BufSpec.layout (m.fields f) ++ (diskOf s ++ post)), pre.length + (BufSpec.layout (m.fields f) ++ diskOf s).length⟩) := by
      intro st' hst
      have := ih (st := st') (fun y hy => hg y (by simp [hy])) (by rw [hst]; simp only [List.length_append, Msg.entry_length]; omega) (pre ++ BufSpec.layout (m.fields f))
      simp only [List.append_assoc, List.length_append, Msg.fields_length, hst, Msg.entry_length] at this ⊢
      rw [this, hm, show st.b.n + 1 + s.length = st.b.n + (s.length + 1) by omega, Nat.add_assoc]
    cases hs : isSingle m <;> cases f <;> simp only [if_true, Bool.false_eq_true, if_false] <;> rw [key _ rfl] <;>
      simp [collect, hs, List.append_assoc]

theorem MB.deserialize_ok {s : List (Msg × Bool)} (hg : Good s) (hn : s.length < 2 ^ 31) (pre post : List Nat) :
    MB.deserialize ⟨pre ++ (BufSpec.bytes (.int s.length) ++ (diskOf s ++ post)), pre.length⟩ =
      .ok (⟨⟨memOf s, s.length, (pre ++ (BufSpec.bytes (.int s.length) ++ (diskOf s ++ post))).length + 64⟩, collect (fun m f => isSingle m && f) 0 s,
        collect (fun m f => isSingle m && !f) 0 s, collect (fun m _ => !isSingle m) 0 s⟩,
        ⟨pre ++ (BufSpec.bytes (.int s.length) ++ (diskOf s ++ post)), pre.length + (4 + (diskOf s).length)⟩) := by
  have h1 := Rd.int_ok (pre := pre) (post := diskOf s ++ post) (v := s.length) (by omega)
  have h2 := Filled.loop_ok (st := ⟨⟨[], 0, (pre ++ (BufSpec.bytes (.int s.length) ++ (diskOf s ++ post))).length + 64⟩, [], [], []⟩) hg
    (by simp only [List.length_append, diskOf_length, List.length_nil]; omega) (pre ++ BufSpec.bytes (.int s.length)) post
  have hl : (BufSpec.bytes (.int s.length)).length = 4 := by simp [BufSpec.bytes, digits_length]
  have hb : BufSpec.bytes (.int s.length) = BufSpec.digits 4 s.length := rfl
  rw [← hb] at h1
  simp only [List.append_assoc, List.length_append, hl, List.nil_append, List.length_nil, Nat.zero_add] at h1 h2 ⊢
  unfold MB.deserialize
  rw [h1, R.bind_ok]
  simp only
  rw [if_pos hn]
  simp only [List.length_append, hl]
  rw [h2, R.bind_ok]
  simp only [if_true]
  rw [Nat.add_assoc pre.length 4]
  rfl

theorem Rd.ints_ok {xs : List Nat} (hx : ∀ x ∈ xs, x < 2 ^ 32) (pre post : List Nat) :
    Rd.ints ⟨pre ++ (BufSpec.layout (xs.map .int) ++ post), pre.length⟩ xs.length = .ok (xs, ⟨pre ++ (BufSpec.layout (xs.map .int) ++ post), pre.length + 4 * xs.length⟩) := by
  induction xs generalizing pre with
  | nil => rfl
  | cons x xs ih =>
    have h1 := Rd.int_ok (pre := pre) (post := BufSpec.layout (xs.map .int) ++ post) (hx x (by simp))
    have h2 := ih (fun y hy => hx y (by simp [hy])) (pre ++ BufSpec.digits 4 x)
    have e : BufSpec.layout ((x :: xs).map Field.int) = BufSpec.digits 4 x ++ BufSpec.layout (xs.map .int) := by simp [BufSpec.layout, BufSpec.bytes]
    rw [e, List.length_cons, Rd.ints]
    simp only [List.length_append, List.append_assoc, digits_length] at h1 h2 ⊢
    rw [h1, R.bind_ok]
    simp only [h2, R.bind_ok]
    rw [show pre.length + 4 + 4 * xs.length = pre.length + 4 * (xs.length + 1) by omega]
    rfl

theorem layout_ints (xs : List Nat) : (BufSpec.layout (xs.map Field.int)).length = 4 * xs.length := by
  induction xs with
  | nil => rfl
  | cons x xs ih =>
    have : BufSpec.layout ((x :: xs).map Field.int) = BufSpec.bytes (.int x) ++ BufSpec.layout (xs.map .int) := by simp [BufSpec.layout]
    rw [this, List.length_append, ih, List.length_cons]
    simp [BufSpec.bytes, digits_length]; omega

theorem layout_offsets (xs : List Nat) : (BufSpec.layout (offsetFields xs)).length = 4 + 4 * xs.length := by
  have : BufSpec.layout (offsetFields xs) = BufSpec.digits 4 xs.length ++ BufSpec.layout (xs.map .int) := by simp [BufSpec.layout, offsetFields, BufSpec.bytes]
  rw [this, List.length_append, layout_ints, digits_length]

theorem Rd.offsets_ok {xs : List Nat} (hx : ∀ x ∈ xs, x < 2 ^ 32) (hn : xs.length < 2 ^ 31) (pre post : List Nat) :
    Rd.offsets ⟨pre ++ (BufSpec.layout (offsetFields xs) ++ post), pre.length⟩ =
      .ok (xs, ⟨pre ++ (BufSpec.layout (offsetFields xs) ++ post), pre.length + (4 + 4 * xs.length)⟩) := by
  have e : BufSpec.layout (offsetFields xs) = BufSpec.digits 4 xs.length ++ BufSpec.layout (xs.map .int) := by simp [BufSpec.layout, offsetFields, BufSpec.bytes]
  have h1 := Rd.int_ok (pre := pre) (post := BufSpec.layout (xs.map .int) ++ post) (v := xs.length) (by omega)
  have h2 := Rd.ints_ok hx (pre ++ BufSpec.digits 4 xs.length) post
  rw [e]
  simp only [List.length_append, List.append_assoc, digits_length] at h1 h2 ⊢
  unfold Rd.offsets
  rw [h1, R.bind_ok]
  simp only
  rw [if_pos hn, h2, Nat.add_assoc]

theorem offsets_valid {xs : List Nat} (hx : ∀ x ∈ xs, x < 2 ^ 32) (hn : xs.length < 2 ^ 31) : ∀ f ∈ offsetFields xs, BufSpec.Valid f := by
  intro f hf
  simp only [offsetFields, List.mem_cons, List.mem_map] at hf
  rcases hf with rfl | ⟨y, hy, rfl⟩
  · exact Nat.lt_trans hn (by decide)
  · exact hx y hy

/-- The bytes of a child's buffer with its trees. -/
def bncBytes (s : List (Msg × Bool)) (fresh stale bcast : List Nat) : List Nat :=
  [0xbb] ++ (BufSpec.bytes (.int s.length) ++ (diskOf s ++ (BufSpec.layout (offsetFields fresh) ++ (BufSpec.layout (offsetFields stale) ++ BufSpec.layout (offsetFields bcast)))))

theorem bncBytes_length (s : List (Msg × Bool)) (fresh stale bcast : List Nat) :
    (bncBytes s fresh stale bcast).length = 1 + (4 + (memOf s).length) + (4 + 4 * fresh.length) + (4 + 4 * stale.length) + (4 + 4 * bcast.length) := by
  simp only [bncBytes, List.length_append, layout_offsets, diskOf_length, List.length_cons, List.length_nil, BufSpec.bytes, digits_length]
  omega

/-- Offsets that fit in an `int`. -/
structure Small (l : List Nat) : Prop where
  off : ∀ x ∈ l, x < 2 ^ 32
  len : l.length < 2 ^ 31

theorem Bnc.serialize_ok {c : Bnc} {s : List (Msg × Bool)} {w : W} (hm : c.b.mem = memOf s) (hn : c.b.n = s.length) (hs : s.length < 2 ^ 31) (hg : Good s) (h1 : Small c.fresh) (h2 : Small c.stale)
    (h3 : Small c.bcast) (hf : w.out.length + (bncBytes s c.fresh c.stale c.bcast).length ≤ w.size) :
    c.serialize w = .ok { w with out := w.out ++ bncBytes s c.fresh c.stale c.bcast } := by
  rw [bncBytes_length] at hf
  have hi : (BufSpec.bytes (.int s.length)).length = 4 := by simp [BufSpec.bytes, digits_length]
  obtain ⟨os, e1, e2, _⟩ := MB.iterLoop_ok (b := c.b) (pre := []) (s := s) (fuel := c.b.mem.length) (by rw [hm]; rfl) hg (by rw [hm]; omega)
  have e1 : c.b.iterate = .ok (os.zip s) := e1
  unfold Bnc.serialize
  have w0 : w.char0 0xbb = .ok { w with out := w.out ++ [0xbb] } := W.field0_ok (f := .char 0xbb) (by simp [BufSpec.Valid]) (by simp [BufSpec.bytes]; omega)
  rw [w0, R.bind_ok]
  unfold MB.serialize
  have w1 : W.int0 { w with out := w.out ++ [0xbb] } c.b.n = .ok { w with out := w.out ++ [0xbb] ++ BufSpec.bytes (.int s.length) } := by
    rw [hn]
    exact W.field0_ok (w := { w with out := w.out ++ [0xbb] }) (f := .int s.length) (Nat.lt_trans hs (by decide)) (by simp only [List.length_append, hi, List.length_cons, List.length_nil]; omega)
  rw [w1, R.bind_ok, e1, R.bind_ok, MB.writeAll_ok hg e2 (by simp only [List.length_append, hi, diskOf_length, List.length_cons, List.length_nil]; omega), R.bind_ok,
    W.fields0_ok (offsets_valid h1.off h1.len) (by simp only [List.length_append, hi, diskOf_length, List.length_cons, List.length_nil, layout_offsets]; omega), R.bind_ok,
    W.fields0_ok (offsets_valid h2.off h2.len) (by simp only [List.length_append, hi, diskOf_length, List.length_cons, List.length_nil, layout_offsets]; omega), R.bind_ok,
    W.fields0_ok (offsets_valid h3.off h3.len) (by simp only [List.length_append, hi, diskOf_length, List.length_cons, List.length_nil, layout_offsets]; omega)]
  simp only [bncBytes, List.append_assoc]

theorem Bnc.deserialize_ok {s : List (Msg × Bool)} {fresh stale bcast : List Nat} (hs : s.length < 2 ^ 31) (hg : Good s) (h1 : Small fresh) (h2 : Small stale) (h3 : Small bcast) (pre post : List Nat) :
    ∃ size, Bnc.deserialize ⟨pre ++ (bncBytes s fresh stale bcast ++ post), pre.length + 1⟩ =
      .ok (⟨⟨memOf s, s.length, size⟩, fresh, [], stale, bcast⟩, ⟨pre ++ (bncBytes s fresh stale bcast ++ post), pre.length + (bncBytes s fresh stale bcast).length⟩) := by
  have hi : (BufSpec.bytes (.int s.length)).length = 4 := by simp [BufSpec.bytes, digits_length]
  have d1 := MB.deserialize_ok hg hs (pre ++ [0xbb]) (BufSpec.layout (offsetFields fresh) ++ (BufSpec.layout (offsetFields stale) ++ (BufSpec.layout (offsetFields bcast) ++ post)))
  have d2 := Rd.offsets_ok h1.off h1.len (pre ++ [0xbb] ++ BufSpec.bytes (.int s.length) ++ diskOf s) (BufSpec.layout (offsetFields stale) ++ (BufSpec.layout (offsetFields bcast) ++ post))
  have d3 := Rd.offsets_ok h2.off h2.len (pre ++ [0xbb] ++ BufSpec.bytes (.int s.length) ++ diskOf s ++ BufSpec.layout (offsetFields fresh)) (BufSpec.layout (offsetFields bcast) ++ post)
  have d4 := Rd.offsets_ok h3.off h3.len (pre ++ [0xbb] ++ BufSpec.bytes (.int s.length) ++ diskOf s ++ BufSpec.layout (offsetFields fresh) ++ BufSpec.layout (offsetFields stale)) post
  have hb : pre ++ (bncBytes s fresh stale bcast ++ post) = pre ++ ([0xbb] ++ (BufSpec.bytes (.int s.length) ++ (diskOf s ++ (BufSpec.layout (offsetFields fresh) ++
    (BufSpec.layout (offsetFields stale) ++ (BufSpec.layout (offsetFields bcast) ++ post)))))) := by simp only [bncBytes, List.append_assoc]
  rw [bncBytes_length, hb]
  simp only [List.append_assoc] at d1 d2 d3 d4
  generalize pre ++ ([0xbb] ++ (BufSpec.bytes (.int s.length) ++ (diskOf s ++ (BufSpec.layout (offsetFields fresh) ++
    (BufSpec.layout (offsetFields stale) ++ (BufSpec.layout (offsetFields bcast) ++ post)))))) = buf at d1 d2 d3 d4 ⊢
  simp only [List.length_append, hi, layout_offsets, diskOf_length, List.length_cons, List.length_nil] at d1 d2 d3 d4
  unfold Bnc.deserialize
  refine ⟨buf.length + 64, ?_⟩
  rw [show pre.length + 1 = pre.length + (0 + 1) by omega, d1, R.bind_ok]
  simp only
  rw [show pre.length + (0 + 1) + (4 + (memOf s).length) = pre.length + (0 + 1 + (4 + (memOf s).length)) by omega, d2, R.bind_ok]
  simp only
  rw [show pre.length + (0 + 1 + (4 + (memOf s).length)) + (4 + 4 * fresh.length) = pre.length + (0 + 1 + (4 + ((memOf s).length + (4 + 4 * fresh.length)))) by omega, d3, R.bind_ok]
  simp only
  rw [show pre.length + (0 + 1 + (4 + ((memOf s).length + (4 + 4 * fresh.length)))) + (4 + 4 * stale.length) =
    pre.length + (0 + 1 + (4 + ((memOf s).length + (4 + 4 * fresh.length + (4 + 4 * stale.length))))) by omega, d4, R.bind_ok]
  simp only
  rw [show pre.length + (0 + 1 + (4 + ((memOf s).length + (4 + 4 * fresh.length + (4 + 4 * stale.length))))) + (4 + 4 * bcast.length) =
    pre.length + (1 + (4 + (memOf s).length) + (4 + 4 * fresh.length) + (4 + 4 * stale.length) + (4 + 4 * bcast.length)) by omega]
  rfl

end Verif.Ser
