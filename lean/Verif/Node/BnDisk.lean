import Verif.Node.BnLemmas
import Verif.Node.Wire
/-!
The rows of a part of a leaf, written and read back.
-/
set_option linter.unusedVariables false
set_option linter.unusedSimpArgs false
namespace Verif.Node
open Verif.Ser BufSpec

/-- One row of the form with keys of different lengths: the record's first byte, the key's length, the record's counts, the key,
and the rest of the record. -/
def rowBytes (k l : List Nat) : List Nat :=
  l.take 1 ++ (digits 4 k.length ++ ((l.drop 1).take (if l.headD 0 = 0 then 4 else 5) ++ (k ++ l.drop (if l.headD 0 = 0 then 5 else 6))))

theorem rowBytes_clean (k v : List Nat) : rowBytes k ([0] ++ (digits 4 v.length ++ v)) = [0] ++ (digits 4 k.length ++ (digits 4 v.length ++ (k ++ v))) := by
  simp [rowBytes, digits]

theorem rowBytes_mvcc (k rest : List Nat) (nc np : Nat) :
    rowBytes k ([1] ++ (digits 4 nc ++ ([np] ++ rest))) = [1] ++ (digits 4 k.length ++ (digits 4 nc ++ ([np] ++ (k ++ rest)))) := by
  simp [rowBytes, digits]

theorem rowBytes_length {k l : List Nat} (h : Shape l) : (rowBytes k l).length = 4 + k.length + l.length := by
  cases h with
  | clean v hv hl => rw [rowBytes_clean]; simp [digits_length]; omega
  | mvcc nc np rest hn hc hp hr hs => rw [rowBytes_mvcc]; simp [digits_length]; omega

theorem rowBytes_bytes {k l : List Nat} (h : Shape l) (hk : Bytes k) : Bytes (rowBytes k l) := by
  cases h with
  | clean v hv hl => rw [rowBytes_clean]; simp only [Bytes.append]; exact ⟨by simp [Bytes], digits_bytes _ _, digits_bytes _ _, hk, hv⟩
  | mvcc nc np rest hn hc hp hr hs => rw [rowBytes_mvcc]; simp only [Bytes.append]; exact ⟨by simp [Bytes], digits_bytes _ _, digits_bytes _ _, by simpa [Bytes] using hp, hk, hr⟩

theorem writeLe_puts {k l : List Nat} (h : Shape l) : Puts (writeLe k l) (rowBytes k l) := by
  cases h with
  | clean v hv hl =>
    rw [rowBytes_clean]
    have e : le (digits 4 v.length) = v.length := by rw [le_digits]; exact Nat.mod_eq_of_lt (by omega)
    refine ((Puts.char 0).seq ((Puts.int k.length).seq ((Puts.int v.length).seq ((Puts.literal k).seq (Puts.literal v))))).congr (fun w => ?_) rfl
    have h1 : ([0] ++ (digits 4 v.length ++ v)).headD 0 = 0 := rfl
    have h2 : (([0] ++ (digits 4 v.length ++ v)).drop 1).take 4 = digits 4 v.length := by simp [digits]
    have h3 : (([0] ++ (digits 4 v.length ++ v)).drop 5) = v := by simp [digits]
    have h4 : 5 + v.length ≤ ([0] ++ (digits 4 v.length ++ v)).length := by simp [digits_length]; omega
    rw [writeLe, h1, h2, h3, e]
    simp only [if_true, if_pos h4, List.take_length]
  | mvcc nc np rest hn hc hp hr hs =>
    rw [rowBytes_mvcc]
    have e : le (digits 4 nc) = nc := by rw [le_digits]; exact Nat.mod_eq_of_lt (by omega)
    refine ((Puts.char 1).seq ((Puts.int k.length).seq ((Puts.int nc).seq ((Puts.char np).seq ((Puts.literal k).seq (Puts.literal rest)))))).congr (fun w => ?_) rfl
    have h1 : ([1] ++ (digits 4 nc ++ ([np] ++ rest))).headD 0 = 1 := rfl
    have h2 : (([1] ++ (digits 4 nc ++ ([np] ++ rest))).drop 1).take 4 = digits 4 nc := by simp [digits]
    have h3 : (([1] ++ (digits 4 nc ++ ([np] ++ rest))).drop 5).take 1 = [np] := by simp [digits]
    have h4 : (([1] ++ (digits 4 nc ++ ([np] ++ rest))).drop 6) = rest := by simp [digits]
    have h5 : ([1] ++ (digits 4 nc ++ ([np] ++ rest))).length - 6 = rest.length := by simp [digits_length]; omega
    rw [writeLe, h1, h2, h3, h4, h5, e]
    simp [le]

def rowsBytes (rows : Rows) : List Nat := rows.flatMap fun r => rowBytes r.1 r.2

theorem rowsBytes_length {rows : Rows} (h : Shapes rows) : (rowsBytes rows).length = keyRoom rows + (recs rows).length := by
  induction rows with
  | nil => rfl
  | cons r rows ih =>
    obtain ⟨k, l⟩ := r
    have hl : Shape l := h (k, l) (List.mem_cons_self ..)
    have := ih fun r hr => h r (List.mem_cons_of_mem _ hr)
    simp only [rowsBytes, List.flatMap_cons, List.length_append] at this ⊢
    rw [rowBytes_length hl, keyRoom_cons, recs_cons, List.length_append, this]
    simp only; omega

theorem writeAllLe_puts {mp : Mp} {vs : List (List Nat × Nat)} {rows : Rows} (h : Pts mp.mem vs rows) (hs : Shapes rows) : Puts (writeAllLe mp vs) (rowsBytes rows) := by
  induction h with
  | nil => exact Puts.nil
  | @cons k l o vs rows h t ih =>
    have hl : Shape l := hs (k, l) (List.mem_cons_self ..)
    refine ((writeLe_puts (k := k) hl).seq (ih fun r hr => hs r (List.mem_cons_of_mem _ hr))).congr (fun w => ?_) rfl
    rw [writeAllLe, h.read hl, R.bind_ok]

theorem takeN_ok (a b : List Nat) {n : Nat} (hn : n = a.length) : takeN (a ++ b) n = .ok (a, b) := by
  subst hn; simp [takeN]

theorem readOne_ok {k l : List Nat} (h : Shape l) (hk : k.length < 2 ^ 32) (post : List Nat) : readOne (rowBytes k l ++ post) = .ok (k, l, post) := by
  have ek : le (digits 4 k.length) = k.length := by rw [le_digits]; exact Nat.mod_eq_of_lt (by omega)
  cases h with
  | clean v hv hl =>
    have e : le (digits 4 v.length) = v.length := by rw [le_digits]; exact Nat.mod_eq_of_lt (by omega)
    rw [rowBytes_clean]
    simp only [List.append_assoc]
    rw [readOne, takeN_ok [_] _ (by rfl), R.bind_ok]
    simp only
    rw [takeN_ok _ _ (by rw [digits_length]), R.bind_ok]
    simp only
    rw [if_pos (by rfl), takeN_ok _ _ (by rw [digits_length]), R.bind_ok]
    simp only
    rw [takeN_ok _ _ ek, R.bind_ok]
    simp only
    rw [takeN_ok _ _ e, R.bind_ok]
    simp only [e, R.pure_ok, store32_digits, List.append_assoc]
  | mvcc nc np rest hn hc hp hr hs =>
    have e : le (digits 4 nc) = nc := by rw [le_digits]; exact Nat.mod_eq_of_lt (by omega)
    rw [rowBytes_mvcc]
    simp only [List.append_assoc]
    rw [readOne, takeN_ok [_] _ (by rfl), R.bind_ok]
    simp only
    rw [takeN_ok _ _ (by rw [digits_length]), R.bind_ok]
    simp only
    rw [if_neg (by decide), takeN_ok _ _ (by rw [digits_length]), R.bind_ok]
    simp only
    rw [takeN_ok [np] _ (by rfl), R.bind_ok]
    simp only
    rw [takeN_ok _ _ ek, R.bind_ok]
    have enp : le [np] = np := by simp [le]
    simp only [e, enp]
    rw [restSize_of (hs post)]
    simp only
    rw [takeN_ok _ _ rfl, R.bind_ok]
    simp only [R.pure_ok, store32_digits, List.append_assoc]

/-- The rows read so far, in an object whose pool has no size yet. -/
theorem readLoop_ok {alloc : Nat} {rows : Rows} (hs : Shapes rows) (hk : ∀ r ∈ rows, r.1.length < 2 ^ 32) (post : List Nat) (b : Bn) (done : Rows)
    (hb : ({ b with mp := { b.mp with size := alloc } } : Bn).Holds done) (hf : b.mp.mem.length + (recs rows).length ≤ alloc) :
    ∃ b', readLoop alloc rows.length (rowsBytes rows ++ post) b = .ok (b', post) ∧ ({ b' with mp := { b'.mp with size := alloc } } : Bn).Holds (done ++ rows) ∧
      b'.mp.frag = b.mp.frag := by
  induction rows generalizing b done with
  | nil => exact ⟨b, rfl, by simpa using hb, rfl⟩
  | cons r rows ih =>
    obtain ⟨k, l⟩ := r
    have hl : Shape l := hs (k, l) (List.mem_cons_self ..)
    rw [recs_cons, List.length_append] at hf
    have hp := hb.push (key := k) hl (by simp only; omega)
    obtain ⟨b', he, hh, hfr⟩ := ih (fun r hr => hs r (List.mem_cons_of_mem _ hr)) (fun r hr => hk r (List.mem_cons_of_mem _ hr))
      (Bn.mk (b.dmt.append (k, b.mp.mem.length)) { b.mp with mem := b.mp.mem ++ l } (b.keysz + (4 + k.length))) (done ++ [(k, l)]) hp (by simp only [List.length_append]; omega)
    refine ⟨b', ?_, by simpa only [List.append_assoc, List.singleton_append] using hh, hfr⟩
    have e : rowsBytes ((k, l) :: rows) ++ post = rowBytes k l ++ (rowsBytes rows ++ post) := by simp [rowsBytes]
    rw [List.length_cons, readLoop, e, readOne_ok hl (hk (k, l) (List.mem_cons_self ..)), R.bind_ok]
    simp only
    rw [if_pos (by omega)]
    exact he

/-! ### Keys of one length -/

def kls (vs : List (List Nat × Nat)) : List Nat := vs.flatMap klBytes

theorem kls_length (vs : List (List Nat × Nat)) : (kls vs).length = (vs.map fun v => 4 + v.1.length).sum := by
  induction vs with
  | nil => rfl
  | cons v vs ih => simp only [kls, List.flatMap_cons, List.length_append, List.map_cons, List.sum_cons] at *; rw [ih]; simp [klBytes, store32]; omega

theorem unpackKl_ok {fixed : Nat} {vs : List (List Nat × Nat)} (hf : ∀ v ∈ vs, kl v = fixed) (ho : ∀ v ∈ vs, v.2 < 2 ^ 32) :
    unpackKl fixed vs.length (kls vs) = .ok vs := by
  induction vs with
  | nil => rfl
  | cons v vs ih =>
    obtain ⟨k, o⟩ := v
    have h1 := hf (k, o) (List.mem_cons_self ..)
    have h2 := ho (k, o) (List.mem_cons_self ..)
    simp only [kl] at h1 h2
    have e : kls ((k, o) :: vs) = (digits 4 o ++ k) ++ kls vs := rfl
    have hl : (digits 4 o ++ k).length = fixed := by rw [List.length_append, digits_length, h1]
    have h3 : (digits 4 o ++ k).drop 4 = k := by rw [List.drop_left' (digits_length _ _)]
    have h4 : ((digits 4 o ++ k) ++ kls vs).take 4 = digits 4 o := by rw [List.append_assoc, List.take_left' (digits_length _ _)]
    rw [List.length_cons, unpackKl, e, if_pos ⟨by rw [List.length_append, hl]; omega, by omega⟩, List.drop_left' hl,
      ih (fun v hv => hf v (List.mem_cons_of_mem _ hv)) (fun v hv => ho v (List.mem_cons_of_mem _ hv)), R.bind_ok, List.take_left' hl, h3, h4, le_digits,
      Nat.mod_eq_of_lt (by omega)]
    rfl

/-! ### Both forms -/

def headerBytes (ks vs fixed : Nat) (same : Bool) : List Nat :=
  digits 4 ks ++ (digits 4 vs ++ (digits 4 fixed ++ ([if same then 1 else 0] ++ [if same then 1 else 0])))

theorem headerBytes_length (ks vs fixed : Nat) (same : Bool) : (headerBytes ks vs fixed same).length = 14 := by simp [headerBytes, digits_length]

theorem headerBytes_bytes (ks vs fixed : Nat) (same : Bool) : Bytes (headerBytes ks vs fixed same) := by
  simp only [headerBytes, Bytes.append]
  exact ⟨digits_bytes _ _, digits_bytes _ _, digits_bytes _ _, by cases same <;> simp [Bytes], by cases same <;> simp [Bytes]⟩

theorem writeHeader_puts (b : Bn) : Puts b.writeHeader (headerBytes b.keysz b.mp.used b.dmt.fixedLength b.dmt.same) :=
  (Puts.int _).seq ((Puts.int _).seq ((Puts.int _).seq ((Puts.char _).seq (Puts.char _))))

theorem Pts.off_lt {mem : List Nat} {vs : List (List Nat × Nat)} {rows : Rows} (h : Pts mem vs rows) (hs : Shapes rows) : ∀ v ∈ vs, v.2 < mem.length := by
  induction h with
  | nil => simp
  | @cons k l o vs rows h t ih =>
    intro v hv
    rcases List.mem_cons.mp hv with rfl | hv
    · have hl : Shape l := hs (k, l) (List.mem_cons_self ..)
      have := hl.pos
      obtain ⟨post, h⟩ := h
      have := congrArg List.length h
      simp only [List.length_drop, List.length_append] at this ⊢
      omega
    · exact ih (fun r hr => hs r (List.mem_cons_of_mem _ hr)) v hv

theorem keyRoom_vals {mem : List Nat} {vs : List (List Nat × Nat)} {rows : Rows} (h : Pts mem vs rows) : (vs.map fun v => 4 + v.1.length).sum = keyRoom rows := by
  have := congrArg (List.map fun k : List Nat => 4 + k.length) h.keys
  rw [List.map_map, List.map_map] at this
  exact congrArg List.sum this

theorem sum_fixed {vs : List (List Nat × Nat)} {n : Nat} (h : ∀ v ∈ vs, kl v = n) : (vs.map fun v => 4 + v.1.length).sum = vs.length * n := by
  induction vs with
  | nil => simp
  | cons v vs ih =>
    have h1 := h v (List.mem_cons_self ..)
    simp only [List.map_cons, List.sum_cons, List.length_cons, Nat.succ_mul]
    rw [ih fun v hv => h v (List.mem_cons_of_mem _ hv)]
    simp only [kl] at h1; omega

theorem keyRoom_mem {rows : Rows} {r : List Nat × List Nat} (h : r ∈ rows) : 4 + r.1.length ≤ keyRoom rows := by
  induction rows with
  | nil => simp at h
  | cons a rows ih =>
    rw [keyRoom_cons]
    rcases List.mem_cons.mp h with rfl | h
    · omega
    · have := ih h; omega

/-- Before writing: keys of one length make the elements an array and the pool hold exactly the records in order. -/
theorem Bn.Holds.prepare {b : Bn} {rows : Rows} (h : b.Holds rows) (hn : (recs rows).length < 2 ^ 30) :
    ∃ b', b.prepare = .ok b' ∧ b'.Holds rows ∧ b'.dmt.same = b.dmt.same ∧ b'.dmt.len = b.dmt.len ∧
      (b.dmt.same = true → b'.mp.mem = recs rows ∧ b'.mp.frag = 0 ∧ b'.dmt.isArray = true) := by
  unfold Bn.prepare
  split
  · rename_i hsame
    have hc : ({ b with dmt := b.dmt.prepare } : Bn).Core rows 0 :=
      ⟨h.core.pts, h.core.shapes, ⟨h.core.ok.same, fun _ => hsame, fun _ => rfl⟩, h.core.room, h.core.used⟩
    obtain ⟨b', he, h1, h2, h3, h4, h5, h6, h7, h8⟩ := hc.compress 0 true (by omega)
    exact ⟨b', he, ⟨h1, by rw [h7]; exact h.keys⟩, h5, h6, fun _ => ⟨h8 rfl, h2, h4⟩⟩
  · rename_i hsame
    exact ⟨b, rfl, h, rfl, rfl, fun hs => absurd hs hsame⟩

theorem Bn.Holds.round {b : Bn} {rows : Rows} (h : b.Holds rows) (hn : (recs rows).length < 2 ^ 30) (hk : keyRoom rows < 2 ^ 30) (hb : ∀ r ∈ rows, Bytes r.1) :
    ∃ b' bs, (∀ w : W, w.out.length + bs.length ≤ w.size → b.serialize w = .ok (b', W.push w bs)) ∧ b'.Holds rows ∧ bs.length = 14 + b.diskSize ∧ Bytes bs ∧
      ∀ r post, At r (bs ++ post) → ∃ b'', Bn.deserialize rows.length r bs.length = .ok (b'', Rd.adv r bs.length) ∧ b''.Holds rows := by
  obtain ⟨b', he, h', e1, e2, e3⟩ := h.prepare hn
  have hd := h.diskSize
  have hu := h'.core.usedSize
  rw [Nat.add_zero] at hu
  have hkr : ∀ r ∈ rows, r.1.length < 2 ^ 32 := fun r hr => by have := keyRoom_mem hr; omega
  have hbr : Bytes (recs rows) := by
    intro x hx
    obtain ⟨r, hr, hx⟩ := List.mem_flatMap.mp hx
    exact (h.core.shapes r hr).bytes x hx
  have hwh := writeHeader_puts b'
  rw [h'.keys, hu] at hwh
  cases hsame : b'.dmt.same with
  | true =>
    rw [hsame] at hwh e1
    obtain ⟨m1, m2, m3⟩ := e3 e1.symm
    have hp := h'.core.pts
    have hfix := h'.core.ok.same hsame
    have hkl : (kls b'.dmt.vals).length = keyRoom rows := by rw [kls_length, keyRoom_vals hp]
    have hsum : keyRoom rows = rows.length * b'.dmt.len := by rw [← keyRoom_vals hp, sum_fixed hfix, hp.length]
    have hfl : b'.dmt.fixedLength = b'.dmt.len := by rw [Dmt.fixedLength, hsame]; rfl
    rw [hfl] at hwh
    have hoff := hp.off_lt h'.core.shapes
    rw [m1] at hoff
    have hlen : rows ≠ [] → 4 ≤ b'.dmt.len ∧ b'.dmt.len < 2 ^ 30 := by
      intro hne
      obtain ⟨r, hr⟩ := List.exists_mem_of_ne_nil _ hne
      have hv : b'.dmt.vals ≠ [] := by
        intro hv; have := hp.length; rw [hv] at this
        exact hne (List.length_eq_zero_iff.mp this.symm)
      obtain ⟨v, hv⟩ := List.exists_mem_of_ne_nil _ hv
      have h1 := hfix v hv
      have h2 : v.1 ∈ rows.map Prod.fst := by rw [← hp.keys]; exact List.mem_map_of_mem hv
      obtain ⟨r, hr, h3⟩ := List.mem_map.mp h2
      have := keyRoom_mem hr
      simp only [kl] at h1
      rw [h3] at this
      omega
    have hl32 : b'.dmt.len < 2 ^ 32 ∨ rows = [] := by
      by_cases hne : rows = []
      · exact Or.inr hne
      · exact Or.inl (by have := hlen hne; omega)
    have hwr : Puts b'.writeRest (kls b'.dmt.vals ++ recs rows) := by
      intro w hw
      rw [List.length_append] at hw
      have hsv : b'.dmt.serializeValues b'.keysz w = .ok (W.push w (kls b'.dmt.vals)) := by
        rw [Dmt.serializeValues, if_pos ⟨m3, hsame⟩]
        split
        · rename_i h0
          rw [List.length_eq_zero_iff.mp h0]; simp [kls, push_nil]
        · rw [if_pos (by rw [h'.keys]; exact hkl)]
          exact Puts.literal _ w (by simp only [kls] at hw ⊢; omega)
      rw [Bn.writeRest, if_pos hsame, hsv, R.bind_ok, hu, m1, List.take_length]
      have := Puts.literal (recs rows) (W.push w (kls b'.dmt.vals)) (by simp only [push_length, push_size]; omega)
      simp only at this
      rw [this, push_push]
    refine ⟨b', headerBytes (keyRoom rows) (recs rows).length b'.dmt.len true ++ (kls b'.dmt.vals ++ recs rows), ?_, h', ?_, ?_, ?_⟩
    · intro w hw
      rw [List.length_append] at hw
      rw [Bn.serialize, he, R.bind_ok, hwh w (by omega), R.bind_ok, hsame]
      simp only [if_true]
      rw [hwr _ (by simp only [push_length, push_size]; omega), R.bind_ok, push_push]
      rfl
    · rw [List.length_append, headerBytes_length, List.length_append, hkl, hd]
    · rw [Bytes.append, Bytes.append]
      refine ⟨headerBytes_bytes _ _ _ _, ?_, hbr⟩
      intro x hx
      obtain ⟨v, hv, hx⟩ := List.mem_flatMap.mp hx
      rcases List.mem_append.mp hx with hx | hx
      · exact digits_bytes 4 v.2 x hx
      · have h2 : v.1 ∈ rows.map Prod.fst := by rw [← hp.keys]; exact List.mem_map_of_mem hv
        obtain ⟨r, hr, h3⟩ := List.mem_map.mp h2
        exact hb r hr x (by rw [h3]; exact hx)
    · intro r post hat
      simp only [headerBytes, List.append_assoc] at hat
      have a1 := hat.int_adv
      have a2 := a1.int_adv
      have a3 := a2.int_adv
      have a4 := a3.char_adv
      have a5 := a4.char_adv
      have a6 := a5.adv rfl
      obtain ⟨c1, c2, c3⟩ := construct_size (recs rows).length
      have hub := unpackKl_ok hfix fun v hv => by have := hoff v hv; omega
      rw [hp.length] at hub
      have hfx : (rows.length ≠ 0 → b'.dmt.len % 2 ^ 32 = b'.dmt.len ∧ 4 ≤ b'.dmt.len) := by
        intro hne
        have := hlen fun h0 => hne (by rw [h0]; rfl)
        exact ⟨Nat.mod_eq_of_lt (by omega), this.1⟩
      have hub' : unpackKl (b'.dmt.len % 2 ^ 32) rows.length (kls b'.dmt.vals) = .ok b'.dmt.vals := by
        by_cases h0 : rows.length = 0
        · have hv0 : b'.dmt.vals = [] := List.length_eq_zero_iff.mp (by rw [hp.length]; exact h0)
          rw [h0, hv0]; rfl
        · rw [(hfx h0).1]; exact hub
      have hmul : rows.length * (b'.dmt.len % 2 ^ 32) = rows.length * b'.dmt.len := by
        by_cases h0 : rows.length = 0
        · rw [h0, Nat.zero_mul, Nat.zero_mul]
        · rw [(hfx h0).1]
      have hmp : (Mp.construct (recs rows).length).fill rows.length (recs rows) = R.ok { Mp.construct (recs rows).length with mem := recs rows } := by
        unfold Mp.fill
        split
        · rw [Mp.malloc_ok (by rw [c2]; simp only [List.length_nil]; omega)]
          simp [c2]
        · rename_i h0
          have h0 : rows = [] := List.length_eq_zero_iff.mp (by omega)
          rw [h0]; rfl
      refine ⟨⟨⟨b'.dmt.vals, true, true, b'.dmt.len % 2 ^ 32⟩, { Mp.construct (recs rows).length with mem := recs rows }, rows.length * (b'.dmt.len % 2 ^ 32)⟩, ?_,
        ⟨⟨?_, h.core.shapes, ⟨?_, fun _ => rfl, fun _ => rfl⟩, c1, ?_⟩, ?_⟩⟩
      · rw [Bn.deserialize]
        rw [hat.int (by omega), R.bind_ok]
        simp only
        rw [a1.int (by omega), R.bind_ok]
        simp only
        rw [a2.int_mod, R.bind_ok]
        simp only
        rw [a3.char, R.bind_ok]
        simp only
        rw [a4.char, R.bind_ok]
        simp only [if_true, adv_ndone, List.length_append, headerBytes_length, hkl]
        rw [if_pos ⟨trivial, by omega⟩, if_pos (by decide), if_pos, Bn.readSeparate]
        · simp only
          rw [if_pos (by decide), a5.literal hkl.symm, R.bind_ok]
          simp only
          rw [Dmt.fromSorted, hub', R.bind_ok, R.pure_ok, R.bind_ok]
          rw [← hkl, a6.literal rfl, R.bind_ok]
          simp only
          rw [hmp, R.bind_ok, if_pos, if_pos]
          · simp only [Rd.adv, hkl]; congr 3; omega
          · simp only [adv_ndone]; omega
          · by_cases h0 : rows.length = 0
            · rw [h0, Nat.zero_mul, Nat.zero_mul]; exact Nat.le_refl _
            · rw [(hfx h0).1]; exact Nat.mul_le_mul_left _ (hfx h0).2
        · by_cases h0 : rows.length = 0
          · exact Or.inr h0
          · rw [(hfx h0).1]; exact Or.inl (hfx h0).2
      · simp only; rw [← m1]; exact hp
      · intro _ v hv
        by_cases h0 : rows.length = 0
        · have hv0 : b'.dmt.vals = [] := List.length_eq_zero_iff.mp (by rw [hp.length]; exact h0)
          simp only [hv0] at hv; simp at hv
        · simp only; rw [(hfx h0).1]; exact hfix v hv
      · simp only [c3]; omega
      · simp only; rw [hmul, hsum]
  | false =>
    have hfl : b'.dmt.fixedLength = 0 := by rw [Dmt.fixedLength, hsame]; rfl
    rw [hsame, hfl] at hwh
    refine ⟨b', headerBytes (keyRoom rows) (recs rows).length 0 false ++ rowsBytes rows, ?_, h', ?_, ?_, ?_⟩
    · intro w hw
      rw [List.length_append] at hw
      rw [Bn.serialize, he, R.bind_ok, hwh w (by omega), R.bind_ok, hsame]
      simp only [Bool.false_eq_true, if_false]
      rw [writeAllLe_puts h'.core.pts h'.core.shapes _ (by simp only [push_length, push_size]; omega), R.bind_ok, push_push]
      rfl
    · rw [List.length_append, headerBytes_length, rowsBytes_length h.core.shapes, hd]
    · rw [Bytes.append]
      refine ⟨headerBytes_bytes _ _ _ _, ?_⟩
      intro x hx
      obtain ⟨r, hr, hx⟩ := List.mem_flatMap.mp hx
      exact rowBytes_bytes (h.core.shapes r hr) (hb r hr) x hx
    · intro r post hat
      have hrl := rowsBytes_length h.core.shapes
      simp only [headerBytes, List.append_assoc] at hat
      have a1 := hat.int_adv
      have a2 := a1.int_adv
      have a3 := a2.int_adv
      have a4 := a3.char_adv
      have a5 := a4.char_adv
      have hne : rows ≠ [] := by
        intro h0
        have : b'.dmt.vals = [] := by
          have := h'.core.pts.length; rw [h0] at this
          exact List.length_eq_zero_iff.mp this
        have := h'.core.ok.arr (h'.core.ok.nil this)
        rw [hsame] at this; simp at this
      have hpos : 0 < keyRoom rows := by
        obtain ⟨r, hr⟩ := List.exists_mem_of_ne_nil _ hne
        have := keyRoom_mem hr; omega
      obtain ⟨b2, hl, hh, hfr⟩ := readLoop_ok (alloc := (recs rows).length + (recs rows).length / 4) h.core.shapes hkr [] ⟨Dmt.empty, Mp.zero, 0⟩ []
        ⟨⟨.nil, fun r hr => by simp at hr, Dmt.OK.empty, by simp [Mp.zero], by simp [Mp.zero, recs]⟩, rfl⟩ (by simp [Mp.zero])
      rw [List.append_nil] at hl
      rw [List.nil_append] at hh
      have hhd := hh.diskSize
      have hhu := hh.core.used
      have hhk := hh.keys
      simp only [Mp.zero] at hfr
      refine ⟨_, ?_, hh⟩
      rw [Bn.deserialize]
      rw [hat.int (by omega), R.bind_ok]
      simp only
      rw [a1.int (by omega), R.bind_ok]
      simp only
      rw [a2.int (by decide), R.bind_ok]
      simp only
      rw [a3.char, R.bind_ok]
      simp only
      rw [a4.char, R.bind_ok]
      simp only [Bool.false_eq_true, if_false, bne_self_eq_false, adv_ndone, List.length_append, headerBytes_length]
      rw [if_pos ⟨trivial, by omega⟩, a5.literal (by omega), R.bind_ok]
      simp only
      rw [if_neg (by omega), hl, R.bind_ok]
      simp only [List.length_nil] at hhu hhk hhd ⊢
      rw [if_pos ⟨by omega, by omega, by omega⟩]
      simp only [R.pure_ok, Rd.adv]
      congr 3
      omega

end Verif.Node
