import Verif.Node.DiskBlock
/-!
Reading the block of a node, all of it or in parts.
-/
set_option linter.unusedVariables false
set_option linter.unusedSimpArgs false
namespace Verif.Node
open Verif.Ser BufSpec

/-- The first 24 bytes. -/
def frontBytes (build : Nat) (f : Fields) (n : Nat) : List Nat :=
  (if f.height = 0 then magicLeaf else magicNode) ++ (digits 4 nodeVersion ++ (digits 4 f.original ++ (digits 4 build ++ digits 4 n)))

theorem frontBytes_length (build : Nat) (f : Fields) (n : Nat) : (frontBytes build f n).length = 24 := by
  have : (if f.height = 0 then magicLeaf else magicNode).length = 8 := by split <;> rfl
  simp only [frontBytes, List.length_append, digits_length, this]

theorem headBytes_front (build : Nat) (f : Fields) (pls : List (Nat × Nat)) : headBytes build f pls = frontBytes build f pls.length ++ placeBytes pls := by
  simp only [headBytes, frontBytes, List.append_assoc]

theorem readFront_ok {build : Nat} {f : Fields} {n : Nat} (hb : build < 2 ^ 32) (ho : f.original < 2 ^ 32) (hn : n < 2 ^ 31) {r : Rd} {t : List Nat} (h : At r (frontBytes build f n ++ t)) :
    readFront r = .ok (some (f.original, build, n), Rd.adv r 24) := by
  have hm : (if f.height = 0 then magicLeaf else magicNode).length = 8 := by split <;> rfl
  have hm' : (if f.height = 0 then magicLeaf else magicNode) = magicLeaf ∨ (if f.height = 0 then magicLeaf else magicNode) = magicNode := by split <;> simp
  simp only [frontBytes, List.append_assoc] at h
  generalize (if f.height = 0 then magicLeaf else magicNode) = mg at *
  have a1 := h.adv hm.symm
  have a2 := a1.int_adv
  have a3 := a2.int_adv
  have a4 := a3.int_adv
  rw [readFront, h.literal hm.symm, R.bind_ok]
  simp only
  rw [if_pos hm', a1.int (by decide), R.bind_ok]
  simp only
  rw [if_pos trivial, a2.int ho, R.bind_ok]
  simp only
  rw [a3.int hb, R.bind_ok]
  simp only
  rw [a4.int (by omega), R.bind_ok]
  simp only
  rw [if_pos hn]
  rfl

theorem readPlaces_ok {pls : List (Nat × Nat)} (hp : ∀ p ∈ pls, p.1 < 2 ^ 32 ∧ p.2 < 2 ^ 32) {r : Rd} {t : List Nat} (h : At r (placeBytes pls ++ t)) :
    readPlaces pls.length r = .ok (pls, Rd.adv r (pls.length * 8)) := by
  induction pls generalizing r with
  | nil => rfl
  | cons p pls ih =>
    rw [placeBytes, List.flatMap_cons, List.append_assoc, List.append_assoc, ← placeBytes] at h
    have h0 := hp p (by simp)
    rw [List.length_cons, readPlaces, h.int h0.1, R.bind_ok]
    simp only
    rw [h.int_adv.int h0.2, R.bind_ok]
    simp only
    rw [ih (fun x hx => hp x (List.mem_cons_of_mem _ hx)) h.int_adv.int_adv, R.bind_ok]
    simp only [R.pure_ok, Rd.adv]
    congr 3
    omega

/-! ### A node in the cache -/

/-- What a partition in the cache holds. -/
def Slot.Has (L : Lib) (g : Fields) : Slot → Content → Prop
  | .avail p, ct => p.Has g.height ct ∧ p.Stamped g.msn
  | .compressed body un, ct => ∃ q, expand L g body un = .ok (some q) ∧ q.Has g.height ct ∧ q.Stamped g.msn
  | .onDisk, _ => True

/-- A node in the cache that was read from this block. -/
structure Cached.Has (L : Lib) (build : Nat) (f : Fields) (ks : List PivotSpec.Key) (cts : List Content) (pls : List (Nat × Nat)) (c : Cached) : Prop where
  f : ∃ q : Pk, c.f = { f with build := build, pivots := q } ∧ q.Rep ks
  places : c.places = pls
  slots : All2 (Slot.Has L c.f) c.slots cts

def Cached.Avail (c : Cached) (i : Nat) : Prop := ∃ p, c.slots[i]? = some (.avail p)

theorem readSlot_ok {L : Lib} {g : Fields} {buf : List Nat} {place : Nat × Nat} {ct : Content} (h : Placed L g.height buf place ct) (wanted : Bool) :
    ∃ s, readSlot L g buf wanted place = .ok (some s) ∧ s.Has L g ct ∧ (wanted = true → ∃ p, s = .avail p) := by
  obtain ⟨body, un, h1, h2, h3, h4, h5, h6, h7⟩ := h
  have hr := readSub_ok (r := ⟨sealed (subAll body un), 0⟩) (body := body) (post := []) (un := un) (by omega) h2 (by rw [List.append_nil]; exact At.start _)
  obtain ⟨q, q1, q2, q3⟩ := h7 g rfl
  rw [readSlot, if_pos h5, h6, hr, R.bind_ok]
  simp only
  cases wanted with
  | true =>
    refine ⟨.avail q, ?_, ⟨q2, q3⟩, fun _ => ⟨q, rfl⟩⟩
    rw [if_pos rfl, q1]
    rfl
  | false => exact ⟨.compressed body un, rfl, ⟨q, q1, q2, q3⟩, fun h => absurd h (by decide)⟩

theorem readSlots_ok {L : Lib} {g : Fields} {buf : List Nat} {pls : List (Nat × Nat)} {cts : List Content} (h : All2 (Placed L g.height buf) pls cts) (wanted : Nat → Bool) (i : Nat) :
    ∃ ss, readSlots L g buf wanted i pls = .ok (some ss) ∧ All2 (Slot.Has L g) ss cts ∧ ∀ j, j < cts.length → wanted (i + j) = true → ∃ p, ss[j]? = some (.avail p) := by
  induction h generalizing i with
  | nil => exact ⟨[], rfl, .nil, fun j hj => by simp at hj⟩
  | cons hp t ih =>
    obtain ⟨s, s1, s2, s3⟩ := readSlot_ok hp (wanted i)
    obtain ⟨ss, t1, t2, t3⟩ := ih (i + 1)
    refine ⟨s :: ss, ?_, .cons s2 t2, fun j hj hw => ?_⟩
    · rw [readSlots, s1, R.bind_ok]
      simp only
      rw [t1, R.bind_ok]
      rfl
    · cases j with
      | zero => obtain ⟨p, rfl⟩ := s3 hw; exact ⟨p, rfl⟩
      | succ j => exact t3 j (by simpa using hj) (by rw [show i + 1 + j = i + (j + 1) by omega]; exact hw)

theorem Image.range {L : Lib} {build : Nat} {f : Fields} {ks : List PivotSpec.Key} {cts : List Content} {block : List Nat} {pls : List (Nat × Nat)} {body rest : List Nat} {un : Nat}
    (h : Image L build f ks cts block pls body rest un) : ∀ p ∈ pls, p.1 < 2 ^ 32 ∧ p.2 < 2 ^ 32 := by
  intro p hp
  obtain ⟨i, hi⟩ := List.getElem?_of_mem hp
  have hlt := (List.getElem?_eq_some_iff.mp hi).1
  obtain ⟨b, un', _, _, h3, h4, _⟩ := h.placed.get' hi (List.getElem?_eq_getElem (by rw [← h.placed.length]; exact hlt))
  exact ⟨h3, by omega⟩

theorem fromBlock_ok {L : Lib} {build : Nat} {f : Fields} {ks : List PivotSpec.Key} {cts : List Content} {block : List Nat} {pls : List (Nat × Nat)} {body rest : List Nat} {un : Nat}
    (h : Image L build f ks cts block pls body rest un) (hf : f.Has ks cts.length) (hb : build < 2 ^ 32) (wanted : Nat → Bool) :
    ∃ c, fromBlock L wanted block = .ok (some c) ∧ c.Has L build f ks cts pls ∧ ∀ i, i < cts.length → wanted i = true → c.Avail i := by
  have hlen : pls.length = cts.length := h.placed.length
  have few := hf.few
  have hsp := h.split
  have a0 : At ⟨block, 0⟩ (frontBytes build f pls.length ++ (placeBytes pls ++ (digits 4 (memory (headBytes build f pls)) ++ (sealed (subAll body un) ++ rest)))) := by
    have := At.start block
    rw [sealed, headBytes_front, List.append_assoc, List.append_assoc, ← headBytes_front] at hsp
    rw [← hsp]; exact this
  have a1 := a0.adv (n := 24) (by rw [frontBytes_length])
  have a2 := a1.adv (n := pls.length * 8) (by rw [placeBytes_length])
  have a3 := a2.int_adv
  have e1 := readFront_ok hb hf.original (by omega) a0
  have e2 := readPlaces_ok h.range a1
  have e3 := a2.int (memory_lt _)
  have hb := h.body
  have e4 := readSub_ok (by omega) h.un a3
  obtain ⟨q, e5, hr⟩ := hf.read build
  obtain ⟨ss, e6, s1, s2⟩ := readSlots_ok (g := { f with build := build, pivots := q }) h.placed wanted 0
  refine ⟨⟨_, pls, ss⟩, ?_, ⟨⟨q, rfl, hr⟩, rfl, s1⟩, fun i hi hw => s2 i hi (by rw [Nat.zero_add]; exact hw)⟩
  rw [fromBlock, e1, R.bind_ok]
  simp only
  rw [e2, R.bind_ok]
  simp only
  rw [e3, R.bind_ok]
  simp only [adv_ndone]
  have hx : block.take (0 + 24 + pls.length * 8) = headBytes build f pls := by
    rw [hsp, sealed, List.append_assoc, Nat.zero_add, ← headBytes_length build f pls, List.take_left]
  refine (if_pos (congrArg memory hx.symm)).trans ?_
  rw [e4, R.bind_ok]
  simp only
  rw [h.info, R.bind_ok, hlen, e5, R.bind_ok]
  simp only
  rw [e6, R.bind_ok]
  rfl

theorem prefix_split {A B : List Nat} {k : Nat} (h : A.length ≤ k) : ∃ t, (A ++ B).take k = A ++ t :=
  ⟨B.take (k - A.length), by rw [List.take_append, List.take_of_length_le h]⟩

theorem fromHeader_ok {L : Lib} {build : Nat} {f : Fields} {ks : List PivotSpec.Key} {cts : List Content} {block : List Nat} {pls : List (Nat × Nat)} {body rest : List Nat} {un : Nat}
    (h : Image L build f ks cts block pls body rest un) (hf : f.Has ks cts.length) (hb : build < 2 ^ 32) (k : Nat) :
    fromHeader L (block.take k) = .ok none ∨ ∃ c, fromHeader L (block.take k) = .ok (some c) ∧ c.Has L build f ks cts pls := by
  have hlen : pls.length = cts.length := h.placed.length
  have few := hf.few
  have hbody := h.body
  have hsp := h.split
  have hk : (block.take k).length ≤ k := by rw [List.length_take]; omega
  by_cases h24 : (block.take k).length < 24
  · left; rw [fromHeader, if_pos h24]
  have s1 : block = frontBytes build f pls.length ++ (placeBytes pls ++ (digits 4 (memory (headBytes build f pls)) ++ (sealed (subAll body un) ++ rest))) := by
    rw [hsp, sealed, headBytes_front]; simp only [List.append_assoc]
  obtain ⟨t, ht⟩ := prefix_split (A := frontBytes build f pls.length) (B := placeBytes pls ++ (digits 4 (memory (headBytes build f pls)) ++ (sealed (subAll body un) ++ rest))) (k := k)
    (by rw [frontBytes_length]; omega)
  rw [← s1] at ht
  have a0 : At ⟨block.take k, 0⟩ (frontBytes build f pls.length ++ t) := by rw [← ht]; exact At.start _
  have e1 := readFront_ok hb hf.original (by omega) a0
  rw [fromHeader, if_neg h24, e1, R.bind_ok]
  simp only
  have hm : m32 (headerSize pls.length + 12) = 40 + pls.length * 8 := by unfold headerSize m32; omega
  rw [hm]
  by_cases h40 : 40 + pls.length * 8 ≤ (block.take k).length
  · rw [if_pos h40]
    have hhl : (frontBytes build f pls.length ++ (placeBytes pls ++ (digits 4 (memory (headBytes build f pls)) ++ (digits 4 body.length ++ digits 4 un)))).length = 36 + pls.length * 8 := by
      simp only [List.length_append, frontBytes_length, placeBytes_length, digits_length]; omega
    have s2 : block = (frontBytes build f pls.length ++ (placeBytes pls ++ (digits 4 (memory (headBytes build f pls)) ++ (digits 4 body.length ++ digits 4 un)))) ++
        (body ++ (digits 4 (memory (subAll body un)) ++ rest)) := by
      have e : sealed (subAll body un) = digits 4 body.length ++ (digits 4 un ++ (body ++ digits 4 (memory (subAll body un)))) := by
        have : ∀ D : List Nat, subAll body un ++ D = digits 4 body.length ++ (digits 4 un ++ (body ++ D)) := fun D => by simp only [subAll, List.append_assoc]
        exact this _
      rw [s1, e]
      simp only [List.append_assoc]
    obtain ⟨t, ht⟩ := prefix_split (B := body ++ (digits 4 (memory (subAll body un)) ++ rest)) (k := k) (show _ ≤ k by rw [hhl]; omega)
    rw [← s2] at ht
    simp only [List.append_assoc] at ht
    have a0 : At ⟨block.take k, 0⟩ (block.take k) := At.start _
    have a0 : At ⟨block.take k, 0⟩ (frontBytes build f pls.length ++ (placeBytes pls ++ (digits 4 (memory (headBytes build f pls)) ++ (digits 4 body.length ++ (digits 4 un ++ t))))) := by
      rw [← ht]; exact a0
    have a1 := a0.adv (n := 24) (by rw [frontBytes_length])
    have a2 := a1.adv (n := pls.length * 8) (by rw [placeBytes_length])
    have a3 := a2.int_adv
    have a4 := a3.int_adv
    have a5 := a4.int_adv
    have e2 := readPlaces_ok h.range a1
    have e3 := a2.int (memory_lt _)
    have e4 := a3.int (by omega)
    have e5 := a4.int h.un
    have hx : (block.take k).take (0 + 24 + pls.length * 8) = headBytes build f pls := by
      rw [ht, Nat.zero_add, ← List.append_assoc, ← headBytes_front, ← headBytes_length build f pls, List.take_left]
    rw [e2, R.bind_ok]
    simp only
    rw [e3, R.bind_ok]
    simp only [adv_ndone]
    refine Eq.mpr (congrArg (fun X : R (Option Cached) => X = .ok none ∨ ∃ c, X = .ok (some c) ∧ c.Has L build f ks cts pls) (if_pos (congrArg memory hx.symm))) ?_
    rw [e4, R.bind_ok]
    simp only
    rw [e5, R.bind_ok]
    simp only [adv_ndone]
    have hm : m32 (body.length + 8) = body.length + 8 := by unfold m32; omega
    rw [hm]
    by_cases hc : body.length + 8 ≤ (block.take k).length - (0 + 24 + pls.length * 8 + 4 + 4 + 4)
    · refine Eq.mpr (congrArg (fun X : R (Option Cached) => X = .ok none ∨ ∃ c, X = .ok (some c) ∧ c.Has L build f ks cts pls) (if_pos hc)) ?_
      right
      have hl3 : (sealed (headBytes build f pls) ++ sealed (subAll body un)).length = 40 + pls.length * 8 + body.length := by
        rw [List.length_append, sealed_length, sealed_length, headBytes_length, subAll_length]; omega
      obtain ⟨u, hu⟩ := prefix_split (B := rest) (k := k) (show (sealed (headBytes build f pls) ++ sealed (subAll body un)).length ≤ k by rw [hl3]; omega)
      rw [List.append_assoc, ← hsp] at hu
      have b3 : At (Rd.adv (Rd.adv (Rd.adv ⟨block.take k, 0⟩ 24) (pls.length * 8)) 4) (sealed (subAll body un) ++ u) := by
        have b0 := At.start (block.take k)
        rw [hu, List.append_assoc] at b0
        have := b0.adv (n := 28 + pls.length * 8) (by rw [sealed_length, headBytes_length]; omega)
        rw [← List.append_assoc, ← hu] at this
        have e : Rd.adv ⟨block.take k, 0⟩ (28 + pls.length * 8) = Rd.adv (Rd.adv (Rd.adv ⟨block.take k, 0⟩ 24) (pls.length * 8)) 4 := by
          simp only [Rd.adv]; congr 1; omega
        rw [e] at this
        exact this
      have hy : ((block.take k).drop (0 + 24 + pls.length * 8 + 4)).take (8 + body.length) = subAll body un := by
        have := b3.drop
        simp only [adv_ndone, adv_buf] at this
        rw [this, sealed, List.append_assoc, ← subAll_length body un, List.take_left]
      simp only [sealed, subAll, List.append_assoc] at b3
      have b5 := b3.int_adv.int_adv
      have b6 := b5.adv (n := body.length) rfl
      have e6 := b5.literal (n := body.length) rfl
      have e7 := b6.int (by have := memory_lt (subAll body un); simp only [subAll] at this; exact this)
      obtain ⟨q, e8, hr⟩ := hf.read build
      refine ⟨⟨_, pls, pls.map fun _ => .onDisk⟩, ?_, ⟨⟨q, rfl, hr⟩, rfl, All2.of_get (by simp [hlen]) fun i a b ha hb => ?_⟩⟩
      · rw [e6, R.bind_ok]
        simp only
        rw [e7, R.bind_ok]
        simp only [adv_buf]
        refine (if_pos (congrArg memory hy.symm)).trans ?_
        rw [h.info, R.bind_ok, hlen, e8, R.bind_ok]
        rfl
      · rw [List.getElem?_map] at ha
        cases hx : pls[i]? with
        | none => rw [hx] at ha; simp at ha
        | some p => rw [hx] at ha; simp at ha; subst ha; trivial
    · exact Eq.mpr (congrArg (fun X : R (Option Cached) => X = .ok none ∨ ∃ c, X = .ok (some c) ∧ c.Has L build f ks cts pls) (if_neg hc)) (Or.inl rfl)
  · rw [if_neg h40]; left; rfl

/-! ### Partitions from disk -/

theorem bpFromDisk_ok {L : Lib} {g : Fields} {pre block post : List Nat} {place : Nat × Nat} {ct : Content} (h : Placed L g.height block place ct) (hp : pre.length % 512 = 0) (hb : block.length % 512 = 0) :
    ∃ q, bpFromDisk L (pre ++ (block ++ post)) pre.length g place = .ok (some q) ∧ q.Has g.height ct ∧ q.Stamped g.msn := by
  obtain ⟨body, un, h1, h2, h3, h4, h5, h6, h7⟩ := h
  obtain ⟨q, q1, q2, q3⟩ := h7 g rfl
  refine ⟨q, ?_, q2, q3⟩
  have hr := readSub_ok (r := ⟨sealed (subAll body un), 0⟩) (body := body) (post := []) (un := un) (by omega) h2 (by rw [List.append_nil]; exact At.start _)
  rw [bpFromDisk]
  generalize hpad : (pre.length + place.1) % 512 = pad
  generalize hpd : roundup512 (pad + place.2) = padded
  have hpd' : padded % 512 = 0 ∧ pad + place.2 ≤ padded ∧ padded < pad + place.2 + 512 := by rw [← hpd]; unfold roundup512; omega
  have hm : m32 padded = padded := by unfold m32; omega
  simp only
  rw [hm]
  have hend : place.1 - pad + padded ≤ block.length := by omega
  have hle : pad ≤ place.1 := by omega
  have e1 : pre.length + place.1 - pad = pre.length + (place.1 - pad) := by omega
  have e2 : (pre ++ (block ++ post)).drop (pre.length + (place.1 - pad)) = block.drop (place.1 - pad) ++ post := by
    rw [← List.drop_drop, List.drop_left, List.drop_append_of_le_length (by omega)]
  have e3 : pread (pre ++ (block ++ post)) (pre.length + place.1 - pad) padded = (block.drop (place.1 - pad)).take padded := by
    rw [pread, e1, e2, List.take_append_of_le_length (by rw [List.length_drop]; omega)]
  rw [e3, if_pos ⟨hpd'.1, by omega⟩, if_pos (by rw [List.length_take, List.length_drop]; omega)]
  have e4 : (((block.drop (place.1 - pad)).take padded).drop pad).take place.2 = sealed (subAll body un) := by
    rw [List.drop_take, List.drop_drop, List.take_take, Nat.min_eq_left (by omega), Nat.sub_add_cancel hle, h6]
  rw [e4, hr, R.bind_ok]
  exact q1

theorem fetch_ok {L : Lib} {build : Nat} {f : Fields} {ks : List PivotSpec.Key} {cts : List Content} {pre block post : List Nat} {pls : List (Nat × Nat)}
    (hpl : All2 (Placed L f.height block) pls cts) (hp : pre.length % 512 = 0) (hb : block.length % 512 = 0) {c : Cached} (hc : c.Has L build f ks cts pls) {i : Nat} (hi : i < cts.length) :
    ∃ c', c.fetch L (pre ++ (block ++ post)) pre.length i = .ok c' ∧ c'.Has L build f ks cts pls ∧ c'.Avail i ∧ ∀ j, c.Avail j → c'.Avail j := by
  have hct := List.getElem?_eq_getElem hi
  obtain ⟨s, hs, hsh⟩ := hc.slots.get hct
  have hpl' := hpl
  rw [← hc.places] at hpl'
  obtain ⟨pl, hpl1, hpl2⟩ := hpl'.get hct
  obtain ⟨q, hq, hr⟩ := hc.f
  have hh : c.f.height = f.height := by rw [hq]
  have hlt : i < c.slots.length := by rw [hc.slots.length]; exact hi
  have done : ∀ p : Part, p.Has c.f.height cts[i] → p.Stamped c.f.msn →
      ({ c with slots := c.slots.set i (.avail p) } : Cached).Has L build f ks cts pls ∧ ({ c with slots := c.slots.set i (.avail p) } : Cached).Avail i ∧
        ∀ j, c.Avail j → ({ c with slots := c.slots.set i (.avail p) } : Cached).Avail j := by
    intro p h1 h2
    refine ⟨⟨hc.f, hc.places, hc.slots.set hct ⟨h1, h2⟩⟩, ⟨p, List.getElem?_set_self hlt⟩, fun j ⟨p', hj⟩ => ?_⟩
    by_cases hij : i = j
    · subst hij; exact ⟨p, List.getElem?_set_self hlt⟩
    · exact ⟨p', by simp only; rw [List.getElem?_set_ne hij]; exact hj⟩
  cases s with
  | avail p => exact ⟨c, by rw [Cached.fetch, hs, hpl1], hc, ⟨p, hs⟩, fun j h => h⟩
  | compressed body un =>
    obtain ⟨q, q1, q2, q3⟩ := hsh
    refine ⟨_, ?_, done q q2 q3⟩
    rw [Cached.fetch, hs, hpl1]
    simp only
    rw [q1, R.bind_ok]
    rfl
  | onDisk =>
    rw [← hh] at hpl2
    obtain ⟨q, q1, q2, q3⟩ := bpFromDisk_ok (post := post) hpl2 hp hb
    refine ⟨_, ?_, done q q2 q3⟩
    rw [Cached.fetch, hs, hpl1]
    simp only
    rw [q1, R.bind_ok]
    rfl

theorem fetchAll_ok {L : Lib} {build : Nat} {f : Fields} {ks : List PivotSpec.Key} {cts : List Content} {pre block post : List Nat} {pls : List (Nat × Nat)}
    (hpl : All2 (Placed L f.height block) pls cts) (hp : pre.length % 512 = 0) (hb : block.length % 512 = 0) {is : List Nat} {c : Cached} (hc : c.Has L build f ks cts pls) (hi : ∀ i ∈ is, i < cts.length) :
    ∃ c', c.fetchAll L (pre ++ (block ++ post)) pre.length is = .ok c' ∧ c'.Has L build f ks cts pls ∧ (∀ i ∈ is, c'.Avail i) ∧ ∀ j, c.Avail j → c'.Avail j := by
  induction is generalizing c with
  | nil => exact ⟨c, rfl, hc, fun i h => by simp at h, fun j h => h⟩
  | cons i is ih =>
    obtain ⟨c1, e1, h1, h2, h3⟩ := fetch_ok (post := post) hpl hp hb hc (hi i (by simp))
    obtain ⟨c2, e2, g1, g2, g3⟩ := ih h1 fun j hj => hi j (List.mem_cons_of_mem _ hj)
    refine ⟨c2, by rw [Cached.fetchAll, e1, R.bind_ok, e2], g1, fun j hj => ?_, fun j hj => g3 j (h3 j hj)⟩
    rcases List.mem_cons.mp hj with rfl | hj
    · exact g3 _ h2
    · exact g2 j hj

theorem load_ok {L : Lib} {build : Nat} {f : Fields} {ks : List PivotSpec.Key} {cts : List Content} {block : List Nat} {pls : List (Nat × Nat)} {body rest : List Nat} {un : Nat}
    (h : Image L build f ks cts block pls body rest un) (hf : f.Has ks cts.length) (hb : build < 2 ^ 32) {pre : List Nat} (hp : pre.length % 512 = 0) (post : List Nat) (all : Bool) (wanted : Nat → Bool) :
    ∃ c, load L (pre ++ (block ++ post)) pre.length block.length all wanted = .ok (some c) ∧ c.Has L build f ks cts pls ∧ ∀ i, i < cts.length → wanted i = true → c.Avail i := by
  have hw := h.whole
  have hru : roundup512 block.length = block.length := by unfold roundup512; omega
  have hblock : readBlock (pre ++ (block ++ post)) pre.length block.length = .ok block := by
    rw [readBlock, hru, pread, List.drop_left, List.take_left]
    rw [if_pos ⟨Nat.le_refl _, Nat.le_refl _⟩, List.take_length]
  have hsome : readSome (pre ++ (block ++ post)) pre.length block.length = block.take (roundup512 (min (32 * 1024) block.length)) := by
    rw [readSome, pread, List.drop_left, List.take_append_of_le_length (by unfold roundup512; omega)]
  obtain ⟨c0, f1, f2, f3⟩ := fromBlock_ok h hf hb wanted
  have hfull : tryFront L (pre ++ (block ++ post)) pre.length block.length all = .ok none →
      ∃ c, load L (pre ++ (block ++ post)) pre.length block.length all wanted = .ok (some c) ∧ c.Has L build f ks cts pls ∧ ∀ i, i < cts.length → wanted i = true → c.Avail i := by
    intro ht
    refine ⟨c0, ?_, f2, f3⟩
    rw [load, ht, R.bind_ok]
    simp only
    rw [hblock, R.bind_ok, f1]
  cases all with
  | true => exact hfull rfl
  | false =>
    have e : tryFront L (pre ++ (block ++ post)) pre.length block.length false = fromHeader L (block.take (roundup512 (min (32 * 1024) block.length))) := by
      rw [tryFront, if_neg (by decide), hsome]
    rcases fromHeader_ok h hf hb (roundup512 (min (32 * 1024) block.length)) with hx | ⟨c, hx, hc⟩
    · exact hfull (by rw [e, hx])
    · have hl : c.slots.length = cts.length := hc.slots.length
      obtain ⟨c', g1, g2, g3, g4⟩ := fetchAll_ok (post := post) h.placed hp hw hc (is := (List.range c.slots.length).filter wanted)
        (fun i hi => by have := List.mem_range.mp (List.mem_filter.mp hi).1; omega)
      refine ⟨c', ?_, g2, fun i hi hwi => g3 i (List.mem_filter.mpr ⟨List.mem_range.mpr (by omega), hwi⟩)⟩
      rw [load, e, hx, R.bind_ok]
      simp only
      rw [g1, R.bind_ok]
      rfl

end Verif.Node
