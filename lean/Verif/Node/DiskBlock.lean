import Verif.Node.DiskInfo
/-!
The block of a node: what `toMemory` writes.
-/
set_option linter.unusedVariables false
set_option linter.unusedSimpArgs false
namespace Verif.Node
open Verif.Ser BufSpec

/-- Two lists agree element by element. -/
inductive All2 {α β : Type} (P : α → β → Prop) : List α → List β → Prop
  | nil : All2 P [] []
  | cons {a : α} {b : β} {as : List α} {bs : List β} (h : P a b) (t : All2 P as bs) : All2 P (a :: as) (b :: bs)

namespace All2
variable {α β : Type} {P : α → β → Prop}

theorem length {as : List α} {bs : List β} (h : All2 P as bs) : as.length = bs.length := by
  induction h with
  | nil => rfl
  | cons _ _ ih => simp [ih]

theorem get {as : List α} {bs : List β} (h : All2 P as bs) {i : Nat} {b : β} (hb : bs[i]? = some b) : ∃ a, as[i]? = some a ∧ P a b := by
  induction h generalizing i with
  | nil => simp at hb
  | cons hp t ih =>
    cases i with
    | zero => simp at hb; subst hb; exact ⟨_, rfl, hp⟩
    | succ i => simp only [List.getElem?_cons_succ] at hb ⊢; exact ih hb

theorem get' {as : List α} {bs : List β} (h : All2 P as bs) {i : Nat} {a : α} {b : β} (ha : as[i]? = some a) (hb : bs[i]? = some b) : P a b := by
  obtain ⟨a', h1, h2⟩ := h.get hb
  rw [ha] at h1; cases h1; exact h2

theorem mono {Q : α → β → Prop} {as : List α} {bs : List β} (h : All2 P as bs) (hi : ∀ a b, b ∈ bs → P a b → Q a b) : All2 Q as bs := by
  induction h with
  | nil => exact .nil
  | cons hp t ih => exact .cons (hi _ _ (by simp) hp) (ih fun a b hb => hi a b (List.mem_cons_of_mem _ hb))

theorem set {as : List α} {bs : List β} (h : All2 P as bs) {i : Nat} {a : α} {b : β} (hb : bs[i]? = some b) (hp : P a b) : All2 P (as.set i a) bs := by
  induction h generalizing i with
  | nil => exact .nil
  | cons hp' t ih =>
    cases i with
    | zero => simp at hb; subst hb; exact .cons hp t
    | succ i => simp only [List.getElem?_cons_succ] at hb; exact .cons hp' (ih hb)

theorem of_get {as : List α} {bs : List β} (hl : as.length = bs.length) (h : ∀ (i : Nat) a b, as[i]? = some a → bs[i]? = some b → P a b) : All2 P as bs := by
  induction as generalizing bs with
  | nil => cases bs with
    | nil => exact .nil
    | cons b bs => simp at hl
  | cons a as ih => cases bs with
    | nil => simp at hl
    | cons b bs => exact .cons (h 0 a b rfl rfl) (ih (by simpa using hl) fun i x y hx hy => h (i + 1) x y hx hy)

end All2

/-- Reading the partition in `body` gives the content. -/
def Expands (L : Lib) (h : Nat) (body : List Nat) (un : Nat) (ct : Content) : Prop :=
  ∀ f : Fields, f.height = h → ∃ q, expand L f body un = .ok (some q) ∧ q.Has h ct ∧ q.Stamped f.msn

/-- A compressed partition. -/
def Packed (L : Lib) (h : Nat) (sub : List Nat × Nat) (ct : Content) : Prop :=
  ∃ body un, sub = (subAll body un, memory (subAll body un)) ∧ body.length ≤ 2 * ct.size + 1002 ∧ un = ct.size ∧ un < 2 ^ 32 ∧ Expands L h body un ct

theorem Content.Ok.size_lt {ct : Content} (h : ct.Ok) : ct.size < 2 ^ 31 + 100 := by
  cases h with
  | rows h => have := h.1; simp only [Content.size]; omega
  | msgs _ _ _ _ _ h => simp only [Content.size]; omega

theorem Part.Has.pack {L : Lib} (hL : L.Ok) (m : Method) {h : Nat} {p : Part} {ct : Content} (hp : p.Has h ct) (ho : ct.Ok) :
    ∃ p' sub, p.pack L m h = .ok (p', sub) ∧ p'.Has h ct ∧ Packed L h sub ct := by
  obtain ⟨h1, p', data, h2, h3, h4, h5, h6⟩ := hp.round ho
  have := ho.size_lt
  obtain ⟨body, c1, c2, c3⟩ := compressSub_ok hL m h5 (by omega)
  refine ⟨p', _, ?_, h3, body, data.length, rfl, by omega, h4, by omega, fun f hf => ?_⟩
  · rw [Part.pack, h1, R.bind_ok, h2, R.bind_ok]
    simp only
    rw [c1, R.bind_ok]
    rfl
  · obtain ⟨q, hq, q1, q2⟩ := h6 f hf
    exact ⟨q, by rw [expand, c3, R.bind_ok, hq], q1, q2⟩

theorem packAll_ok {L : Lib} (hL : L.Ok) (m : Method) {h : Nat} {ps : List Part} {cts : List Content} (hp : All2 (Part.Has h) ps cts) (ho : ∀ ct ∈ cts, ct.Ok) :
    ∃ ps' subs, packAll L m h ps = .ok (ps', subs) ∧ All2 (Part.Has h) ps' cts ∧ All2 (Packed L h) subs cts := by
  induction hp with
  | nil => exact ⟨[], [], rfl, .nil, .nil⟩
  | cons hp t ih =>
    obtain ⟨p', sub, e1, e2, e3⟩ := Part.Has.pack hL m hp (ho _ (by simp))
    obtain ⟨ps', subs, f1, f2, f3⟩ := ih fun ct hc => ho ct (List.mem_cons_of_mem _ hc)
    exact ⟨p' :: ps', sub :: subs, by rw [packAll, e1, R.bind_ok]; simp only; rw [f1, R.bind_ok]; rfl, .cons e2 f2, .cons e3 f3⟩

/-! ### Where the partitions are -/

/-- The place of a partition in the block. -/
def Placed (L : Lib) (h : Nat) (block : List Nat) (place : Nat × Nat) (ct : Content) : Prop :=
  ∃ body un, place.2 = 12 + body.length ∧ un < 2 ^ 32 ∧ place.1 < 2 ^ 32 ∧ place.2 < 2 ^ 32 - 2000 ∧ place.1 + place.2 ≤ block.length ∧
    (block.drop place.1).take place.2 = sealed (subAll body un) ∧ Expands L h body un ct

def total (cts : List Content) : Nat := (cts.map Content.size).sum

theorem Packed.length {L : Lib} {h : Nat} {sub : List Nat × Nat} {ct : Content} (hp : Packed L h sub ct) : (subBytes sub).length ≤ 2 * ct.size + 1014 := by
  obtain ⟨body, un, rfl, h1, h2, _, _⟩ := hp
  rw [subBytes_sealed, sealed_length, subAll_length]; omega

theorem packed_length {L : Lib} {h : Nat} {subs : List (List Nat × Nat)} {cts : List Content} (hp : All2 (Packed L h) subs cts) :
    (subs.flatMap subBytes).length ≤ 2 * total cts + 1014 * cts.length := by
  induction hp with
  | nil => simp
  | cons hp t ih =>
    have := hp.length
    simp only [total, List.flatMap_cons, List.length_append, List.map_cons, List.sum_cons, List.length_cons] at *
    omega

theorem places_ok {L : Lib} {h : Nat} {subs : List (List Nat × Nat)} {cts : List Content} (hp : All2 (Packed L h) subs cts) (pre post : List Nat)
    (hl : pre.length + (subs.flatMap subBytes).length < 2 ^ 32 - 2000) :
    (places pre.length subs).2 = pre.length + (subs.flatMap subBytes).length ∧
      All2 (Placed L h (pre ++ (subs.flatMap subBytes ++ post))) (places pre.length subs).1 cts := by
  induction hp generalizing pre with
  | nil => exact ⟨rfl, .nil⟩
  | @cons sub ct subs cts hp t ih =>
    obtain ⟨body, un, rfl, h1, h2, h4, h3⟩ := hp
    rw [List.flatMap_cons, List.length_append] at hl
    have e0 := subBytes_sealed (subAll body un)
    have e1 : (sealed (subAll body un)).length = 12 + body.length := by rw [sealed_length, subAll_length]; omega
    rw [e0, e1] at hl
    have e2 : m32 ((subAll body un).length + 4) = 12 + body.length := by rw [subAll_length]; unfold m32; omega
    have e3 : m32 (pre.length + m32 ((subAll body un).length + 4)) = (pre ++ sealed (subAll body un)).length := by
      rw [e2, List.length_append, e1]; unfold m32; omega
    obtain ⟨i1, i2⟩ := ih (pre ++ sealed (subAll body un)) (by rw [List.length_append, e1]; omega)
    rw [places]
    simp only [e3]
    rw [List.flatMap_cons, e0]
    refine ⟨by rw [i1, List.length_append, List.length_append]; omega, ?_⟩
    rw [e2]
    refine .cons ⟨body, un, rfl, h4, ?_, ?_, ?_, ?_, h3⟩ (by rw [List.append_assoc] at i2 ⊢; exact i2)
    · simp only; omega
    · simp only; omega
    · simp only [List.length_append, e1]; omega
    · rw [List.drop_left, ← e1, List.append_assoc, List.take_left]

/-! ### The header -/

def placeBytes (pls : List (Nat × Nat)) : List Nat := pls.flatMap fun p => digits 4 p.1 ++ digits 4 p.2

def headBytes (build : Nat) (f : Fields) (pls : List (Nat × Nat)) : List Nat :=
  (if f.height = 0 then magicLeaf else magicNode) ++ (digits 4 nodeVersion ++ (digits 4 f.original ++ (digits 4 build ++ (digits 4 pls.length ++ placeBytes pls))))

theorem placeBytes_length (pls : List (Nat × Nat)) : (placeBytes pls).length = pls.length * 8 := by
  induction pls with
  | nil => rfl
  | cons p pls ih => rw [placeBytes, List.flatMap_cons, List.length_append, ← placeBytes, ih, List.length_append, digits_length, digits_length, List.length_cons]; omega

theorem headBytes_length (build : Nat) (f : Fields) (pls : List (Nat × Nat)) : (headBytes build f pls).length = 24 + pls.length * 8 := by
  have : (if f.height = 0 then magicLeaf else magicNode).length = 8 := by split <;> rfl
  simp only [headBytes, List.length_append, digits_length, placeBytes_length, this]; omega

theorem writePlaces_puts {pls : List (Nat × Nat)} (h : ∀ p ∈ pls, 0 < p.2) : Puts (writePlaces pls) (placeBytes pls) := by
  induction pls with
  | nil => exact Puts.nil
  | cons p pls ih =>
    refine ((Puts.int p.1).seq ((Puts.int p.2).seq (ih fun x hx => h x (List.mem_cons_of_mem _ hx)))).congr (fun w => ?_) (by rw [placeBytes, List.flatMap_cons, List.append_assoc]; rfl)
    rw [writePlaces, if_pos (h p (by simp))]

theorem writeNodeHeader_ok {build : Nat} {f : Fields} {pls : List (Nat × Nat)} (h : ∀ p ∈ pls, 0 < p.2) {size : Nat} (hs : size = (headBytes build f pls).length + 4) :
    ∃ w, writeNodeHeader build f pls (W.init size) = .ok w ∧ w.out = sealed (headBytes build f pls) := by
  have hl := headBytes_length build f pls
  have hm : (if f.height = 0 then magicLeaf else magicNode).length = 8 := by split <;> rfl
  have e : headBytes build f pls = (if f.height = 0 then magicLeaf else magicNode) ++ (digits 4 nodeVersion ++ (digits 4 f.original ++ (digits 4 build ++ (digits 4 pls.length ++ placeBytes pls)))) := rfl
  rw [writeNodeHeader]
  generalize (if f.height = 0 then magicLeaf else magicNode) = mg at *
  have p0 := Puts.literal mg (W.init size) (by simp [W.init]; omega)
  simp only at p0
  have p1 := Puts.int nodeVersion (W.push (W.init size) mg) (by simp [W.init, W.push, digits_length]; omega)
  simp only at p1
  rw [push_push] at p1
  have p2 := Puts.int f.original (W.push (W.init size) (mg ++ digits 4 nodeVersion)) (by simp [W.init, W.push, digits_length]; omega)
  simp only at p2
  rw [push_push] at p2
  have p3 := Puts.int build (W.push (W.init size) (mg ++ digits 4 nodeVersion ++ digits 4 f.original)) (by simp [W.init, W.push, digits_length]; omega)
  simp only at p3
  rw [push_push] at p3
  have p4 := Puts.int pls.length (W.push (W.init size) (mg ++ digits 4 nodeVersion ++ digits 4 f.original ++ digits 4 build)) (by simp [W.init, W.push, digits_length]; omega)
  simp only at p4
  rw [push_push] at p4
  have p5 := writePlaces_puts h (W.push (W.init size) (mg ++ digits 4 nodeVersion ++ digits 4 f.original ++ digits 4 build ++ digits 4 pls.length))
    (by simp [W.init, W.push, digits_length, placeBytes_length]; omega)
  rw [push_push] at p5
  have e' : mg ++ digits 4 nodeVersion ++ digits 4 f.original ++ digits 4 build ++ digits 4 pls.length ++ placeBytes pls = headBytes build f pls := by
    rw [e]; simp only [List.append_assoc]
  rw [e'] at p5
  refine ⟨W.push (W.init size) (sealed (headBytes build f pls)), ?_, by simp [W.push, W.init]⟩
  rw [p0, R.bind_ok, p1, R.bind_ok, p2, R.bind_ok, p3, R.bind_ok, p4, R.bind_ok, p5, R.bind_ok, sealW_init (w := W.init 0) hs]

/-! ### The block -/

/-- A block on disk that holds a node. -/
structure Image (L : Lib) (build : Nat) (f : Fields) (ks : List PivotSpec.Key) (cts : List Content) (block : List Nat) (pls : List (Nat × Nat)) (body rest : List Nat) (un : Nat) : Prop where
  split : block = sealed (headBytes build f pls) ++ (sealed (subAll body un) ++ rest)
  info : decompress L un body = .ok (sealed (infoBytes f ks))
  un : un < 2 ^ 32
  body : body.length < 2 ^ 32 - 2000
  placed : All2 (Placed L f.height block) pls cts
  whole : block.length % 512 = 0
  fits : block.length < 2 ^ 32

/-- A node holds this. -/
structure FNode.Has (n : FNode) (ks : List PivotSpec.Key) (cts : List Content) : Prop where
  fields : n.f.Has ks cts.length
  parts : All2 (Part.Has n.f.height) n.parts cts
  ok : ∀ ct ∈ cts, ct.Ok
  small : total cts < 2 ^ 29

theorem FNode.Has.write {L : Lib} (hL : L.Ok) (m : Method) (build : Nat) {n : FNode} {ks : List PivotSpec.Key} {cts : List Content} (h : n.Has ks cts) :
    ∃ ps' pls block body rest un, n.toMemory L m build = .ok ({ n with parts := ps' }, pls, block) ∧ All2 (Part.Has n.f.height) ps' cts ∧
      Image L build n.f ks cts block pls body rest un := by
  obtain ⟨ps', subs, e1, e2, e3⟩ := packAll_ok hL m h.parts h.ok
  have hw := h.fields.write
  have his := h.fields.infoSmall
  have hn : n.parts.length = cts.length := h.parts.length
  have hn' : subs.length = cts.length := e3.length
  have hsz := sealed_length (infoBytes n.f ks)
  obtain ⟨body, c1, c2, c3⟩ := compressSub_ok hL m (sealed_bytes h.fields.bytes) (by omega)
  have few := h.fields.few
  have small := h.small
  have hpl := packed_length e3
  have hhs : headerSize cts.length = 28 + cts.length * 8 := by unfold headerSize m32; omega
  generalize hun : (sealed (infoBytes n.f ks)).length = un at *
  have hsub : (sealed (subAll body un)).length = 12 + body.length := by rw [sealed_length, subAll_length]; omega
  have hplen : ∀ pls : List (Nat × Nat), (headBytes build n.f pls).length = 24 + pls.length * 8 := headBytes_length build n.f
  have hpll : ∀ t, (places t subs).1.length = subs.length := by
    clear hpl hn' e3 e1
    induction subs with
    | nil => intro t; rfl
    | cons s subs ih => intro t; rw [places]; simp only [List.length_cons]; rw [ih]
  generalize hst : 28 + cts.length * 8 + (12 + body.length) = start
  have e4 : m32 (headerSize cts.length + (subAll body un).length + 4) = start := by rw [hhs, subAll_length]; unfold m32; omega
  generalize hpls : (places start subs).1 = pls
  have hplsl : pls.length = cts.length := by rw [← hpls, hpll, hn']
  generalize hpre : sealed (headBytes build n.f pls) ++ sealed (subAll body un) = pre
  have hprel : pre.length = start := by rw [← hpre, List.length_append, sealed_length, headBytes_length, hsub, hplsl]; omega
  generalize htot : start + (subs.flatMap subBytes).length = tot
  have hru : roundup512 tot % 512 = 0 ∧ tot ≤ roundup512 tot ∧ roundup512 tot < tot + 512 := by unfold roundup512; omega
  generalize hpost : List.replicate (roundup512 tot - tot) 0 = post
  obtain ⟨p1, p2⟩ := places_ok e3 pre post (by omega)
  rw [hprel] at p1 p2
  rw [hpls] at p2
  rw [htot] at p1
  obtain ⟨w, w1, w2⟩ := writeNodeHeader_ok (build := build) (f := n.f) (pls := pls) (size := 28 + cts.length * 8) (fun p hp => by
    obtain ⟨i, hi⟩ := List.getElem?_of_mem hp
    have hlt := (List.getElem?_eq_some_iff.mp hi).1
    obtain ⟨b, un', hb, _⟩ := p2.get' hi (List.getElem?_eq_getElem (by rw [← hplsl]; exact hlt))
    omega) (by rw [headBytes_length, hplsl]; omega)
  have hsize : m32 (roundup512 tot) = roundup512 tot := by unfold m32; omega
  have hlen : (pre ++ (subs.flatMap subBytes ++ post)).length = roundup512 tot := by
    rw [List.length_append, List.length_append, hprel, ← hpost, List.length_replicate]; omega
  refine ⟨ps', pls, pre ++ (subs.flatMap subBytes ++ post), body, subs.flatMap subBytes ++ post, un, ?_, e2, ⟨by rw [← hpre, List.append_assoc], c3, by omega, by omega, p2, by rw [hlen]; exact hru.1, by rw [hlen]; omega⟩⟩
  have hb : w.out ++ subBytes (subAll body un, memory (subAll body un)) ++ subs.flatMap subBytes = pre ++ subs.flatMap subBytes := by
    rw [subBytes_sealed, w2, hpre]
  have hbl : (pre ++ subs.flatMap subBytes).length = tot := by rw [List.length_append, hprel, htot]
  rw [FNode.toMemory, e1, R.bind_ok]
  simp only
  rw [hn, hw, R.bind_ok, c1, R.bind_ok]
  simp only
  rw [e4, hpls, p1, hsize, hhs, w1, R.bind_ok, hb, hbl]
  rw [if_pos hru.2.1, if_pos rfl, if_pos hru.1, hpost, List.append_assoc]

end Verif.Node
