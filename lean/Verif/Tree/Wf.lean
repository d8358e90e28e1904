import Verif.Tree.Run

/-! Leaves in memory whose rows are where the pivots say, as contexts in which the invariant holds. -/
namespace Verif.Tree
set_option linter.unusedSectionVars false
variable {K R B : Type} [LinearOrder K]

theorem wf_chain {c : Ctx K R B} {m : Nat} : ∀ {lo hi : Option K} {ks : List K} {ps : List (Part K R)},
    Chain (fun lo hi p => Sorted (partRows p) ∧ ∀ x ∈ partRows p, InB lo hi x.1) lo hi ks ps → AllMem ps →
    (∀ p ∈ ps, ∀ b, p.mem = some b → b.maxMsn ≤ c.mx) →
    (∀ k, InB lo hi k → lookup (ps.map partRows).flatten k = c.spec k) →
    Chain (PartOk c [] m true) lo hi ks ps ∧ Sorted (ps.map partRows).flatten ∧
      ∀ x ∈ (ps.map partRows).flatten, InB lo hi x.1 := by
  have one : ∀ {lo hi : Option K} {p : Part K R}, Sorted (partRows p) → (∀ x ∈ partRows p, InB lo hi x.1) →
      (∃ b, p.mem = some b) → (∀ b, p.mem = some b → b.maxMsn ≤ c.mx) →
      (∀ k, InB lo hi k → lookup (partRows p) k = c.spec k) → PartOk c [] m true lo hi p := by
    intro lo hi p hs hw ⟨b, hb⟩ hm hl
    rw [partRows_mem hb] at hs hw hl
    refine ⟨?_, fun _ => ⟨b, hb⟩, fun h => (by cases h)⟩
    intro b' hb'
    rw [hb] at hb'
    cases hb'
    exact ⟨⟨hs, hw, hl, fun _ e he => (by cases he), hm b hb⟩, fun h => (by cases h)⟩
  intro lo hi ks
  induction ks generalizing lo with
  | nil =>
    intro ps h ha hm hl
    obtain ⟨p, rfl, hP⟩ := chain_nil h
    have hmem : p ∈ [p] := List.mem_singleton.2 rfl
    simp only [List.map_cons, List.map_nil, List.flatten_cons, List.flatten_nil, List.append_nil] at hl ⊢
    exact ⟨one hP.1 hP.2 (ha p hmem) (hm p hmem) hl, hP.1, hP.2⟩
  | cons k ks ih =>
    intro ps h ha hm hl
    obtain ⟨p, ps', rfl, hP, hA, hB, hC⟩ := chain_cons h
    simp only [List.map_cons, List.flatten_cons] at hl ⊢
    have hrest : Sorted (ps'.map partRows).flatten ∧ ∀ x ∈ (ps'.map partRows).flatten, InB (some k) hi x.1 := by
      clear ih hl
      have : ∀ {lo : Option K} {ks : List K} {ps : List (Part K R)},
          Chain (fun lo hi p => Sorted (partRows p) ∧ ∀ x ∈ partRows p, InB lo hi x.1) lo hi ks ps →
          Sorted (ps.map partRows).flatten ∧ ∀ x ∈ (ps.map partRows).flatten, InB lo hi x.1 := by
        intro lo ks
        induction ks generalizing lo with
        | nil =>
          intro ps h
          obtain ⟨p, rfl, hP⟩ := chain_nil h
          simpa using hP
        | cons k ks ih =>
          intro ps h
          obtain ⟨p, ps', rfl, hP, hA, hB, hC⟩ := chain_cons h
          obtain ⟨i1, i2⟩ := ih hC
          rw [List.map_cons, List.flatten_cons]
          refine ⟨List.pairwise_append.2 ⟨hP.1, i1, ?_⟩, ?_⟩
          · intro x hx y hy
            exact lt_of_le_of_lt ((hP.2 x hx).2 k rfl) ((i2 y hy).1 k rfl)
          · intro x hx
            rcases List.mem_append.1 hx with hx | hx
            · exact sub_left hB _ (hP.2 x hx)
            · exact sub_right hA _ (i2 x hx)
      exact this hC
    have h2 := ih hC (fun q hq => ha q (List.mem_cons_of_mem _ hq)) (fun q hq => hm q (List.mem_cons_of_mem _ hq)) (by
      intro x hx
      rw [← hl x (sub_right hA _ hx), lookup_right]
      intro r hr
      exact lt_of_le_of_lt ((hP.2 r hr).2 k rfl) (hx.1 k rfl))
    refine ⟨⟨one hP.1 hP.2 (ha p List.mem_cons_self) (hm p List.mem_cons_self) ?_, hA, hB, h2.1⟩, ?_, ?_⟩
    · intro x hx
      rw [← hl x (sub_left hB _ hx), lookup_left]
      intro r hr
      exact lt_of_le_of_lt (hx.2 k rfl) ((hrest.2 r hr).1 k rfl)
    · refine List.pairwise_append.2 ⟨hP.1, hrest.1, ?_⟩
      intro x hx y hy
      exact lt_of_le_of_lt ((hP.2 x hx).2 k rfl) ((hrest.2 y hy).1 k rfl)
    · intro x hx
      rcases List.mem_append.1 hx with hx | hx
      · exact sub_left hB _ (hP.2 x hx)
      · exact sub_right hA _ (hrest.2 x hx)

/-- A leaf in memory whose pivots separate its basements. -/
structure LeafWf (lo hi : Option K) (l : Leaf K R) : Prop where
  /-- every basement is in memory -/
  mem : ∀ p ∈ l.parts, ∃ b, p.mem = some b
  /-- at most one pivot more than needed -/
  piv : l.pivots.length ≤ l.parts.length
  /-- the pivots lie between the basements, which are sorted -/
  sep : Chain (fun lo hi p => Sorted (partRows p) ∧ ∀ x ∈ partRows p, InB lo hi x.1) lo hi
    (l.pivots.take (l.parts.length - 1)) l.parts

theorem LeafWf.core {c : Ctx K R B} {lo hi : Option K} {l : Leaf K R} (h : LeafWf lo hi l) (hm : l.msn ≤ c.mx)
    (hb : ∀ p ∈ l.parts, ∀ b, p.mem = some b → b.maxMsn ≤ c.mx)
    (hs : ∀ k, InB lo hi k → lookup (leafRows l) k = c.spec k) :
    LeafCore c [] lo hi { l with dirty := true } ∧ Sorted (leafRows l) ∧ ∀ x ∈ leafRows l, InB lo hi x.1 := by
  rw [leafRows_eq] at hs ⊢
  have := wf_chain (c := c) (m := l.msn) h.sep h.mem hb hs
  exact ⟨⟨hm, h.piv, this.1⟩, this.2⟩

theorem LeafCore.wf {c : Ctx K R B} {lo hi : Option K} {l : Leaf K R} {U : List (Ent K B)} (h : LeafCore c U lo hi l)
    (hm : AllMem l.parts) : LeafWf lo hi l := by
  refine ⟨hm, h.piv, chain_mono h.chain ?_⟩
  intro lo' hi' p hp _ hP
  obtain ⟨b, hb⟩ := hm p hp
  rw [partRows_mem hb]
  exact ⟨(hP.bn b hb).1.sorted, (hP.bn b hb).1.within⟩

/-- The largest MSN in a leaf. -/
def topMsn (l : Leaf K R) : Nat := max l.msn (maxBnMsn l.parts)

theorem topMsn_spec (l : Leaf K R) : l.msn ≤ topMsn l ∧ ∀ p ∈ l.parts, ∀ b, p.mem = some b → b.maxMsn ≤ topMsn l := by
  have := (maxBnMsn_spec l.parts).1
  unfold topMsn
  exact ⟨Nat.le_max_left _ _, fun p hp b hb => Nat.le_trans (this p hp b hb) (Nat.le_max_right _ _)⟩

end Verif.Tree
