import Verif.Tree.Apply

/-! The invariant: every image of a leaf, completed by the messages above it that are newer, is the
dictionary as it should be. -/
namespace Verif.Tree
set_option linter.unusedSectionVars false
variable {K R B : Type} [LinearOrder K]

@[simp] theorem Out.ok_bind {α β : Type} (a : α) (f : α → Out β) : (Out.ok a >>= f) = f a := rfl
@[simp] theorem Out.skip_bind {α β : Type} (f : α → Out β) : ((Out.skip : Out α) >>= f) = .skip := rfl
@[simp] theorem Out.crash_bind {α β : Type} (f : α → Out β) : ((Out.crash : Out α) >>= f) = .crash := rfl
@[simp] theorem need_some {α : Type} (a : α) : need (some a) = .ok a := rfl

/-- What the invariant is about: the values there should be, and the largest MSN given out. -/
structure Ctx (K R B : Type) where
  sem : Sem K R B
  spec : K → Option R
  mx : Nat

/-- A basement, given the buffered messages `U` above it, nearest first. -/
structure BnOk (c : Ctx K R B) (U : List (Ent K B)) (lo hi : Option K) (b : Bn K R) : Prop where
  sorted : Sorted b.rows
  within : RowsIn lo hi b.rows
  img : ∀ k, InB lo hi k → eff c.sem k (lookup b.rows k) (pend b.maxMsn U) = c.spec k
  st : b.staleApplied = true → ∀ e ∈ U, ∀ k, e.msg.kind = .once k → InB lo hi k → e.fr ≠ .fresh → e.msg.msn ≤ b.maxMsn
  le : b.maxMsn ≤ c.mx

structure PartOk (c : Ctx K R B) (U : List (Ent K B)) (msn : Nat) (dirty : Bool) (lo hi : Option K)
    (p : Part K R) : Prop where
  bn : ∀ b, p.mem = some b → BnOk c U lo hi b ∧ (dirty = false → msn ≤ b.maxMsn)
  mem : dirty = true → ∃ b, p.mem = some b
  disk : dirty = false → BnOk c U lo hi ⟨p.disk, msn, false⟩

/-- The pivots that count. -/
def Leaf.ks (l : Leaf K R) : List K := l.pivots.take (l.parts.length - 1)

structure LeafCore (c : Ctx K R B) (U : List (Ent K B)) (lo hi : Option K) (l : Leaf K R) : Prop where
  le : l.msn ≤ c.mx
  piv : l.pivots.length ≤ l.parts.length
  chain : Chain (PartOk c U l.msn l.dirty) lo hi l.ks l.parts

/-- A message above is either in all basements or in none. -/
def AllOrNone (W : List (Ent K B)) (ps : List (Part K R)) : Prop :=
  ∀ u ∈ W, ∀ p ∈ ps, ∀ b, p.mem = some b → ∀ p' ∈ ps, ∀ b', p'.mem = some b' →
    u.msg.msn ≤ b.maxMsn ∨ b'.maxMsn < u.msg.msn

structure SlotOk (msn : Nat) (lo hi : Option K) (s : Slot K B) : Prop where
  incr : Incr s
  le : ∀ e ∈ s, e.msg.msn ≤ msn
  keys : ∀ e ∈ s, KeyIn lo hi e.msg

/-- The invariant of a subtree with bounds `lo`, `hi` under the buffered messages `U`. -/
def Good (c : Ctx K R B) : (h : Nat) → Option K → Option K → List (Ent K B) → Node K R B h → Prop
  | 0, lo, hi, U, l => LeafCore c U lo hi l ∧ (Leaf.dirty l = true → AllOrNone U (Leaf.parts l))
  | h + 1, lo, hi, U, n =>
    Inner.msn n ≤ c.mx ∧ (∀ u ∈ U, Inner.msn n < u.msg.msn) ∧
    Chain (fun lo hi p => SlotOk (Inner.msn n) lo hi p.1 ∧ Good c h lo hi (p.1 ++ U) p.2)
      lo hi (Inner.pivots n) (Inner.kids n)

/-- A change of what is above a subtree with bounds `lo`, `hi`. -/
structure Tr (c c' : Ctx K R B) (lo hi : Option K) (U U' : List (Ent K B)) : Prop where
  sem : c'.sem = c.sem
  img : ∀ k, InB lo hi k → ∀ v b, b ≤ c.mx →
    eff c.sem k v (pend b U) = c.spec k → eff c.sem k v (pend b U') = c'.spec k
  st : ∀ e ∈ U', ∀ k, e.msg.kind = .once k → InB lo hi k → e.fr ≠ .fresh →
    ∃ e0 ∈ U, e0.msg = e.msg ∧ e0.fr ≠ .fresh
  msn : ∀ e ∈ U', c.mx < e.msg.msn ∨ ∃ e0 ∈ U, e0.msg.msn = e.msg.msn
  mx : c.mx ≤ c'.mx

theorem Tr.prefix {c c' : Ctx K R B} {lo hi U U'} (h : Tr c c' lo hi U U') (s : List (Ent K B)) :
    Tr c c' lo hi (s ++ U) (s ++ U') where
  sem := h.sem
  img := by
    intro k hk v b hb hv
    rw [pend_append, eff_append] at hv ⊢
    exact h.img k hk _ b hb hv
  st := by
    intro e he k hk hb hf
    rcases List.mem_append.1 he with he | he
    · exact ⟨e, List.mem_append_left _ he, rfl, hf⟩
    · obtain ⟨e0, h0, h1⟩ := h.st e he k hk hb hf
      exact ⟨e0, List.mem_append_right _ h0, h1⟩
  msn := by
    intro e he
    rcases List.mem_append.1 he with he | he
    · exact Or.inr ⟨e, List.mem_append_left _ he, rfl⟩
    · rcases h.msn e he with h0 | ⟨e0, h0, h1⟩
      · exact Or.inl h0
      · exact Or.inr ⟨e0, List.mem_append_right _ h0, h1⟩
  mx := h.mx

theorem Tr.narrow {c c' : Ctx K R B} {lo hi lo' hi' U U'} (h : Tr c c' lo hi U U') (hs : Sub lo' hi' lo hi) :
    Tr c c' lo' hi' U U' where
  sem := h.sem
  img := fun k hk => h.img k (hs k hk)
  st := fun e he k hk hb => h.st e he k hk (hs k hb)
  msn := h.msn
  mx := h.mx

theorem BnOk.tr {c c' : Ctx K R B} {lo hi U U'} {b : Bn K R} (h : BnOk c U lo hi b) (t : Tr c c' lo hi U U') :
    BnOk c' U' lo hi b where
  sorted := h.sorted
  within := h.within
  img := by
    intro k hk
    rw [t.sem]
    exact t.img k hk _ _ h.le (h.img k hk)
  st := by
    intro hs e he k hk hb hf
    obtain ⟨e0, h0, h1, h2⟩ := t.st e he k hk hb hf
    have := h.st hs e0 h0 k (by rw [h1]; exact hk) hb h2
    rwa [h1] at this
  le := Nat.le_trans h.le t.mx

theorem PartOk.tr {c c' : Ctx K R B} {lo hi U U' msn d} {p : Part K R} (h : PartOk c U msn d lo hi p)
    (t : Tr c c' lo hi U U') : PartOk c' U' msn d lo hi p where
  bn := fun b hb => ⟨(h.bn b hb).1.tr t, (h.bn b hb).2⟩
  mem := h.mem
  disk := fun hd => (h.disk hd).tr t

theorem LeafCore.tr {c c' : Ctx K R B} {lo hi U U'} {l : Leaf K R} (h : LeafCore c U lo hi l)
    (t : Tr c c' lo hi U U') : LeafCore c' U' lo hi l where
  le := Nat.le_trans h.le t.mx
  piv := h.piv
  chain := chain_mono h.chain fun _ _ _ _ hs hp => hp.tr (t.narrow hs)

theorem chain_all {α : Type} {P : Option K → Option K → α → Prop} {lo hi ks ps} (h : Chain P lo hi ks ps) :
    ∀ p ∈ ps, ∃ lo' hi', P lo' hi' p ∧ Sub lo' hi' lo hi := by
  intro p hp
  obtain ⟨i, hi', rfl⟩ := List.getElem_of_mem hp
  exact ⟨_, _, chain_get h (List.getElem?_eq_getElem hi'), childLo_inB h hi'⟩

theorem LeafCore.bnle {c : Ctx K R B} {lo hi U} {l : Leaf K R} (h : LeafCore c U lo hi l) :
    ∀ p ∈ l.parts, ∀ b, p.mem = some b → b.maxMsn ≤ c.mx := by
  intro p hp b hb
  obtain ⟨_, _, hP, _⟩ := chain_all h.chain p hp
  exact (hP.bn b hb).1.le

theorem Good.tr {c c' : Ctx K R B} : ∀ {h lo hi U U'} {n : Node K R B h}, Good c h lo hi U n →
    Tr c c' lo hi U U' → Good c' h lo hi U' n
  | 0, lo, hi, U, U', n, hg, t => by
    refine ⟨hg.1.tr t, fun hd u hu p hp b hb p' hp' b' hb' => ?_⟩
    rcases t.msn u hu with h | ⟨u0, h0, h1⟩
    · right
      exact Nat.lt_of_le_of_lt (hg.1.bnle p' hp' b' hb') h
    · rw [← h1]
      exact hg.2 hd u0 h0 p hp b hb p' hp' b' hb'
  | h + 1, lo, hi, U, U', n, hg, t => by
    obtain ⟨h1, h2, h3⟩ := hg
    refine ⟨Nat.le_trans h1 t.mx, ?_, ?_⟩
    · intro u hu
      rcases t.msn u hu with h | ⟨u0, h0, e⟩
      · exact Nat.lt_of_le_of_lt h1 h
      · rw [← e]; exact h2 u0 h0
    · refine chain_mono h3 ?_
      intro lo' hi' p hp hs ⟨hP, hG⟩
      exact ⟨hP, hG.tr ((t.narrow hs).prefix p.1)⟩

/-! ### Instances -/

/-- A message that concerns no key within bounds. -/
def Irr (lo hi : Option K) (m : Msg K B) : Prop :=
  match m.kind with
  | .once k => ¬ InB lo hi k
  | .all => False
  | .nothing => True

theorem Irr.meff {lo hi : Option K} {m : Msg K B} (h : Irr lo hi m) (sem : Sem K R B) {k : K} (hk : InB lo hi k)
    (v : Option R) : meff sem k v m = v := by
  apply meff_of_not_conc
  unfold Irr at h
  unfold Conc
  cases hm : m.kind with
  | once k' =>
    rw [hm] at h
    simp only [decide_eq_false_iff_not]
    rintro rfl
    exact h hk
  | all => rw [hm] at h; exact h.elim
  | nothing => rfl

theorem tr_drop {c : Ctx K R B} {lo hi : Option K} {e : Ent K B} {U : List (Ent K B)} (h : Irr lo hi e.msg) :
    Tr c c lo hi (e :: U) U where
  sem := rfl
  img := by
    intro k hk v b _ hv
    rw [show e :: U = [e] ++ U from rfl, pend_append, eff_append] at hv
    have : eff c.sem k v (pend b [e]) = v := by
      unfold pend
      rw [List.filter_cons]
      split
      · exact h.meff c.sem hk v
      · rfl
    rwa [this] at hv
  st := fun e' he k _ _ hf => ⟨e', List.mem_cons_of_mem _ he, rfl, hf⟩
  msn := fun e' he => Or.inr ⟨e', List.mem_cons_of_mem _ he, rfl⟩
  mx := Nat.le_refl _

/-- The context after one more message. -/
def Ctx.after (c : Ctx K R B) (m : Msg K B) : Ctx K R B :=
  { sem := c.sem, spec := fun k => meff c.sem k (c.spec k) m, mx := m.msn }

theorem tr_extend {c : Ctx K R B} {lo hi : Option K} {e : Ent K B} {U : List (Ent K B)} (h : c.mx < e.msg.msn)
    (hf : e.fr = .fresh) : Tr c (c.after e.msg) lo hi U (U ++ [e]) where
  sem := rfl
  img := by
    intro k hk v b hb hv
    rw [pend_append, eff_append, hv]
    have : pend b [e] = [e] := pend_all fun u hu => by
      rw [List.mem_singleton.1 hu]; omega
    rw [this]
    rfl
  st := by
    intro e' he k _ _ hf'
    rcases List.mem_append.1 he with he | he
    · exact ⟨e', he, rfl, hf'⟩
    · rw [List.mem_singleton.1 he] at hf'
      exact absurd hf hf'
  msn := by
    intro e' he
    rcases List.mem_append.1 he with he | he
    · exact Or.inr ⟨e', he, rfl⟩
    · rw [List.mem_singleton.1 he]; exact Or.inl h
  mx := Nat.le_of_lt h

theorem tr_irr {c : Ctx K R B} {lo hi : Option K} {m : Msg K B} {U : List (Ent K B)} (h : c.mx < m.msn)
    (hi' : Irr lo hi m) : Tr c (c.after m) lo hi U U where
  sem := rfl
  img := by
    intro k hk v b hb hv
    rw [hv]
    exact (hi'.meff c.sem hk _).symm
  st := fun e' he k _ _ hf => ⟨e', he, rfl, hf⟩
  msn := fun e' he => Or.inr ⟨e', he, rfl⟩
  mx := Nat.le_of_lt h

/-- Lists related element by element. -/
inductive F2 {α β : Type} (r : α → β → Prop) : List α → List β → Prop
  | nil : F2 r [] []
  | cons {a b as bs} : r a b → F2 r as bs → F2 r (a :: as) (b :: bs)

/-- Changes of the marks only, none of which makes a message for a key within bounds less than fresh. -/
def ReFr (lo hi : Option K) (U U' : List (Ent K B)) : Prop :=
  F2 (fun e e' => e'.msg = e.msg ∧
    ∀ k, e.msg.kind = .once k → InB lo hi k → e'.fr ≠ .fresh → e.fr ≠ .fresh) U U'

theorem forall2_mem_right {α : Type} {r : α → α → Prop} {a b : List α} (h : F2 r a b) :
    ∀ y ∈ b, ∃ x ∈ a, r x y := by
  induction h with
  | nil => intro y hy; cases hy
  | cons hr _ ih =>
    intro y hy
    rcases List.mem_cons.1 hy with rfl | hy
    · exact ⟨_, List.mem_cons_self, hr⟩
    · obtain ⟨x, hx, hxy⟩ := ih y hy
      exact ⟨x, List.mem_cons_of_mem _ hx, hxy⟩

theorem ReFr.eff {lo hi : Option K} {U U' : List (Ent K B)} (h : ReFr lo hi U U') (sem : Sem K R B) (k : K)
    (b : Nat) (v : Option R) : eff sem k v (pend b U') = eff sem k v (pend b U) := by
  induction h generalizing v with
  | nil => rfl
  | cons hr _ ih =>
    unfold pend at ih ⊢
    rw [List.filter_cons, List.filter_cons, hr.1]
    split
    · show Tree.eff sem k (Tree.meff sem k v _) _ = Tree.eff sem k (Tree.meff sem k v _) _
      rw [hr.1]
      exact ih _
    · exact ih _

theorem tr_refr {c : Ctx K R B} {lo hi : Option K} {U U' : List (Ent K B)} (h : ReFr lo hi U U') :
    Tr c c lo hi U U' where
  sem := rfl
  img := by
    intro k hk v b _ hv
    rwa [h.eff]
  st := by
    intro e' he k hk hb hf
    obtain ⟨e, h0, h1, h2⟩ := forall2_mem_right h e' he
    exact ⟨e, h0, h1.symm, h2 k (by rw [← h1]; exact hk) hb hf⟩
  msn := by
    intro e' he
    obtain ⟨e, h0, h1, _⟩ := forall2_mem_right h e' he
    exact Or.inr ⟨e, h0, by rw [h1]⟩
  mx := Nat.le_refl _

theorem ReFr.refl (lo hi : Option K) (U : List (Ent K B)) : ReFr lo hi U U := by
  induction U with
  | nil => exact F2.nil
  | cons a U ih => exact F2.cons ⟨rfl, fun _ _ _ h => h⟩ ih

theorem ReFr.append {lo hi : Option K} {a a' b b' : List (Ent K B)} (h : ReFr lo hi a a') (h' : ReFr lo hi b b') :
    ReFr lo hi (a ++ b) (a' ++ b') := by
  induction h with
  | nil => exact h'
  | cons hr _ ih => exact F2.cons hr ih

end Verif.Tree
