import Verif.Tree.Put

/-! Queries: applying the ancestors' messages on the way down. -/
namespace Verif.Tree
set_option linter.unusedSectionVars false
variable {K R B : Type} [LinearOrder K]

/-- All messages on the path, nearest first. -/
def flat (fs : List (Frame K B)) : List (Ent K B) := fs.flatMap (·.slot)

def FOk (c : Ctx K R B) : List (Frame K B) → Prop
  | [] => True
  | f :: fs => f.msn ≤ c.mx ∧ Incr f.slot ∧ (∀ e ∈ f.slot, e.msg.msn ≤ f.msn) ∧
      (∀ u ∈ flat fs, f.msn < u.msg.msn) ∧ FOk c fs

/-- Same messages, with marks changed only on those for keys within bounds. -/
def MarkIn (lo hi : Option K) (s s' : List (Ent K B)) : Prop :=
  F2 (fun e e' => e'.msg = e.msg ∧ (e'.fr ≠ e.fr → ∀ k, e.msg.kind = .once k → InB lo hi k)) s s'

def FRel (lo hi : Option K) (fs fs' : List (Frame K B)) : Prop :=
  F2 (fun f f' => f'.msn = f.msn ∧ MarkIn lo hi f.slot f'.slot) fs fs'

theorem F2.refl' {α : Type} {r : α → α → Prop} (h : ∀ a, r a a) : ∀ l, F2 r l l
  | [] => .nil
  | a :: l => .cons (h a) (F2.refl' h l)

theorem F2.append' {α β : Type} {r : α → β → Prop} {a b c d} (h : F2 r a b) (h' : F2 r c d) : F2 r (a ++ c) (b ++ d) := by
  induction h with
  | nil => exact h'
  | cons x _ ih => exact .cons x ih

theorem F2.imp' {α β : Type} {r r' : α → β → Prop} (h : ∀ a b, r a b → r' a b) {a b} (h2 : F2 r a b) : F2 r' a b := by
  induction h2 with
  | nil => exact .nil
  | cons x _ ih => exact .cons (h _ _ x) ih

theorem F2.trans' {α : Type} {r : α → α → Prop} (h : ∀ a b c, r a b → r b c → r a c) {a b c} (h1 : F2 r a b)
    (h2 : F2 r b c) : F2 r a c := by
  induction h1 generalizing c with
  | nil => cases h2; exact .nil
  | cons x _ ih =>
    cases h2 with
    | cons y h3 => exact .cons (h _ _ _ x y) (ih h3)

theorem F2.memR {α β : Type} {r : α → β → Prop} {a b} (h : F2 r a b) : ∀ y ∈ b, ∃ x ∈ a, r x y := by
  induction h with
  | nil => intro y hy; cases hy
  | cons hr _ ih =>
    intro y hy
    rcases List.mem_cons.1 hy with rfl | hy
    · exact ⟨_, List.mem_cons_self, hr⟩
    · obtain ⟨x, hx, hxy⟩ := ih y hy
      exact ⟨x, List.mem_cons_of_mem _ hx, hxy⟩

theorem MarkIn.refl (lo hi : Option K) (s : List (Ent K B)) : MarkIn lo hi s s :=
  F2.refl' (fun _ => ⟨rfl, fun h => absurd rfl h⟩) s

theorem MarkIn.mono {lo hi lo' hi' : Option K} {s s' : List (Ent K B)} (h : MarkIn lo hi s s')
    (hs : Sub lo hi lo' hi') : MarkIn lo' hi' s s' :=
  F2.imp' (fun _ _ h => ⟨h.1, fun hf k hk => hs k (h.2 hf k hk)⟩) h

theorem MarkIn.trans {lo hi : Option K} {a b c : List (Ent K B)} (h : MarkIn lo hi a b) (h' : MarkIn lo hi b c) :
    MarkIn lo hi a c := by
  refine F2.trans' ?_ h h'
  intro x y z ⟨h1, h2⟩ ⟨h3, h4⟩
  refine ⟨h3.trans h1, fun hf k hk => ?_⟩
  by_cases e : z.fr = y.fr
  · exact h2 (by rw [← e]; exact hf) k hk
  · exact h4 e k (by rw [h1]; exact hk)

theorem FRel.refl (lo hi : Option K) (fs : List (Frame K B)) : FRel lo hi fs fs :=
  F2.refl' (fun _ => ⟨rfl, MarkIn.refl _ _ _⟩) fs

theorem FRel.mono {lo hi lo' hi' : Option K} {s s' : List (Frame K B)} (h : FRel lo hi s s')
    (hs : Sub lo hi lo' hi') : FRel lo' hi' s s' :=
  F2.imp' (fun _ _ h => ⟨h.1, h.2.mono hs⟩) h

theorem FRel.trans {lo hi : Option K} {a b c : List (Frame K B)} (h : FRel lo hi a b) (h' : FRel lo hi b c) :
    FRel lo hi a c :=
  F2.trans' (fun _ _ _ h1 h2 => ⟨h2.1.trans h1.1, h1.2.trans h2.2⟩) h h'

theorem FRel.flat {lo hi : Option K} {fs fs' : List (Frame K B)} (h : FRel lo hi fs fs') :
    MarkIn lo hi (flat fs) (Tree.flat fs') := by
  induction h with
  | nil => exact F2.nil
  | cons x _ ih => exact F2.append' x.2 ih

theorem MarkIn.msn {lo hi : Option K} {s s' : List (Ent K B)} (h : MarkIn lo hi s s') :
    ∀ e' ∈ s', ∃ e ∈ s, e.msg = e'.msg := by
  intro e' he'
  obtain ⟨e, he, h1⟩ := F2.memR h e' he'
  exact ⟨e, he, h1.1.symm⟩

theorem MarkIn.refr {lo hi lo' hi' : Option K} {s s' : List (Ent K B)} (h : MarkIn lo hi s s')
    (hd : Disj lo' hi' lo hi) : ReFr lo' hi' s s' := by
  refine F2.imp' ?_ h
  intro e e' ⟨h1, h2⟩
  refine ⟨h1, fun k hk hb hf => ?_⟩
  by_cases hfe : e'.fr = e.fr
  · rw [← hfe]; exact hf
  · exact absurd (h2 hfe k hk) (hd k hb)

theorem MarkIn.incr {lo hi : Option K} {s s' : List (Ent K B)} (h : MarkIn lo hi s s') (hs : Incr s) : Incr s' := by
  induction h with
  | nil => exact List.Pairwise.nil
  | cons x h2 ih =>
    obtain ⟨h3, h4⟩ := List.pairwise_cons.1 hs
    refine List.pairwise_cons.2 ⟨?_, ih h4⟩
    intro y hy
    obtain ⟨z, hz, hzy⟩ := MarkIn.msn h2 y hy
    have := h3 z hz
    rw [x.1, ← hzy]
    exact this

theorem FRel.ok {c : Ctx K R B} {lo hi : Option K} {fs fs' : List (Frame K B)} (h : FRel lo hi fs fs') (hf : FOk c fs) :
    FOk c fs' := by
  induction h with
  | nil => exact hf
  | cons x h2 ih =>
    obtain ⟨h3, h4, h5, h6, h7⟩ := hf
    refine ⟨by rw [x.1]; exact h3, x.2.incr h4, ?_, ?_, ih h7⟩
    · intro e he
      obtain ⟨e0, h0, h1⟩ := x.2.msn e he
      rw [x.1, ← h1]
      exact h5 e0 h0
    · intro u hu
      obtain ⟨e0, h0, h1⟩ := (FRel.flat h2).msn u hu
      rw [x.1, ← h1]
      exact h6 e0 h0

theorem markSlot_rel (lo hi : Option K) (s : Slot K B) : MarkIn lo hi s (markSlot lo hi s) := by
  unfold markSlot
  induction s with
  | nil => exact F2.nil
  | cons e s ih =>
    refine F2.cons ?_ ih
    simp only
    split
    · rename_i ht
      refine ⟨rfl, fun _ k hk => ?_⟩
      unfold touched at ht
      rw [hk] at ht
      simp only [Bool.and_eq_true] at ht
      exact (inB_iff _ _ _).2 ht.1
    · exact ⟨rfl, fun h => absurd rfl h⟩

/-- What a basement is after its ancestors' messages were applied. -/
theorem applyFrames_ok {c : Ctx K R B} {lo hi : Option K} : ∀ (fs : List (Frame K B)) {b : Bn K R},
    BnOk c (flat fs) lo hi b → FOk c fs →
    Sorted (applyFrames c.sem lo hi b fs).1.rows ∧ RowsIn lo hi (applyFrames c.sem lo hi b fs).1.rows ∧
    (∀ k, InB lo hi k → lookup (applyFrames c.sem lo hi b fs).1.rows k = c.spec k) ∧
    b.maxMsn ≤ (applyFrames c.sem lo hi b fs).1.maxMsn ∧ (applyFrames c.sem lo hi b fs).1.maxMsn ≤ c.mx ∧
    (∀ u ∈ flat fs, u.msg.msn ≤ (applyFrames c.sem lo hi b fs).1.maxMsn) ∧
    FRel lo hi fs (applyFrames c.sem lo hi b fs).2
  | [], b, hb, _ => ⟨hb.sorted, hb.within, hb.img, Nat.le_refl _, hb.le, fun u hu => (by cases hu), F2.nil⟩
  | f :: fs, b, hb, hf => by
    obtain ⟨f1, f2, f3, f4, f5⟩ := hf
    have hst : b.staleApplied = true → ∀ e ∈ f.slot, ∀ k, e.msg.kind = .once k → InB lo hi k → e.fr ≠ .fresh →
        e.msg.msn ≤ b.maxMsn := fun h e he => hb.st h e (List.mem_append_left _ he)
    obtain ⟨a1, a2, a3⟩ := apply_buffer c.sem f2 hst hb.sorted hb.within
    by_cases hlt : b.maxMsn < f.msn
    · have hb1 : BnOk c (flat fs) lo hi { b with rows := applyEnts c.sem b.maxMsn b.rows (toApply lo hi b.staleApplied f.slot), maxMsn := f.msn } := by
        refine ⟨a1, a2, ?_, ?_, f1⟩
        · intro k hk
          have := hb.img k hk
          rw [show flat (f :: fs) = f.slot ++ flat fs from rfl, pend_append, eff_append, ← a3 k hk,
            pend_all (U := flat fs) (fun u hu => by have := f4 u hu; omega)] at this
          simp only
          rw [pend_all (U := flat fs) f4]
          exact this
        · intro hs e he k hk hkb hfr
          have := hb.st hs e (List.mem_append_right _ he) k hk hkb hfr
          simp only
          omega
      have ih := applyFrames_ok fs hb1 f5
      have e1 : applyFrame c.sem lo hi b f = (({ b with rows := applyEnts c.sem b.maxMsn b.rows (toApply lo hi b.staleApplied f.slot), maxMsn := f.msn } : Bn K R), ({ f with slot := markSlot lo hi f.slot } : Frame K B)) := by
        unfold applyFrame
        rw [if_pos hlt]
      unfold applyFrames
      simp only [e1]
      obtain ⟨i1, i2, i3, i4, i5, i6, i7⟩ := ih
      refine ⟨i1, i2, i3, ?_, i5, ?_, F2.cons ⟨rfl, markSlot_rel _ _ _⟩ i7⟩
      · exact Nat.le_trans (Nat.le_of_lt hlt) i4
      · intro u hu
        rcases List.mem_append.1 hu with hu | hu
        · exact Nat.le_trans (f3 u hu) i4
        · exact i6 u hu
    · have hb1 : BnOk c (flat fs) lo hi b := by
        refine ⟨hb.sorted, hb.within, ?_, fun h e he => hb.st h e (List.mem_append_right _ he), hb.le⟩
        intro k hk
        have := hb.img k hk
        rw [show flat (f :: fs) = f.slot ++ flat fs from rfl, pend_append,
          pend_none (U := f.slot) (fun u hu => by have := f3 u hu; omega)] at this
        exact this
      have ih := applyFrames_ok fs hb1 f5
      have e1 : applyFrame c.sem lo hi b f = (b, f) := by
        unfold applyFrame
        rw [if_neg hlt]
      unfold applyFrames
      simp only [e1]
      obtain ⟨i1, i2, i3, i4, i5, i6, i7⟩ := ih
      refine ⟨i1, i2, i3, i4, i5, ?_, F2.cons ⟨rfl, MarkIn.refl _ _ _⟩ i7⟩
      intro u hu
      rcases List.mem_append.1 hu with hu | hu
      · have := f3 u hu
        omega
      · exact i6 u hu

theorem applyAncestors_ok {c : Ctx K R B} {lo hi : Option K} {fs : List (Frame K B)} {b : Bn K R}
    (hb : BnOk c (flat fs) lo hi b) (hf : FOk c fs) :
    BnOk c (flat (applyAncestors c.sem lo hi b fs).2) lo hi (applyAncestors c.sem lo hi b fs).1 ∧
    (∀ k, InB lo hi k → lookup (applyAncestors c.sem lo hi b fs).1.rows k = c.spec k) ∧
    b.maxMsn ≤ (applyAncestors c.sem lo hi b fs).1.maxMsn ∧
    (∀ u ∈ flat (applyAncestors c.sem lo hi b fs).2, u.msg.msn ≤ (applyAncestors c.sem lo hi b fs).1.maxMsn) ∧
    FRel lo hi fs (applyAncestors c.sem lo hi b fs).2 := by
  obtain ⟨i1, i2, i3, i4, i5, i6, i7⟩ := applyFrames_ok fs hb hf
  unfold applyAncestors
  simp only
  have hle : ∀ u ∈ flat (applyFrames c.sem lo hi b fs).2, u.msg.msn ≤ (applyFrames c.sem lo hi b fs).1.maxMsn := by
    intro u hu
    obtain ⟨e0, h0, h1⟩ := i7.flat.msn u hu
    rw [← h1]
    exact i6 e0 h0
  refine ⟨⟨i1, i2, ?_, ?_, i5⟩, i3, i4, hle, i7⟩
  · intro k hk
    rw [pend_none hle]
    exact i3 k hk
  · intro _ e he k _ _ _
    exact hle e he

/-- When no message is missing, none that is newer concerns a key within bounds. -/
theorem bnNeeds_false {c : Ctx K R B} {lo hi : Option K} {b : Bn K R} : ∀ (fs : List (Frame K B)) (mx0 : Nat),
    (b.staleApplied = true → ∀ e ∈ flat fs, ∀ k, e.msg.kind = .once k → InB lo hi k → e.fr ≠ .fresh → e.msg.msn ≤ b.maxMsn) →
    FOk c fs → mx0 ≤ c.mx → (bnNeeds lo hi b fs mx0).1 = false →
    (∀ u ∈ flat fs, b.maxMsn < u.msg.msn → ∀ k, InB lo hi k → Conc k u.msg = false) ∧
    (bnNeeds lo hi b fs mx0).2 ≤ c.mx
  | [], mx0, _, _, hm, _ => ⟨fun u hu => (by cases hu), hm⟩
  | f :: fs, mx0, hst, hf, hm, hn => by
    obtain ⟨f1, f2, f3, f4, f5⟩ := hf
    have hst' : b.staleApplied = true → ∀ e ∈ flat fs, ∀ k, e.msg.kind = .once k → InB lo hi k → e.fr ≠ .fresh → e.msg.msn ≤ b.maxMsn :=
      fun h e he => hst h e (List.mem_append_right _ he)
    unfold bnNeeds at hn ⊢
    by_cases hlt : b.maxMsn < f.msn
    · simp only [if_pos hlt] at hn ⊢
      by_cases c1 : (!(broadcasts f.slot).isEmpty) = true
      · simp [c1] at hn
      · simp only [if_neg c1] at hn ⊢
        by_cases c2 : (!b.staleApplied && !(rangeOf lo hi (staleTree f.slot)).isEmpty) = true
        · simp [c2] at hn
        · simp only [if_neg c2] at hn ⊢
          by_cases c3 : (!(rangeOf lo hi (freshTree f.slot)).isEmpty) = true
          · simp [c3] at hn
          · simp only [if_neg c3] at hn ⊢
            have ih := bnNeeds_false fs _ hst' f5 (by omega) hn
            refine ⟨?_, ih.2⟩
            intro u hu hlt' k hk
            rcases List.mem_append.1 hu with hu | hu
            · -- a newer message for the key would have been in one of the trees
              cases hc : Conc k u.msg with
              | false => rfl
              | true =>
                exfalso
                have hbe : broadcasts f.slot = [] := by simpa using c1
                have hfe : rangeOf lo hi (freshTree f.slot) = [] := by simpa using c3
                have honce : u.msg.kind.isOnce = true := by
                  cases ho : u.msg.kind.isOnce with
                  | true => rfl
                  | false =>
                    have : u ∈ broadcasts f.slot := List.mem_filter.2 ⟨hu, by simp [ho]⟩
                    rw [hbe] at this
                    cases this
                have hkk : u.msg.kind = .once k := by
                  unfold Conc at hc
                  cases hkd : u.msg.kind with
                  | once k' => rw [hkd] at hc; simp only [decide_eq_true_eq] at hc; rw [hc]
                  | all => rw [hkd] at honce; cases honce
                  | nothing => rw [hkd] at honce; cases honce
                have hin : inRange lo hi u = true := inRange_iff.2 ⟨k, hkk, hk⟩
                by_cases hfr : u.fr = .stale
                · cases hsa : b.staleApplied with
                  | true =>
                    have := hst hsa u (List.mem_append_left _ hu) k hkk hk (by rw [hfr]; simp)
                    omega
                  | false =>
                    have hse : rangeOf lo hi (staleTree f.slot) = [] := by simpa [hsa] using c2
                    have : u ∈ rangeOf lo hi (staleTree f.slot) := by
                      rw [rangeOf_stale]
                      exact List.mem_filter.2 ⟨mem_staleTree.2 ⟨hu, honce, hfr⟩, hin⟩
                    rw [hse] at this
                    cases this
                · have : u ∈ rangeOf lo hi (freshTree f.slot) := by
                    rw [rangeOf_fresh]
                    exact List.mem_filter.2 ⟨mem_freshTree.2 ⟨hu, honce, hfr⟩, hin⟩
                  rw [hfe] at this
                  cases this
            · exact ih.1 u hu hlt' k hk
    · simp only [if_neg hlt] at hn ⊢
      have ih := bnNeeds_false fs _ hst' f5 hm hn
      refine ⟨?_, ih.2⟩
      intro u hu hlt' k hk
      rcases List.mem_append.1 hu with hu | hu
      · have := f3 u hu
        omega
      · exact ih.1 u hu hlt' k hk

theorem eff_id (sem : Sem K R B) {k : K} {U : List (Ent K B)} (h : ∀ u ∈ U, Conc k u.msg = false) (v : Option R) :
    eff sem k v U = v := by
  rw [eff_filter]
  have : U.filter (fun e => Conc k e.msg) = [] := by
    rw [List.filter_eq_nil_iff]
    intro u hu
    rw [h u hu]
    simp
  rw [this]
  rfl

/-- A basement that misses no message is as it should be, and may claim a larger MSN. -/
theorem bn_uptodate {c : Ctx K R B} {lo hi : Option K} {b : Bn K R} {U : List (Ent K B)} (hb : BnOk c U lo hi b)
    (hq : ∀ u ∈ U, b.maxMsn < u.msg.msn → ∀ k, InB lo hi k → Conc k u.msg = false) {m : Nat} (hm : m ≤ c.mx) :
    (∀ k, InB lo hi k → lookup b.rows k = c.spec k) ∧ BnOk c U lo hi { b with maxMsn := max b.maxMsn m } := by
  have hid : ∀ x, b.maxMsn ≤ x → ∀ k, InB lo hi k → ∀ v, eff c.sem k v (pend x U) = v := by
    intro x hx k hk v
    apply eff_id
    intro u hu
    have := List.mem_filter.1 hu
    exact hq u this.1 (Nat.lt_of_le_of_lt hx (by simpa using this.2)) k hk
  have hsp : ∀ k, InB lo hi k → lookup b.rows k = c.spec k := by
    intro k hk
    rw [← hb.img k hk, hid _ (Nat.le_refl _) k hk]
  refine ⟨hsp, hb.sorted, hb.within, ?_, ?_, ?_⟩
  · intro k hk
    simp only
    rw [hid _ (Nat.le_max_left _ _) k hk]
    exact hsp k hk
  · intro hs e he k h1 h2 h3
    have := hb.st hs e he k h1 h2 h3
    simp only
    omega
  · have := hb.le
    simp only
    omega

/-! ### Leaves -/

theorem childLo_ks {l : Leaf K R} {lo : Option K} {j : Nat} (hj : j < l.parts.length) :
    childLo lo l.pivots j = childLo lo l.ks j := by
  unfold childLo Leaf.ks
  split
  · rfl
  · rw [List.getElem?_take_of_lt (by omega)]

theorem childHi_ks {l : Leaf K R} {hi : Option K} {j : Nat} (hj : j < l.parts.length) :
    childHi hi l.pivots l.parts.length j = childHi hi l.ks l.parts.length j := by
  unfold childHi Leaf.ks
  split
  · rfl
  · rw [List.getElem?_take_of_lt (by omega)]

theorem applyAll_ok {c : Ctx K R B} {lo hi : Option K} {ps : List K} {n msn : Nat} :
    ∀ (ks : List K) {lo' : Option K} {parts : List (Part K R)} {fs : List (Frame K B)} (i : Nat),
    Chain (PartOk c (flat fs) msn true) lo' hi ks parts → FOk c fs →
    (∀ j, j < parts.length → childLo lo ps (i + j) = childLo lo' ks j ∧
      childHi hi ps n (i + j) = childHi hi ks parts.length j) →
    Chain (fun a b p => PartOk c (flat (applyAll c.sem lo hi ps n i parts fs).2) msn true a b p ∧
      ∃ d, p.mem = some d ∧ (∀ k, InB a b k → lookup d.rows k = c.spec k) ∧
        ∀ u ∈ flat (applyAll c.sem lo hi ps n i parts fs).2, u.msg.msn ≤ d.maxMsn)
      lo' hi ks (applyAll c.sem lo hi ps n i parts fs).1 ∧
    FRel lo' hi fs (applyAll c.sem lo hi ps n i parts fs).2
  | [], lo', parts, fs, i, h, hf, hj => by
    obtain ⟨p, rfl, hP⟩ := chain_nil h
    obtain ⟨b, hb⟩ := hP.mem rfl
    obtain ⟨j1, j2⟩ := hj 0 (by simp)
    simp only [Nat.add_zero] at j1 j2
    have j3 : childHi hi ([] : List K) [p].length 0 = hi := rfl
    have j4 : childLo lo' ([] : List K) 0 = lo' := rfl
    rw [j4] at j1
    rw [j3] at j2
    obtain ⟨a1, a2, a3, a4, a5⟩ := applyAncestors_ok (hP.bn b hb).1 hf
    unfold applyAll
    simp only [hb, j1, j2]
    unfold applyAll
    refine ⟨⟨⟨?_, fun _ => ⟨_, rfl⟩, fun h => by cases h⟩, _, rfl, a2, a4⟩, a5⟩
    intro b' hb'
    cases hb'
    exact ⟨a1, fun h => by cases h⟩
  | k :: ks, lo', parts, fs, i, h, hf, hj => by
    obtain ⟨p, parts', rfl, hP, ha, hbk, hc⟩ := chain_cons h
    obtain ⟨b, hb⟩ := hP.mem rfl
    have hlen := hc.pos
    obtain ⟨j1, j2⟩ := hj 0 (by simp)
    simp only [Nat.add_zero, List.length_cons] at j1 j2
    rw [childLo_zero] at j1
    rw [childHi_zero _ _ _ _ hlen] at j2
    obtain ⟨a1, a2, a3, a4, a5⟩ := applyAncestors_ok (hP.bn b hb).1 hf
    unfold applyAll
    simp only [hb, j1, j2]
    have hf1 := a5.ok hf
    have hc1 : Chain (PartOk c (flat (applyAncestors c.sem lo' (some k) b fs).2) msn true) (some k) hi ks parts' := by
      refine chain_mono hc ?_
      intro x y q _ hs hQ
      refine hQ.tr (tr_refr (a5.flat.refr ?_))
      intro z hz hz'
      exact absurd ((hs z hz).1 k rfl) (not_lt.2 (hz'.2 k rfl))
    obtain ⟨i1, i2⟩ := applyAll_ok ks (i + 1) hc1 hf1 (by
      intro j hjl
      have := hj (j + 1) (by simpa using hjl)
      rw [List.length_cons, childLo_succ, childHi_succ] at this
      rw [show i + 1 + j = i + (j + 1) by omega]
      exact this)
    have hrf : ReFr lo' (some k) (flat (applyAncestors c.sem lo' (some k) b fs).2)
        (flat (applyAll c.sem lo hi ps n (i + 1) parts' (applyAncestors c.sem lo' (some k) b fs).2).2) := by
      refine i2.flat.refr ?_
      intro z hz hz'
      exact absurd (hz'.1 k rfl) (not_lt.2 (hz.2 k rfl))
    have hbn := a1.tr (tr_refr hrf)
    refine ⟨⟨⟨⟨?_, fun _ => ⟨_, rfl⟩, fun h => by cases h⟩, _, rfl, a2, ?_⟩, ha, hbk, i1⟩, ?_⟩
    · intro b' hb'
      cases hb'
      exact ⟨hbn, fun h => by cases h⟩
    · intro u hu
      obtain ⟨e0, h0, h1⟩ := i2.flat.msn u hu
      rw [← h1]
      exact a4 e0 h0
    · exact (a5.mono (sub_left hbk)).trans (i2.mono (sub_right ha))

theorem anyNeeds_false {lo hi : Option K} {ps : List K} {n : Nat} {fs : List (Frame K B)} :
    ∀ (parts : List (Part K R)) (i : Nat), anyNeeds lo hi ps n i parts fs = false →
    ∀ j p b, parts[j]? = some p → p.mem = some b →
      (bnNeeds (childLo lo ps (i + j)) (childHi hi ps n (i + j)) b fs 0).1 = false
  | [], i, _, j, p, b, hp, _ => by simp at hp
  | q :: parts, i, h, j, p, b, hp, hb => by
    unfold anyNeeds at h
    rw [Bool.or_eq_false_iff] at h
    cases j with
    | zero =>
      cases hp
      have := h.1
      rw [hb] at this
      exact this
    | succ j =>
      rw [show i + (j + 1) = i + 1 + j by omega]
      exact anyNeeds_false parts (i + 1) h.2 j p b (by simpa using hp) hb

theorem setMem_ok {c : Ctx K R B} {U : List (Ent K B)} {msn : Nat} {d : Bool} {lo hi : Option K} {p : Part K R}
    {b : Bn K R} (h : PartOk c U msn d lo hi p) (hb : BnOk c U lo hi b) (hm : d = false → msn ≤ b.maxMsn) :
    PartOk c U msn d lo hi (setMem p b) := by
  refine ⟨?_, fun _ => ⟨_, rfl⟩, h.disk⟩
  intro b' hb'
  cases hb'
  exact ⟨hb, hm⟩

theorem BnOk.marks {c : Ctx K R B} {U U' : List (Ent K B)} {lo hi lo' hi' : Option K} {b : Bn K R}
    (h : BnOk c U lo hi b) (hs : b.staleApplied = false) (hm : MarkIn lo' hi' U U') : BnOk c U' lo hi b := by
  refine ⟨h.sorted, h.within, ?_, ?_, h.le⟩
  · intro k hk
    have e : ReFr (some k) (some k) U U' := by
      refine F2.imp' ?_ hm
      intro x y hxy
      refine ⟨hxy.1, fun z _ hz => ?_⟩
      exact absurd (hz.1 k rfl) (not_lt.2 (hz.2 k rfl))
    rw [e.eff]
    exact h.img k hk
  · intro h
    rw [hs] at h
    cases h

theorem readLeaf_ok {c : Ctx K R B} {lo hi : Option K} {l : Leaf K R} {fs : List (Frame K B)} {j : Nat}
    (hg : Good c 0 lo hi (flat fs) l) (hf : FOk c fs) (hj : j < l.parts.length) :
    ∃ rows l' fs', readLeaf c.sem lo hi l j fs = .ok (rows, l', fs') ∧
      Sorted rows ∧ RowsIn (childLo lo l.pivots j) (childHi hi l.pivots l.parts.length j) rows ∧
      (∀ k, InB (childLo lo l.pivots j) (childHi hi l.pivots l.parts.length j) k → lookup rows k = c.spec k) ∧
      Good c 0 lo hi (flat fs') l' ∧
      FRel lo hi fs fs' := by
  obtain ⟨hc, hd⟩ := hg
  have hp : l.parts[j]? = some l.parts[j] := List.getElem?_eq_getElem hj
  have hP := chain_get hc.chain hp
  have hPl := hP.load
  obtain ⟨hP0, b, hb⟩ := hPl
  have eLo := childLo_ks (lo := lo) hj
  have eHi := childHi_ks (hi := hi) hj
  have hsub := childLo_inB hc.chain hj
  have hbn := hP0.bn b hb
  unfold readLeaf
  simp only [hp, Out.ok_bind, hb, need_some]
  cases hdirty : l.dirty with
  | true =>
    -- everything is in memory: loading changes nothing
    have hload : loadPart l.msn l.parts[j] = l.parts[j] := by
      obtain ⟨b0, hb0⟩ := hP.mem hdirty
      unfold loadPart
      rw [hb0]
    have hset : l.parts.set j (loadPart l.msn l.parts[j]) = l.parts := by
      rw [hload]
      exact List.set_getElem_self hj
    simp only [if_true, hset]
    by_cases hn : anyNeeds lo hi l.pivots l.parts.length 0 l.parts fs = true
    · have hchain : Chain (PartOk c (flat fs) l.msn true) lo hi l.ks l.parts := by
        have := hc.chain
        rwa [hdirty] at this
      obtain ⟨i1, i2⟩ := applyAll_ok (lo := lo) (ps := l.pivots) (n := l.parts.length) l.ks 0 hchain hf (by
        intro j hj
        rw [Nat.zero_add]
        exact ⟨childLo_ks hj, childHi_ks hj⟩)
      have hlen : (applyAll c.sem lo hi l.pivots l.parts.length 0 l.parts fs).1.length = l.parts.length := by
        rw [i1.length, hc.chain.length]
      obtain ⟨pj, hp'⟩ : ∃ pj, (applyAll c.sem lo hi l.pivots l.parts.length 0 l.parts fs).1[j]? = some pj :=
        ⟨_, List.getElem?_eq_getElem (by omega)⟩
      have hQ := chain_get i1 hp'
      obtain ⟨hQ1, d, hd1, hd2, hd3⟩ := hQ
      rw [hlen] at hQ1 hd2
      simp only [hn, if_true, hp', need_some, Out.ok_bind, hd1]
      refine ⟨_, _, _, rfl, (hQ1.bn d hd1).1.sorted, ?_, ?_, ⟨⟨hc.le, ?_, ?_⟩, ?_⟩, i2⟩
      · rw [eLo, eHi]
        exact (hQ1.bn d hd1).1.within
      · rw [eLo, eHi]
        exact hd2
      · simp only [hlen]
        exact hc.piv
      · show Chain (PartOk c _ l.msn true) lo hi (l.pivots.take ((applyAll c.sem lo hi l.pivots l.parts.length 0 l.parts fs).1.length - 1)) _
        rw [hlen]
        exact chain_mono i1 fun _ _ _ _ _ h => h.1
      · intro _ u hu q hq b' hb' q' hq' b'' hb''
        left
        obtain ⟨_, _, hR, _⟩ := chain_all i1 q hq
        obtain ⟨_, d', hd', _, hle⟩ := hR
        rw [hb'] at hd'
        cases hd'
        exact hle u hu
    · simp only [hn, Bool.false_eq_true, if_false]
      have hnf := anyNeeds_false l.parts 0 (by simpa using hn) j l.parts[j] b hp (by rw [← hload]; exact hb)
      rw [Nat.zero_add, eLo, eHi] at hnf
      have hq := bnNeeds_false (c := c) fs 0 hbn.1.st hf (Nat.zero_le _) hnf
      have hu := bn_uptodate hbn.1 hq.1 (Nat.zero_le c.mx)
      have el : ({ l with dirty := true } : Leaf K R) = l := by
        rw [← hdirty]
      refine ⟨_, _, _, rfl, hbn.1.sorted, ?_, ?_, ?_, FRel.refl _ _ _⟩
      · rw [eLo, eHi]
        exact hbn.1.within
      · rw [eLo, eHi]
        exact hu.1
      · show Good c 0 lo hi (flat fs) ({ l with dirty := true } : Leaf K R)
        rw [el]
        exact ⟨hc, hd⟩
  | false =>
    simp only [Bool.false_eq_true, if_false]
    rw [eLo, eHi]
    have hchain : Chain (PartOk c (flat fs) l.msn false) lo hi l.ks l.parts := by
      have := hc.chain
      rwa [hdirty] at this
    by_cases hn : (bnNeeds (childLo lo l.ks j) (childHi hi l.ks l.parts.length j) b fs 0).1 = true
    · obtain ⟨a1, a2, a3, a4, a5⟩ := applyAncestors_ok hbn.1 hf
      simp only [hn, if_true]
      refine ⟨_, _, _, rfl, a1.sorted, a1.within, a2, ⟨⟨hc.le, ?_, ?_⟩, ?_⟩, a5.mono hsub⟩
      · simpa using hc.piv
      · show Chain (PartOk c _ l.msn false) lo hi (l.pivots.take ((l.parts.set j _).length - 1)) _
        rw [List.length_set]
        refine chain_update hchain hj ?_ ?_
        · refine ⟨?_, fun _ => ⟨_, rfl⟩, fun _ => (hP0.disk hdirty).marks rfl a5.flat⟩
          intro b' hb'
          cases hb'
          exact ⟨a1, fun _ => Nat.le_trans (hbn.2 hdirty) a3⟩
        · intro lo' hi' q _ _ hdj hQ
          exact hQ.tr (tr_refr (a5.flat.refr hdj))
      · intro hdd
        cases hdd
    · have hnf : (bnNeeds (childLo lo l.ks j) (childHi hi l.ks l.parts.length j) b fs 0).1 = false := by simpa using hn
      have hq := bnNeeds_false (c := c) fs 0 hbn.1.st hf (Nat.zero_le _) hnf
      have hu := bn_uptodate hbn.1 hq.1 hq.2
      simp only [hn, Bool.false_eq_true, if_false]
      refine ⟨_, _, _, rfl, hu.2.sorted, hu.2.within, hu.1, ⟨⟨hc.le, ?_, ?_⟩, ?_⟩, FRel.refl _ _ _⟩
      · simpa using hc.piv
      · show Chain (PartOk c _ l.msn false) lo hi (l.pivots.take ((l.parts.set j _).length - 1)) _
        rw [List.length_set]
        rw [hdirty] at hP0
        refine chain_set hchain hj (setMem_ok hP0 hu.2 ?_)
        intro _
        have := hbn.2 hdirty
        simp only
        omega
      · intro hdd
        cases hdd

/-! ### The descent -/

/-- The bounds of the basement at the end of a route. -/
def boundsAt : (h : Nat) → (lo hi : Option K) → List Nat → Node K R B h → Option (Option K × Option K)
  | 0, lo, hi, [j], l =>
    if j < (Leaf.parts l).length then
      some (childLo lo (Leaf.pivots l) j, childHi hi (Leaf.pivots l) (Leaf.parts l).length j)
    else none
  | 0, _, _, _, _ => none
  | _ + 1, _, _, [], _ => none
  | h + 1, lo, hi, i :: route, n =>
    match (Inner.kids n)[i]? with
    | none => none
    | some (_, c) => boundsAt h (childLo lo (Inner.pivots n) i) (childHi hi (Inner.pivots n) (Inner.kids n).length i) route c

theorem SlotOk.marks {msn : Nat} {lo hi lo' hi' : Option K} {s s' : Slot K B} (h : SlotOk msn lo hi s)
    (hm : MarkIn lo' hi' s s') : SlotOk msn lo hi s' := by
  refine ⟨hm.incr h.incr, ?_, ?_⟩
  · intro e he
    obtain ⟨e0, h0, h1⟩ := hm.msn e he
    rw [← h1]
    exact h.le e0 h0
  · intro e he
    obtain ⟨e0, h0, h1⟩ := hm.msn e he
    rw [← h1]
    exact h.keys e0 h0

theorem lt_of_getElem? {α : Type} {l : List α} {i : Nat} {a : α} (h : l[i]? = some a) : i < l.length := by
  rcases Nat.lt_or_ge i l.length with h' | h'
  · exact h'
  · rw [List.getElem?_eq_none h'] at h; cases h

theorem readAt_leaf {sem : Sem K R B} {lo hi : Option K} {fs : List (Frame K B)} {j : Nat} {l : Leaf K R} :
    readAt sem 0 lo hi fs [j] l = readLeaf sem lo hi l j fs := rfl

theorem readAt_none {sem : Sem K R B} {h : Nat} {lo hi : Option K} {fs : List (Frame K B)} {i : Nat} {route : List Nat}
    {n : Inner K B (Node K R B h)} (hk : n.kids[i]? = none) :
    readAt sem (h + 1) lo hi fs (i :: route) n = .skip := by
  show (match n.kids[i]? with | none => _ | some (s, c) => _) = _
  rw [hk]

theorem readAt_some {sem : Sem K R B} {h : Nat} {lo hi : Option K} {fs : List (Frame K B)} {i : Nat} {route : List Nat}
    {n : Inner K B (Node K R B h)} {s : Slot K B} {c : Node K R B h} (hk : n.kids[i]? = some (s, c)) :
    readAt sem (h + 1) lo hi fs (i :: route) n =
      (do let (rows, c', fs') ← readAt sem h (childLo lo n.pivots i) (childHi hi n.pivots n.kids.length i)
            (⟨n.msn, s⟩ :: fs) route c
          match fs' with
          | [] => .crash
          | f :: fs'' => .ok (rows, ({ n with kids := n.kids.set i (f.slot, c') } : Inner K B (Node K R B h)), fs'')) := by
  show (match n.kids[i]? with | none => _ | some (s, c) => _) = _
  rw [hk]
  rfl

theorem readAt_ok {c : Ctx K R B} : ∀ {h : Nat} {lo hi : Option K} {fs : List (Frame K B)} {route : List Nat}
    {n : Node K R B h}, Good c h lo hi (flat fs) n → FOk c fs → ∀ {lo' hi' : Option K},
    boundsAt h lo hi route n = some (lo', hi') →
    ∃ rows n' fs', readAt c.sem h lo hi fs route n = .ok (rows, n', fs') ∧
      Sorted rows ∧ RowsIn lo' hi' rows ∧ (∀ k, InB lo' hi' k → lookup rows k = c.spec k) ∧
      Good c h lo hi (flat fs') n' ∧ FRel lo hi fs fs'
  | 0, lo, hi, fs, route, l, hg, hf, lo', hi', hb => by
    match route, hb with
    | [j], hb =>
      unfold boundsAt at hb
      split at hb
      · rename_i hj
        cases hb
        exact readLeaf_ok hg hf hj
      · cases hb
  | h + 1, lo, hi, fs, [], n, hg, hf, lo', hi', hb => by cases hb
  | h + 1, lo, hi, fs, i :: route, n, hg, hf, lo', hi', hb => by
    unfold boundsAt at hb
    obtain ⟨h1, h2, h3⟩ := hg
    cases hk : (Inner.kids n)[i]? with
    | none => rw [hk] at hb; cases hb
    | some p =>
      obtain ⟨s, ch⟩ := p
      rw [hk] at hb
      simp only at hb
      have hP := chain_get h3 hk
      have hil := lt_of_getElem? hk
      have hf' : FOk c (⟨Inner.msn n, s⟩ :: fs) := ⟨h1, hP.1.incr, hP.1.le, h2, hf⟩
      obtain ⟨rows, ch', fs1, q1, q2, q3, q4, q5, q6⟩ := readAt_ok (fs := ⟨Inner.msn n, s⟩ :: fs) hP.2 hf' hb
      cases q6 with
      | @cons _ f _ fs2 hx q7 =>
        have hsub := childLo_inB h3 hil
        refine ⟨rows, ({ n with kids := n.kids.set i (f.slot, ch') } : Inner K B (Node K R B h)), fs2, ?_, q2, q3, q4, ?_,
          FRel.mono q7 hsub⟩
        · rw [readAt_some hk]
          show Out.bind _ _ = _
          rw [q1]
          rfl
        · refine ⟨h1, ?_, ?_⟩
          · intro u hu
            obtain ⟨e0, h0, h1'⟩ := (FRel.flat q7).msn u hu
            rw [← h1']
            exact h2 e0 h0
          · refine chain_update h3 hil ⟨hP.1.marks hx.2, q5⟩ ?_
            intro lo2 hi2 q _ _ hd hQ
            exact ⟨hQ.1, hQ.2.tr ((tr_refr ((FRel.flat q7).refr hd)).prefix _)⟩

theorem readAt_skip {c : Ctx K R B} : ∀ {h : Nat} {lo hi : Option K} {fs : List (Frame K B)} {route : List Nat}
    {n : Node K R B h}, boundsAt h lo hi route n = none → readAt c.sem h lo hi fs route n = .skip
  | 0, lo, hi, fs, route, l, hb => by
    match route, hb with
    | [], _ => rfl
    | _ :: _ :: _, _ => rfl
    | [j], hb =>
      unfold boundsAt at hb
      split at hb
      · cases hb
      · rename_i hj
        refine (readAt_leaf (l := l)).trans ?_
        unfold readLeaf
        rw [List.getElem?_eq_none (by omega)]
        rfl
  | h + 1, lo, hi, fs, [], n, hb => rfl
  | h + 1, lo, hi, fs, i :: route, n, hb => by
    unfold boundsAt at hb
    cases hk : (Inner.kids n)[i]? with
    | none => exact readAt_none hk
    | some p =>
      obtain ⟨s, ch⟩ := p
      rw [hk] at hb
      simp only at hb
      rw [readAt_some hk]
      show Out.bind _ _ = _
      rw [readAt_skip (c := c) (fs := ⟨Inner.msn n, s⟩ :: fs) hb]
      rfl

/-- The route of a key ends in the basement that owns it. -/
theorem routeOf_ok {c : Ctx K R B} : ∀ {h : Nat} {lo hi : Option K} {U : List (Ent K B)} {n : Node K R B h} {k : K},
    Good c h lo hi U n → InB lo hi k →
    ∃ route lo' hi', routeOf k h n = some route ∧ boundsAt h lo hi route n = some (lo', hi') ∧ InB lo' hi' k
  | 0, lo, hi, U, l, k, hg, hk => by
    obtain ⟨i, p, w1, w2, w3, w4⟩ := chain_which (ext := (Leaf.pivots l).drop ((Leaf.parts l).length - 1)) hg.1.chain hk
    have w1 : whichChild (Leaf.parts l).length (Leaf.pivots l) k = some i := by
      have e := Leaf.pivots_eq (l : Leaf K R)
      rw [← e] at w1
      exact w1
    refine ⟨[i], childLo lo (Leaf.pivots l) i, childHi hi (Leaf.pivots l) (Leaf.parts l).length i, ?_, ?_, ?_⟩
    · unfold routeOf
      rw [w1]
      rfl
    · unfold boundsAt
      rw [if_pos w3]
    · rw [childLo_ks w3, childHi_ks w3]
      exact w4
  | h + 1, lo, hi, U, n, k, hg, hk => by
    obtain ⟨h1, h2, h3⟩ := hg
    obtain ⟨i, p, w1, w2, w3, w4⟩ := chain_which (ext := []) h3 hk
    rw [List.append_nil] at w1
    obtain ⟨s, ch⟩ := p
    obtain ⟨route, lo', hi', r1, r2, r3⟩ := routeOf_ok (chain_get h3 w2).2 w4
    refine ⟨i :: route, lo', hi', ?_, ?_, r3⟩
    · unfold routeOf
      simp only [w1, w2, r1]
      rfl
    · unfold boundsAt
      simp only [w2]
      exact r2

end Verif.Tree
