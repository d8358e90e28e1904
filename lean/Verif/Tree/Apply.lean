import Verif.Tree.Chain

/-! Rows, and applying buffers to them. -/
namespace Verif.Tree
set_option linter.unusedSectionVars false
variable {K R B : Type} [LinearOrder K]

/-! ### Rows -/

theorem sorted_cons {a : K × R} {rows : Rows K R} : Sorted (a :: rows) ↔ (∀ b ∈ rows, a.1 < b.1) ∧ Sorted rows :=
  List.pairwise_cons

theorem lookup_none_of {rows : Rows K R} {k : K} (h : ∀ p ∈ rows, p.1 ≠ k) : lookup rows k = none := by
  induction rows with
  | nil => rfl
  | cons a rows ih =>
    unfold lookup
    rw [if_neg (fun e => h a (List.mem_cons_self) e.symm)]
    exact ih fun p hp => h p (List.mem_cons_of_mem _ hp)

theorem lookup_mem {rows : Rows K R} {k : K} {r : R} (h : lookup rows k = some r) : (k, r) ∈ rows := by
  induction rows with
  | nil => cases h
  | cons a rows ih =>
    unfold lookup at h
    split at h
    · rename_i e
      cases h
      rw [e]
      exact List.mem_cons_self
    · exact List.mem_cons_of_mem _ (ih h)

theorem lookup_append (a b : Rows K R) (k : K) : lookup (a ++ b) k = (lookup a k).or (lookup b k) := by
  induction a with
  | nil => simp [lookup]
  | cons p a ih =>
    rw [List.cons_append]
    show (if k = p.1 then some p.2 else lookup (a ++ b) k) = (if k = p.1 then some p.2 else lookup a k).or (lookup b k)
    split
    · simp
    · exact ih

theorem mem_setRow_key {rows : Rows K R} {k : K} {v : Option R} {p : K × R} (h : p ∈ setRow rows k v) :
    p.1 = k ∨ p ∈ rows := by
  induction rows with
  | nil =>
    cases v with
    | none => simp [setRow] at h
    | some r =>
      simp [setRow] at h
      left; rw [h]
  | cons a rows ih =>
    unfold setRow at h
    split at h
    · cases v with
      | none => exact Or.inr h
      | some r =>
        rcases List.mem_cons.1 h with rfl | h
        · exact Or.inl rfl
        · exact Or.inr h
    · split at h
      · cases v with
        | none => exact Or.inr (List.mem_cons_of_mem _ h)
        | some r =>
          rcases List.mem_cons.1 h with rfl | h
          · exact Or.inl rfl
          · exact Or.inr (List.mem_cons_of_mem _ h)
      · rcases List.mem_cons.1 h with rfl | h
        · exact Or.inr (List.mem_cons_self)
        · rcases ih h with h | h
          · exact Or.inl h
          · exact Or.inr (List.mem_cons_of_mem _ h)

theorem sorted_setRow {rows : Rows K R} (hs : Sorted rows) (k : K) (v : Option R) : Sorted (setRow rows k v) := by
  induction rows with
  | nil => cases v <;> simp [setRow, Sorted]
  | cons a rows ih =>
    obtain ⟨ha, hs'⟩ := sorted_cons.1 hs
    unfold setRow
    split
    · rename_i h
      cases v with
      | none => exact hs
      | some r =>
        refine sorted_cons.2 ⟨?_, hs⟩
        intro b hb
        rcases List.mem_cons.1 hb with rfl | hb
        · exact h
        · exact lt_trans h (ha b hb)
    · split
      · rename_i _ h
        cases v with
        | none => exact hs'
        | some r =>
          refine sorted_cons.2 ⟨?_, hs'⟩
          intro b hb
          show k < b.1
          rw [h]
          exact ha b hb
      · rename_i h1 h2
        refine sorted_cons.2 ⟨?_, ih hs'⟩
        intro b hb
        rcases mem_setRow_key hb with h | h
        · rw [h]
          exact lt_of_le_of_ne (not_lt.1 h1) (fun e => h2 e.symm)
        · exact ha b h

theorem lookup_setRow {rows : Rows K R} (hs : Sorted rows) (k k' : K) (v : Option R) :
    lookup (setRow rows k v) k' = if k' = k then v else lookup rows k' := by
  induction rows with
  | nil =>
    cases v with
    | none => simp [setRow, lookup]
    | some r => simp [setRow, lookup]
  | cons a rows ih =>
    obtain ⟨ha, hs'⟩ := sorted_cons.1 hs
    unfold setRow
    split
    · rename_i h
      cases v with
      | some r =>
        show (if k' = k then some r else lookup (a :: rows) k') = _
        rfl
      | none =>
        show lookup (a :: rows) k' = _
        by_cases e : k' = k
        · subst e
          rw [if_pos rfl]
          apply lookup_none_of
          intro p hp
          rcases List.mem_cons.1 hp with rfl | hp
          · exact ne_of_gt h
          · exact ne_of_gt (lt_trans h (ha p hp))
        · rw [if_neg e]
    · split
      · rename_i _ h
        have hn : lookup rows k = none := lookup_none_of fun p hp => by
          rw [h]; exact ne_of_gt (ha p hp)
        cases v with
        | some r =>
          simp only [lookup, ← h]
          by_cases e : k' = k <;> simp [e]
        | none =>
          by_cases e : k' = k
          · subst e; simp [hn]
          · simp [lookup, ← h, e]
      · rename_i h1 h2
        simp only [lookup, ih hs']
        by_cases e : k' = a.1
        · subst e
          rw [if_pos rfl, if_neg (fun e => h2 e.symm), if_pos rfl]
        · rw [if_neg e, if_neg e]

/-- Effect of a message on the value of a key. -/
def meff (sem : Sem K R B) (k : K) (v : Option R) (m : Msg K B) : Option R := effect sem m.kind m.body k v

theorem lookup_filterMap {f : K → R → Option R} {rows : Rows K R} (hs : Sorted rows) (k : K) :
    lookup (rows.filterMap fun p => (f p.1 p.2).map fun r => (p.1, r)) k = (lookup rows k).bind (f k) := by
  induction rows with
  | nil => rfl
  | cons a rows ih =>
    obtain ⟨ha, hs'⟩ := sorted_cons.1 hs
    rw [List.filterMap_cons]
    cases hf : f a.1 a.2 with
    | none =>
      simp only [Option.map_none, ih hs', lookup]
      split
      · rename_i e
        rw [lookup_none_of fun p hp => by rw [e]; exact ne_of_gt (ha p hp)]
        simp [e, hf]
      · rfl
    | some r =>
      simp only [Option.map_some, lookup, ih hs']
      split
      · rename_i e
        simp [e, hf]
      · rfl

theorem sorted_filterMap {f : K → R → Option R} {rows : Rows K R} (hs : Sorted rows) :
    Sorted (rows.filterMap fun p => (f p.1 p.2).map fun r => (p.1, r)) := by
  unfold Sorted
  rw [List.pairwise_filterMap]
  apply hs.imp
  intro a b hab a' ha' b' hb'
  obtain ⟨r, _, rfl⟩ := Option.map_eq_some_iff.1 ha'
  obtain ⟨r', _, rfl⟩ := Option.map_eq_some_iff.1 hb'
  exact hab

theorem sorted_applyMsg (sem : Sem K R B) {rows : Rows K R} (hs : Sorted rows) (m : Msg K B) :
    Sorted (applyMsg sem rows m) := by
  unfold applyMsg
  split
  · exact sorted_setRow hs _ _
  · exact sorted_filterMap hs
  · exact hs

theorem lookup_applyMsg (sem : Sem K R B) {rows : Rows K R} (hs : Sorted rows) (m : Msg K B) (k : K) :
    lookup (applyMsg sem rows m) k = meff sem k (lookup rows k) m := by
  unfold applyMsg meff effect
  cases m.kind with
  | once k' =>
    simp only [lookup_setRow hs]
    by_cases e : k = k'
    · subst e; simp
    · simp [e]
  | all => exact lookup_filterMap hs k
  | nothing => rfl

/-- All keys within bounds. -/
def RowsIn (lo hi : Option K) (rows : Rows K R) : Prop := ∀ p ∈ rows, InB lo hi p.1

/-- A message for a key is for a key within bounds. -/
def KeyIn (lo hi : Option K) (m : Msg K B) : Prop := ∀ k, m.kind = .once k → InB lo hi k

theorem rowsIn_applyMsg (sem : Sem K R B) {lo hi : Option K} {rows : Rows K R} (h : RowsIn lo hi rows) {m : Msg K B}
    (hm : KeyIn lo hi m) : RowsIn lo hi (applyMsg sem rows m) := by
  unfold applyMsg
  split
  · rename_i k hk
    intro p hp
    rcases mem_setRow_key hp with e | hp
    · rw [e]; exact hm k hk
    · exact h p hp
  · intro p hp
    obtain ⟨q, hq, e⟩ := List.mem_filterMap.1 hp
    obtain ⟨r, _, rfl⟩ := Option.map_eq_some_iff.1 e
    exact h q hq
  · exact h

/-! ### Effects of buffers -/

/-- Effect of a list of buffered messages. -/
def eff (sem : Sem K R B) (k : K) (v : Option R) (U : List (Ent K B)) : Option R :=
  U.foldl (fun v e => meff sem k v e.msg) v

/-- Those newer than `b`. -/
def pend (b : Nat) (U : List (Ent K B)) : List (Ent K B) := U.filter fun e => decide (b < e.msg.msn)

/-- Does a message concern a key? -/
def Conc (k : K) (m : Msg K B) : Bool :=
  match m.kind with
  | .once k' => decide (k = k')
  | .all => true
  | .nothing => false

theorem meff_of_not_conc (sem : Sem K R B) {k : K} {m : Msg K B} (h : Conc k m = false) (v : Option R) :
    meff sem k v m = v := by
  unfold Conc at h
  unfold meff effect
  split at h <;> simp_all

theorem eff_append (sem : Sem K R B) (k : K) (v : Option R) (a b : List (Ent K B)) :
    eff sem k v (a ++ b) = eff sem k (eff sem k v a) b := by
  unfold eff
  rw [List.foldl_append]

theorem pend_append (x : Nat) (a b : List (Ent K B)) : pend x (a ++ b) = pend x a ++ pend x b :=
  List.filter_append _ _

theorem eff_filter (sem : Sem K R B) (k : K) (v : Option R) (U : List (Ent K B)) :
    eff sem k v U = eff sem k v (U.filter fun e => Conc k e.msg) := by
  induction U generalizing v with
  | nil => rfl
  | cons e U ih =>
    rw [List.filter_cons]
    by_cases h : Conc k e.msg = true
    · rw [if_pos h]
      show eff sem k (meff sem k v e.msg) U = eff sem k (meff sem k v e.msg) _
      exact ih _
    · rw [if_neg h]
      show eff sem k (meff sem k v e.msg) U = _
      rw [meff_of_not_conc sem (by simpa using h)]
      exact ih _

theorem pend_all {x : Nat} {U : List (Ent K B)} (h : ∀ u ∈ U, x < u.msg.msn) : pend x U = U := by
  unfold pend
  rw [List.filter_eq_self]
  intro u hu
  simpa using h u hu

theorem pend_none {x : Nat} {U : List (Ent K B)} (h : ∀ u ∈ U, u.msg.msn ≤ x) : pend x U = [] := by
  unfold pend
  rw [List.filter_eq_nil_iff]
  intro u hu
  simpa using h u hu

theorem applyEnts_spec (sem : Sem K R B) (bound : Nat) {lo hi : Option K} :
    ∀ (A : List (Ent K B)) (rows : Rows K R), Sorted rows → RowsIn lo hi rows → (∀ e ∈ A, KeyIn lo hi e.msg) →
    Sorted (applyEnts sem bound rows A) ∧ RowsIn lo hi (applyEnts sem bound rows A) ∧
    ∀ k, lookup (applyEnts sem bound rows A) k = eff sem k (lookup rows k) (pend bound A)
  | [], rows, hs, hr, _ => ⟨hs, hr, fun _ => rfl⟩
  | e :: A, rows, hs, hr, hA => by
    unfold applyEnts
    have hA' : ∀ e ∈ A, KeyIn lo hi e.msg := fun x hx => hA x (List.mem_cons_of_mem _ hx)
    by_cases h : bound < e.msg.msn
    · simp only [if_pos h]
      have := applyEnts_spec sem bound A (applyMsg sem rows e.msg) (sorted_applyMsg sem hs _)
        (rowsIn_applyMsg sem hr (hA e (List.mem_cons_self))) hA'
      refine ⟨this.1, this.2.1, fun k => ?_⟩
      rw [this.2.2 k, lookup_applyMsg sem hs]
      unfold pend
      rw [List.filter_cons, if_pos (by simpa using h)]
      rfl
    · simp only [if_neg h]
      have := applyEnts_spec sem bound A rows hs hr hA'
      refine ⟨this.1, this.2.1, fun k => ?_⟩
      rw [this.2.2 k]
      unfold pend
      rw [List.filter_cons, if_neg (by simpa using h)]

/-! ### Sorting -/

theorem insertBy_perm {α : Type} (le : α → α → Bool) (x : α) (l : List α) : (insertBy le x l).Perm (x :: l) := by
  induction l with
  | nil => exact List.Perm.refl _
  | cons y l ih =>
    unfold insertBy
    split
    · exact List.Perm.refl _
    · exact (List.Perm.cons y ih).trans (List.Perm.swap x y l)

theorem sortBy_perm {α : Type} (le : α → α → Bool) (l : List α) : (sortBy le l).Perm l := by
  induction l with
  | nil => exact List.Perm.refl _
  | cons x l ih => exact (insertBy_perm le x _).trans (List.Perm.cons x ih)

theorem insertBy_sorted {α : Type} {le : α → α → Bool} (total : ∀ a b, le a b = true ∨ le b a = true)
    (trans : ∀ a b c, le a b = true → le b c = true → le a c = true) (x : α) {l : List α}
    (h : l.Pairwise fun a b => le a b = true) : (insertBy le x l).Pairwise fun a b => le a b = true := by
  induction l with
  | nil => exact List.pairwise_singleton _ _
  | cons y l ih =>
    obtain ⟨h1, h2⟩ := List.pairwise_cons.1 h
    unfold insertBy
    split
    · rename_i hxy
      refine List.pairwise_cons.2 ⟨?_, h⟩
      intro z hz
      rcases List.mem_cons.1 hz with rfl | hz
      · exact hxy
      · exact trans _ _ _ hxy (h1 z hz)
    · rename_i hxy
      refine List.pairwise_cons.2 ⟨?_, ih h2⟩
      intro z hz
      rcases List.mem_cons.1 ((insertBy_perm le x l).mem_iff.1 hz) with rfl | hz
      · rcases total y z with h | h
        · exact h
        · exact absurd h hxy
      · exact h1 z hz

theorem sortBy_sorted {α : Type} {le : α → α → Bool} (total : ∀ a b, le a b = true ∨ le b a = true)
    (trans : ∀ a b c, le a b = true → le b c = true → le a c = true) (l : List α) :
    (sortBy le l).Pairwise fun a b => le a b = true := by
  induction l with
  | nil => exact List.Pairwise.nil
  | cons x l ih => exact insertBy_sorted total trans x ih

theorem keyMsnLe_total (a b : Ent K B) : keyMsnLe a b = true ∨ keyMsnLe b a = true := by
  unfold keyMsnLe
  cases a.msg.kind <;> cases b.msg.kind <;> simp only [decide_eq_true_eq]
  · rename_i x y
    by_cases h1 : x < y
    · simp [h1]
    · by_cases h2 : y < x
      · simp [h2]
      · simp [h1, h2]; omega
  all_goals first | omega | simp

theorem keyMsnLe_trans (a b c : Ent K B) (h1 : keyMsnLe a b = true) (h2 : keyMsnLe b c = true) :
    keyMsnLe a c = true := by
  unfold keyMsnLe at *
  cases ha : a.msg.kind <;> cases hb : b.msg.kind <;> cases hc : c.msg.kind <;>
    simp only [ha, hb, hc, decide_eq_true_eq, Bool.false_eq_true] at h1 h2 ⊢
  · rename_i x y z
    by_cases c1 : x < y
    · by_cases c2 : y < z
      · simp [lt_trans c1 c2]
      · by_cases c3 : z < y
        · simp [c2, c3] at h2
        · have : y = z := le_antisymm (not_lt.1 c3) (not_lt.1 c2)
          subst this
          simp [c1]
    · by_cases c4 : y < x
      · simp [c1, c4] at h1
      · have : x = y := le_antisymm (not_lt.1 c4) (not_lt.1 c1)
        subst this
        by_cases c2 : x < z
        · simp [c2]
        · by_cases c3 : z < x
          · simp [c2, c3] at h2
          · simp only [c1, c2, c3, if_false, decide_eq_true_eq] at h1 h2 ⊢
            omega
  all_goals omega

theorem dropWhile_eq_filter {α : Type} {p : α → Bool} : ∀ {l : List α}, l.Pairwise (fun a b => p b = true → p a = true) →
    l.dropWhile p = l.filter fun x => !p x
  | [], _ => rfl
  | x :: l, h => by
    obtain ⟨h1, h2⟩ := List.pairwise_cons.1 h
    rw [List.dropWhile_cons, List.filter_cons]
    by_cases hx : p x = true
    · simp only [hx, if_true, Bool.not_true, Bool.false_eq_true, if_false]
      exact dropWhile_eq_filter h2
    · simp only [hx, Bool.false_eq_true, if_false, Bool.not_false, if_true]
      congr 1
      symm
      rw [List.filter_eq_self]
      intro y hy
      have := h1 y hy
      cases hpy : p y
      · rfl
      · exact absurd (this hpy) hx

theorem takeWhile_eq_filter {α : Type} {p : α → Bool} : ∀ {l : List α}, l.Pairwise (fun a b => p b = true → p a = true) →
    l.takeWhile p = l.filter p
  | [], _ => rfl
  | x :: l, h => by
    obtain ⟨h1, h2⟩ := List.pairwise_cons.1 h
    rw [List.takeWhile_cons, List.filter_cons]
    by_cases hx : p x = true
    · simp only [hx, if_true]
      rw [takeWhile_eq_filter h2]
    · simp only [hx, Bool.false_eq_true, if_false]
      symm
      rw [List.filter_eq_nil_iff]
      intro y hy hpy
      exact hx (h1 y hy hpy)

/-- An entry for a key within bounds. -/
def inRange (lo hi : Option K) (e : Ent K B) : Bool :=
  match e.msg.kind with
  | .once k => aboveLo lo k && belowHi hi k
  | _ => false

theorem rangeOf_sorted {lo hi : Option K} {t : List (Ent K B)} (hs : t.Pairwise fun a b => keyMsnLe a b = true)
    (ho : ∀ e ∈ t, e.msg.kind.isOnce = true) : rangeOf lo hi t = t.filter (inRange lo hi) := by
  unfold rangeOf
  have hp : t.Pairwise fun a b => a.msg.kind.isOnce = true ∧ b.msg.kind.isOnce = true ∧ keyMsnLe a b = true := by
    rw [List.pairwise_iff_forall_sublist] at hs ⊢
    intro a b hab
    exact ⟨ho a (hab.subset (by simp)), ho b (hab.subset (by simp)), hs hab⟩
  have hle : ∀ {a b : Ent K B} {x y : K}, a.msg.kind = .once x → b.msg.kind = .once y → keyMsnLe a b = true → x ≤ y := by
    intro a b x y ha hb h
    unfold keyMsnLe at h
    rw [ha, hb] at h
    simp only at h
    by_cases c : x < y
    · exact le_of_lt c
    · by_cases c2 : y < x
      · simp [c, c2] at h
      · exact not_lt.1 c2
  rw [dropWhile_eq_filter, takeWhile_eq_filter, List.filter_filter]
  · apply List.filter_congr
    intro e he
    have := ho e he
    unfold inRange notAboveLo withinHi
    cases hk : e.msg.kind <;> simp_all [Kind.isOnce, Bool.and_comm]
  · apply List.Pairwise.filter
    apply hp.imp
    intro a b ⟨ha, hb, hab⟩
    unfold withinHi
    cases hka : a.msg.kind <;> cases hkb : b.msg.kind <;> simp_all [Kind.isOnce]
    have := hle hka hkb hab
    unfold belowHi
    cases hi with
    | none => simp
    | some h => simp only [decide_eq_true_eq]; exact fun h' => le_trans this h'
  · apply hp.imp
    intro a b ⟨ha, hb, hab⟩
    unfold notAboveLo
    cases hka : a.msg.kind <;> cases hkb : b.msg.kind <;> simp_all [Kind.isOnce]
    have := hle hka hkb hab
    unfold aboveLo
    cases lo with
    | none => simp
    | some h => simp only [decide_eq_false_iff_not, not_lt]; exact fun h' => le_trans this h'

/-- Strictly increasing sequence numbers. -/
def Incr (U : List (Ent K B)) : Prop := U.Pairwise fun a b => a.msg.msn < b.msg.msn

theorem incr_eq {a b : List (Ent K B)} (ha : Incr a) (hb : Incr b) (h : ∀ e, e ∈ a ↔ e ∈ b) : a = b := by
  have na : a.Nodup := ha.imp fun h e => by rw [e] at h; exact Nat.lt_irrefl _ h
  have nb : b.Nodup := hb.imp fun h e => by rw [e] at h; exact Nat.lt_irrefl _ h
  have hp : a.Perm b := (List.perm_ext_iff_of_nodup na nb).2 h
  refine List.Perm.eq_of_pairwise (le := fun x y : Ent K B => x.msg.msn < y.msg.msn) ?_ ha hb hp
  intro x y _ _ h1 h2
  exact absurd h1 (by omega)

theorem mem_freshTree {s : Slot K B} {e : Ent K B} :
    e ∈ freshTree s ↔ e ∈ s ∧ e.msg.kind.isOnce = true ∧ e.fr ≠ .stale := by
  unfold freshTree
  rw [(sortBy_perm _ _).mem_iff, List.mem_filter]
  simp

theorem mem_staleTree {s : Slot K B} {e : Ent K B} :
    e ∈ staleTree s ↔ e ∈ s ∧ e.msg.kind.isOnce = true ∧ e.fr = .stale := by
  unfold staleTree
  rw [(sortBy_perm _ _).mem_iff, List.mem_filter]
  simp

theorem rangeOf_fresh (lo hi : Option K) (s : Slot K B) :
    rangeOf lo hi (freshTree s) = (freshTree s).filter (inRange lo hi) :=
  rangeOf_sorted (sortBy_sorted keyMsnLe_total keyMsnLe_trans _) fun _ he => (mem_freshTree.1 he).2.1

theorem rangeOf_stale (lo hi : Option K) (s : Slot K B) :
    rangeOf lo hi (staleTree s) = (staleTree s).filter (inRange lo hi) :=
  rangeOf_sorted (sortBy_sorted keyMsnLe_total keyMsnLe_trans _) fun _ he => (mem_staleTree.1 he).2.1

theorem inRange_iff {lo hi : Option K} {e : Ent K B} :
    inRange lo hi e = true ↔ ∃ k, e.msg.kind = .once k ∧ InB lo hi k := by
  unfold inRange
  cases h : e.msg.kind <;> simp [inB_iff]

theorem mem_toApply {lo hi : Option K} {st : Bool} {s : Slot K B} {e : Ent K B} :
    e ∈ toApply lo hi st s ↔ e ∈ s ∧ (e.msg.kind.isOnce = false ∨
      (inRange lo hi e = true ∧ (e.fr = .stale → st = false))) := by
  have hro : inRange lo hi e = true → e.msg.kind.isOnce = true := by
    rw [inRange_iff]; rintro ⟨k, h, _⟩; rw [h]; rfl
  have hf : e ∈ rangeOf lo hi (freshTree s) ↔ e ∈ s ∧ e.fr ≠ .stale ∧ inRange lo hi e = true := by
    rw [rangeOf_fresh, List.mem_filter, mem_freshTree]
    grind
  have hst : e ∈ (if st then [] else rangeOf lo hi (staleTree s)) ↔
      e ∈ s ∧ st = false ∧ e.fr = .stale ∧ inRange lo hi e = true := by
    cases st
    · simp only [Bool.false_eq_true, if_false, true_and]
      rw [rangeOf_stale, List.mem_filter, mem_staleTree]
      grind
    · simp
  have hb : e ∈ broadcasts s ↔ e ∈ s ∧ e.msg.kind.isOnce = false := by
    unfold broadcasts; rw [List.mem_filter]; simp
  unfold toApply
  simp only
  generalize (if st = true then [] else rangeOf lo hi (staleTree s)) = X at hst ⊢
  split
  · rw [(sortBy_perm _ _).mem_iff, List.mem_append, List.mem_append, hf, hst, hb]
    grind
  · rename_i h
    have h1 : broadcasts s = [] := by
      cases hc : broadcasts s <;> simp_all
    have hno : ¬ (e ∈ s ∧ e.msg.kind.isOnce = false) := by rw [← hb, h1]; simp
    split
    · rename_i h2
      have h2' := List.isEmpty_iff.1 h2
      rw [h2'] at hst
      rw [hf]
      have : ¬ (e ∈ s ∧ st = false ∧ e.fr = .stale ∧ inRange lo hi e = true) := by rw [← hst]; simp
      grind
    · rename_i h2
      have h3 : rangeOf lo hi (freshTree s) = [] := by
        cases hc : rangeOf lo hi (freshTree s) with
        | nil => rfl
        | cons a b =>
          exfalso
          apply h
          rw [hc]
          simp only [Bool.or_eq_true, Bool.and_eq_true, Bool.not_eq_true', List.isEmpty_cons, and_true]
          right
          simpa using h2
      have : ¬ (e ∈ s ∧ e.fr ≠ .stale ∧ inRange lo hi e = true) := by rw [← hf, h3]; simp
      rw [hst]
      grind

theorem conc_filter_incr {t : List (Ent K B)} (hs : t.Pairwise fun a b => keyMsnLe a b = true)
    (ho : ∀ e ∈ t, e.msg.kind.isOnce = true) (hd : t.Pairwise fun a b => a.msg.msn ≠ b.msg.msn) (k : K) :
    Incr (t.filter fun e => Conc k e.msg) := by
  unfold Incr
  rw [List.pairwise_filter]
  have := hs.and hd
  rw [List.pairwise_iff_forall_sublist] at this ⊢
  intro a b hab ha hb
  have h1 := ho a (hab.subset (by simp))
  have h2 := ho b (hab.subset (by simp))
  obtain ⟨h3, h4⟩ := this hab
  unfold keyMsnLe at h3
  unfold Conc at ha hb
  cases hka : a.msg.kind <;> cases hkb : b.msg.kind <;> simp_all [Kind.isOnce]
  rcases h3 with h3 | h3
  · exact absurd h3 (lt_irrefl _)
  · have := (this hab).2
    omega

theorem distinct_perm {a b : List (Ent K B)} (hp : a.Perm b) (h : b.Pairwise fun a b => a.msg.msn ≠ b.msg.msn) :
    a.Pairwise fun a b => a.msg.msn ≠ b.msg.msn :=
  (hp.pairwise_iff fun h e => h e.symm).2 h

theorem incr_distinct {a : List (Ent K B)} (h : Incr a) : a.Pairwise fun a b => a.msg.msn ≠ b.msg.msn :=
  h.imp fun h e => by omega

/-- What is applied has, for each key, increasing sequence numbers. -/
theorem toApply_conc_incr {lo hi : Option K} {st : Bool} {s : Slot K B} (hs : Incr s) (k : K) :
    Incr ((toApply lo hi st s).filter fun e => Conc k e.msg) := by
  have hdf : (freshTree s).Pairwise fun a b => a.msg.msn ≠ b.msg.msn :=
    distinct_perm (sortBy_perm _ _) ((incr_distinct hs).filter _)
  have hds : (staleTree s).Pairwise fun a b => a.msg.msn ≠ b.msg.msn :=
    distinct_perm (sortBy_perm _ _) ((incr_distinct hs).filter _)
  have hinj : ∀ {a b : Ent K B}, a ∈ s → b ∈ s → a.msg.msn = b.msg.msn → a = b := by
    intro a b ha hb e
    have hd := incr_distinct hs
    rw [List.pairwise_iff_getElem] at hd
    obtain ⟨i, hi, rfl⟩ := List.getElem_of_mem ha
    obtain ⟨j, hj, rfl⟩ := List.getElem_of_mem hb
    rcases Nat.lt_trichotomy i j with h | h | h
    · exact absurd e (hd i j hi hj h)
    · subst h; rfl
    · exact absurd e.symm (hd j i hj hi h)
  have hmfr : ∀ e ∈ rangeOf lo hi (freshTree s), e ∈ freshTree s := by
    intro e he
    rw [rangeOf_fresh] at he
    exact (List.mem_filter.1 he).1
  have hmb : ∀ e ∈ broadcasts s, e ∈ s ∧ e.msg.kind.isOnce = false := by
    intro e he
    unfold broadcasts at he
    have := List.mem_filter.1 he
    exact ⟨this.1, by simpa using this.2⟩
  have x1 : (if st = true then [] else rangeOf lo hi (staleTree s)).Pairwise fun a b => a.msg.msn ≠ b.msg.msn := by
    cases st
    · simp only [Bool.false_eq_true, if_false]
      rw [rangeOf_stale]
      exact hds.filter _
    · simp
  have x2 : ∀ e ∈ (if st = true then [] else rangeOf lo hi (staleTree s)), e ∈ staleTree s := by
    intro e he
    cases st
    · simp only [Bool.false_eq_true, if_false] at he
      rw [rangeOf_stale] at he
      exact (List.mem_filter.1 he).1
    · simp at he
  have comm : ∀ {t : List (Ent K B)}, Incr (t.filter fun e => Conc k e.msg) →
      Incr ((t.filter (inRange lo hi)).filter fun e => Conc k e.msg) := by
    intro t ht
    have h2 := ht.filter (inRange lo hi)
    rw [List.filter_filter] at h2 ⊢
    simp only [Bool.and_comm] at h2 ⊢
    exact h2
  have x3 : Incr ((if st = true then [] else rangeOf lo hi (staleTree s)).filter fun e => Conc k e.msg) := by
    cases st
    · simp only [Bool.false_eq_true, if_false]
      rw [rangeOf_stale]
      exact comm (conc_filter_incr (sortBy_sorted keyMsnLe_total keyMsnLe_trans _)
        (fun _ he => (mem_staleTree.1 he).2.1) hds k)
    · simp [Incr]
  unfold toApply
  simp only
  generalize (if st = true then [] else rangeOf lo hi (staleTree s)) = X at x1 x2 x3 ⊢
  split
  · -- sorted by MSN, and all distinct
    have hnd : (X ++ rangeOf lo hi (freshTree s) ++ broadcasts s).Pairwise fun a b => a.msg.msn ≠ b.msg.msn := by
      rw [List.pairwise_append, List.pairwise_append]
      refine ⟨⟨x1, ?_, ?_⟩, ?_, ?_⟩
      · rw [rangeOf_fresh]
        exact hdf.filter _
      · intro a ha b hb e
        have h1 := mem_staleTree.1 (x2 a ha)
        have h2 := mem_freshTree.1 (hmfr b hb)
        have := hinj h1.1 h2.1 e
        rw [this] at h1
        exact h2.2.2 h1.2.2
      · exact (incr_distinct hs).filter _
      · intro a ha b hb e
        have h2 := hmb b hb
        rcases List.mem_append.1 ha with ha | ha
        · have h1 := mem_staleTree.1 (x2 a ha)
          have := hinj h1.1 h2.1 e
          rw [this, h2.2] at h1
          simp at h1
        · have h1 := mem_freshTree.1 (hmfr a ha)
          have := hinj h1.1 h2.1 e
          rw [this, h2.2] at h1
          simp at h1
    apply List.Pairwise.filter
    have h1 := sortBy_sorted (le := msnLe) (fun a b => by unfold msnLe; simp; omega)
      (fun a b c => by unfold msnLe; simp; omega)
      (X ++ rangeOf lo hi (freshTree s) ++ broadcasts s)
    have h2 := distinct_perm (sortBy_perm msnLe (X ++ rangeOf lo hi (freshTree s) ++ broadcasts s)) hnd
    apply (h1.and h2).imp
    intro a b ⟨h3, h4⟩
    unfold msnLe at h3
    simp at h3
    omega
  · split
    · rw [rangeOf_fresh]
      exact comm (conc_filter_incr (sortBy_sorted keyMsnLe_total keyMsnLe_trans _)
        (fun _ he => (mem_freshTree.1 he).2.1) hdf k)
    · exact x3

/-- Applying a buffer to rows with bounds does to every key there what its newer messages do in order. -/
theorem apply_buffer (sem : Sem K R B) {lo hi : Option K} {b : Nat} {st : Bool} {s : Slot K B} (hs : Incr s)
    (hst : st = true → ∀ e ∈ s, ∀ k, e.msg.kind = .once k → InB lo hi k → e.fr ≠ .fresh → e.msg.msn ≤ b)
    {rows : Rows K R} (hsr : Sorted rows) (hr : RowsIn lo hi rows) :
    Sorted (applyEnts sem b rows (toApply lo hi st s)) ∧
    RowsIn lo hi (applyEnts sem b rows (toApply lo hi st s)) ∧
    ∀ k, InB lo hi k →
      lookup (applyEnts sem b rows (toApply lo hi st s)) k = eff sem k (lookup rows k) (pend b s) := by
  have hk : ∀ e ∈ toApply lo hi st s, KeyIn lo hi e.msg := by
    intro e he k hk
    rcases (mem_toApply.1 he).2 with h | h
    · rw [hk] at h; cases h
    · obtain ⟨k', h1, h2⟩ := inRange_iff.1 h.1
      rw [hk] at h1
      cases h1
      exact h2
  have := applyEnts_spec sem b (toApply lo hi st s) rows hsr hr hk
  refine ⟨this.1, this.2.1, fun k hkb => ?_⟩
  rw [this.2.2 k, eff_filter, eff_filter sem k _ (pend b s)]
  congr 1
  unfold pend
  rw [List.filter_filter, List.filter_filter]
  have e1 := (toApply_conc_incr (lo := lo) (hi := hi) (st := st) hs k).filter fun e => decide (b < e.msg.msn)
  rw [List.filter_filter] at e1
  refine incr_eq ?_ (hs.filter _) ?_
  · simp only [Bool.and_comm] at e1 ⊢
    exact e1
  · intro e
    rw [List.mem_filter, List.mem_filter, mem_toApply]
    simp only [Bool.and_eq_true, decide_eq_true_eq]
    constructor
    · rintro ⟨⟨h1, _⟩, h2⟩
      exact ⟨h1, h2⟩
    · rintro ⟨h1, h2, h3⟩
      refine ⟨⟨h1, ?_⟩, h2, h3⟩
      cases hke : e.msg.kind with
      | all => left; rfl
      | nothing => left; rfl
      | once k' =>
        right
        have : k = k' := by unfold Conc at h2; rw [hke] at h2; simpa using h2
        subst this
        refine ⟨inRange_iff.2 ⟨k, hke, hkb⟩, fun hfr => ?_⟩
        cases hst' : st
        · rfl
        · exact absurd (hst hst' e h1 k hke hkb (by rw [hfr]; simp)) (by omega)

end Verif.Tree
