import Verif.Redirect.Spec

/-!
# Lemmas on redirection: undoing and committing a rollback log
-/

namespace Verif.Redirect

def upd (d : Nat → Option (List Nat)) (f : Nat) (c : Option (List Nat)) : Nat → Option (List Nat) :=
  fun g => if g = f then c else d g

theorem upd_comm {d f g c e} (h : f ≠ g) : upd (upd d f c) g e = upd (upd d g e) f c := by
  funext x; unfold upd; grind

theorem upd_upd {d f c e} : upd (upd d f c) f e = upd d f e := by
  funext x; unfold upd; grind

theorem upd_self {d : Nat → Option (List Nat)} {f c} (h : d f = c) : upd d f c = d := by
  funext x; unfold upd; grind

/-- The entry works on the file. -/
def Uses (f : Nat) : Entry → Prop
  | .put g _ => g = f
  | .redirect o n => o = f ∨ n = f
  | .load _ _ => False

/-- The log leads from the saved state to what there is now. -/
def Chain (sd : Nat) (sc : List Nat) : List Entry → Nat → (Nat → Option (List Nat)) → Prop
  | [], cur, d => cur = sd ∧ d cur = some sc
  | .put f r :: l, cur, d => f = cur ∧ ∃ rows, d cur = some (r :: rows) ∧ Chain sd sc l cur (upd d cur (some rows))
  | .redirect o n :: l, cur, d => n = cur ∧ o ≠ n ∧ Chain sd sc l o d
  | .load _ n :: l, cur, d => n ≠ cur ∧ n ≠ sd ∧ (∀ e ∈ l, ¬ Uses n e) ∧ (∀ o, .load o n ∉ l) ∧ Chain sd sc l cur d

theorem chain_upd {sd sc f x} : ∀ l {cur d}, Chain sd sc l cur d → f ≠ cur → f ≠ sd → (∀ e ∈ l, ¬ Uses f e) →
    Chain sd sc l cur (upd d f x)
  | [], cur, d, h, h1, _, _ => by
    refine ⟨h.1, ?_⟩
    unfold upd; rw [if_neg (fun e => h1 e.symm)]; exact h.2
  | .put g r :: l, cur, d, h, h1, h2, h3 => by
    obtain ⟨e, rows, hr, hc⟩ := h
    refine ⟨e, rows, ?_, ?_⟩
    · unfold upd; rw [if_neg (fun e => h1 e.symm)]; exact hr
    · rw [upd_comm h1]
      exact chain_upd l hc h1 h2 (fun e he => h3 e (List.mem_cons_of_mem _ he))
  | .redirect o n :: l, cur, d, h, h1, h2, h3 => by
    refine ⟨h.1, h.2.1, chain_upd l h.2.2 ?_ h2 (fun e he => h3 e (List.mem_cons_of_mem _ he))⟩
    intro e
    exact h3 _ (List.mem_cons_self ..) (Or.inl e.symm)
  | .load o n :: l, cur, d, h, h1, h2, h3 =>
    ⟨h.1, h.2.1, h.2.2.1, h.2.2.2.1, chain_upd l h.2.2.2.2 h1 h2 (fun e he => h3 e (List.mem_cons_of_mem _ he))⟩

theorem chain_congr {sd sc} : ∀ l {cur d d'}, Chain sd sc l cur d →
    (∀ f, f = cur ∨ (∃ e ∈ l, Uses f e) → d' f = d f) → Chain sd sc l cur d'
  | [], cur, d, d', h, hd => ⟨h.1, (hd _ (Or.inl rfl)).trans h.2⟩
  | .put g r :: l, cur, d, d', h, hd => by
    obtain ⟨e, rows, hr, hc⟩ := h
    refine ⟨e, rows, (hd _ (Or.inl rfl)).trans hr, chain_congr l hc ?_⟩
    intro f hf
    unfold upd
    split
    · rfl
    · rcases hf with e | ⟨e, he, hu⟩
      · exact hd _ (Or.inl e)
      · exact hd _ (Or.inr ⟨e, List.mem_cons_of_mem _ he, hu⟩)
  | .redirect o n :: l, cur, d, d', h, hd => by
    refine ⟨h.1, h.2.1, chain_congr l h.2.2 ?_⟩
    rintro f (e | ⟨e, he, hu⟩)
    · exact hd _ (Or.inr ⟨_, List.mem_cons_self .., Or.inl e.symm⟩)
    · exact hd _ (Or.inr ⟨e, List.mem_cons_of_mem _ he, hu⟩)
  | .load o n :: l, cur, d, d', h, hd => by
    refine ⟨h.1, h.2.1, h.2.2.1, h.2.2.2.1, chain_congr l h.2.2.2.2 ?_⟩
    rintro f (e | ⟨e, he, hu⟩)
    · exact hd _ (Or.inl e)
    · exact hd _ (Or.inr ⟨e, List.mem_cons_of_mem _ he, hu⟩)

theorem chain_load_ne {sd sc o f} : ∀ l {cur d}, Chain sd sc l cur d → .load o f ∈ l → f ≠ sd
  | [], _, _, _, h => by cases h
  | .put g r :: l, cur, d, h, hm => by
    obtain ⟨_, rows, _, hc⟩ := h
    exact chain_load_ne l hc (by simpa using hm)
  | .redirect a b :: l, cur, d, h, hm => chain_load_ne l h.2.2 (by simpa using hm)
  | .load a n :: l, cur, d, h, hm => by
    rcases List.mem_cons.mp hm with e | hm
    · cases e; exact h.2.1
    · exact chain_load_ne l h.2.2.2.2 hm

theorem needed_iff (s : S) (f : Nat) :
    needed s f = true ↔ (∃ h, (h, f) ∈ s.handles) ∨ f ∈ refsOf s ∨ f ∈ s.pinned := by
  unfold needed
  simp only [Bool.or_eq_true, List.any_eq_true, beq_iff_eq, List.contains_iff_mem, or_assoc]
  constructor
  · rintro (⟨⟨h, g⟩, hm, e⟩ | h)
    · cases e; exact Or.inl ⟨h, hm⟩
    · exact Or.inr h
  · rintro (⟨h, hm⟩ | h)
    · exact Or.inl ⟨_, hm, rfl⟩
    · exact Or.inr h

theorem move_all {s : S} {a b : Nat} (h : ∀ p ∈ s.handles, p.2 = a) : ∀ p ∈ (moveAll s a b).handles, p.2 = b := by
  intro p hp
  obtain ⟨q, hq, e⟩ := List.mem_map.mp hp
  rw [if_pos (h q hq)] at e
  cases e; rfl

/-- What a rollback leaves. -/
structure Undone (s s' : S) (l : List Entry) (sd : Nat) (sc : List Nat) : Prop where
  disk : s'.disk sd = some sc
  handles : ∀ p ∈ s'.handles, p.2 = sd
  ids : s'.handles.map (·.1) = s.handles.map (·.1)
  txn : s'.txn = s.txn
  pinned : s'.pinned = s.pinned
  pending : s'.pending = s.pending
  next : s'.next = s.next
  marks : ∀ f, s'.marked f = true → s.marked f = true ∨ ∃ o, .load o f ∈ l
  keeps : ∀ f, s.marked f = true → s'.marked f = true
  news : ∀ o f, .load o f ∈ l → s'.marked f = true ∨ s'.disk f = none
  less : ∀ f, s'.disk f ≠ none → s.disk f ≠ none
  pins : ∀ f, f ∈ s.pinned → s.disk f ≠ none → s'.disk f ≠ none

theorem ids_move (s : S) (a b : Nat) : (moveAll s a b).handles.map (·.1) = s.handles.map (·.1) := by
  unfold moveAll
  simp only [List.map_map]
  apply List.map_congr_left
  intro p _
  simp only [Function.comp_apply]
  split <;> rfl

theorem undo_ok {t : T} {sd sc} : ∀ l {s : S} {cur}, Chain sd sc l cur s.disk → (∀ p ∈ s.handles, p.2 = cur) →
    s.txn = some t → (∀ e ∈ l, ∀ f, Uses f e → f ∈ t.refs) → (∀ o f, s.marked f = true → .load o f ∉ l) →
    ∃ s', undoLog s l = some s' ∧ Undone s s' l sd sc
  | [], s, cur, hc, hh, ht, _, _ => by
    obtain ⟨e, hd⟩ := hc
    subst e
    exact ⟨s, rfl, ⟨hd, hh, rfl, rfl, rfl, rfl, rfl, fun f h => Or.inl h, fun f h => h, (by intro o f h; cases h),
      fun f h => h, fun f _ h => h⟩⟩
  | .put f r :: l, s, cur, hc, hh, ht, hr, hm => by
    obtain ⟨e, rows, hd, hc⟩ := hc
    subst e
    have hn : needed s f = true := by
      rw [needed_iff]
      exact Or.inr (Or.inl (by unfold refsOf; rw [ht]; exact hr _ (List.mem_cons_self ..) f rfl))
    obtain ⟨s', hu, U⟩ := undo_ok l (s := setDisk s f (some rows)) (cur := f) hc hh ht
      (fun e he => hr e (List.mem_cons_of_mem _ he)) (fun o g hg h => hm o g hg (List.mem_cons_of_mem _ h))
    refine ⟨s', ?_, ⟨U.disk, U.handles, U.ids, U.txn, U.pinned, U.pending, U.next, ?_, U.keeps, ?_, ?_, ?_⟩⟩
    · simp only [undoLog, hn, if_true, hd, List.erase_cons_head]
      exact hu
    · intro g hg
      rcases U.marks g hg with h | ⟨o, h⟩
      · exact Or.inl h
      · exact Or.inr ⟨o, List.mem_cons_of_mem _ h⟩
    · intro o g hg
      exact U.news o g (by simpa using hg)
    · intro g hg
      have := U.less g hg
      unfold setDisk at this
      dsimp only at this
      split at this
      · next e => rw [e, hd]; exact fun h => by cases h
      · exact this
    · intro g hg hd'
      apply U.pins g hg
      unfold setDisk
      dsimp only
      split
      · exact fun h => by cases h
      · exact hd'
  | .redirect o n :: l, s, cur, hc, hh, ht, hr, hm => by
    obtain ⟨e, hne, hc⟩ := hc
    subst e
    have hrn : n ∈ refsOf s := by unfold refsOf; rw [ht]; exact hr _ (List.mem_cons_self ..) n (Or.inr rfl)
    have hro : o ∈ refsOf s := by unfold refsOf; rw [ht]; exact hr _ (List.mem_cons_self ..) o (Or.inl rfl)
    have h1 : needed s n = true := (needed_iff s n).mpr (Or.inr (Or.inl hrn))
    have h2 : needed s o = true := (needed_iff s o).mpr (Or.inr (Or.inl hro))
    have h3 : s.handles.any (·.2 == o) = false := by
      rw [List.any_eq_false]
      intro p hp
      rw [hh p hp]
      simpa using fun e => hne e.symm
    have h4 : needed (moveAll s n o) n = true := (needed_iff _ n).mpr (Or.inr (Or.inl hrn))
    obtain ⟨s', hu, U⟩ := undo_ok l (s := moveAll s n o) (cur := o) hc (move_all hh) ht
      (fun e he => hr e (List.mem_cons_of_mem _ he)) (fun o g hg h => hm o g hg (List.mem_cons_of_mem _ h))
    refine ⟨s', ?_, ⟨U.disk, U.handles, U.ids.trans (ids_move s n o), U.txn, U.pinned, U.pending, U.next, ?_, U.keeps, ?_,
      U.less, U.pins⟩⟩
    · simp only [undoLog, h1, h2, h3, h4, Bool.not_false, Bool.and_true, Bool.true_and, bne_iff_ne, ne_eq, hne,
        not_false_eq_true, if_true]
      exact hu
    · intro g hg
      rcases U.marks g hg with h | ⟨o, h⟩
      · exact Or.inl h
      · exact Or.inr ⟨o, List.mem_cons_of_mem _ h⟩
    · intro o g hg
      exact U.news o g (by simpa using hg)
  | .load o n :: l, s, cur, hc, hh, ht, hr, hm => by
    obtain ⟨h1, h2, h3, h4, hc⟩ := hc
    by_cases hn : needed s n = true
    · have hmk : s.marked n = false := by
        cases h : s.marked n with
        | false => rfl
        | true => exact absurd (List.mem_cons_self ..) (hm o n h)
      obtain ⟨s', hu, U⟩ := undo_ok l (s := mark s n) (cur := cur) hc hh ht
        (fun e he => hr e (List.mem_cons_of_mem _ he)) (by
          intro o' g hg h
          simp only [mark, Bool.or_eq_true, beq_iff_eq] at hg
          rcases hg with e | hg
          · rw [e] at h; exact h4 _ h
          · exact hm o' g hg (List.mem_cons_of_mem _ h))
      refine ⟨s', ?_, ⟨U.disk, U.handles, U.ids, U.txn, U.pinned, U.pending, U.next, ?_, ?_, ?_, U.less, U.pins⟩⟩
      · simp only [undoLog, hn, if_true, hmk]
        exact hu
      · intro g hg
        rcases U.marks g hg with h | ⟨o', h⟩
        · simp only [mark, Bool.or_eq_true, beq_iff_eq] at h
          rcases h with e | h
          · rw [e]; exact Or.inr ⟨o, List.mem_cons_self ..⟩
          · exact Or.inl h
        · exact Or.inr ⟨o', List.mem_cons_of_mem _ h⟩
      · intro g hg
        exact U.keeps g (by simp [mark, hg])
      · intro o' g hg
        rcases List.mem_cons.mp hg with e | hg
        · cases e
          exact Or.inl (U.keeps n (by simp [mark]))
        · exact U.news o' g hg
    · obtain ⟨s', hu, U⟩ := undo_ok l (s := setDisk s n none) (cur := cur) (chain_upd l hc h1 h2 h3) hh ht
        (fun e he => hr e (List.mem_cons_of_mem _ he)) (fun o g hg h => hm o g hg (List.mem_cons_of_mem _ h))
      refine ⟨s', ?_, ⟨U.disk, U.handles, U.ids, U.txn, U.pinned, U.pending, U.next, ?_, U.keeps, ?_, ?_, ?_⟩⟩
      · simp only [undoLog, hn]
        exact hu
      · intro g hg
        rcases U.marks g hg with h | ⟨o', h⟩
        · exact Or.inl h
        · exact Or.inr ⟨o', List.mem_cons_of_mem _ h⟩
      · intro o' g hg
        rcases List.mem_cons.mp hg with e | hg
        · cases e
          right
          cases h : s'.disk n with
          | none => rfl
          | some c =>
            have := U.less n (by rw [h]; exact fun h => by cases h)
            simp [setDisk] at this
        · exact U.news o' g hg
      · intro g hg
        have := U.less g hg
        unfold setDisk at this
        dsimp only at this
        split at this
        · exact absurd rfl this
        · exact this
      · intro g hg hd'
        apply U.pins g hg
        unfold setDisk
        dsimp only
        split
        · next e =>
          exfalso
          apply hn
          rw [needed_iff, ← e]
          exact Or.inr (Or.inr hg)
        · exact hd'

theorem commit_ok {s : S} : ∀ l, (∀ o n, .load o n ∈ l → needed s o = true) →
    ∃ m, commitLog s l = some { s with marked := m } ∧
      ∀ f, m f = true ↔ s.marked f = true ∨ ∃ n, .load f n ∈ l
  | [], _ => ⟨s.marked, rfl, fun f => ⟨Or.inl, fun h => h.elim id (by rintro ⟨_, h⟩; cases h)⟩⟩
  | .load o n :: l, h => by
    obtain ⟨m, hm, hi⟩ := commit_ok l (fun o n hm => h o n (List.mem_cons_of_mem _ hm))
    have hn : needed { s with marked := m } o = true := h o n (List.mem_cons_self ..)
    refine ⟨fun g => g == o || m g, ?_, ?_⟩
    · simp only [commitLog, hm, hn, if_true, mark]
    · intro f
      simp only [Bool.or_eq_true, beq_iff_eq, hi, List.mem_cons, Entry.load.injEq]
      constructor
      · rintro (e | e | ⟨k, e⟩)
        · exact Or.inr ⟨n, Or.inl ⟨e, rfl⟩⟩
        · exact Or.inl e
        · exact Or.inr ⟨k, Or.inr e⟩
      · rintro (e | ⟨k, ⟨e, _⟩ | e⟩)
        · exact Or.inr (Or.inl e)
        · exact Or.inl e
        · exact Or.inr (Or.inr ⟨k, e⟩)
  | .put f r :: l, h => by
    obtain ⟨m, hm, hi⟩ := commit_ok l (fun o n hm => h o n (List.mem_cons_of_mem _ hm))
    exact ⟨m, hm, fun f => by rw [hi]; simp⟩
  | .redirect a b :: l, h => by
    obtain ⟨m, hm, hi⟩ := commit_ok l (fun o n hm => h o n (List.mem_cons_of_mem _ hm))
    exact ⟨m, hm, fun f => by rw [hi]; simp⟩

end Verif.Redirect
