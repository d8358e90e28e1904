import Verif.Ckpt.Facts
/-!
C46: a checkpoint captures one consistent instant, whatever threads pin, change, create, remove, read and evict meanwhile.
`Reached cl disk s sp` are the states of the cache that can be reached from a disk, with what callers have done summed up in `sp` (Spec.lean).
-/
namespace Verif.Ckpt.Props
variable {V : Type} {cl : Nat → Bool} {disk : Nat → Option V} {s s' : St V} {sp : Spec.S V} {as : List (Act V)} {es : List (Ev V)}

/-- When all nodes have been written for a checkpoint, the checkpoint holds of every node the changes of phases that started before the checkpoint began, and no others. -/
theorem checkpoint_is_one_instant (h : Reached cl disk s sp) (hc : s.cp = .header) {n : Nat} (hi : s.incl n = true) : s.inp n = sp.image n :=
  header_image (reached_inv h) hc hi

/-- All changes of a phase, to all its nodes, get into the checkpoint if it begins after the phase started, and none if it began before. -/
theorem phases_are_all_or_nothing (h : Reached cl disk s sp) {ns : List Nat} (hp : Path cl s sp as (.start ns :: es) s') (hns : ∀ n ∈ ns, NoStart n es) (hc : s'.cp = .header)
    (hi : ∀ n ∈ ns, s'.incl n = true) :
    (Ev.begin ∈ es ∧ ∀ n ∈ ns, s'.inp n = (Spec.evs sp (.start ns :: es)).latest n) ∨ (Ev.begin ∉ es ∧ ∀ n ∈ ns, s'.inp n = sp.image n) := by
  have h' := path_reached h hp
  by_cases hb : Ev.begin ∈ es
  · refine .inl ⟨hb, fun n hn => ?_⟩
    rw [checkpoint_is_one_instant h' hc (hi n hn)]
    exact begin_latest (sp := Spec.ev sp (.start ns)) hb (hns n hn)
  · refine .inr ⟨hb, fun n hn => ?_⟩
    rw [checkpoint_is_one_instant h' hc (hi n hn)]
    exact (old_stays (sp := Spec.ev sp (.start ns)) (by simp [Spec.ev, hn]) (hns n hn) (fun e he hh => hb (hh ▸ he))).2

/-- If no change is under way at a node when the checkpoint begins, the checkpoint holds the content the node had then. -/
theorem checkpoint_holds_begin_content (h : Reached cl disk s sp) (hp : Path cl s sp as (.begin :: es) s') (hb : Ev.begin ∉ es) (hc : s'.cp = .header) {n : Nat} (hi : s'.incl n = true)
    (hn : StartsFirst n es) : s'.inp n = sp.latest n := by
  rw [checkpoint_is_one_instant (path_reached h hp) hc hi]
  exact image_stays (sp := Spec.ev sp .begin) hn (fun e he hh => hb (hh ▸ he))

/-- No checkpoint begins while an operation holds the multi-operation lock. -/
theorem no_begin_inside_operation {t : Nat} (ht : t ∈ s.mo) (hp : Path cl s sp as es s') (ha : Act.moUnlock t ∉ as) : Ev.begin ∉ es := by
  induction hp with
  | nil => simp
  | cons hl hs _ ih =>
    simp only [List.mem_cons, not_or] at ha
    obtain ⟨h1, h2⟩ := mo_step ht (Ne.symm ha.1) hs
    intro hm
    rcases List.mem_append.mp hm with hm | hm
    · exact h2 _ hm rfl
    · exact ih h1 ha.2 hm

/-- A thread that has pinned a node has its latest content in memory. -/
theorem pin_gives_latest (h : Reached cl disk s sp) {t n : Nat} {p : Pair V} (hc : s.pc t = .idle) (hp : s.pair n = some p) (hl : p.lock = some (.thr t)) : p.val ≠ none ∧ p.val = sp.latest n := by
  have g := (reached_inv h).some hp
  have hv : p.val ≠ none := fun e => by
    have := g.val.mp e
    rw [role_thr hp hl, hc] at this; cases this
  exact ⟨hv, (g.latest hv).symm⟩

/-- So has a reader. -/
theorem read_gives_latest (h : Reached cl disk s sp) {n : Nat} {p : Pair V} (hp : s.pair n = some p) (hr : 0 < p.readers) : p.val ≠ none ∧ p.val = sp.latest n := by
  have g := (reached_inv h).some hp
  have hl : p.lock = none := by
    cases e : p.lock with
    | none => rfl
    | some o => have := g.readers (by rw [e]; simp); omega
  have hv : p.val ≠ none := fun e => by
    have := g.val.mp e
    rw [g.free.mpr hl] at this; cases this
  exact ⟨hv, (g.latest hv).symm⟩

/-- Eviction loses nothing: a node that is not in memory has its latest content on disk. -/
theorem eviction_loses_nothing (h : Reached cl disk s sp) {n : Nat} (hp : s.pair n = none) : s.cur n = sp.latest n :=
  ((reached_inv h).none hp).cur

/-- Nor does it take changes from a checkpoint in progress: the node is in the checkpoint as it is to be. -/
theorem eviction_keeps_checkpoint (h : Reached cl disk s sp) {n : Nat} (hp : s.pair n = none) (hc : s.cp ≠ .idle) (hi : s.incl n = true) : s.inp n = sp.image n := by
  refine ((reached_inv h).none hp).inp ?_ hi
  simp only [view]
  cases e : s.cp <;> simp_all [Cp.running]

/-- One thread at a time changes a node, and no reader is there meanwhile. -/
theorem writers_exclude_readers (h : Reached cl disk s sp) {n : Nat} {p : Pair V} (hp : s.pair n = some p) (hl : p.lock ≠ none) : p.readers = 0 :=
  ((reached_inv h).some hp).readers hl

/-- No assertion of the cache fails. -/
theorem no_assertion_fails (h : Reached cl disk s sp) {a : Act V} (hl : Spec.Legal s sp a) : step cl s a ≠ .crash :=
  no_crash (reached_inv h) hl

/-- A checkpoint can always be finished once callers have unpinned their nodes. -/
theorem checkpoint_can_finish (h : Reached cl disk s sp) (hq : Quiet s) : ∃ s', Goes cl s s' ∧ s'.cp = .idle :=
  cp_ends (reached_inv h) hq

/-! ### Cases -/

/-- Two nodes on disk: a message in node 1 that is to move to node 2. -/
def two : Nat → Option Nat
  | 1 => some 10
  | 2 => some 20
  | _ => none

/-- The two nodes are read, and a thread has pinned node 1. -/
def pinned : List (Act Nat) :=
  [.miss 7 2 [], .work 7, .fetch 7 false, .fetch 7 false, .unpin 7 2 false, .miss 7 1 [], .work 7, .fetch 7 false, .fetch 7 false]

/-- A checkpoint begins, the thread pins node 2 and passes node 1 along; it changes both, and the checkpoint is taken. -/
def together : List (Act Nat) :=
  [.begin (fun _ => true), .lock 7 2 [(1, true)], .bits 7, .work 7, .work 7, .work 7, .work 7, .work 7,
   .modify 7 1 11, .modify 7 2 21, .unpin 7 1 true, .unpin 7 2 true, .take, .cpStep, .take, .cpStep, .finish]

/-- The same with node 1 not passed along. -/
def apart : List (Act Nat) :=
  [.begin (fun _ => true), .lock 7 2 [], .bits 7, .work 7, .work 7,
   .modify 7 1 11, .modify 7 2 21, .unpin 7 1 true, .unpin 7 2 true, .take, .cpStep, .cpStep, .cpStep, .take, .cpStep, .finish]

/-- The checkpoint begins after the thread has pinned both. -/
def later : List (Act Nat) :=
  [.lock 7 2 [(1, true)], .bits 7, .work 7, .work 7, .work 7, .begin (fun _ => true),
   .modify 7 1 11, .modify 7 2 21, .unpin 7 1 true, .unpin 7 2 true, .take, .cpStep, .cpStep, .cpStep, .take, .cpStep, .cpStep, .cpStep, .finish]

def after (as : List (Act Nat)) : Option (St Nat × Spec.S Nat) := play (fun _ => false) as (init two) (Spec.init two)

/-- Passing the node along as dependent keeps the two changes together: neither is in the checkpoint, which began before. -/
example : (after (pinned ++ together)).map (fun x => (x.1.cp, x.1.inp 1, x.1.inp 2, x.2.latest 1, x.2.latest 2)) = some (.header, some 10, some 20, some 11, some 21) := by decide +kernel

/-- Both are in a checkpoint that begins after, though it begins before they are made. -/
example : (after (pinned ++ later)).map (fun x => (x.1.cp, x.1.inp 1, x.1.inp 2, x.2.latest 1, x.2.latest 2)) = some (.header, some 11, some 21, some 11, some 21) := by decide +kernel

/-- Not passing it along tears them apart: the checkpoint holds one change of the two, and the message is lost if the checkpoint is what is found after a crash. -/
theorem torn_without_dependents : ∃ s sp, Reached (fun _ => false) two s sp ∧ s.cp = .header ∧ s.incl 1 = true ∧ s.incl 2 = true ∧
    s.inp 1 = some 11 ∧ s.inp 2 = some 20 ∧ sp.latest 1 = some 11 ∧ sp.latest 2 = some 21 := by
  have h : (after (pinned ++ apart)).map (fun x => (x.1.cp, [x.1.incl 1, x.1.incl 2], [x.1.inp 1, x.1.inp 2, x.2.latest 1, x.2.latest 2])) =
    some (.header, [true, true], [some 11, some 20, some 11, some 21]) := by decide +kernel
  cases e : after (pinned ++ apart) with
  | none => rw [e] at h; cases h
  | some x =>
    rw [e] at h
    simp only [Option.map_some, Option.some.injEq, Prod.mk.injEq, List.cons.injEq, and_true] at h
    exact ⟨x.1, x.2, play_reached .init e, h.1, h.2.1.1, h.2.1.2, h.2.2⟩

/-- A case of `phases_are_all_or_nothing`: a phase of two nodes with the checkpoint beginning inside. -/
example : ∃ s sp as es s', Reached (fun _ => false) two s sp ∧ Path (fun _ => false) s sp as (.start [2, 1] :: es) s' ∧ (∀ n ∈ [2, 1], NoStart n es) ∧ s'.cp = .header ∧
    (∀ n ∈ [2, 1], s'.incl n = true) ∧ Ev.begin ∈ es := by
  have h : (after pinned).bind (fun x => (trace (fun _ => false) later x.1 x.2).map (fun y => (y.2, y.1.cp, y.1.incl 1, y.1.incl 2))) =
      some (.start [2, 1] :: [.begin, .write 1 (some 11), .write 2 (some 21)], .header, true, true) := by decide +kernel
  cases e : after pinned with
  | none => rw [e] at h; cases h
  | some x =>
    rw [e] at h
    simp only [Option.bind_some] at h
    cases e2 : trace (fun _ => false) later x.1 x.2 with
    | none => rw [e2] at h; cases h
    | some y =>
      rw [e2] at h
      simp only [Option.map_some, Option.some.injEq, Prod.mk.injEq] at h
      refine ⟨x.1, x.2, later, [.begin, .write 1 (some 11), .write 2 (some 21)], y.1, play_reached .init e, trace_path (by rw [e2, ← h.1]), ?_, h.2.1, ?_, by simp⟩
      · intro n _ ns hm; simp at hm
      · intro n hn; simp at hn; rcases hn with rfl | rfl
        · exact h.2.2.2
        · exact h.2.2.1

/-- A case of `checkpoint_holds_begin_content`: node 2 is pinned and changed after the begin. -/
example : ∃ s sp as es s', Reached (fun _ => false) two s sp ∧ Path (fun _ => false) s sp as (.begin :: es) s' ∧ Ev.begin ∉ es ∧ s'.cp = .header ∧ s'.incl 2 = true ∧ StartsFirst 2 es ∧
    Ev.write 2 (some 21) ∈ es := by
  have h : (after pinned).bind (fun x => (trace (fun _ => false) together x.1 x.2).map (fun y => (y.2, y.1.cp, y.1.incl 2))) =
      some (.begin :: [.start [2, 1], .write 1 (some 11), .write 2 (some 21)], .header, true) := by decide +kernel
  cases e : after pinned with
  | none => rw [e] at h; cases h
  | some x =>
    rw [e] at h
    simp only [Option.bind_some] at h
    cases e2 : trace (fun _ => false) together x.1 x.2 with
    | none => rw [e2] at h; cases h
    | some y =>
      rw [e2] at h
      simp only [Option.map_some, Option.some.injEq, Prod.mk.injEq] at h
      exact ⟨x.1, x.2, together, [.start [2, 1], .write 1 (some 11), .write 2 (some 21)], y.1, play_reached .init e, trace_path (by rw [e2, ← h.1]), by simp, h.2.1, h.2.2, by simp [StartsFirst], by simp⟩

/-- Eviction, removal, creation and background copies in one run: node 1 is changed and then evicted after the begin, node 2 is removed, node 3 is new; the checkpoint has none of this. -/
def busy : List (Act Nat) :=
  pinned ++ [.modify 7 1 12, .unpin 7 1 true, .moLock 7, .moUnlock 7, .begin (fun _ => true),
    .lock 8 1 [], .bits 8, .work 8, .work 8, .work 8, .modify 8 1 13, .unpin 8 1 true,
    .evict 9 1, .evictStep 9 false, .job 1, .job 1, .evictStep 9 false, .evictStep 9 false, .evictStep 9 false, .evictStep 9 false, .evictStep 9 false,
    .lock 8 2 [], .bits 8, .work 8, .work 8, .remove 8 2, .removeStep 8, .removeStep 8,
    .put 8 3 30 [], .work 8, .unpin 8 3 true, .rlock 3, .finish]

example : (play (fun _ => true) busy (init two) (Spec.init two)).map (fun x => (x.1.cp, [[1, 2, 3].map x.1.inp, [1, 2, 3].map x.2.latest, [x.1.cur 1, (x.1.pair 3).map (·.readers), (x.1.pair 1).map (·.readers)]])) =
    some (.header, [[some 12, some 20, none], [some 13, none, some 30], [some 13, some 1, none]]) := by decide +kernel

/-- A case of `pin_gives_latest` and of `no_begin_inside_operation`, whose begin cannot be done. -/
example : ((after (pinned ++ [.moLock 7])).map (fun x => (x.1.pc 7, (x.1.pair 1).map (·.lock), x.1.mo))) = some (.idle, some (some (.thr 7)), [7]) ∧
    (after (pinned ++ [.moLock 7, .begin (fun _ => true)])).isNone ∧ (after (pinned ++ [.moLock 7, .moUnlock 7, .begin (fun _ => true)])).isSome := by decide +kernel

/-- A case of `checkpoint_can_finish`: a checkpoint with two nodes to look at. -/
example : ∃ s sp, Reached (fun _ => false) two s sp ∧ s.cp = .run ∧ s.plist = [1, 2] := by
  have h : (after (pinned ++ [.unpin 7 1 false, .begin (fun _ => true)])).map (fun x => (x.1.cp, x.1.plist)) = some (.run, [1, 2]) := by decide +kernel
  cases e : after (pinned ++ [.unpin 7 1 false, .begin (fun _ => true)]) with
  | none => rw [e] at h; cases h
  | some x =>
    rw [e] at h
    simp only [Option.map_some, Option.some.injEq, Prod.mk.injEq] at h
    exact ⟨x.1, x.2, play_reached .init e, h⟩

end Verif.Ckpt.Props
