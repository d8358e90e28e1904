import Verif.Ckpt.Frame
/-! Every step keeps the invariant. -/
set_option linter.unusedVariables false
set_option linter.unusedSimpArgs false
namespace Verif.Ckpt
variable {V : Type} {cl : Nat → Bool} {s s' : St V} {sp sp' : Spec.S V} {es : List (Ev V)}
open Spec (Held)

theorem R.ok_inj {a b : St V} {x y : List (Ev V)} (h : R.ok a x = R.ok b y) : a = b ∧ x = y := by cases h; exact ⟨rfl, rfl⟩

@[local simp] theorem makeClone_lock (p : Pair V) : p.makeClone.lock = p.lock := rfl
@[local simp] theorem written_lock (p : Pair V) : p.written.lock = p.lock := rfl

macro "same_tac" : tactic => `(tactic| (constructor <;> (try intro m hm) <;>
  simp_all [St.setPair, St.setPc, St.write, St.drop, Cp.running, cpAt, Spec.evs, Spec.ev] <;> (try grind)))

macro "one_tac" : tactic => `(tactic| all_goals first
  | rfl
  | (intros; simp_all [St.setPair, St.setPc, St.write, St.drop, nodesOf, inExp, view, St.roleAt, lockRole, roleOf, workRole_cons, Spec.evs, Spec.ev, Cp.running, cpAt]; done)
  | (intros; simp_all [St.setPair, St.setPc, St.write, St.drop, nodesOf, inExp, view, St.roleAt, lockRole, roleOf, workRole_cons, Spec.evs, Spec.ev, Cp.running, cpAt]; grind))

theorem not_mem_nodes (h : Inv s sp) {n t : Nat} {p : Pair V} (hp : s.pair n = some p) (hl : p.lock ≠ some (.thr t)) : n ∉ nodesOf (s.pc t) := by
  intro hm
  obtain ⟨q, hq, hl'⟩ := h.held t n hm
  rw [hp] at hq; cases hq; exact hl hl'

theorem i_work (h : Inv s sp) {t : Nat} {w : List Item} {k : Then} (hc : s.pc t = .work w k) (hs : s.workStep t w k = .ok s' es) : Inv s' (Spec.evs sp es) := by
  cases w with
  | nil =>
    cases k with
    | ret =>
      obtain ⟨rfl, rfl⟩ := R.ok_inj hs
      refine inv_of (N := []) (t := t) h (by same_tac) ?_ ?_ ?_ ?_ ?_ ?_ ?_ ?_ ?_ h.tab
      all_goals simp_all [St.setPc, nodesOf, inExp, roleOf, workRole, itemRole]
    | fetch n =>
      obtain ⟨rfl, rfl⟩ := R.ok_inj hs
      refine inv_of (N := []) (t := t) h (by same_tac) ?_ ?_ ?_ ?_ ?_ ?_ ?_ ?_ ?_ h.tab
      all_goals simp_all [St.setPc, nodesOf, inExp, roleOf, workRole, itemRole, Then.nodes]
      intro m _
      by_cases hm : m = n
      · simp [hm]
      · rw [if_neg hm, if_neg (fun e => hm e.symm)]
  | cons i w =>
    have hnd := h.nodup t
    rw [hc] at hnd
    obtain ⟨p, hp, hl⟩ := h.held t i.node (by rw [hc]; simp [nodesOf])
    have hi : i.node ∉ k.nodes ∧ i.node ∉ w.map (·.node) ∧ (k.nodes ++ w.map (·.node)).Nodup := by
      simp only [nodesOf, List.map_cons] at hnd
      grind
    have hr : (view s sp i.node).role = .item i.flag i.dd := by
      rw [role_thr hp hl, hc, roleOf, workRole_head hi.1]
    have hw : workRole w k i.node = .held := workRole_none (by simpa using ⟨hi.1, by simpa using hi.2.1⟩)
    have g := h.some hp
    simp only [St.workStep, hp] at hs
    split at hs
    · next hf =>
      split at hs
      · next hd =>
        obtain ⟨rfl, rfl⟩ := R.ok_inj hs
        refine inv_one (t := t) h (by same_tac) hp ?_ (by simp [St.setPair, St.setPc]) ?_ (g_take (t := t) g hr hf hd hl) ?_ ?_ ?_ ?_ ?_ ?_ ?_ ?_
        one_tac
      · cases hs
    · next hf =>
      obtain ⟨rfl, rfl⟩ := R.ok_inj hs
      refine inv_one (t := t) h (by same_tac) hp ?_ (by simp [St.setPair, St.setPc]) ?_ (g_skip g hr (by simpa using hf)) ?_ ?_ ?_ ?_ ?_ ?_ ?_ ?_
      one_tac

theorem i_hold (h : Inv s sp) {t n : Nat} {w : List Item} {k : Then} (hc : s.pc t = .hold n w k) (hs : s.holdStep cl t n w k = .ok s' es) : Inv s' (Spec.evs sp es) := by
  have hnd := h.nodup t
  rw [hc] at hnd
  obtain ⟨p, hp, hl⟩ := h.held t n (by rw [hc]; simp [nodesOf])
  have hi : n ∉ k.nodes ++ w.map (·.node) ∧ (k.nodes ++ w.map (·.node)).Nodup := by
    simp only [nodesOf] at hnd
    grind
  have hr : (view s sp n).role = .hold := by
    rw [role_thr hp hl, hc, roleOf, if_pos rfl]
  have hw : workRole w k n = .held := workRole_none hi.1
  have g := h.some hp
  simp only [St.holdStep, hp] at hs
  split at hs
  · cases hs
  · split at hs
    · obtain ⟨rfl, rfl⟩ := R.ok_inj hs
      refine inv_one (t := t) h (by same_tac) hp ?_ (by simp [St.setPair, St.setPc]) ?_ (g_clone g hr) ?_ ?_ ?_ ?_ ?_ ?_ ?_ ?_
      one_tac
    · obtain ⟨rfl, rfl⟩ := R.ok_inj hs
      refine inv_one (t := t) h (by same_tac) hp ?_ (by simp [St.setPair, St.setPc]) ?_ (g_write g hr) ?_ ?_ ?_ ?_ ?_ ?_ ?_ ?_
      one_tac

theorem i_wrote (h : Inv s sp) {t n : Nat} {w : List Item} {k : Then} {p : Pair V} (hc : s.pc t = .wrote n w k) (hp : s.pair n = some p) :
    Inv ((s.setPair n (some p.written)).setPc t (.work w k)) sp := by
  have hnd := h.nodup t
  rw [hc] at hnd
  obtain ⟨q, hq, hl⟩ := h.held t n (by rw [hc]; simp [nodesOf])
  rw [hp] at hq; cases hq
  have hi : n ∉ k.nodes ++ w.map (·.node) ∧ (k.nodes ++ w.map (·.node)).Nodup := by
    simp only [nodesOf] at hnd
    grind
  have hr : (view s sp n).role = .wrote := by
    rw [role_thr hp hl, hc, roleOf, if_pos rfl]
  have hw : workRole w k n = .held := workRole_none hi.1
  have g := h.some hp
  refine inv_one (t := t) h (by same_tac) hp ?_ (by simp [St.setPair, St.setPc]) ?_ (g_wrote g hr) ?_ ?_ ?_ ?_ ?_ ?_ ?_ ?_
  one_tac

theorem i_fetch (h : Inv s sp) {t : Nat} {d : Bool} (hs : s.fetchStep t d = .ok s' es) : Inv s' (Spec.evs sp es) := by
  unfold St.fetchStep at hs
  split at hs
  · next n keep hc =>
    obtain ⟨p, hp, hl⟩ := h.held t n (by rw [hc]; simp [nodesOf])
    have hr : (view s sp n).role = .fetch keep := by
      rw [role_thr hp hl, hc, roleOf, if_pos rfl]
    have g := h.some hp
    simp only [hp] at hs
    split at hs
    · next hd =>
      obtain ⟨rfl, rfl⟩ := R.ok_inj hs
      refine inv_one (t := t) h (by same_tac) hp ?_ (by simp [St.setPair, St.setPc]) ?_ (g_fetch g hr hd hl) ?_ ?_ ?_ ?_ ?_ ?_ ?_ ?_
      one_tac
    · cases hs
  · next n keep hc =>
    obtain ⟨p, hp, hl⟩ := h.held t n (by rw [hc]; simp [nodesOf])
    have hr : (view s sp n).role = .fetchD keep := by
      rw [role_thr hp hl, hc, roleOf, if_pos rfl]
    have g := h.some hp
    simp only [hp] at hs
    cases hx : s.cur n with
    | none => rw [hx] at hs; cases hs
    | some x =>
      simp only [hx] at hs
      obtain ⟨rfl, rfl⟩ := R.ok_inj hs
      cases keep with
      | true =>
        refine inv_one (t := t) h (by same_tac) hp ?_ (by simp [St.setPair, St.setPc]) ?_ (g_fetched g hr (x := x) (by simpa [view] using hx) (d := d)) ?_ ?_ ?_ ?_ ?_ ?_ ?_ ?_
        one_tac
      | false =>
        refine inv_one (t := t) h (by same_tac) hp ?_ (by simp [St.setPair, St.setPc]) ?_ (g_fetchedFree g hr (x := x) (by simpa [view] using hx) (d := d)) ?_ ?_ ?_ ?_ ?_ ?_ ?_ ?_
        one_tac
  · cases hs

theorem i_remove (h : Inv s sp) {t : Nat} (hs : s.removeStep t = .ok s' es) : Inv s' (Spec.evs sp es) := by
  unfold St.removeStep at hs
  split at hs
  · next n hc =>
    obtain ⟨p, hp, hl⟩ := h.held t n (by rw [hc]; simp [nodesOf])
    have hr : (view s sp n).role = .rem := by
      rw [role_thr hp hl, hc, roleOf, if_pos rfl]
    have g := h.some hp
    simp only [hp] at hs
    split at hs
    · next hd =>
      obtain ⟨rfl, rfl⟩ := R.ok_inj hs
      refine inv_one (t := t) h (by same_tac) hp ?_ (by simp [St.setPair, St.setPc]) ?_ (g_rem g hr hd hl) ?_ ?_ ?_ ?_ ?_ ?_ ?_ ?_
      one_tac
    · cases hs
  · next n hc =>
    obtain ⟨p, hp, hl⟩ := h.held t n (by rw [hc]; simp [nodesOf])
    have hr : (view s sp n).role = .remD := by
      rw [role_thr hp hl, hc, roleOf, if_pos rfl]
    have g := h.some hp
    simp only [hp] at hs
    split at hs
    · cases hs
    · obtain ⟨rfl, rfl⟩ := R.ok_inj hs
      refine inv_drop (t := t) h (by same_tac) hp hl (by simp [St.setPair, St.setPc, St.drop]) ?_ (g_remD g hr) ?_ ?_ ?_ ?_ ?_ ?_
      one_tac
  · cases hs

theorem i_evict (h : Inv s sp) {t : Nat} {keep : Bool} (hs : s.evictStep t keep = .ok s' es) : Inv s' (Spec.evs sp es) := by
  unfold St.evictStep at hs
  split at hs
  · next n hc =>
    obtain ⟨p, hp, hl⟩ := h.held t n (by rw [hc]; simp [nodesOf])
    have hr : (view s sp n).role = .evQ := by
      rw [role_thr hp hl, hc, roleOf, if_pos rfl]
    have g := h.some hp
    obtain ⟨rfl, rfl⟩ := R.ok_inj hs
    refine inv_one (t := t) h (by constructor <;> (try intro m hm) <;> simp_all [St.clear, St.setPc, Spec.evs]) hp ?_ (p' := { p with pending := false }) (by simp [St.clear, St.setPc, hp]) ?_ (g_evQ g hr) ?_ ?_ ?_ ?_ ?_ ?_ ?_ ?_
    · intro u hu e; exact e
    · simp [view, St.clear, St.setPc, hp, hl, St.roleAt, lockRole, roleOf, St.pending, Spec.evs]
    all_goals simp_all [St.clear, St.setPc, nodesOf, inExp, roleOf]
  · next n f hc =>
    obtain ⟨p, hp, hl⟩ := h.held t n (by rw [hc]; simp [nodesOf])
    have hr : (view s sp n).role = .evGo f := by
      rw [role_thr hp hl, hc, roleOf, if_pos rfl]
    have g := h.some hp
    have hex := h.exp t (by rw [hc]; rfl)
    simp only [hp] at hs
    split at hs
    · next hy =>
      split at hs
      · next hd =>
        obtain ⟨rfl, rfl⟩ := R.ok_inj hs
        refine inv_one (t := t) h (by same_tac) hp ?_ (by simp [St.setPair, St.setPc]) ?_ (g_evGo g hr hd hl hy) ?_ ?_ ?_ ?_ ?_ ?_ ?_ ?_
        one_tac
      · cases hs
    · next hy =>
      obtain ⟨rfl, rfl⟩ := R.ok_inj hs
      refine inv_one (t := t) h (by same_tac) hp ?_ (p' := p) (by simp [St.setPair, St.setPc, hp]) ?_ (g_evGoClean g hr (by simpa using hy)) ?_ ?_ ?_ ?_ ?_ ?_ ?_ ?_
      one_tac
  · next n f hc =>
    obtain ⟨p, hp, hl⟩ := h.held t n (by rw [hc]; simp [nodesOf])
    have hr : (view s sp n).role = .evHold f := by
      rw [role_thr hp hl, hc, roleOf, if_pos rfl]
    have g := h.some hp
    have hex := h.exp t (by rw [hc]; rfl)
    simp only [hp] at hs
    split at hs
    · cases hs
    · obtain ⟨rfl, rfl⟩ := R.ok_inj hs
      refine inv_one (t := t) h (by same_tac) hp ?_ (by simp [St.setPair, St.setPc]) ?_ (g_evHold g hr) ?_ ?_ ?_ ?_ ?_ ?_ ?_ ?_
      one_tac
  · next n f hc =>
    obtain ⟨p, hp, hl⟩ := h.held t n (by rw [hc]; simp [nodesOf])
    have hr : (view s sp n).role = .evWrote f := by
      rw [role_thr hp hl, hc, roleOf, if_pos rfl]
    have g := h.some hp
    have hex := h.exp t (by rw [hc]; rfl)
    simp only [hp] at hs
    obtain ⟨rfl, rfl⟩ := R.ok_inj hs
    refine inv_one (t := t) h (by same_tac) hp ?_ (by simp [St.setPair, St.setPc]) ?_ (g_evWrote g hr) ?_ ?_ ?_ ?_ ?_ ?_ ?_ ?_
    one_tac
  · next n e hc =>
    obtain ⟨p, hp, hl⟩ := h.held t n (by rw [hc]; simp [nodesOf])
    have hr : (view s sp n).role = .evLast := by
      rw [role_thr hp hl, hc, roleOf, if_pos rfl]
    have g := h.some hp
    have hex : e = true → t ∈ s.exp := fun he => h.exp t (by rw [hc]; exact he)
    simp only [hp] at hs
    split at hs
    · next hd =>
      obtain ⟨rfl, rfl⟩ := R.ok_inj hs
      refine inv_one (t := t) h (by same_tac) hp ?_ (by simp [St.setPair, St.setPc]) ?_ (g_evRm g hr hd hl) ?_ ?_ ?_ ?_ ?_ ?_ ?_ ?_
      one_tac
    · cases hs
  · next n e hc =>
    obtain ⟨p, hp, hl⟩ := h.held t n (by rw [hc]; simp [nodesOf])
    have hr : (view s sp n).role = .evRm := by
      rw [role_thr hp hl, hc, roleOf, if_pos rfl]
    have g := h.some hp
    simp only [hp] at hs
    split at hs
    · obtain ⟨rfl, rfl⟩ := R.ok_inj hs
      refine inv_one (t := t) h (by same_tac) hp ?_ (by simp [St.setPair, St.setPc]) ?_ (g_evKeep g hr) ?_ ?_ ?_ ?_ ?_ ?_ ?_ ?_
      one_tac
    · split at hs
      · cases hs
      · obtain ⟨rfl, rfl⟩ := R.ok_inj hs
        refine inv_drop (t := t) h (by same_tac) hp hl (by simp [St.setPair, St.setPc, St.drop]) ?_ (g_evDrop g hr) ?_ ?_ ?_ ?_ ?_ ?_
        one_tac
  · cases hs

theorem i_cp (h : Inv s sp) (hs : s.cpStep cl = .ok s' es) : Inv s' (Spec.evs sp es) := by
  unfold St.cpStep at hs
  split at hs
  · next n hc =>
    split at hs
    · cases hs
    next p hp =>
    have g := h.some hp
    have ha : (view s sp n).at_ = .look := by simp [view, hc, cpAt]
    have hl : p.lock = some .cp := by
      cases Classical.em (p.lock = some .cp) with
      | inl h => exact h
      | inr h => rw [g.atc.mpr h] at ha; cases ha
    split at hs
    · next hy =>
      split at hs
      · next hd =>
        simp only [Bool.and_eq_true] at hy
        obtain ⟨rfl, rfl⟩ := R.ok_inj hs
        refine inv_one (t := 0) h (by same_tac) hp ?_ (by simp [St.setPair, St.setPc]) ?_ (g_cpHold g ha hy.1 hy.2 hd) ?_ ?_ (h.nodup 0) ?_ (fun hm => absurd hm (not_mem_nodes h hp (by rw [hl]; simp))) (h.exp 0) ?_ ?_
        one_tac
      · cases hs
    · next hy =>
      obtain ⟨rfl, rfl⟩ := R.ok_inj hs
      refine inv_one (t := 0) h (by same_tac) hp ?_ (by simp [St.setPair, St.setPc]) ?_ (g_cpSkip g ha (by simpa using hy)) ?_ ?_ (h.nodup 0) ?_ (fun hm => absurd hm (not_mem_nodes h hp (by rw [hl]; simp))) (h.exp 0) ?_ ?_
      one_tac
  · next n hc =>
    split at hs
    · cases hs
    next p hp =>
    have g := h.some hp
    have ha : (view s sp n).at_ = .hold := by simp [view, hc, cpAt]
    have hl : p.lock = some .cp := by
      cases Classical.em (p.lock = some .cp) with
      | inl h => exact h
      | inr h => rw [g.atc.mpr h] at ha; cases ha
    split at hs
    · cases hs
    · split at hs
      · obtain ⟨rfl, rfl⟩ := R.ok_inj hs
        refine inv_one (t := 0) h (by same_tac) hp ?_ (by simp [St.setPair, St.setPc]) ?_ (g_cpClone g ha) ?_ ?_ (h.nodup 0) ?_ (fun hm => absurd hm (not_mem_nodes h hp (by rw [hl]; simp))) (h.exp 0) ?_ ?_
        one_tac
      · obtain ⟨rfl, rfl⟩ := R.ok_inj hs
        refine inv_one (t := 0) h (by same_tac) hp ?_ (by simp [St.setPair, St.setPc]) ?_ (g_cpWrite g ha) ?_ ?_ (h.nodup 0) ?_ (fun hm => absurd hm (not_mem_nodes h hp (by rw [hl]; simp))) (h.exp 0) ?_ ?_
        one_tac
  · next n hc =>
    split at hs
    · cases hs
    next p hp =>
    have g := h.some hp
    have ha : (view s sp n).at_ = .wrote := by simp [view, hc, cpAt]
    have hl : p.lock = some .cp := by
      cases Classical.em (p.lock = some .cp) with
      | inl h => exact h
      | inr h => rw [g.atc.mpr h] at ha; cases ha
    obtain ⟨rfl, rfl⟩ := R.ok_inj hs
    refine inv_one (t := 0) h (by same_tac) hp ?_ (by simp [St.setPair, St.setPc]) ?_ (g_cpWrote g ha) ?_ ?_ (h.nodup 0) ?_ (fun hm => absurd hm (not_mem_nodes h hp (by rw [hl]; simp))) (h.exp 0) ?_ ?_
    one_tac
  · cases hs

end Verif.Ckpt
