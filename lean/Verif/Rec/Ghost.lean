import Verif.Rec.Life
import Verif.Ule.Props
/-! Each row of each dictionary, along the log. -/
namespace Verif.Rec
open Verif.Rec.Spec
open Verif.Ule (Ule Bytes Op emptyUle msgModifyU runMsgs R R_step latest)
set_option linter.unusedVariables false
set_option linter.unusedSimpArgs false

/-! ### Messages, row by row -/

def rowMsgs (f : File) (k : Key) (ms : List Msg) : List (List Nat × Op) := (ms.filter fun m => m.file = f ∧ m.key = k).map fun m => (m.chain, m.op)

theorem sendAll_rows (ms : List Msg) (R0 : File → Rows) (h : ∀ f k, ∃ u, runMsgs (R0 f k) (rowMsgs f k ms) = some u) :
    ∃ R', sendAll noSkip R0 ms = some R' ∧ ∀ f k, runMsgs (R0 f k) (rowMsgs f k ms) = some (R' f k) := by
  induction ms generalizing R0 with
  | nil => exact ⟨R0, rfl, fun _ _ => rfl⟩
  | cons m ms ih =>
    obtain ⟨u, hu⟩ := h m.file m.key
    have hcons : rowMsgs m.file m.key (m :: ms) = (m.chain, m.op) :: rowMsgs m.file m.key ms := by simp [rowMsgs]
    rw [hcons] at hu
    simp only [runMsgs] at hu
    obtain ⟨u1, hu1, hu2⟩ := Option.bind_eq_some_iff.mp hu
    have hne : ∀ f k, ¬ (m.file = f ∧ m.key = k) → rowMsgs f k (m :: ms) = rowMsgs f k ms := by
      intro f k hn; simp only [rowMsgs, List.filter_cons, hn, decide_false, Bool.false_eq_true, if_false]
    have hrow : ∀ f k, runMsgs (upd R0 m.file (upd (R0 m.file) m.key u1) f k) (rowMsgs f k ms) = runMsgs (R0 f k) (rowMsgs f k (m :: ms)) := by
      intro f k
      by_cases hn : m.file = f ∧ m.key = k
      · obtain ⟨rfl, rfl⟩ := hn
        rw [hcons]; simp only [runMsgs, hu1, Option.bind_some, upd, if_true]
      · rw [hne f k hn]
        congr 1
        simp only [upd]
        split
        · rename_i hf
          simp only [upd]
          split
          · rename_i hk; exact absurd ⟨hf.symm, hk.symm⟩ hn
          · rw [hf]
        · rfl
    obtain ⟨R', h1, h2⟩ := ih (upd R0 m.file (upd (R0 m.file) m.key u1)) fun f k => by rw [hrow]; exact h f k
    refine ⟨R', ?_, fun f k => by rw [← hrow]; exact h2 f k⟩
    simp only [sendAll, send, noSkip, Bool.false_eq_true, if_false, hu1, Option.map_some, Option.bind_some]
    exact h1

/-! ### What is known about a row -/

/-- The row as the specification of `Verif.Ule` sees it. -/
structure GInv (log : List Rec) (T : Txns) (f : File) (k : Key) (u : Ule) (s : Verif.Ule.Spec.Row) : Prop where
  r : R none u s
  mode : s.mode = .active
  live : s.chain = [] ∨ ∃ e ∈ T, e.2.chain = s.chain
  acts : ∀ e ∈ T, (∃ a ∈ e.2.acts, a.file = f ∧ a.key = k) → e.2.chain <+: s.chain
  own : ∀ w ∈ s.writes, ∀ v ∈ T, v.2.chain <+: w.chain → ∃ e ∈ T, (∃ a ∈ e.2.acts, a.file = f ∧ a.key = k) ∧ v.2.chain <+: e.2.chain ∧ e.2.chain <+: w.chain
  begun : ∀ d ∈ s.used, ∃ q, Rec.xbegin (code d) q ∈ log
  used : ∀ d ∈ s.used, ∀ e ∈ T, e.2.chain = d → d <+: s.chain
  lock : s.chain ≠ [] → ∃ q ops o, Rec.enq q ops ∈ log ∧ o ∈ ops ∧ o.file = f ∧ o.key = k ∧ s.chain.head? = some q.root
  writes : s.writes = (Spec.writes f k log).map fun w => ⟨(lineage log w.1).map idOf, w.2⟩
  wbegun : ∀ w ∈ Spec.writes f k log, ∃ q, Rec.xbegin w.1 q ∈ log

theorem GInv.init (f : File) (k : Key) : GInv [] [] f k emptyUle (Verif.Ule.Spec.Row.fresh []) := by
  refine ⟨?_, rfl, .inl rfl, ?_, ?_, ?_, ?_, ?_, ?_, ?_⟩
  · have := Verif.Ule.R_init emptyUle Verif.Ule.emptyUle_wf [] (by
      intro q hq hp; simp [emptyUle] at hp; exact absurd hp hq)
    exact this
  all_goals simp [Verif.Ule.Spec.Row.fresh, Spec.writes]

/-- Ids are begun one after the other. -/
theorem begins {u : Ule} {c : List Nat} (hnd : c.Nodup) (hnz : ∀ x ∈ c, x ≠ 0) (hlen : c.length ≤ Verif.Ule.Spec.maxDepth) (n : Nat) (s : Verif.Ule.Spec.Row) (hr : R none u s)
    (hm : s.mode = .active) (hp : s.chain <+: c) (hn : c.length = s.chain.length + n) (hu : ∀ d, d <+: c → s.chain.length < d.length → d ∉ s.used) :
    ∃ s', R none u s' ∧ s'.mode = .active ∧ s'.chain = c ∧ s'.writes = s.writes ∧ ∀ d ∈ s'.used, d ∈ s.used ∨ (d <+: c ∧ d ≠ []) := by
  induction n generalizing s with
  | zero =>
    have : s.chain = c := hp.eq_of_length (by omega)
    exact ⟨s, hr, hm, this, rfl, fun d hd => .inl hd⟩
  | succ n ih =>
    obtain ⟨t, ht⟩ := hp
    cases t with
    | nil => simp at ht; rw [← ht] at hn; omega
    | cons x t =>
      have hpx : s.chain ++ [x] <+: c := ⟨t, by rw [← ht]; simp⟩
      have hxc : x ∈ c := by rw [← ht]; simp
      have hxs : x ∉ s.chain := by
        intro hx; rw [← ht] at hnd
        exact (List.nodup_append.mp hnd).2.2 x hx x (by simp) rfl
      have hstep : s.step none (.begin x) = some { s with chain := s.chain ++ [x], used := (s.chain ++ [x]) :: s.used } := by
        simp only [Verif.Ule.Spec.Row.step]
        rw [if_pos ⟨hm, hnz x hxc, hxs, hu _ hpx (by simp), by omega⟩]
      obtain ⟨u', h1, h2⟩ := R_step hr hstep
      have : u' = u := by
        simp only [Verif.Ule.stepMsg, Verif.Ule.Spec.Ev.msg] at h1; injection h1 with h1; exact h1.symm
      subst this
      obtain ⟨s', g1, g2, g3, g4, g5⟩ := ih _ h2 hm hpx (by simp; omega) (by
        intro d hd hl hmem
        simp only [List.length_append, List.length_cons, List.length_nil] at hl
        rcases List.mem_cons.mp hmem with rfl | hmem
        · simp at hl
        · exact hu d hd (by omega) hmem)
      refine ⟨s', g1, g2, g3, g4, ?_⟩
      intro d hd
      rcases g5 d hd with h | h
      · rcases List.mem_cons.mp h with rfl | h
        · exact .inr ⟨hpx, by simp⟩
        · exact .inl h
      · exact .inr h

/-- The writes of one call to one row. -/
theorem writesRun {u : Ule} {c : List Nat} (hc : c ≠ []) (p : Xid) (φ : Xid → List Nat) (hφ : φ p = c) (ws : List Wr)
    (hv : ∀ w ∈ ws, ∀ v, (w = .put v ∨ w = .putNew v) → v.length < Verif.Ule.Spec.maxValLen) (s : Verif.Ule.Spec.Row) (hr : R none u s)
    (hm : s.mode = .active) (hs : s.chain = c) (old : List Spec.Write) (hw : s.writes = old.map fun w => ⟨φ w.1, w.2⟩) :
    ∃ u' s', runMsgs u (ws.map fun w => (c, w.op)) = some u' ∧ R none u' s' ∧ s'.mode = .active ∧ s'.chain = c ∧ s'.used = s.used ∧
      s'.writes = (ws.foldl (Spec.write p) old).map (fun w => ⟨φ w.1, w.2⟩) ∧ ∀ w ∈ ws.foldl (Spec.write p) old, w ∈ old ∨ w.1 = p := by
  induction ws generalizing u s old with
  | nil => exact ⟨u, s, rfl, hr, hm, hs, rfl, hw, fun w hw => .inl hw⟩
  | cons w ws ih =>
    have hval : (s.value none).isSome = (Spec.valueOf old).isSome := by
      simp only [Verif.Ule.Spec.Row.value, hw]
      cases old <;> rfl
    have key : ∀ ev s1, s.step none ev = some s1 → ev.msg c = some (c, w.op) → s1.mode = .active → s1.chain = c → s1.used = s.used →
        s1.writes = (Spec.write p old w).map (fun w => ⟨φ w.1, w.2⟩) → (∀ x ∈ Spec.write p old w, x ∈ old ∨ x.1 = p) →
        ∃ u' s', runMsgs u ((w :: ws).map fun w => (c, w.op)) = some u' ∧ R none u' s' ∧ s'.mode = .active ∧ s'.chain = c ∧ s'.used = s.used ∧
          s'.writes = ((w :: ws).foldl (Spec.write p) old).map (fun w => ⟨φ w.1, w.2⟩) ∧ ∀ x ∈ (w :: ws).foldl (Spec.write p) old, x ∈ old ∨ x.1 = p := by
      intro ev s1 hstep hmsg e1 e2 e3 e4 e5
      obtain ⟨u1, h1, h2⟩ := R_step hr hstep
      rw [hs] at h1
      simp only [Verif.Ule.stepMsg, hmsg] at h1
      obtain ⟨u', s', g1, g2, g3, g4, g5, g6, g7⟩ := ih (fun x hx => hv x (List.mem_cons_of_mem _ hx)) s1 h2 e1 e2 (Spec.write p old w) e4
      refine ⟨u', s', ?_, g2, g3, g4, g5.trans e3, g6, ?_⟩
      · simp only [List.map_cons, runMsgs, h1, Option.bind_some]; exact g1
      · intro x hx
        rcases g7 x hx with h | h
        · exact e5 x h
        · exact .inr h
    cases w with
    | put v =>
      have hl := hv (.put v) (by simp) v (.inl rfl)
      refine key (.put v) { s with writes := ⟨s.chain, some v⟩ :: s.writes } ?_ rfl hm hs rfl ?_ ?_
      · simp only [Verif.Ule.Spec.Row.step]; rw [if_pos ⟨hm, by rw [hs]; exact hc, hl⟩]
      · simp only [Spec.write, List.map_cons, hw, hs, hφ]
      · intro x hx; simp only [Spec.write, List.mem_cons] at hx; rcases hx with rfl | hx
        · exact .inr rfl
        · exact .inl hx
    | putNew v =>
      have hl := hv (.putNew v) (by simp) v (.inr rfl)
      by_cases hval' : (Spec.valueOf old).isSome = true
      · refine key (.putIfAbsent v) s ?_ rfl hm hs rfl ?_ ?_
        · simp only [Verif.Ule.Spec.Row.step]; rw [if_pos ⟨hm, by rw [hs]; exact hc, hl⟩, hval, if_pos hval']
        · simp only [Spec.write, hval', if_true]; exact hw
        · intro x hx; simp only [Spec.write, hval', if_true] at hx; exact .inl hx
      · refine key (.putIfAbsent v) { s with writes := ⟨s.chain, some v⟩ :: s.writes } ?_ rfl hm hs rfl ?_ ?_
        · simp only [Verif.Ule.Spec.Row.step]; rw [if_pos ⟨hm, by rw [hs]; exact hc, hl⟩, hval, if_neg hval']
        · simp only [Spec.write]; rw [if_neg hval']; simp only [List.map_cons, hw, hs, hφ]
        · intro x hx; simp only [Spec.write] at hx; rw [if_neg hval'] at hx; rcases List.mem_cons.mp hx with rfl | hx
          · exact .inr rfl
          · exact .inl hx
    | del =>
      refine key .del { s with writes := ⟨s.chain, none⟩ :: s.writes } ?_ rfl hm hs rfl ?_ ?_
      · simp only [Verif.Ule.Spec.Row.step]; rw [if_pos ⟨hm, by rw [hs]; exact hc⟩]
      · simp only [Spec.write, List.map_cons, hw, hs, hφ]
      · intro x hx; simp only [Spec.write, List.mem_cons] at hx; rcases hx with rfl | hx
        · exact .inr rfl
        · exact .inl hx

/-- Any number of commit messages. -/
theorem commitRun {u : Ule} {c : List Nat} (hc : c ≠ []) (n : Nat) (s : Verif.Ule.Spec.Row) (hr : R none u s) (hm : s.mode ≠ .aborting) (hs : s.chain = c) :
    ∃ u' s', runMsgs u (List.replicate n (c, Op.commit)) = some u' ∧ R none u' s' ∧ s'.chain = c ∧ s'.used = s.used ∧ s'.writes = s.writes := by
  induction n generalizing u s with
  | zero => exact ⟨u, s, rfl, hr, hs, rfl, rfl⟩
  | succ n ih =>
    have hstep : s.step none .commitMsg = some { s with mode := .committing } := by
      simp only [Verif.Ule.Spec.Row.step]; rw [if_pos ⟨hm, by rw [hs]; exact hc⟩]
    obtain ⟨u1, h1, h2⟩ := R_step hr hstep
    rw [hs] at h1
    simp only [Verif.Ule.stepMsg, Verif.Ule.Spec.Ev.msg] at h1
    obtain ⟨u', s', g1, g2, g3, g4, g5⟩ := ih { s with mode := .committing } h2 (by simp) hs
    exact ⟨u', s', by simp only [List.replicate_succ, runMsgs, h1, Option.bind_some]; exact g1, g2, g3, g4, g5⟩

theorem undo_idem (c : List Nat) (ws : List Verif.Ule.Spec.Write) : Verif.Ule.Spec.undo c (Verif.Ule.Spec.undo c ws) = Verif.Ule.Spec.undo c ws := by
  simp [Verif.Ule.Spec.undo]

/-- Any number of abort messages, at least one. -/
theorem abortRun {u : Ule} {c : List Nat} (hc : c ≠ []) (n : Nat) (s : Verif.Ule.Spec.Row) (hr : R none u s) (hm : s.mode ≠ .committing) (hs : s.chain = c) :
    ∃ u' s', runMsgs u (List.replicate (n + 1) (c, Op.abort)) = some u' ∧ R none u' s' ∧ s'.chain = c ∧ s'.used = s.used ∧ s'.writes = Verif.Ule.Spec.undo c s.writes := by
  induction n generalizing u s with
  | zero =>
    have hstep : s.step none .abortMsg = some { s with mode := .aborting, writes := Verif.Ule.Spec.undo s.chain s.writes } := by
      simp only [Verif.Ule.Spec.Row.step]; rw [if_pos ⟨hm, by rw [hs]; exact hc⟩]
    obtain ⟨u1, h1, h2⟩ := R_step hr hstep
    rw [hs] at h1
    simp only [Verif.Ule.stepMsg, Verif.Ule.Spec.Ev.msg] at h1
    exact ⟨u1, _, by simp [runMsgs, h1], h2, hs, rfl, by simp only; rw [hs]⟩
  | succ n ih =>
    have hstep : s.step none .abortMsg = some { s with mode := .aborting, writes := Verif.Ule.Spec.undo s.chain s.writes } := by
      simp only [Verif.Ule.Spec.Row.step]; rw [if_pos ⟨hm, by rw [hs]; exact hc⟩]
    obtain ⟨u1, h1, h2⟩ := R_step hr hstep
    rw [hs] at h1
    simp only [Verif.Ule.stepMsg, Verif.Ule.Spec.Ev.msg] at h1
    obtain ⟨u', s', g1, g2, g3, g4, g5⟩ := ih _ h2 (by simp) hs
    refine ⟨u', s', ?_, g2, g3, g4, by rw [g5]; simp only; rw [hs, undo_idem]⟩
    rw [List.replicate_succ]
    simp only [runMsgs, h1, Option.bind_some]; exact g1

/-- The end of the innermost transaction. -/
theorem finishRun {u : Ule} {s : Verif.Ule.Spec.Row} (hr : R none u s) (hne : s.chain ≠ []) : R none u { s with chain := s.chain.dropLast, mode := .active } := by
  have hstep : s.step none .finish = some { s with chain := s.chain.dropLast, mode := .active } := by
    simp only [Verif.Ule.Spec.Row.step]; rw [if_pos hne]
  obtain ⟨u1, h1, h2⟩ := R_step hr hstep
  simp only [Verif.Ule.stepMsg, Verif.Ule.Spec.Ev.msg] at h1
  injection h1 with h1; subst h1; exact h2

end Verif.Rec
