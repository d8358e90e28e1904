import Verif.Logger.PropLemmas
/-!
Lemmas about reading back what the logger wrote.
-/
set_option linter.unusedVariables false
namespace Verif.Logger
open Verif.Log Verif.Log.Spec Verif.Ser Verif.Logger.Spec

variable {lsn0 : Nat} {cfg : Cfg} {old : List File}

theorem Consecutive.suffix {a b : List Entry} (h : Consecutive (a ++ b)) : Consecutive b := by
  induction a with
  | nil => exact h
  | cons x a ih =>
    apply ih
    cases hab : a ++ b with
    | nil => trivial
    | cons y l => rw [List.cons_append, hab] at h; exact h.2

theorem consecutive_numbered {n : Nat} {l : List Rec} (h : numbered n l) : Consecutive (l.map (·.1)) := by
  induction l generalizing n with
  | nil => trivial
  | cons x l ih =>
    cases l with
    | nil => trivial
    | cons y l => exact ⟨by rw [h.1, h.2.1], ih h.2⟩

theorem consecutive_join {n : Nat} {es : List Entry} {l : List Rec} (he : Consecutive es) (hl : ∀ e, es.getLast? = some e → e.lsn = n) (h : numbered n l) :
    Consecutive (es ++ l.map (·.1)) := by
  induction es with
  | nil => exact consecutive_numbered h
  | cons x es ih =>
    cases es with
    | nil =>
      cases l with
      | nil => trivial
      | cons y l => exact ⟨by have := hl x rfl; show y.1.lsn = _; rw [h.1, this], consecutive_numbered h⟩
    | cons y es => exact ⟨he.1, ih he.2 (fun e h => hl e (by simpa using h))⟩

/-- The files the ghost state speaks of, as segments. -/
def fullSegs (l : List (List Rec)) : List Seg := l.map (.full logVersion)

theorem fullSegs_recs (l : List (List Rec)) : (fullSegs l).flatMap Seg.recs = l.flatten := by
  induction l with
  | nil => rfl
  | cons x l ih => simp only [fullSegs, List.map_cons, List.flatMap_cons, List.flatten_cons] at ih ⊢; rw [ih]; rfl

theorem closedFiles_bytes (n : Nat) (l : List (List Rec)) : (closedFiles n l).map (·.bytes) = (fullSegs l).map Seg.bytes := by
  induction l generalizing n with
  | nil => rfl
  | cons r l ih => simp only [closedFiles, List.map_cons, ih, fullSegs]; rfl

/-- A record of a file that is gone lies below a number at which the log was trimmed. -/
theorem gone_trimmed {g : G} {s : St} {evs : List Event} (hd : Data lsn0 cfg old g s evs) {r : Rec} (hr : r ∈ (g.closed.take (g.k - old.length)).flatten) : TrimmedAbove evs r.1.lsn := by
  obtain ⟨c, hc, hrc⟩ := List.mem_flatten.mp hr
  obtain ⟨X, Y, hXY⟩ := List.append_of_mem hc
  obtain ⟨C, D, hCD⟩ := List.append_of_mem hrc
  have hcl : g.closed = X ++ c :: (Y ++ g.closed.drop (g.k - old.length)) := by
    have := List.take_append_drop (g.k - old.length) g.closed
    rw [hXY] at this; exact this.symm.trans (by simp)
  have hlen : X.length < g.k - old.length := by
    have := congrArg List.length hXY
    rw [List.length_take] at this
    simp only [List.length_append, List.length_cons] at this
    omega
  have hfile := closedFiles_split lsn0 X (Y ++ g.closed.drop (g.k - old.length)) c
  rw [← hcl] at hfile
  have hm : (⟨header logVersion ++ bytesOf c, (header logVersion ++ bytesOf c).length, lsn0 + X.flatten.length + c.length⟩ : File) ∈ (old ++ closedFiles lsn0 g.closed).take g.k := by
    rw [hfile, List.take_append, List.mem_append]
    right
    rw [List.take_append, List.mem_append, closedFiles_length]
    right
    obtain ⟨m, hm⟩ : ∃ m, g.k - old.length - X.length = m + 1 := ⟨g.k - old.length - X.length - 1, by omega⟩
    rw [hm, List.take_succ_cons]
    exact List.mem_cons_self
  obtain ⟨u, l, h1, h2⟩ := hd.trimmed _ hm
  refine ⟨u, l, h1, ?_⟩
  have hnum : r.1.lsn = lsn0 + (X.flatten ++ C).length + 1 := by
    refine numbered_at hd.num (A := X.flatten ++ C) (B := D ++ (Y ++ g.closed.drop (g.k - old.length)).flatten ++ g.gs ++ g.gu ++ g.p ++ g.i) ?_
    have e : g.all = (X ++ c :: (Y ++ g.closed.drop (g.k - old.length))).flatten ++ g.gs ++ g.gu ++ g.p ++ g.i := by rw [← hcl]; rfl
    rw [e, hCD]; simp
  simp only [hCD, List.length_append, List.length_cons] at h2 hnum
  omega

theorem take_covers {gs gu : List Rec} {m : Nat} (hw : ∀ r ∈ gs, 0 < r.2.length) (h : (bytesOf gs).length ≤ (bytesOf ((gs ++ gu).take m)).length) : gs <+: (gs ++ gu).take m := by
  by_cases hm : gs.length ≤ m
  · exact ⟨gu.take (m - gs.length), by rw [List.take_append, List.take_of_length_le hm]⟩
  · exfalso
    have e : (gs ++ gu).take m = gs.take m := List.take_append_of_le_length (by omega)
    rw [e] at h
    have e2 := congrArg (fun l => (bytesOf l).length) (List.take_append_drop m gs)
    simp only [bytesOf_append, List.length_append] at e2
    have hne : gs.drop m ≠ [] := by intro h0; have := congrArg List.length h0; simp at this; omega
    obtain ⟨x, l, hxl⟩ := List.exists_cons_of_ne_nil hne
    have hx : x ∈ gs := List.mem_of_mem_drop (hxl ▸ List.mem_cons_self : x ∈ gs.drop m)
    rw [hxl, bytesOf_cons, List.length_append] at e2
    have := hw x hx
    omega

end Verif.Logger
