import Verif.Logger.Step
/-!
What the invariant says about crashes, returns and flushes.
-/
set_option linter.unusedVariables false
set_option linter.unusedSimpArgs false
namespace Verif.Logger
open Verif.Log Verif.Log.Spec Verif.Ser Verif.Logger.Spec

variable {lsn0 : Nat} {cfg : Cfg} {old : List File}

theorem LeavesAll.mem {fs : List File} {img : List (List Nat)} (h : LeavesAll fs img) {f : File} (hf : f ∈ fs) : ∃ b ∈ img, Leaves f b := by
  induction h with
  | nil => cases hf
  | cons h1 _ ih =>
    rcases List.mem_cons.mp hf with rfl | hf
    · exact ⟨_, by simp, h1⟩
    · obtain ⟨b, hb, hl⟩ := ih hf
      exact ⟨b, List.mem_cons_of_mem _ hb, hl⟩

theorem numbered_at {n : Nat} {l A B : List Rec} {r : Rec} (h : numbered n l) (e : l = A ++ r :: B) : r.1.lsn = n + A.length + 1 := by
  rw [e, numbered_append] at h
  exact h.2.1

theorem closedFiles_length (n : Nat) (l : List (List Rec)) : (closedFiles n l).length = l.length := by
  induction l generalizing n with
  | nil => rfl
  | cons r l ih => simp [closedFiles, ih]

theorem closedFiles_split (n : Nat) (X Y : List (List Rec)) (c : List Rec) :
    closedFiles n (X ++ c :: Y) = closedFiles n X ++ ⟨header logVersion ++ bytesOf c, (header logVersion ++ bytesOf c).length, n + X.flatten.length + c.length⟩ :: closedFiles (n + X.flatten.length + c.length) Y := by
  induction X generalizing n with
  | nil => simp [closedFiles]
  | cons x X ih =>
    simp only [List.cons_append, closedFiles, ih, List.flatten_cons, List.length_append]
    have : n + x.length + X.flatten.length + c.length = n + (x.length + X.flatten.length) + c.length := by omega
    rw [this]

/-- Records up to `dur` are on disk. -/
theorem durable_of_inv {g : G} {s : St} {evs : List Event} (h : Inv lsn0 cfg old g s evs) {n : Nat} (hn : n ≤ g.dur lsn0) : Durable s evs n := by
  intro r hr hrn img himg
  have hd := h.data
  rw [hd.all] at hr
  obtain ⟨A, B, hAB⟩ := List.append_of_mem hr
  have hnum := numbered_at hd.num hAB
  have hlen : A.length < (g.closed.flatten ++ g.gs).length := by
    rw [List.length_append]; rw [hrn] at hnum; simp only [G.dur] at hn; omega
  have hmem : r ∈ g.closed.flatten ++ g.gs := by
    have e1 : (g.closed.flatten ++ g.gs ++ (g.gu ++ g.p ++ g.i))[A.length]? = some r := by
      have : g.closed.flatten ++ g.gs ++ (g.gu ++ g.p ++ g.i) = A ++ r :: B := by rw [← hAB]; simp [G.all]
      rw [this]; simp
    rw [List.getElem?_append_left hlen] at e1
    exact List.mem_of_getElem? e1
  have hwall : ∀ x ∈ g.closed.flatten ++ g.gs, Written x := by
    intro x hx; exact hd.written x (by simp only [G.all, List.mem_append] at hx ⊢; exact .inl (.inl (.inl hx)))
  rcases List.mem_append.mp hmem with hc | hc
  · -- in a closed file
    obtain ⟨c, hcm, hrc⟩ := List.mem_flatten.mp hc
    obtain ⟨X, Y, hXY⟩ := List.append_of_mem hcm
    obtain ⟨C, D, hCD⟩ := List.append_of_mem hrc
    have hfile := closedFiles_split lsn0 X Y c
    rw [← hXY] at hfile
    let f : File := ⟨header logVersion ++ bytesOf c, (header logVersion ++ bytesOf c).length, lsn0 + X.flatten.length + c.length⟩
    have hfm : f ∈ old ++ closedFiles lsn0 g.closed := by rw [hfile]; simp [f]
    have hwc : ∀ x ∈ C, Written x := by
      intro x hx
      refine hwall x (List.mem_append_left _ (List.mem_flatten.mpr ⟨c, hcm, ?_⟩))
      rw [hCD]; exact List.mem_append_left _ hx
    -- the number of the record
    have hnum2 : r.1.lsn = lsn0 + (X.flatten ++ C).length + 1 := by
      refine numbered_at hd.num (A := X.flatten ++ C) (B := D ++ Y.flatten ++ g.gs ++ g.gu ++ g.p ++ g.i) ?_
      simp [G.all, hXY, hCD]
    rw [← List.take_append_drop g.k (old ++ closedFiles lsn0 g.closed)] at hfm
    rcases List.mem_append.mp hfm with hfm | hfm
    · right
      obtain ⟨u, l, h1, h2⟩ := hd.trimmed f hfm
      refine ⟨u, l, h1, ?_⟩
      have h3 : f.info = lsn0 + X.flatten.length + c.length := rfl
      rw [h3, hCD] at h2
      simp only [List.length_append, List.length_cons] at h2 hnum2
      omega
    · left
      obtain ⟨b, hb, hl⟩ := LeavesAll.mem himg (f := f) (by rw [hd.files]; exact List.mem_append_left _ hfm)
      refine ⟨b, hb, C, hwc, ?_⟩
      rw [hl.2 rfl]
      refine ⟨bytesOf D, ?_⟩
      show header logVersion ++ bytesOf (C ++ [r]) ++ bytesOf D = header logVersion ++ bytesOf c
      rw [hCD, bytesOf_append, bytesOf_append, bytesOf_cons, bytesOf_cons]; simp [bytesOf]
  · -- in the open file
    left
    obtain ⟨C, D, hCD⟩ := List.append_of_mem hc
    have hh : g.hdr = true := by
      cases hb : g.hdr
      · rw [hd.hdr hb] at hc; cases hc
      · rfl
    obtain ⟨b, hb, hl⟩ := LeavesAll.mem himg (f := g.cur) (by rw [hd.files]; simp)
    refine ⟨b, hb, C, fun x hx => hwall x (List.mem_append_right _ (by rw [hCD]; exact List.mem_append_left _ hx)), ?_⟩
    refine List.IsPrefix.trans ?_ hl.1
    have e1 : g.cur.bytes.take g.cur.synced = header logVersion ++ bytesOf g.gs := by
      simp only [G.cur, hh, if_true, bytesOf_append]
      rw [← List.append_assoc, List.take_append_of_le_length, List.take_of_length_le] <;> simp [header_length]
    rw [e1]
    refine ⟨bytesOf D, ?_⟩
    show header logVersion ++ bytesOf (C ++ [r]) ++ bytesOf D = header logVersion ++ bytesOf g.gs
    rw [hCD, bytesOf_append, bytesOf_append, bytesOf_cons, bytesOf_cons]; simp [bytesOf]

/-- The call asks for the log to be on disk. -/
def Call.syncs : Call → Bool
  | .log _ sy => sy
  | .flush => true
  | .sync _ => true
  | .trim _ => false

theorem step_ret {g : G} {s s' : St} {evs : List Event} (h : Inv lsn0 cfg old g s evs) {t u : Tid} {c : Call} {l : Nat}
    (hs : step cfg s t = .ok s' (some (.ret u c l))) : (c.syncs = true → l ≤ g.dur lsn0) ∧ PutBy evs u c l ∧ u = t := by
  have hpc := h.pcs t
  have hfs := h.data.fsynced
  unfold step at hs
  split at hs <;> rename_i e <;> rw [e] at hpc <;> simp only [PcOk] at hpc
  case h_13 =>
    split at hs
    · cases hs
    · rename_i hsy
      cases hs
      exact ⟨fun h => absurd h hsy, hpc.2, rfl⟩
  case h_14 =>
    split at hs
    · rename_i hge
      cases hs
      exact ⟨fun _ => Nat.le_trans hge hfs, hpc.2, rfl⟩
    · split at hs <;> cases hs
  case h_23 =>
    cases hs
    exact ⟨fun _ => Nat.le_trans hpc.1 hpc.2.2.1, hpc.2.1, rfl⟩
  case h_29 =>
    cases hs
    exact ⟨fun h => (by cases h), trivial, rfl⟩
  all_goals
    first
    | cases hs; done
    | (split at hs <;> first | (cases hs; done) | (split at hs <;> first | (cases hs; done) | (split at hs <;> first | (cases hs; done) | (split at hs <;> cases hs))))

theorem run_ret {s : St} {evs : List Event} (h0 : lsn0 + 1 < 2 ^ 64) (h : Run cfg (St.opened cfg old lsn0) s evs) :
    ∃ g, Inv lsn0 cfg old g s evs ∧ ∀ t c l, Event.ret t c l ∈ evs → (c.syncs = true → l ≤ g.dur lsn0) ∧ PutBy evs t c l := by
  induction h with
  | start => exact ⟨_, inv_opened, by intro t c l h; cases h⟩
  | step hr ha hs hl ih =>
    rename_i t a ev
    obtain ⟨g, ih, hret⟩ := ih
    have := act_good ih t a ha (Run.numbers hr h0)
    rw [hs] at this
    obtain ⟨g', h', hd⟩ := this
    refine ⟨g', h', ?_⟩
    intro u c l hm
    rcases List.mem_append.mp hm with hm | hm
    · obtain ⟨h1, h2⟩ := hret u c l hm
      exact ⟨fun hc => Nat.le_trans (h1 hc) hd, h2.mono fun _ h => List.mem_append_left _ h⟩
    · have hev : ev = some (.ret u c l) := by
        cases ev with
        | none => cases hm
        | some x => simp only [Option.toList_some, List.mem_cons, List.not_mem_nil, or_false] at hm; rw [hm]
      rw [hev] at hs
      cases a with
      | call c' =>
        simp only [act, St.call] at hs
        split at hs
        · split at hs
          · cases hs
          · cases hs
          · split at hs <;> cases hs
          · cases hs
        · cases hs
      | go =>
        obtain ⟨h1, h2, _⟩ := step_ret ih hs
        exact ⟨fun hc => Nat.le_trans (h1 hc) hd, h2.mono fun _ h => List.mem_append_left _ h⟩

end Verif.Logger
