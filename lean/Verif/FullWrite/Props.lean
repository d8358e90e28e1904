import Verif.FullWrite.Spec

/-!
# C87: a write is complete when the call returns, whatever the operating system answers in between
-/

namespace Verif.FullWrite

theorem wrote_nil (f : File) (off : Nat) : Wrote f f off [] :=
  ⟨fun i h => absurd h (Nat.not_lt_zero _), fun _ _ => rfl⟩

theorem wrote_put (f : File) (off : Nat) (bs : List Nat) : Wrote f (put f off bs) off bs := by
  refine ⟨?_, ?_⟩
  · intro i h
    unfold put
    rw [if_pos ⟨by omega, by omega⟩, Nat.add_sub_cancel_left]
    exact List.getElem?_eq_getElem h
  · intro p h
    unfold put
    rw [if_neg (by omega)]

/-- First `k` bytes, then more of the rest: together. -/
theorem wrote_trans {f f1 f2 : File} {off n : Nat} {bs cs : List Nat} (h1 : Wrote f f1 off (bs.take n))
    (h2 : Wrote f1 f2 (off + min n bs.length) cs) : Wrote f f2 off (bs.take n ++ cs) := by
  have hl : (bs.take n).length = min n bs.length := List.length_take
  refine ⟨?_, ?_⟩
  · intro i h
    rw [List.length_append] at h
    by_cases hi : i < (bs.take n).length
    · rw [h2.2 _ (.inl (by omega)), h1.1 i hi, List.getElem_append_left hi]
    · rw [List.getElem_append_right (by omega)]
      have := h2.1 (i - (bs.take n).length) (by omega)
      rw [← this]
      congr 1
      omega
  · intro p h
    rw [List.length_append] at h
    rw [h2.2 p (by omega), h1.2 p (by omega)]

theorem noSpace_file (w : W) (t : Nat) : (noSpace w t).file = w.file ∧ (noSpace w t).durable = w.durable := by
  unfold noSpace
  simp only []
  split <;> exact ⟨rfl, rfl⟩

/-- What was written when a full write stopped or ended. -/
theorem fullWrite_spec {stop : Bool} {as} : ∀ {w off bs},
    match fullWrite stop w off bs as with
    | .done w' _ => Wrote w.file w'.file off bs
    | .fail _ _ => False
    | .crash w' => ∃ k, k < bs.length ∧ Wrote w.file w'.file off (bs.take k)
    | .running w' left => ∃ k, k < bs.length ∧ left = bs.drop k ∧ Wrote w.file w'.file off (bs.take k) := by
  induction as with
  | nil =>
    intro w off bs
    unfold fullWrite
    by_cases hb : bs = []
    · subst hb
      rw [if_pos rfl]
      exact wrote_nil _ _
    · rw [if_neg hb]
      exact ⟨0, List.length_pos_iff.mpr hb, rfl, wrote_nil _ _⟩
  | cons a as ih =>
    intro w off bs
    unfold fullWrite
    by_cases hb : bs = []
    · subst hb
      rw [if_pos rfl]
      exact wrote_nil _ _
    · rw [if_neg hb]
      have hpos := List.length_pos_iff.mpr hb
      have h0 : ∃ k, k < bs.length ∧ Wrote w.file w.file off (bs.take k) := ⟨0, hpos, wrote_nil _ _⟩
      cases a with
      | wrote n =>
        simp only []
        by_cases hn : min n bs.length > 0
        · rw [if_pos hn]
          have h := ih (w := { w with file := put w.file off (bs.take n) }) (off := off + min n bs.length) (bs := bs.drop n)
          have hp := wrote_put w.file off (bs.take n)
          have hstep : ∀ k, k < (bs.drop n).length → bs.take n ++ (bs.drop n).take k = bs.take (n + k) ∧ n + k < bs.length := by
            intro k hk
            rw [List.length_drop] at hk
            exact ⟨List.take_add.symm, by omega⟩
          split
          · next w' r he =>
            rw [he] at h
            have := wrote_trans hp h
            rwa [List.take_append_drop] at this
          · next he => rw [he] at h; exact h
          · next he =>
            rw [he] at h
            obtain ⟨k, hk, hw⟩ := h
            have := wrote_trans hp hw
            rw [(hstep k hk).1] at this
            exact ⟨n + k, (hstep k hk).2, this⟩
          · next he =>
            rw [he] at h
            obtain ⟨k, hk, hl, hw⟩ := h
            have := wrote_trans hp hw
            rw [(hstep k hk).1] at this
            exact ⟨n + k, (hstep k hk).2, by rw [hl, List.drop_drop], this⟩
        · rw [if_neg hn]
          exact h0
      | intr => exact ih
      | full now =>
        simp only []
        split
        · next hs =>
          split at hs
          · cases hs
          · next hst =>
            have h := ih (w := noSpace w now) (off := off) (bs := bs)
            rw [hs, (noSpace_file w now).1] at h
            exact h
        · next hs =>
          split at hs
          · cases hs
          · have h := ih (w := noSpace w now) (off := off) (bs := bs)
            rw [hs] at h
            exact h
        · next hs =>
          split at hs
          · cases hs; exact h0
          · have h := ih (w := noSpace w now) (off := off) (bs := bs)
            rw [hs, (noSpace_file w now).1] at h
            exact h
        · next hs =>
          split at hs
          · cases hs
          · have h := ih (w := noSpace w now) (off := off) (bs := bs)
            rw [hs, (noSpace_file w now).1] at h
            exact h
      | err e => exact h0

/-- **C87 (partial).**  When a full write returns, exactly its bytes are in the file at their place, whatever the operating system
answered: parts, interruptions, full disks.  What is missing: the report of a full disk is taken to be harmless, which it is not
(`C87_report_refuted`). -/
theorem C87_full_write_partial {stop : Bool} {w w' : W} {off : Nat} {bs : List Nat} {as rest : List Ans}
    (h : fullWrite stop w off bs as = .done w' rest) : Wrote w.file w'.file off bs := by
  have := fullWrite_spec (stop := stop) (as := as) (w := w) (off := off) (bs := bs)
  rw [h] at this
  exact this

/-- **C87, torn writes.**  If the process is stopped in a full write, or has not returned from it, a proper beginning of
the bytes is in the file and nothing else was changed. -/
theorem C87_torn {stop : Bool} {w w' : W} {off : Nat} {bs : List Nat} {as : List Ans}
    (h : fullWrite stop w off bs as = .crash w' ∨ ∃ left, fullWrite stop w off bs as = .running w' left) :
    ∃ k, k < bs.length ∧ Wrote w.file w'.file off (bs.take k) := by
  have := fullWrite_spec (stop := stop) (as := as) (w := w) (off := off) (bs := bs)
  rcases h with h | ⟨left, h⟩ <;> rw [h] at this
  · exact this
  · obtain ⟨k, h1, _, h2⟩ := this
    exact ⟨k, h1, h2⟩

/-- **C87, it returns.**  With answers that allow to go on, and as many successful ones as there are bytes, a full write
returns. -/
theorem C87_returns {stop : Bool} {as : List Ans} : ∀ {w off bs}, (∀ a ∈ as, Good stop a) →
    bs.length ≤ (as.filter isWrote).length → ∃ w' rest, fullWrite stop w off bs as = .done w' rest := by
  induction as with
  | nil =>
    intro w off bs _ h
    have : bs = [] := List.length_eq_zero_iff.mp (Nat.le_zero.mp h)
    subst this
    exact ⟨w, [], by unfold fullWrite; rw [if_pos rfl]⟩
  | cons a as ih =>
    intro w off bs hg hl
    unfold fullWrite
    by_cases hb : bs = []
    · rw [if_pos hb]; exact ⟨_, _, rfl⟩
    rw [if_neg hb]
    have hpos := List.length_pos_iff.mpr hb
    have hg' : ∀ x ∈ as, Good stop x := fun x hx => hg x (List.mem_cons_of_mem _ hx)
    have ha := hg a List.mem_cons_self
    cases a with
    | wrote n =>
      have hn : 0 < n := ha
      simp only []
      rw [if_pos (by rw [gt_iff_lt, Nat.lt_min]; exact ⟨hn, hpos⟩)]
      apply ih hg'
      rw [List.filter_cons_of_pos (by rfl), List.length_cons] at hl
      rw [List.length_drop]
      omega
    | intr =>
      rw [List.filter_cons_of_neg (by decide)] at hl
      exact ih hg' hl
    | full now =>
      rw [List.filter_cons_of_neg (by intro e; cases e)] at hl
      have hs : stop = false := ha
      simp only [hs]
      rw [hs] at ih hg'
      exact ih hg' hl
    | err e => exact absurd ha (by intro e; exact e)

/-- **C87, it stops the process only when it must.**  The answers before were good, and the last was not: an error that does
not pass, no byte written, or a full disk when the process is to be stopped then. -/
theorem C87_stops {stop : Bool} {as : List Ans} : ∀ {w w' off bs}, fullWrite stop w off bs as = .crash w' →
    ∃ pre a rest, as = pre ++ a :: rest ∧ (∀ x ∈ pre, Good stop x) ∧ ¬ Good stop a := by
  induction as with
  | nil =>
    intro w w' off bs h
    unfold fullWrite at h
    split at h <;> cases h
  | cons a as ih =>
    intro w w' off bs h
    unfold fullWrite at h
    split at h
    · cases h
    next hb =>
    have hpos := List.length_pos_iff.mpr hb
    have lift : Good stop a → (∃ pre x rest, as = pre ++ x :: rest ∧ (∀ y ∈ pre, Good stop y) ∧ ¬ Good stop x) →
        ∃ pre x rest, a :: as = pre ++ x :: rest ∧ (∀ y ∈ pre, Good stop y) ∧ ¬ Good stop x := by
      rintro hga ⟨pre, x, rest, e, h1, h2⟩
      refine ⟨a :: pre, x, rest, by rw [e]; rfl, ?_, h2⟩
      intro y hy
      rcases List.mem_cons.mp hy with e | hy
      · rw [e]; exact hga
      · exact h1 y hy
    have here : ¬ Good stop a → ∃ pre x rest, a :: as = pre ++ x :: rest ∧ (∀ y ∈ pre, Good stop y) ∧ ¬ Good stop x :=
      fun hn => ⟨[], a, as, rfl, fun _ hx => (by cases hx), hn⟩
    cases a with
    | wrote n =>
      simp only [] at h
      split at h
      · next hn =>
        refine lift ?_ (ih h)
        have := Nat.lt_of_lt_of_le hn (Nat.min_le_left _ _)
        exact this
      · next hn =>
        refine here fun hg => hn ?_
        rw [gt_iff_lt, Nat.lt_min]
        exact ⟨hg, hpos⟩
    | intr => exact lift trivial (ih h)
    | full now =>
      simp only [] at h
      cases stop with
      | true => exact here (by intro e; cases e)
      | false => exact lift rfl (ih h)
    | err e => exact here (by intro e; exact e)

/-- **C87, counters.**  Each answer "no space" is counted, and when the call returns nobody is left waiting. -/
theorem C87_counters {stop : Bool} {as : List Ans} : ∀ {w w' off bs rest}, fullWrite stop w off bs as = .done w' rest →
    ∃ used, as = used ++ rest ∧ w'.total = w.total + (used.filter isFull).length ∧ w'.current = w.current := by
  induction as with
  | nil =>
    intro w w' off bs rest h
    unfold fullWrite at h
    split at h <;> cases h
    exact ⟨[], rfl, rfl, rfl⟩
  | cons a as ih =>
    intro w w' off bs rest h
    unfold fullWrite at h
    split at h
    · cases h
      exact ⟨[], rfl, rfl, rfl⟩
    cases a with
    | wrote n =>
      simp only [] at h
      split at h
      · obtain ⟨u, h1, h2, h3⟩ := ih h
        exact ⟨.wrote n :: u, by rw [h1]; rfl, h2, h3⟩
      · cases h
    | intr =>
      obtain ⟨u, h1, h2, h3⟩ := ih h
      exact ⟨.intr :: u, by rw [h1]; rfl, h2, h3⟩
    | full now =>
      simp only [] at h
      split at h
      · cases h
      · obtain ⟨u, h1, h2, h3⟩ := ih h
        have ht : (noSpace w now).total = w.total + 1 ∧ (noSpace w now).current = w.current := by
          unfold noSpace
          simp only []
          split <;> exact ⟨rfl, rfl⟩
        refine ⟨.full now :: u, by rw [h1]; rfl, ?_, by rw [h3, ht.2]⟩
        rw [h2, ht.1, List.filter_cons_of_pos (by rfl), List.length_cons]
        omega
    | err e => cases h

/-- What is known about the reports printed. -/
def RInv (w : W) (now : Nat) : Prop :=
  Apart w.reports ∧ w.lastReport ≤ now ∧ now < 2 ^ 63 ∧ (w.reports ≠ [] → w.lastReport ≠ 0 ∧ w.reports.getLast? = some w.lastReport)

theorem apart_append {l : List Nat} {x : Nat} : Apart l → (∀ y, l.getLast? = some y → y + 60 ≤ x) → Apart (l ++ [x]) := by
  induction l with
  | nil => intros; trivial
  | cons a l ih =>
    intro h hx
    cases l with
    | nil => exact ⟨hx a rfl, trivial⟩
    | cons b l =>
      exact ⟨h.1, ih h.2 (fun y hy => hx y (by rw [List.getLast?_cons_cons]; exact hy))⟩

theorem rinv_noSpace {w : W} {t now : Nat} (h : RInv w t) (h0 : 0 < t) (hle : t ≤ now) (hb : now < 2 ^ 63) :
    RInv (noSpace w now) now := by
  obtain ⟨h1, h2, h3, h4⟩ := h
  unfold noSpace
  simp only []
  split
  · next hr =>
    refine ⟨?_, Nat.le_refl _, hb, fun _ => ⟨by simp only []; omega, List.getLast?_concat⟩⟩
    apply apart_append h1
    intro y hy
    have hne : w.reports ≠ [] := by intro e; simp only [e] at hy; cases hy
    obtain ⟨h5, h6⟩ := h4 hne
    rw [h6] at hy
    cases hy
    have hs : sub64 now w.lastReport = now - w.lastReport := by
      unfold sub64
      omega
    rw [hs] at hr
    omega
  · exact ⟨h1, Nat.le_trans h2 hle, hb, h4⟩

/-- **C87, reports.**  While the clock does not go backwards, reports of a full disk are at least a minute apart. -/
theorem C87_reports {stop : Bool} {as : List Ans} : ∀ {w w' off bs rest t}, 0 < t → RInv w t → Clock t as →
    fullWrite stop w off bs as = .done w' rest → Apart w'.reports := by
  induction as with
  | nil =>
    intro w w' off bs rest t _ hi _ h
    unfold fullWrite at h
    split at h <;> cases h
    exact hi.1
  | cons a as ih =>
    intro w w' off bs rest t h0 hi hc h
    unfold fullWrite at h
    split at h
    · cases h; exact hi.1
    cases a with
    | wrote n =>
      simp only [] at h
      split at h
      · exact ih (w := { w with file := put w.file _ (List.take n _) }) h0 hi hc h
      · cases h
    | intr => exact ih h0 hi hc h
    | full now =>
      simp only [] at h
      obtain ⟨c1, c2, c3⟩ := hc
      split at h
      · cases h
      · exact ih (Nat.lt_of_lt_of_le h0 c1) (rinv_noSpace hi h0 c1 c2) c3 h
    | err e => cases h

theorem osWrite_spec {as} : ∀ {w off bs},
    match osWrite w off bs as with
    | .done w' _ => Wrote w.file w'.file off bs
    | .fail w' e => ∃ k, k < bs.length ∧ Wrote w.file w'.file off (bs.take k) ∧ ∃ a ∈ as, errno a = some e
    | .crash _ => False
    | .running w' left => ∃ k, k < bs.length ∧ left = bs.drop k ∧ Wrote w.file w'.file off (bs.take k) := by
  induction as with
  | nil =>
    intro w off bs
    unfold osWrite
    by_cases hb : bs = []
    · subst hb
      rw [if_pos rfl]
      exact wrote_nil _ _
    · rw [if_neg hb]
      exact ⟨0, List.length_pos_iff.mpr hb, rfl, wrote_nil _ _⟩
  | cons a as ih =>
    intro w off bs
    unfold osWrite
    by_cases hb : bs = []
    · subst hb
      rw [if_pos rfl]
      exact wrote_nil _ _
    · rw [if_neg hb]
      have hpos := List.length_pos_iff.mpr hb
      cases a with
      | wrote n =>
        simp only []
        have h := ih (w := { w with file := put w.file off (bs.take n) }) (off := off + min n bs.length) (bs := bs.drop n)
        have hp := wrote_put w.file off (bs.take n)
        have hstep : ∀ k, k < (bs.drop n).length → bs.take n ++ (bs.drop n).take k = bs.take (n + k) ∧ n + k < bs.length := by
          intro k hk
          rw [List.length_drop] at hk
          exact ⟨List.take_add.symm, by omega⟩
        split
        · next w' r he =>
          rw [he] at h
          have := wrote_trans hp h
          rwa [List.take_append_drop] at this
        · next he =>
          rw [he] at h
          obtain ⟨k, hk, hw, a, ha, hae⟩ := h
          have := wrote_trans hp hw
          rw [(hstep k hk).1] at this
          exact ⟨n + k, (hstep k hk).2, this, a, List.mem_cons_of_mem _ ha, hae⟩
        · next he => rw [he] at h; exact h
        · next he =>
          rw [he] at h
          obtain ⟨k, hk, hl, hw⟩ := h
          have := wrote_trans hp hw
          rw [(hstep k hk).1] at this
          exact ⟨n + k, (hstep k hk).2, by rw [hl, List.drop_drop], this⟩
      | intr => exact ⟨0, hpos, wrote_nil _ _, _, List.mem_cons_self, rfl⟩
      | full now => exact ⟨0, hpos, wrote_nil _ _, _, List.mem_cons_self, rfl⟩
      | err e => exact ⟨0, hpos, wrote_nil _ _, _, List.mem_cons_self, rfl⟩

/-- **C87, writes that report errors.**  0 means that exactly the bytes are in the file; an error number is one the operating
system gave, and then a proper beginning of the bytes is in the file. -/
theorem C87_os_write {w : W} {off : Nat} {bs : List Nat} {as : List Ans} :
    (∀ w' rest, osWrite w off bs as = .done w' rest → Wrote w.file w'.file off bs) ∧
    (∀ w' e, osWrite w off bs as = .fail w' e →
      (∃ k, k < bs.length ∧ Wrote w.file w'.file off (bs.take k)) ∧ ∃ a ∈ as, errno a = some e) ∧
    (∀ w', osWrite w off bs as ≠ .crash w') := by
  have h := osWrite_spec (as := as) (w := w) (off := off) (bs := bs)
  refine ⟨?_, ?_, ?_⟩
  · intro w' rest e; rw [e] at h; exact h
  · intro w' e he
    rw [he] at h
    obtain ⟨k, h1, h2, h3⟩ := h
    exact ⟨⟨k, h1, h2⟩, h3⟩
  · intro w' e; rw [e] at h; exact h

/-- **C87, it succeeds.**  Without errors, and with as many successful answers as there are bytes, it returns 0. -/
theorem C87_os_write_returns {as : List Ans} : ∀ {w off bs}, (∀ a ∈ as, ∃ n, a = .wrote n ∧ 0 < n) → bs.length ≤ as.length →
    ∃ w' rest, osWrite w off bs as = .done w' rest := by
  induction as with
  | nil =>
    intro w off bs _ h
    have : bs = [] := List.length_eq_zero_iff.mp (Nat.le_zero.mp h)
    subst this
    exact ⟨w, [], by unfold osWrite; rw [if_pos rfl]⟩
  | cons a as ih =>
    intro w off bs hg hl
    unfold osWrite
    by_cases hb : bs = []
    · rw [if_pos hb]; exact ⟨_, _, rfl⟩
    rw [if_neg hb]
    obtain ⟨n, e, hn⟩ := hg a List.mem_cons_self
    subst e
    simp only []
    apply ih (fun x hx => hg x (List.mem_cons_of_mem _ hx))
    rw [List.length_drop]
    rw [List.length_cons] at hl
    omega

/-- **C87, forcing to disk.**  When the call returns, everything in the file is on disk and the file is unchanged; the process is
stopped otherwise, unless the call was only interrupted. -/
theorem C87_fsync {as : List Ans} : ∀ {w : W},
    match fsync w as with
    | .done w' _ => w'.durable = w.file ∧ w'.file = w.file
    | .fail _ _ => False
    | .crash w' => w' = w ∧ ∃ a ∈ as, (∃ e, errno a = some e ∧ e ≠ 4) ∨ ∃ e, a = .err e
    | .running w' _ => w' = w ∧ ∀ a ∈ as, a = .intr := by
  induction as with
  | nil => intro w; exact ⟨rfl, fun _ h => (by cases h)⟩
  | cons a as ih =>
    intro w
    cases a with
    | wrote n => exact ⟨rfl, rfl⟩
    | intr =>
      have h := ih (w := w)
      show match fsync w as with
        | .done w' _ => _
        | .fail _ _ => _
        | .crash w' => _
        | .running w' _ => _
      split
      · next he => rw [he] at h; exact h
      · next he => rw [he] at h; exact h
      · next he =>
        rw [he] at h
        obtain ⟨h1, a, ha, h2⟩ := h
        exact ⟨h1, a, List.mem_cons_of_mem _ ha, h2⟩
      · next he =>
        rw [he] at h
        refine ⟨h.1, fun x hx => ?_⟩
        rcases List.mem_cons.mp hx with e | hx
        · exact e
        · exact h.2 x hx
    | full now => exact ⟨rfl, _, List.mem_cons_self, .inl ⟨28, rfl, by decide⟩⟩
    | err e => exact ⟨rfl, _, List.mem_cons_self, .inr ⟨e, rfl⟩⟩

/-- **C87, durable.**  Bytes written and then forced are on disk. -/
theorem C87_durable {stop : Bool} {w w1 w2 : W} {off : Nat} {bs : List Nat} {as as' r1 r2 : List Ans}
    (h1 : fullWrite stop w off bs as = .done w1 r1) (h2 : fsync w1 as' = .done w2 r2) :
    ∀ i (h : i < bs.length), w2.durable (off + i) = some bs[i] := by
  have hf := C87_fsync (as := as') (w := w1)
  rw [h2] at hf
  intro i h
  rw [hf.1]
  exact (C87_full_write_partial h1).1 i h

/-! ## Cases -/

def exW : W := ⟨fun _ => none, fun _ => none, 0, 0, 0, []⟩

/-- Five bytes, in parts, with an interruption and a disk that is full for two minutes. -/
def exAns : List Ans := [.wrote 2, .intr, .full 1000, .full 1030, .full 1061, .wrote 1, .wrote 7, .wrote 9]

example : (match fullWrite false exW 100 [1, 2, 3, 4, 5] exAns with
    | .done w rest => decide <| (List.range 7).map (fun i => w.file (99 + i)) = [none, some 1, some 2, some 3, some 4, some 5, none] ∧
      w.total = 3 ∧ w.current = 0 ∧ w.reports = [1000, 1061] ∧ rest = [.wrote 9]
    | _ => false) = true := by decide +kernel

example : Clock 900 exAns ∧ RInv exW 900 := by
  refine ⟨by unfold exAns; simp only [Clock]; decide, ⟨trivial, by decide, by decide, fun h => absurd rfl h⟩⟩

example : (match fullWrite false exW 100 [1, 2, 3] [.wrote 2, .err 5] with
    | .crash w => decide <| (List.range 4).map (fun i => w.file (100 + i)) = [some 1, some 2, none, none]
    | _ => false) = true := by decide +kernel

example : (match osWrite exW 100 [1, 2, 3] [.wrote 2, .wrote 0, .full 3] with
    | .fail w e => decide <| (List.range 4).map (fun i => w.file (100 + i)) = [some 1, some 2, none, none] ∧ e = 28
    | _ => false) = true := by decide +kernel

/-! ## Where the code falls short -/

/-- **C87, an interrupted load.**  The writes of bulk loads take a signal for an error: where a full write would go on, they
fail with EINTR. -/
theorem C87_interrupted_refuted (w : W) (off b : Nat) (bs : List Nat) (as : List Ans) :
    osWrite w off (b :: bs) (.intr :: as) = .fail w 4 ∧
    fullWrite false w off (b :: bs) (.intr :: as) = fullWrite false w off (b :: bs) as := by
  constructor
  · rfl
  · rw [fullWrite]
    simp only [List.cons_ne_nil, if_false]

/-- **C87, no byte written.**  As long as the operating system writes nothing and gives no error, the call tries again without
end; a full write stops the process. -/
theorem C87_zero_refuted (w : W) (off b : Nat) (bs : List Nat) (k : Nat) :
    (∃ w', osWrite w off (b :: bs) (List.replicate k (.wrote 0)) = .running w' (b :: bs)) ∧
    ∀ as, fullWrite false w off (b :: bs) (.wrote 0 :: as) = .crash w := by
  refine ⟨?_, fun as => ?_⟩
  · induction k generalizing w with
    | zero => exact ⟨w, rfl⟩
    | succ k ih =>
      obtain ⟨w', h⟩ := ih { w with file := put w.file off [] }
      exact ⟨w', h⟩
  · rfl

theorem readStr_uninit : ∀ (l : List Nat) (r : List (Option Nat)), (∀ c ∈ l, c ≠ 0) →
    readStr (l.map some ++ none :: r) = none
  | [], _, _ => rfl
  | c :: l, r, h => by
    have hc := h c List.mem_cons_self
    have ih := readStr_uninit l r (fun x hx => h x (List.mem_cons_of_mem _ hx))
    cases c with
    | zero => exact absurd rfl hc
    | succ c =>
      show (readStr (l.map some ++ none :: r)).map _ = none
      rw [ih]
      rfl

theorem readStr_nul : ∀ (l : List Nat) (r : List (Option Nat)), (∀ c ∈ l, c ≠ 0) →
    readStr (l.map some ++ some 0 :: r) = some l
  | [], _, _ => rfl
  | c :: l, r, h => by
    have hc := h c List.mem_cons_self
    have ih := readStr_nul l r (fun x hx => h x (List.mem_cons_of_mem _ hx))
    cases c with
    | zero => exact absurd rfl hc
    | succ c =>
      show (readStr (l.map some ++ some 0 :: r)).map _ = _
      rw [ih]
      rfl

theorem symname_eq (path : List Nat) :
    ∃ r, symname path = (path.take 256).map some ++ none :: r ∧ (path.take 256).length < (symname path).length := by
  have hl : (path.take 256).length ≤ 256 := by rw [List.length_take]; exact Nat.min_le_left _ _
  refine ⟨List.replicate (256 - (path.take 256).length) none, ?_, ?_⟩
  · unfold symname
    rw [show 257 - (path.take 256).length = (256 - (path.take 256).length) + 1 by omega, List.replicate_succ]
  · unfold symname
    rw [List.length_append, List.length_map, List.length_replicate]
    omega

/-- **C87, the report of a full disk.**  The NUL meant for the end of the file name is stored in the buffer of the time
(portability/file.cc:122): for every file name the report reads memory that was never written, and for names of more than 25
bytes the store is outside the buffer. -/
theorem C87_report_refuted (time path : List Nat) (h : ∀ c ∈ path, c ≠ 0) :
    reportName time path = none ∧
    (25 < path.length → storeNul (tstr time) (path.take 256).length = none) := by
  have hp : ∀ c ∈ path.take 256, c ≠ 0 := fun c hc => h c (List.mem_of_mem_take hc)
  constructor
  · unfold reportName
    obtain ⟨r, e, _⟩ := symname_eq path
    rw [e, readStr_uninit _ r hp]
    split <;> rfl
  · intro hl
    unfold storeNul
    rw [if_neg]
    have ht : (tstr time).length = 26 := by
      unfold tstr
      rw [List.length_append, List.length_append, List.length_map, List.length_take, List.length_replicate]
      simp only [List.length_cons, List.length_nil]
      omega
    rw [ht, List.length_take]
    omega

/-- With the NUL in the buffer of the name, the report names the file (its first 256 bytes). -/
theorem C87_report_repaired (path : List Nat) (h : ∀ c ∈ path, c ≠ 0) :
    (storeNul (symname path) (path.take 256).length).bind readStr = some (path.take 256) := by
  have hp : ∀ c ∈ path.take 256, c ≠ 0 := fun c hc => h c (List.mem_of_mem_take hc)
  obtain ⟨r, e, hl⟩ := symname_eq path
  unfold storeNul
  rw [if_pos hl, Option.bind_some, e]
  rw [List.set_append_right _ _ (by rw [List.length_map]; exact Nat.le_refl _), List.length_map, Nat.sub_self]
  exact readStr_nul _ r hp

end Verif.FullWrite
