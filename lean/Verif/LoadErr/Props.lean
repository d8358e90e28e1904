import Verif.LoadErr.Model

/-!
# C96: errors of a bulk load are returned and told
-/

namespace Verif.LoadErr

/-! ## Invariants -/

/-- What was told is what is noted; nothing is told without a function. -/
structure Inv (c : Ce) : Prop where
  one : c.log = [] ∨ c.log = [⟨c.which, c.error, c.key⟩] ∧ c.error ≠ 0 ∧ c.did = true
  did : c.did = true → c.log ≠ []

theorem inv_set {c : Ce} {e w k} (h : Inv c) : Inv (c.set e w k).1 := by
  unfold Ce.set
  split
  · exact h
  · rename_i hc
    refine ⟨?_, h.did⟩
    rcases h.one with g | ⟨-, g, -⟩
    · exact Or.inl g
    · exact absurd g hc

theorem inv_call {c : Ce} (h : Inv c) : Inv c.call := by
  unfold Ce.call
  split
  · rename_i hc
    refine ⟨Or.inr ⟨?_, hc.1, rfl⟩, fun _ => by simp⟩
    rcases h.one with g | ⟨-, -, g⟩
    · simp [g]
    · rw [hc.2.2] at g; cases g
  · exact h

theorem inv_setCall {c : Ce} {e w k} (h : Inv c) : Inv (c.setCall e w k) := by
  unfold Ce.setCall
  split
  · exact inv_call (inv_set h)
  · exact inv_set h

theorem inv_fails {c : Ce} (f : Fail) (h : Inv c) : Inv (c.fails f) := by
  cases f with
  | dup w a k =>
    unfold Ce.fails
    apply inv_set
    split
    · exact inv_set h
    · exact h
  | fail e a => exact inv_set h
  | merge w k => exact inv_setCall h
  | panic e w => exact inv_setCall h

theorem inv_foldl {fs : List Fail} : ∀ {c : Ce}, Inv c → Inv (fs.foldl Ce.fails c) := by
  induction fs with
  | nil => intro c h; exact h
  | cons f fs ih => intro c h; exact ih (inv_fails f h)

/-- A noted error stays, with all that is noted about it. -/
theorem set_stay {c : Ce} {e w k} (h : c.error ≠ 0) : (c.set e w k).1 = c := by unfold Ce.set; rw [if_pos h]

theorem call_keeps (c : Ce) : c.call.error = c.error ∧ c.call.which = c.which ∧ c.call.key = c.key ∧ c.call.fn = c.fn := by
  unfold Ce.call; split <;> exact ⟨rfl, rfl, rfl, rfl⟩

theorem fails_stay {c : Ce} (f : Fail) (h : c.error ≠ 0) : c.fails f = c := by
  cases f with
  | dup w a k =>
    unfold Ce.fails
    have : (if c.fn = true then (c.set keyExist w (some k)).1 else c) = c := by
      split
      · exact set_stay h
      · rfl
    simp only [this]; exact set_stay h
  | fail e a => exact set_stay h
  | merge w k => show c.setCall _ _ _ = c; unfold Ce.setCall Ce.set; rw [if_pos h]; simp
  | panic e w => show c.setCall _ _ _ = c; unfold Ce.setCall Ce.set; rw [if_pos h]; simp

theorem foldl_stay {fs : List Fail} {c : Ce} (h : c.error ≠ 0) : fs.foldl Ce.fails c = c := by
  induction fs with
  | nil => rfl
  | cons f fs ih => rw [List.foldl_cons, fails_stay f h]; exact ih

/-- Without a function nothing is told. -/
theorem fails_quiet {c : Ce} (f : Fail) (h : c.fn = false ∧ c.log = [] ∧ c.did = false) :
    (c.fails f).fn = false ∧ (c.fails f).log = [] ∧ (c.fails f).did = false := by
  have hs : ∀ e w k, (c.set e w k).1.fn = false ∧ (c.set e w k).1.log = [] ∧ (c.set e w k).1.did = false := by
    intro e w k; unfold Ce.set; split <;> exact h
  have hc : ∀ e w k, (c.setCall e w k).fn = false ∧ (c.setCall e w k).log = [] ∧ (c.setCall e w k).did = false := by
    intro e w k
    unfold Ce.setCall
    have := hs e w k
    split
    · unfold Ce.call; rw [if_neg (by simp [this.1])]; exact this
    · exact this
  cases f with
  | dup w a k => unfold Ce.fails; rw [h.1]; exact hs _ _ _
  | fail e a => exact hs _ _ _
  | merge w k => exact hc _ _ _
  | panic e w => exact hc _ _ _

theorem run_quiet : ∀ (es : List Ev) (l : L), (l.ce.fn = false ∧ l.ce.log = [] ∧ l.ce.did = false) →
    let m := (l.run es).1
    (m.ce.fn = false ∧ m.ce.log = [] ∧ m.ce.did = false) ∧ m.user = l.user ∧ m.dis = l.dis
  | [], l, h => ⟨h, rfl, rfl⟩
  | .put k own :: es, l, h => by
    have e : (l.put k own).1.ce = l.ce ∧ (l.put k own).1.user = l.user ∧ (l.put k own).1.dis = l.dis := by
      unfold L.put
      split
      · exact ⟨rfl, rfl, rfl⟩
      · split
        · exact ⟨rfl, rfl, rfl⟩
        · simp only; split <;> split <;> exact ⟨rfl, rfl, rfl⟩
    have := run_quiet es (l.put k own).1 (by rw [e.1]; exact h)
    simp only [L.run]
    exact ⟨this.1, by rw [this.2.1, e.2.1], by rw [this.2.2, e.2.2]⟩
  | .bg f :: es, l, h => run_quiet es { l with ce := l.ce.fails f } (fails_quiet f h)

theorem quiet_inv {c : Ce} (h : c.log = [] ∧ c.did = false) {fn : Bool} : Inv { c with fn := fn } :=
  ⟨Or.inl h.1, fun g => by simp only at g; rw [h.2] at g; cases g⟩

theorem ftClose_inv {c : Ce} (h : c.log = [] ∧ c.did = false) {user x} : Inv (ftClose c user x).1 := by
  unfold ftClose
  have h1 : Inv (x.bg.foldl Ce.fails { c with fn := user }) := inv_foldl (quiet_inv h)
  simp only
  split
  · exact h1
  · split
    · exact inv_call h1
    · exact inv_foldl (inv_call h1)

/-! ## The property -/

/-- Whatever is put and whatever fails when, the error callback is called at most once, and what it is told is an error. -/
theorem C96_once (dis user : Bool) (es : List Ev) (x : Close) :
    (((L.init dis user).run es).1.close x).told.length ≤ 1 := by
  obtain ⟨⟨-, q2, q3⟩, -, -⟩ := run_quiet es (L.init dis user) ⟨rfl, rfl, rfl⟩
  generalize ((L.init dis user).run es).1 = m at q2 q3
  unfold L.close
  split
  · simp only
    have : (if m.user = true then m.ce.log ++ [⟨0, m.errno, m.key⟩] else m.ce.log).length ≤ 1 := by
      rw [q2]; split <;> simp
    split <;> exact this
  · split
    · simp [q2]
    · have h := (ftClose_inv ⟨q2, q3⟩ (user := m.user) (x := x)).one
      simp only
      rcases h with h | ⟨h, -⟩ <;> rw [h] <;> simp

/-- After a put that failed for an error every further put fails, and close does not load anything. -/
theorem C96_after {l : L} (h : l.errno ≠ 0) (es : List Ev) (x : Close) :
    (∀ r ∈ (l.run es).2, r = -1) ∧ ((l.run es).1.close x).loaded = false := by
  have key : ∀ (es : List Ev) (l : L), l.errno ≠ 0 → (∀ r ∈ (l.run es).2, r = -1) ∧ (l.run es).1.errno = l.errno := by
    intro es
    induction es with
    | nil => intro l _; exact ⟨fun r hr => by simp [L.run] at hr, rfl⟩
    | cons e es ih =>
      intro l hl
      cases e with
      | put k own =>
        have e : l.put k own = (l, -1) := by unfold L.put; rw [if_pos hl]
        simp only [L.run, e]
        refine ⟨fun r hr => ?_, (ih l hl).2⟩
        rcases List.mem_cons.1 hr with g | g
        · exact g
        · exact (ih l hl).1 r g
      | bg f => exact ih { l with ce := l.ce.fails f } hl
  obtain ⟨h1, h2⟩ := key es l h
  refine ⟨h1, ?_⟩
  unfold L.close
  rw [if_pos (by rw [h2]; exact h)]
  simp only
  split <;> rfl

/-- A put that fails for an error makes that so. -/
theorem C96_noted {l : L} {k own} (hd : l.dis = false) (h : (l.put k own).2 ≠ 0) : (l.put k own).1.errno ≠ 0 := by
  unfold L.put at h ⊢
  rw [hd] at h ⊢
  simp only [Bool.false_eq_true, if_false] at h ⊢
  by_cases c : l.errno ≠ 0
  · rw [if_pos c]; exact c
  · rw [if_neg c] at h ⊢
    by_cases g : (if l.ce.error ≠ 0 then inval else own) ≠ 0
    · rw [if_pos g]; exact g
    · rw [if_neg g] at h; exact absurd rfl h

/-- If no put failed, close returns 0 exactly if the dictionaries hold the load; if an error was noted up to then, its code is returned, and
the error callback is told of that error, which is the first one.  Missing: a put that failed, see `C96_close_refuted`, `C96_first_refuted`. -/
theorem C96_close_partial {l : L} (hd : l.dis = false) (h0 : l.errno = 0) (x : Close) :
    ((l.close x).ret = 0 ↔ (l.close x).loaded = true) ∧
    (l.ce.error ≠ 0 → l.user = true → l.ce.did = false → l.ce.log = [] → x.files = 0 →
      (l.close x).ret = l.ce.error ∧ (l.close x).told = [⟨l.ce.which, l.ce.error, l.ce.key⟩]) := by
  unfold L.close
  rw [if_neg (by rw [h0]; simp), hd]
  simp only [Bool.false_eq_true, if_false]
  refine ⟨by simp, ?_⟩
  intro he hu hdid hlog hf
  have hs : x.bg.foldl Ce.fails { l.ce with fn := l.user } = { l.ce with fn := l.user } := foldl_stay he
  have hc : ({ l.ce with fn := l.user } : Ce).call = { l.ce with fn := l.user, did := true, log := [⟨l.ce.which, l.ce.error, l.ce.key⟩] } := by
    unfold Ce.call
    rw [if_pos ⟨he, hu, hdid⟩]
    simp [hlog]
  have hfc : ftClose l.ce l.user x = ({ l.ce with fn := l.user, did := true, log := [⟨l.ce.which, l.ce.error, l.ce.key⟩] }, l.ce.error) := by
    unfold ftClose
    simp only [hf, ne_eq, not_true_eq_false, if_false]
    rw [hs, hc]
    exact if_pos he
  rw [hfc]
  exact ⟨if_neg he, rfl⟩

/-- The first error that is noted stays: a failure after it changes nothing of what is noted. -/
theorem C96_stays {c : Ce} (h : c.error ≠ 0) (fs : List Fail) : fs.foldl Ce.fails c = c := foldl_stay h

/-- Close that does not return 0 leaves the dictionaries without the load. -/
theorem C96_failed {l : L} {x : Close} (h : (l.close x).ret ≠ 0) : (l.close x).loaded = false := by
  unfold L.close at h ⊢
  by_cases c : l.errno ≠ 0
  · rw [if_pos c] at h ⊢
    simp only at h ⊢
    split <;> rfl
  · rw [if_neg c] at h ⊢
    by_cases hd : l.dis = true
    · rw [if_pos hd] at h; exact absurd rfl h
    · rw [if_neg hd] at h ⊢
      simp only at h ⊢
      exact decide_eq_false h

/-! ## What does not hold -/

/-- After any history in which a put failed, close returns 0 although nothing is loaded (if the temporary files could be closed). -/
theorem C96_close_refuted {l : L} (hd : l.dis = false) (h : l.errno ≠ 0) {x : Close} (hx : x.files = 0) :
    (l.close x).ret = 0 ∧ (l.close x).loaded = false := by
  unfold L.close
  rw [if_pos h, hd]
  exact ⟨hx, rfl⟩

/-- Nothing fails in closing. -/
def calm : Close := ⟨[], 0, [], 0, 0⟩

/-- Such a history: two rows of equal keys 7, found in the background; the next put fails; close returns 0 with nothing loaded, and the callback
is told EINVAL with the key 9 of that put. -/
theorem C96_first_refuted :
    ((L.init false true).run [.put 7 0, .put 7 0, .bg (.dup 0 0 7), .put 9 0]).2 = [0, 0, -1] ∧
    ((L.init false true).run [.put 7 0, .put 7 0, .bg (.dup 0 0 7), .put 9 0]).1.close calm = ⟨0, false, [⟨0, inval, some 9⟩]⟩ := by decide +kernel

/-- Without the further put: the code is right, but the key is not told, and for rows left at the end the dictionary is said to be the first,
whichever it was. -/
theorem C96_key_refuted :
    ((L.init false true).run [.put 7 0, .put 7 0, .bg (.dup 2 0 7)]).1.close calm = ⟨keyExist, false, [⟨0, keyExist, none⟩]⟩ := by decide +kernel

/-- A load can fail without the callback being told: the temporary files cannot be closed. -/
theorem C96_silent_refuted :
    ((L.init false true).run [.put 7 0, .bg (.fail 28 0)]).1.close { calm with files := 28 } = ⟨28, false, []⟩ := by decide +kernel

/-! ## Non-vacuity -/

example : ((L.init false true).run [.put 7 0, .put 8 0]).1.close calm = ⟨0, true, []⟩ := by decide +kernel

example : ((L.init false true).run [.put 7 0, .put 8 12, .put 9 0]).2 = [0, -1, -1] ∧
    ((L.init false true).run [.put 7 0, .put 8 12, .put 9 0]).1.errno = 12 := by decide +kernel

/-- Equal keys found in a merge: told with the key, once. -/
example : ((L.init false true).run [.put 7 0]).1.close ⟨[], 0, [.merge 1 7, .panic 5 0], keyExist, 0⟩ = ⟨keyExist, false, [⟨1, keyExist, some 7⟩]⟩ := by
  decide +kernel

/-- The hypotheses of the second part of `C96_close_partial`. -/
example : let l := ((L.init false true).run [.put 7 0, .bg (.fail 28 1), .bg (.fail 5 0)]).1
    l.dis = false ∧ l.errno = 0 ∧ l.ce.error = 28 ∧ l.user = true ∧ l.ce.did = false ∧ l.ce.log = [] ∧ l.close calm = ⟨28, false, [⟨1, 28, none⟩]⟩ := by
  decide +kernel

end Verif.LoadErr
