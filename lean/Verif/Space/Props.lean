import Verif.Space.Lemmas

/-!
# C91: the reserve of disk space
-/

namespace Verif.Space

theorem fold_last {zs} : ∀ {e}, (fold e zs).zone = zs.getLastD e.zone := by
  induction zs with
  | nil => intro e; rfl
  | cons z zs ih => intro e; rw [List.getLastD_cons]; exact ih

theorem zones_found {d : Dirs} {z : Nat} {l : List (Nat → Fs)} (hz : z < 18446744073709551616) (hs : ∀ f ∈ l, Sane z f) :
    zonesOf d z l = l.map (found d z) := by
  unfold zonesOf
  exact List.map_congr_left fun f hf => zoneL_found (hs f hf) hz

theorem run_fresh {d h} {z : Nat} (hz : share 5 h = z) (hz' : z < 18446744073709551616) (hs : ∀ f ∈ looks false h, Sane z f) :
    Like (run d fresh h).1 (fold fresh ((looks false h).map (found d z))) ∧
    warnings (run d fresh h).2 = warns fresh ((looks false h).map (found d z)) := by
  have := run_closed (d := d) (vs := h) (e := fresh) rfl rfl
  rw [show share fresh.redzone h = z from hz, zones_found hz' hs] at this
  exact this

/-- The state shown: the one found by the last look alone; without a look there is no restriction. -/
theorem C91_state {d h} {z : Nat} (hz : share 5 h = z) (hz' : z < 18446744073709551616) (hs : ∀ f ∈ looks false h, Sane z f) :
    (run d fresh h).1.zone = ((looks false h).map (found d z)).getLastD .green := by
  rw [(run_fresh hz hz' hs).1.1, fold_last]; rfl

/-- Partial: not for update_multiple (`C91_update_multiple_refuted`) and not if the percentage overflows (`C91_overflow_refuted`).
After every history, a call that writes rows is refused with ENOSPC exactly if at the last look one of the directories had less than
the share of its file system left; deletions and everything else go on. -/
theorem C91_refused_partial {d h op} {z : Nat} (hz : share 5 h = z) (hz' : z < 18446744073709551616)
    (hs : ∀ f ∈ looks false h, Sane z f) (ho : op ≠ .updateMultiple) :
    (step d (run d fresh h).1 (.call op)).2 =
      if grows op = true ∧ ((looks false h).map (found d z)).getLastD .green = .red then .enospc else .goes := by
  rw [← C91_state hz hz' hs]
  unfold step
  generalize (run d fresh h).1 = e
  have hc : checked op = grows op := by cases op <;> first | rfl | exact absurd rfl ho
  simp only [hc]
  by_cases h1 : grows op = true <;> by_cases h2 : e.zone = .red <;> simp [h1, h2]

/-- With the file systems of the last look at hand. -/
theorem C91_low {d h op l f} {z : Nat} (hz : share 5 h = z) (hz' : z < 18446744073709551616) (hs : ∀ f ∈ looks false h, Sane z f)
    (hl : looks false h = l ++ [f]) (ho : op = .put ∨ op = .update ∨ op = .updateBroadcast ∨ op = .putMultiple ∨ op = .indexRow) :
    (step d (run d fresh h).1 (.call op)).2 = .enospc ↔
      ∃ n, (n = d.home ∨ n = d.data ∨ n = d.log) ∧ (f n).avail < (f n).total * z / 100 := by
  have hne : op ≠ .updateMultiple := by rcases ho with rfl | rfl | rfl | rfl | rfl <;> decide
  have hg : grows op = true := by rcases ho with rfl | rfl | rfl | rfl | rfl <;> rfl
  rw [C91_refused_partial hz hz' hs hne, hl, List.map_append, List.map_singleton]
  have e : (l.map (found d z) ++ [found d z f]).getLastD .green = found d z f := by
    rw [List.getLastD_eq_getLast?, List.getLast?_concat]; rfl
  rw [e]
  have hlow : Low d 1 z f ↔ ∃ n, (n = d.home ∨ n = d.data ∨ n = d.log) ∧ (f n).avail < (f n).total * z / 100 := by
    unfold Low; simp only [Nat.one_mul]
  rw [← hlow]
  unfold found
  by_cases h1 : Low d 1 z f
  · rw [if_pos h1, if_pos ⟨hg, rfl⟩]
    exact ⟨fun _ => h1, fun _ => rfl⟩
  · rw [if_neg h1]
    have : ¬ (grows op = true ∧ (open Classical in if Low d 2 z f then Zone.yellow else .green) = .red) := by
      intro ⟨_, hh⟩
      by_cases h2 : Low d 2 z f
      · rw [if_pos h2] at hh; cases hh
      · rw [if_neg h2] at hh; cases hh
    rw [if_neg this]
    exact ⟨fun h => (by cases h), fun h => absurd h h1⟩

/-- A call changes nothing but the number of refused calls, which counts exactly those. -/
theorem C91_counted {d e h} : (run d e h).1.ctr = e.ctr + (run d e h).2.count .enospc ∧
    ∀ op, { (step d e (.call op)).1 with ctr := e.ctr } = e := by
  constructor
  · induction h generalizing e with
    | nil => rfl
    | cons v vs ih =>
      have hs : (step d e v).1.ctr = e.ctr + if (step d e v).2 = .enospc then 1 else 0 := by
        cases v with
        | setRedzone z => unfold step; by_cases ho : e.opened = true <;> simp [ho]
        | openEnv f => unfold step; by_cases ho : e.opened = true <;> simp [ho, poll, pollZone_eq, pollZ]
        | look f => unfold step; by_cases ho : e.opened = true <;> simp [ho, poll, pollZone_eq, pollZ]
        | call op => unfold step; by_cases hc : checked op = true <;> by_cases hr : e.zone = .red <;> simp [hc, hr]
      show (run d (step d e v).1 vs).1.ctr = e.ctr + ((step d e v).2 :: (run d (step d e v).1 vs).2).count .enospc
      rw [ih, hs, List.count_cons]
      by_cases hh : (step d e v).2 = .enospc
      · simp only [hh, if_true, beq_self_eq_true]; omega
      · rw [if_neg hh, if_neg (by simpa using hh)]; omega
  · intro op
    unfold step
    by_cases hc : checked op = true
    · by_cases hr : e.zone = .red
      · simp only [if_pos hc, if_pos hr]
      · simp only [if_pos hc, if_neg hr]
    · simp only [if_neg hc]

/-- Once the environment is open its share is fixed, and every attempt to set it is answered with EINVAL. -/
theorem C91_fixed {d : Dirs} {h : List Event} : ∀ {e : Env}, e.opened = true → (run d e h).1.opened = true ∧ (run d e h).1.redzone = e.redzone ∧
    ∀ (i : Nat) (z : Int), h[i]? = some (Event.setRedzone z) → (run d e h).2[i]? = some Out.einval := by
  induction h with
  | nil => intro e ho; exact ⟨ho, rfl, fun i z hi => (by cases hi)⟩
  | cons v vs ih =>
    intro e ho
    have hs : (step d e v).1.opened = true ∧ (step d e v).1.redzone = e.redzone ∧ (∀ z, v = .setRedzone z → (step d e v).2 = .einval) := by
      cases v with
      | setRedzone z => unfold step; simp [ho]
      | openEnv f => unfold step; simp [ho]
      | look f => unfold step; simp [ho, poll, pollZone_eq, pollZ]
      | call op => unfold step; by_cases hc : checked op = true <;> by_cases hr : e.zone = .red <;> simp [hc, hr, ho]
    obtain ⟨a1, a2, a3⟩ := ih hs.1
    refine ⟨a1, a2.trans hs.2.1, fun i z hi => ?_⟩
    cases i with
    | zero =>
      have : v = .setRedzone z := Option.some.inj hi
      exact congrArg some (hs.2.2 z this)
    | succ i => exact a3 i z hi

/-- The warnings: one per look at most, and exactly those of `Warned`. -/
theorem C91_warned {d h i w} {z : Nat} (hz : share 5 h = z) (hz' : z < 18446744073709551616) (hs : ∀ f ∈ looks false h, Sane z f)
    (hw : (warnings (run d fresh h).2)[i]? = some w) :
    (w = some .red ↔ Warned .red (· ≠ .red) ((looks false h).map (found d z)) (i + 1)) ∧
    (w = some .yellow ↔ Warned .yellow (· = .green) ((looks false h).map (found d z)) (i + 1)) ∧ w ≠ some .green := by
  rw [(run_fresh hz hz' hs).2] at hw
  exact warns_spec hw

/-- After the twelfth look two warnings of the same kind are more than twelve looks (one minute) apart. -/
theorem C91_rare {r P zs i j} (hi : Warned r P zs i) (hj : Warned r P zs j) (h : i < j) (h12 : 12 ≤ j) : i + 12 < j := by
  rcases hj.2 with hj | ⟨_, hj⟩
  · omega
  · exact hj i hi.1 h

/-- Home directory 0, data 1, logs in the data directory. -/
def dirs : Dirs := ⟨0, 1, 1⟩
/-- 1000 bytes everywhere, `a` left in the data directory. -/
def left (a : Nat) : Nat → Fs := fun n => if n = 1 then ⟨a, 1000⟩ else ⟨900, 1000⟩

/-- The hypotheses are met: 5 percent, then too little, then enough. -/
example : (run dirs fresh [.openEnv (left 60), .call .put, .look (left 40), .call .put, .call .del, .look (left 200), .call .put]).2 =
      [.warned (some .yellow), .goes, .warned (some .red), .enospc, .goes, .warned none, .goes] ∧
    (∀ f ∈ looks false [.openEnv (left 60), .call .put, .look (left 40)], Sane 5 f) := by
  refine ⟨by decide +kernel, ?_⟩
  intro f hf n
  have : f = left 60 ∨ f = left 40 := by simpa [looks] using hf
  rcases this with rfl | rfl <;> unfold left <;> by_cases h : n = 1 <;> simp [h]

/-- update_multiple is not refused, however little space is left. -/
theorem C91_update_multiple_refuted {d e} : step d e (.call .updateMultiple) = (e, .goes) ∧
    (run dirs fresh [.openEnv (left 0), .call .put, .call .updateMultiple]).2 = [.warned (some .red), .enospc, .goes] :=
  ⟨rfl, by decide +kernel⟩

/-- On a file system of a little over 3 EiB the percentage overflows: nothing is refused although nothing is left. -/
theorem C91_overflow_refuted : (run ⟨0, 0, 0⟩ fresh [.openEnv fun _ => ⟨0, 3689348814741910324⟩, .call .put]).2 = [.warned none, .goes] ∧
    Low ⟨0, 0, 0⟩ 1 5 (fun _ => ⟨0, 3689348814741910324⟩) :=
  ⟨by decide +kernel, 0, .inl rfl, by decide⟩

/-- A disk that runs full at the twelfth look (after 55 seconds) is not reported, then or as long as it stays so. -/
theorem C91_twelfth_refuted (n : Nat) :
    (warns fresh (List.replicate 11 .green ++ List.replicate (n + 1) .red)) = List.replicate (n + 12) none := by
  have h : ∀ n e, e.zone = .red → warns e (List.replicate n .red) = List.replicate n none := by
    intro n
    induction n with
    | zero => intro e _; rfl
    | succ n ih =>
      intro e he
      show (pollZ e .red).2 :: warns (pollZ e .red).1 (List.replicate n .red) = none :: List.replicate n none
      rw [ih _ rfl]
      unfold pollZ
      simp [he]
  have e1 : List.replicate (n + 12) (none : Option Zone) = List.replicate 12 none ++ List.replicate n none := by
    rw [List.replicate_append_replicate, Nat.add_comm]
  rw [e1]
  show List.replicate 12 none ++ warns _ (List.replicate n .red) = _
  rw [h _ _ rfl]

/-- If a zone is entered again at least every twelve looks, then from the twelfth look on it is never reported, however long. -/
theorem C91_silent_refuted {r P zs} (h : ∀ i, 12 ≤ i → Enters r P zs i → ∃ k, k < i ∧ i ≤ k + 12 ∧ Enters r P zs k) :
    ∀ i, 12 ≤ i → ¬ Warned r P zs i := by
  intro i hi ⟨h1, h2⟩
  obtain ⟨k, k1, k2, k3⟩ := h i hi h1
  rcases h2 with h2 | ⟨_, h2⟩
  · omega
  · have := h2 k k3 k1; omega

/-- Red at every other look: the twenty looks after the first twelve are silent. -/
example : warns fresh ((List.range 32).map fun i => if i % 2 = 0 then Zone.red else .green) =
    ((List.range 32).map fun i => if i % 2 = 0 ∧ i < 11 then some Zone.red else none) := by decide +kernel

end Verif.Space
