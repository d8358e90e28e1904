import Verif.Hot.BuildLemmas

/-! The invariant of builds with clients, and that every step keeps it. -/
namespace Verif.Hot.Build

variable {K H V W : Type} [LinearOrder K] [DecidableEq H]

def Apart (a b : List K) : Prop := ∀ k ∈ a, k ∉ b

/-- How many clients hold the lock, according to the lock. -/
def held : Holder K V → Nat
  | .client => 1
  | _ => 0

structure Inv (gen : Gen K H V W) (own : H → K) (w : World K H V W) : Prop where
  est : ∀ e, w.est = some e → shouldInsert w.pos e = true
  nobare : ∀ c ∈ w.clients, c.mode ≠ .bare
  short : ∀ c ∈ w.clients, c.mode = .shortcut → ∀ k ∈ c.keys, shouldInsert w.pos k = true
  count : (w.clients.map (·.mode)).count .locked = held w.holder
  foot : ∀ c ∈ w.clients, ∀ a ∈ c.acts, FootA own c.keys a
  disj : (w.clients.map (·.keys)).Pairwise Apart
  busy : ∀ c ∈ w.clients, ∀ k ∈ c.keys,
    GoodAt gen own (shouldInsert w.pos) (runActs (shouldInsert w.pos) w.data c.acts) k
  idle : ∀ k, (∀ c ∈ w.clients, k ∉ c.keys) → (∀ v, w.holder ≠ .builder k v) →
    GoodAt gen own (shouldInsert w.pos) w.data k
  pend : ∀ k v, w.holder = .builder k v → w.pos = .at k ∧ w.data.src k = v ∧ (∀ c ∈ w.clients, k ∉ c.keys) ∧
    ∀ h, own h = k → w.data.idx h = none

theorem may_should (pos : Pos K) (e k : K) (h : shouldInsert pos e = true) (hk : e < k) : shouldInsert pos k = true := by
  cases pos with
  | start => exact h
  | done => rfl
  | «at» p =>
    simp only [shouldInsert, decide_eq_true_eq] at h ⊢
    exact le_trans h (le_of_lt hk)

theorem locked_none (w : World K H V W) (hn : held w.holder = 0)
    (hc : (w.clients.map (·.mode)).count .locked = held w.holder) (c : Client K H V W) (hm : c ∈ w.clients) :
    c.mode ≠ .locked := by
  intro he
  rw [hn, List.count_eq_zero] at hc
  exact hc (by rw [← he]; exact List.mem_map_of_mem hm)

section
variable [DecidableEq W] {gen : Gen K H V W} {own : H → K}

theorem disj_of_mid (l1 l2 : List (Client K H V W)) (c c' : Client K H V W)
    (h : ((l1 ++ c :: l2).map (·.keys)).Pairwise Apart) (hm : c' ∈ l1 ∨ c' ∈ l2) :
    ∀ k ∈ c'.keys, k ∉ c.keys := by
  rw [List.map_append, List.map_cons, List.pairwise_append] at h
  obtain ⟨_, h2, h3⟩ := h
  rcases hm with hm | hm
  · exact h3 c'.keys (List.mem_map_of_mem hm) c.keys (by simp)
  · intro k hk hk'
    exact (List.pairwise_cons.mp h2).1 c'.keys (List.mem_map_of_mem hm) k hk' hk

/-- Starting a call, with or without the lock. -/
theorem inv_begin (S : Sound gen own) (w : World K H V W) (hi : Inv gen own w) (keys : List K)
    (acts : List (Act K H V W)) (mode : Mode) (hold : Holder K V) (hc : Call gen w.data.src keys acts)
    (hu : unlocked w keys) (hb : mode ≠ .bare)
    (hs : mode = .shortcut → ∀ k ∈ keys, shouldInsert w.pos k = true)
    (hcnt : (if mode = .locked then 1 else 0) + held w.holder = held hold)
    (hfree : ∀ k ∈ keys, ∀ v, w.holder ≠ .builder k v)
    (hh : ∀ k v, hold = .builder k v ↔ w.holder = .builder k v) :
    Inv gen own { w with holder := hold, clients := ⟨acts, keys, mode⟩ :: w.clients } where
  est := hi.est
  nobare := by
    intro c hm
    rcases List.mem_cons.mp hm with rfl | hm
    · exact hb
    · exact hi.nobare c hm
  short := by
    intro c hm
    rcases List.mem_cons.mp hm with rfl | hm
    · exact hs
    · exact hi.short c hm
  count := by
    simp only [List.map_cons, List.count_cons, hi.count]
    rw [← hcnt]
    cases mode <;> simp [Nat.add_comm]
  foot := by
    intro c hm
    rcases List.mem_cons.mp hm with rfl | hm
    · exact call_foot S hc
    · exact hi.foot c hm
  disj := by
    simp only [List.map_cons]
    rw [List.pairwise_cons]
    refine ⟨?_, hi.disj⟩
    intro l hl k hk
    obtain ⟨c, hcm, rfl⟩ := List.mem_map.mp hl
    exact hu c hcm k hk
  busy := by
    intro c hm
    rcases List.mem_cons.mp hm with rfl | hm
    · apply call_good S _ _ hc
      intro k hk
      exact hi.idle k (fun c hcm => hu c hcm k hk) (hfree k hk)
    · exact hi.busy c hm
  idle := by
    intro k hk hv
    exact hi.idle k (fun c hcm => hk c (List.mem_cons_of_mem _ hcm)) fun v he => hv v ((hh k v).mpr he)
  pend := by
    intro k v he
    have he' := (hh k v).mp he
    obtain ⟨h1, h2, h3, h4⟩ := hi.pend k v he'
    refine ⟨h1, h2, ?_, h4⟩
    intro c hm
    rcases List.mem_cons.mp hm with rfl | hm
    · intro hk
      exact hfree k hk v he'
    · exact h3 c hm

theorem inv_act (w : World K H V W) (hi : Inv gen own w) (l1 l2 : List (Client K H V W)) (c : Client K H V W)
    (a : Act K H V W) (rest : List (Act K H V W)) (hw : w.clients = l1 ++ c :: l2) (ha : c.acts = a :: rest) :
    Inv gen own { w with data := doAct (writesHere w c) w.data a, est := estAfter w c a,
                         clients := l1 ++ { c with acts := rest } :: l2 } := by
  have hc : c ∈ w.clients := by rw [hw]; simp
  have hfoot := hi.foot c hc
  rw [ha] at hfoot
  have hfa := hfoot a (by simp)
  have hdo : doAct (writesHere w c) w.data a = doAct (shouldInsert w.pos) w.data a := by
    apply doAct_congr own _ _ _ _ c.keys hfa
    intro k hk
    unfold writesHere
    by_cases hm : c.mode = .shortcut
    · simp [hm, hi.short c hc hm k hk]
    · simp [hm]
  have hmem : ∀ c', c' ∈ l1 ++ { c with acts := rest } :: l2 → c' = { c with acts := rest } ∨
      (c' ∈ w.clients ∧ ∀ k ∈ c'.keys, k ∉ c.keys) := by
    intro c' hm
    have hd := hi.disj
    rw [hw] at hd
    rcases List.mem_append.mp hm with hm | hm
    · exact .inr ⟨by rw [hw]; simp [hm], disj_of_mid l1 l2 c c' hd (.inl hm)⟩
    · rcases List.mem_cons.mp hm with rfl | hm
      · exact .inl rfl
      · exact .inr ⟨by rw [hw]; simp [hm], disj_of_mid l1 l2 c c' hd (.inr hm)⟩
  have hkeys : ∀ k, (∀ c' ∈ l1 ++ { c with acts := rest } :: l2, k ∉ c'.keys) → ∀ c' ∈ w.clients, k ∉ c'.keys := by
    intro k hk c' hm
    rw [hw] at hm
    rcases List.mem_append.mp hm with hm | hm
    · exact hk c' (by simp [hm])
    · rcases List.mem_cons.mp hm with rfl | hm
      · exact hk { c' with acts := rest } (by simp)
      · exact hk c' (by simp [hm])
  have haway : ∀ k, k ∉ c.keys → SameAt own k w.data (doAct (shouldInsert w.pos) w.data a) := by
    intro k hk
    have := doAct_away own (shouldInsert w.pos) k w.data a c.keys hfa hk
    exact ⟨this.1.symm, fun h hh => (this.2 h hh).symm⟩
  have hmapk : (l1 ++ { c with acts := rest } :: l2).map (·.keys) = w.clients.map (·.keys) := by rw [hw]; simp
  have hmapm : (l1 ++ { c with acts := rest } :: l2).map (·.mode) = w.clients.map (·.mode) := by rw [hw]; simp
  rw [hdo]
  refine ⟨?_, ?_, ?_, ?_, ?_, ?_, ?_, ?_, ?_⟩
  · intro e he
    cases a with
    | src k v => exact hi.est e he
    | idx g rows =>
      simp only [estAfter] at he
      split at he
      · exact hi.est e he
      · cases hp : w.pos with
        | start => rw [hp] at he; have := hi.est e he; rw [hp] at this; exact this
        | done => rfl
        | «at» p =>
          rw [hp] at he
          simp only [updateEstimate, Option.some.injEq] at he
          subst he
          simp [shouldInsert]
  · intro c' hm
    rcases hmem c' hm with rfl | ⟨hm, _⟩
    · exact hi.nobare c hc
    · exact hi.nobare c' hm
  · intro c' hm
    rcases hmem c' hm with rfl | ⟨hm, _⟩
    · exact hi.short c hc
    · exact hi.short c' hm
  · simp only
    rw [hmapm]
    exact hi.count
  · intro c' hm
    rcases hmem c' hm with rfl | ⟨hm, _⟩
    · exact fun b hb => hfoot b (List.mem_cons_of_mem _ hb)
    · exact hi.foot c' hm
  · simp only
    rw [hmapk]
    exact hi.disj
  · intro c' hm k hk
    rcases hmem c' hm with rfl | ⟨hm, hd⟩
    · have := hi.busy c hc k hk
      rw [ha] at this
      exact this
    · exact GoodAt.of_same (hi.busy c' hm k hk) (runActs_same own _ k _ _ _ (haway k (hd k hk)))
  · intro k hk hv
    have hall := hkeys k hk
    exact GoodAt.of_same (hi.idle k hall hv) (haway k (hall c hc))
  · intro k v he
    obtain ⟨h1, h2, h3, h4⟩ := hi.pend k v he
    have hs := haway k (h3 c hc)
    refine ⟨h1, hs.1.symm.trans h2, ?_, fun h hh => (hs.2 h hh).symm.trans (h4 h hh)⟩
    intro c' hm
    rcases hmem c' hm with rfl | ⟨hm, _⟩
    · exact h3 c hc
    · exact h3 c' hm

theorem inv_finish (w : World K H V W) (hi : Inv gen own w) (l1 l2 : List (Client K H V W)) (c : Client K H V W)
    (hw : w.clients = l1 ++ c :: l2) (ha : c.acts = []) :
    Inv gen own { w with holder := if c.mode = .locked then .free else w.holder, clients := l1 ++ l2 } := by
  have hc : c ∈ w.clients := by rw [hw]; simp
  have hmem : ∀ c', c' ∈ l1 ++ l2 → c' ∈ w.clients := by
    intro c' hm
    rw [hw]
    rcases List.mem_append.mp hm with hm | hm <;> simp [hm]
  have hcnt := hi.count
  rw [hw, List.map_append, List.map_cons, List.count_append, List.count_cons] at hcnt
  have hlock : c.mode = .locked → w.holder = .client := by
    intro hm
    have : held w.holder ≠ 0 := by rw [← hcnt]; simp [hm]
    cases hh : w.holder with
    | client => rfl
    | free => rw [hh] at this; exact absurd rfl this
    | builder k v => rw [hh] at this; exact absurd rfl this
  refine ⟨hi.est, fun c' hm => hi.nobare c' (hmem c' hm), fun c' hm => hi.short c' (hmem c' hm), ?_,
    fun c' hm => hi.foot c' (hmem c' hm), ?_, fun c' hm => hi.busy c' (hmem c' hm), ?_, ?_⟩
  · simp only [List.map_append, List.count_append]
    by_cases hm : c.mode = .locked
    · rw [hlock hm] at hcnt
      simp only [hm, held, beq_self_eq_true, if_true] at hcnt ⊢
      omega
    · have : (c.mode == Mode.locked) = false := by simpa using hm
      rw [this] at hcnt
      simp only [hm, if_false] at hcnt ⊢
      simpa using hcnt
  · have := hi.disj
    rw [hw] at this
    exact this.sublist ((List.Sublist.append_left (List.sublist_cons_self c l2) l1).map _)
  · intro k hk hv
    by_cases hkc : k ∈ c.keys
    · have := hi.busy c hc k hkc
      rw [ha] at this
      exact this
    · apply hi.idle k
      · intro c' hm
        rw [hw] at hm
        rcases List.mem_append.mp hm with hm | hm
        · exact hk c' (by simp [hm])
        · rcases List.mem_cons.mp hm with rfl | hm
          · exact hkc
          · exact hk c' (by simp [hm])
      · intro v he
        apply hv v
        simp only
        rw [if_neg]
        · exact he
        · intro hm
          rw [hlock hm] at he
          cases he
  · intro k v he
    simp only at he
    split at he
    · cases he
    · obtain ⟨h1, h2, h3, h4⟩ := hi.pend k v he
      exact ⟨h1, h2, fun c' hm => h3 c' (hmem c' hm), h4⟩

/-- What is not in the index yet is not in any client's hands while the lock is free. -/
theorem free_uncovered (w : World K H V W) (hi : Inv gen own w) (hf : w.holder = .free) (k : K)
    (hk : shouldInsert w.pos k = false) : ∀ c ∈ w.clients, k ∉ c.keys := by
  intro c hm hkc
  have h1 := hi.nobare c hm
  have h2 : c.mode ≠ .locked := locked_none w (by rw [hf]; rfl) hi.count c hm
  have h3 : c.mode = .shortcut := by
    cases hc : c.mode with
    | shortcut => rfl
    | locked => exact absurd hc h2
    | bare => exact absurd hc h1
  rw [hi.short c hm h3 k hkc] at hk
  cases hk

/-- While the lock is free the position can move down over keys that have no row. -/
theorem inv_pos (w : World K H V W) (hi : Inv gen own w) (hf : w.holder = .free) (pos : Pos K)
    (hup : ∀ k, shouldInsert w.pos k = true → shouldInsert pos k = true) (hold : Holder K V)
    (hheld : held hold = 0)
    (hrow : ∀ k, shouldInsert w.pos k = false → shouldInsert pos k = true → (∀ v, hold ≠ .builder k v) →
      w.data.src k = none)
    (hpend : ∀ k v, hold = .builder k v → pos = .at k ∧ w.data.src k = v ∧ shouldInsert w.pos k = false) :
    Inv gen own { w with pos := pos, holder := hold } := by
  have hshort : ∀ c ∈ w.clients, c.mode = .shortcut := by
    intro c hm
    have h1 := hi.nobare c hm
    have h2 : c.mode ≠ .locked := locked_none w (by rw [hf]; rfl) hi.count c hm
    cases hc : c.mode with
    | shortcut => rfl
    | locked => exact absurd hc h2
    | bare => exact absurd hc h1
  have hcov : ∀ c ∈ w.clients, ∀ k ∈ c.keys, shouldInsert w.pos k = true :=
    fun c hm k hk => hi.short c hm (hshort c hm) k hk
  refine ⟨fun e he => hup e (hi.est e he), hi.nobare, fun c hm hs k hk => hup k (hi.short c hm hs k hk), ?_,
    hi.foot, hi.disj, ?_, ?_, ?_⟩
  · simp only
    rw [hheld, hi.count, hf]
    rfl
  · intro c hm k hk
    have he := runActs_congr own (shouldInsert pos) (shouldInsert w.pos) c.acts w.data c.keys (hi.foot c hm)
      fun k hk => by rw [hcov c hm k hk, hup k (hcov c hm k hk)]
    have := hi.busy c hm k hk
    simp only
    rw [he]
    intro h hh
    have := this h hh
    rw [hcov c hm k hk] at this
    rw [hup k (hcov c hm k hk)]
    exact this
  · intro k hk hv
    have hg := hi.idle k hk (by intro v he; rw [hf] at he; cases he)
    intro h hh
    have := hg h hh
    cases hp : shouldInsert w.pos k with
    | true =>
      simp only
      rw [hup k hp]
      rw [hp] at this
      exact this
    | false =>
      simp only
      rw [hp] at this
      simp only [Bool.false_eq_true, if_false] at this
      rw [this]
      cases hq : shouldInsert pos k with
      | false => simp
      | true => rw [hrow k hp hq hv]; simp
  · intro k v he
    obtain ⟨h1, h2, h3⟩ := hpend k v he
    have hno := free_uncovered w hi hf k h3
    refine ⟨h1, h2, hno, ?_⟩
    intro h hh
    have := hi.idle k hno (by intro v he; rw [hf] at he; cases he) h hh
    rw [h3] at this
    simpa using this

theorem inv_write (S : Sound gen own) (w : World K H V W) (hi : Inv gen own w) (k : K) (v : Option V)
    (hh : w.holder = .builder k v) :
    Inv gen own { w with
        data := { w.data with idx := writeIdx w.data.idx (rowPuts gen k v) },
        holder := .free } := by
  obtain ⟨h1, h2, h3, h4⟩ := hi.pend k v hh
  have hcovk : shouldInsert w.pos k = true := by rw [h1]; simp [shouldInsert]
  have hsame : ∀ k', k' ≠ k → SameAt own k' w.data
      { w.data with idx := writeIdx w.data.idx (rowPuts gen k v) } := by
    intro k' hne
    refine ⟨rfl, fun h hho => ?_⟩
    symm
    apply writeIdx_other
    rintro r hr rfl
    cases v with
    | none => cases hr
    | some v => exact hne (by rw [← hho]; exact foot_puts S k v r hr)
  refine ⟨hi.est, hi.nobare, hi.short, ?_, hi.foot, hi.disj, ?_, ?_, ?_⟩
  · have := hi.count
    rw [hh] at this
    exact this
  · intro c hm k' hk'
    apply GoodAt.of_same (hi.busy c hm k' hk')
    apply runActs_same
    apply hsame
    rintro rfl
    exact h3 c hm hk'
  · intro k' hk' _
    by_cases he : k' = k
    · subst he
      intro h hho
      simp only
      rw [hcovk, h2]
      cases v with
      | none => simpa [rowPuts, writeIdx] using h4 h hho
      | some v =>
        simp only [if_true, Option.bind_some, rowPuts]
        rw [puts_at S]
        cases look gen k' v h with
        | some x => rfl
        | none => exact h4 h hho
    · apply GoodAt.of_same (hi.idle k' hk' _) (hsame k' he)
      intro v' he'
      rw [hh] at he'
      injection he' with e1 _
      exact he e1.symm
  · intro k' v' he
    cases he

theorem inv_step (S : Sound gen own) (w w' : World K H V W) (hi : Inv gen own w) (hs : Step gen false w w') :
    Inv gen own w' := by
  cases hs with
  | beginShortcut keys acts hc hu hm =>
    have hcov : ∀ k ∈ keys, ∃ e, shouldInsert w.pos e = true ∧ e < k := by
      intro k hk
      have := hm k hk
      cases he : w.est with
      | none => rw [he] at this; cases this
      | some e =>
        rw [he] at this
        exact ⟨e, hi.est e he, by simpa [mayInsert] using this⟩
    have := inv_begin S w hi keys acts .shortcut w.holder hc hu (by decide)
      (fun _ k hk => by obtain ⟨e, h1, h2⟩ := hcov k hk; exact may_should w.pos e k h1 h2) (by simp)
      (by
        intro k hk v hv
        obtain ⟨e, h1, h2⟩ := hcov k hk
        rw [(hi.pend k v hv).1] at h1
        simp only [shouldInsert, decide_eq_true_eq] at h1
        exact absurd h2 (not_lt.mpr h1))
      (fun _ _ => Iff.rfl)
    exact this
  | beginLocked keys acts hc hu _ hf =>
    exact inv_begin S w hi keys acts .locked .client hc hu (by decide) (by intro h; cases h)
      (by rw [hf]; rfl) (by intro k _ v; rw [hf]; exact fun h => by cases h)
      (by intro k v; rw [hf]; exact ⟨fun h => (by cases h), fun h => (by cases h)⟩)
  | beginBare keys acts ho => cases ho
  | act l1 l2 c a rest hw ha => exact inv_act w hi l1 l2 c a rest hw ha
  | finish l1 l2 c hw ha => exact inv_finish w hi l1 l2 c hw ha
  | builderRead k hf hk hnone =>
    apply inv_pos w hi hf
    · intro k' hk'
      cases hp : w.pos with
      | start => rw [hp] at hk'; cases hk'
      | done => rw [hp] at hk; cases hk
      | «at» p =>
        rw [hp] at hk hk'
        simp only [shouldInsert, decide_eq_true_eq, decide_eq_false_iff_not, not_le] at hk hk' ⊢
        exact le_trans (le_of_lt hk) hk'
    · rfl
    · intro k' h1 h2 h3
      simp only [shouldInsert, decide_eq_true_eq] at h2
      refine hnone k' (lt_of_le_of_ne h2 ?_) h1
      rintro rfl
      exact h3 _ rfl
    · intro k' v' he
      injection he with e1 e2
      subst e1
      exact ⟨rfl, e2, hk⟩
  | builderWrite k v hh => exact inv_write S w hi k v hh
  | builderEnd hf hnone =>
    have := inv_pos w hi hf .done (fun _ _ => rfl) w.holder (by rw [hf]; rfl) (fun k hk _ _ => hnone k hk)
      (by intro k v he; rw [hf] at he; cases he)
    exact this

theorem inv_reach (S : Sound gen own) (src : K → Option V) (w : World K H V W) (hr : Reach gen false src w) :
    Inv gen own w := by
  induction hr with
  | start =>
    refine ⟨fun e he => (by cases he), fun c hm => (by cases hm), fun c hm => (by cases hm), rfl,
      fun c hm => (by cases hm), List.Pairwise.nil, fun c hm => (by cases hm), fun k _ _ h _ => rfl,
      fun k v he => (by cases he)⟩
  | step w w' _ hs ih => exact inv_step S w w' ih hs

end

end Verif.Hot.Build
