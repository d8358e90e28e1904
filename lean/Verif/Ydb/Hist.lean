import Verif.Ydb.Step

/-!
What one request leaves in place, whatever it is, and what holds in every state a client can reach.
-/

set_option linter.unusedSimpArgs false
set_option linter.unusedVariables false

namespace Verif.Ydb

open Spec

/-- What any request leaves in place. -/
structure Next (e e' : Env) : Prop where
  inv : Inv e'
  log : e.log <+: e'.log
  trace : e.trace <+: e'.trace
  fs : e.fsynced ≤ e'.fsynced
  fsle : e.fsynced ≤ e.log.length → e'.fsynced ≤ e'.log.length
  next : e.next ≤ e'.next
  gone : ∀ i, i < e.next → e.txns i = none → e'.txns i = none
  ends : ∀ i, Ev.release i ∈ e'.trace → Ev.release i ∈ e.trace ∨ (i < e'.next ∧ e'.txns i = none)
  done : ∀ i, i < e'.next → e'.txns i = none → (i < e.next ∧ e.txns i = none) ∨ Ev.release i ∈ e'.trace
  keep : ∀ i x x', e.txns i = some x → e'.txns i = some x' →
    (x.force = true → x'.force = true) ∧ x.locks <+: x'.locks ∧ x'.parent = x.parent ∧
    x'.iso = x.iso ∧ x'.ro = x.ro ∧ x'.flags = x.flags

theorem mkDone {e e' : Env} (hn : ∀ i, e.next ≤ i → i < e'.next → e'.txns i ≠ none)
    (h : ∀ i x, e.txns i = some x → e'.txns i = none → Ev.release i ∈ e'.trace) :
    ∀ i, i < e'.next → e'.txns i = none → (i < e.next ∧ e.txns i = none) ∨ Ev.release i ∈ e'.trace := by
  intro i hlt hz
  rcases Nat.lt_or_ge i e.next with h1 | h1
  · cases hx : e.txns i with
    | none => exact Or.inl ⟨h1, rfl⟩
    | some x => exact Or.inr (h i x hx hz)
  · exact absurd hz (hn i h1 hlt)

theorem same_next {e e' : Env} (h : e'.next = e.next) : ∀ i, e.next ≤ i → i < e'.next → e'.txns i ≠ none := by
  intro i h1 h2
  rw [h] at h2
  exact absurd h2 (Nat.not_lt.2 h1)

theorem Next.refl {e : Env} (hi : Inv e) : Next e e := by
  refine ⟨hi, List.prefix_refl _, List.prefix_refl _, Nat.le_refl _, id, Nat.le_refl _, fun _ _ h => h,
    fun _ h => Or.inl h, fun _ h1 h2 => Or.inl ⟨h1, h2⟩, ?_⟩
  intro i x x' h h'
  rw [h] at h'
  simp only [Option.some.injEq] at h'
  subst h'
  exact ⟨id, List.prefix_refl _, rfl, rfl, rfl, rfl⟩

theorem Next.trans {a b c : Env} (hi : Inv a) (h1 : Next a b) (h2 : Next b c) : Next a c := by
  refine ⟨h2.inv, h1.log.trans h2.log, h1.trace.trans h2.trace, Nat.le_trans h1.fs h2.fs,
    fun h => h2.fsle (h1.fsle h), Nat.le_trans h1.next h2.next,
    fun i hlt h => h2.gone i (Nat.lt_of_lt_of_le hlt h1.next) (h1.gone i hlt h), ?_, ?_, ?_⟩
  · intro i h
    rcases h2.ends i h with h | h
    · rcases h1.ends i h with h | ⟨hlt, h⟩
      · exact Or.inl h
      · exact Or.inr ⟨Nat.lt_of_lt_of_le hlt h2.next, h2.gone i hlt h⟩
    · exact Or.inr h
  · intro i hlt hc
    rcases h2.done i hlt hc with ⟨g1, g2⟩ | g
    · rcases h1.done i g1 g2 with g | g
      · exact Or.inl g
      · exact Or.inr (h2.trace.subset g)
    · exact Or.inr g
  intro i x x' h h'
  have hlt := (hi.ok i x h).lt
  cases hb : b.txns i with
  | none =>
    rw [h2.gone i (Nat.lt_of_lt_of_le hlt h1.next) hb] at h'
    cases h'
  | some y =>
    obtain ⟨a1, a2, a3, a4, a5, a6⟩ := h1.keep i x y h hb
    obtain ⟨b1, b2, b3, b4, b5, b6⟩ := h2.keep i y x' hb h'
    exact ⟨fun h => b1 (a1 h), a2.trans b2, b3.trans a3, b4.trans a4, b5.trans a5, b6.trans a6⟩

theorem Next.panic {e e' : Env} (h : Next e e') (b : Bool) : Next e { e' with panicked := b } :=
  ⟨h.inv.panic b, h.log, h.trace, h.fs, h.fsle, h.next, h.gone, h.ends, h.done, h.keep⟩

theorem After.toNext {e : Env} (hi : Inv e) {t : Id} {x : Txn} (hx : e.txns t = some x) {l : List Id}
    (hf : Family e t l) {w : Word} {e' : Env} (h : After e t x l w e') : Next e e' := by
  refine ⟨h.inv, ⟨_, h.log.symm⟩, ⟨_, h.trace.symm⟩, h.fs, h.fsle, Nat.le_of_eq h.next.symm, ?_, ?_,
    mkDone (same_next h.next) ?_, ?_⟩
  rotate_left
  · intro i hr
    rw [h.trace] at hr
    rcases List.mem_append.1 hr with hr | hr
    · exact Or.inl hr
    · obtain ⟨j, hj, hr⟩ := List.mem_flatMap.1 hr
      simp only [List.mem_cons, reduceCtorEq, Ev.release.injEq, List.not_mem_nil, or_false, false_or] at hr
      subst hr
      have hil := List.mem_reverse.1 hj
      obtain ⟨_, z, hz⟩ := family_gt hi hf i hil
      exact Or.inr ⟨by rw [h.next]; exact (hi.ok i z hz).lt, h.gone i hil⟩
  · intro i z hz hn
    rw [h.trace]
    by_cases hil : i ∈ l
    · exact List.mem_append_right _ (List.mem_flatMap.2 ⟨i, List.mem_reverse.2 hil, by simp⟩)
    · by_cases hp : x.parent = some i
      · obtain ⟨f, n, h1, _⟩ := h.par i z hp hz
        rw [h1] at hn; cases hn
      · rw [h.rest i hil hp, hz] at hn; cases hn
  rotate_left
  · intro i _ hn
    by_cases hil : i ∈ l
    · exact h.gone i hil
    · rw [h.rest i hil, hn]
      intro hp
      obtain ⟨_, y, hy, _⟩ := (hi.ok t x hx).par i hp
      rw [hn] at hy; cases hy
  · intro i z z' hz hz'
    by_cases hil : i ∈ l
    · rw [h.gone i hil] at hz'; cases hz'
    · by_cases hp : x.parent = some i
      · obtain ⟨f, n, h1, h2⟩ := h.par i z hp hz
        rw [h1] at hz'
        simp only [Option.some.injEq] at hz'
        subst hz'
        exact ⟨fun h => h2 (Or.inl h), List.prefix_refl _, rfl, rfl, rfl, rfl⟩
      · rw [h.rest i hil hp, hz] at hz'
        simp only [Option.some.injEq] at hz'
        subst hz'
        exact ⟨id, List.prefix_refl _, rfl, rfl, rfl, rfl⟩

theorem ended_next {e : Env} (hi : Inv e) {t : Id} {x : Txn} (hx : e.txns t = some x)
    (hc : x.child = none) (ab f ns : Bool) : Next e (ended e t x ab f ns) := by
  refine ⟨inv_ended hi hx hc _ _ _, ?_, ⟨_, rfl⟩, ?_, ended_fsle e t x ab f ns, Nat.le_refl _, ?_, ?_,
    mkDone (same_next rfl) ?_, ?_⟩
  · simp only [ended]
    split
    · exact List.prefix_append _ _
    · exact List.prefix_refl _
  · simp only [ended]
    split
    · exact Nat.le_max_left _ _
    · exact Nat.le_refl _
  · intro i _ hn
    simp [ended, hn]
  · intro i hr
    simp only [ended, List.mem_append, List.mem_cons, reduceCtorEq, Ev.release.injEq, List.not_mem_nil, or_false,
      false_or] at hr
    rcases hr with hr | hr
    · exact Or.inl hr
    · subst hr; exact Or.inr ⟨(hi.ok i x hx).lt, by simp [ended]⟩
  · intro i z hz hn
    by_cases hit : i = t
    · simp [ended, hit]
    · simp only [ended, hit, if_false, hz, Option.map_some] at hn
      split at hn <;> cases hn
  · intro i z z' hz hz'
    simp only [ended] at hz'
    by_cases hit : i = t
    · simp [hit] at hz'
    · by_cases hp : x.parent = some i
      · simp only [hit, if_false, hp, if_true, hz, Option.map_some, Option.some.injEq] at hz'
        subst hz'
        refine ⟨?_, List.prefix_refl _, rfl, rfl, rfl, rfl⟩
        intro h
        cases ab <;> simp [h]
      · simp only [hit, if_false, hp, hz, Option.some.injEq] at hz'
        subst hz'
        exact ⟨id, List.prefix_refl _, rfl, rfl, rfl, rfl⟩

theorem family_of {e : Env} (hi : Inv e) {t : Id} {x : Txn} (hx : e.txns t = some x) :
    ∃ l, Family e t l ∧ l.length ≤ e.next + 1 := by
  obtain ⟨l, h1, h2⟩ := family_exists hi (e.next - t) t x hx (Nat.le_refl _)
  exact ⟨l, h1, Nat.le_trans h2 (Nat.le_trans (Nat.sub_le _ _) (Nat.le_succ _))⟩

theorem family_unique {e : Env} {t : Id} {l : List Id} (h : Family e t l) :
    ∀ l', Family e t l' → l = l' := by
  induction h with
  | leaf t x hx hc =>
    intro l' h'
    cases h' with
    | leaf => rfl
    | node _ y c l hy hyc _ =>
      rw [hx] at hy; simp only [Option.some.injEq] at hy; subst hy
      rw [hc] at hyc; cases hyc
  | node t x c l hx hc _ ih =>
    intro l' h'
    cases h' with
    | leaf _ y hy hyc =>
      rw [hx] at hy; simp only [Option.some.injEq] at hy; subst hy
      rw [hc] at hyc; cases hyc
    | node _ y c' l hy hyc hl =>
      rw [hx] at hy; simp only [Option.some.injEq] at hy; subst hy
      rw [hc] at hyc; simp only [Option.some.injEq] at hyc; subst hyc
      rw [ih _ hl]

theorem commit_good {e : Env} (hi : Inv e) (hpan : e.panicked = false) {t : Id} {x : Txn}
    (hx : e.txns t = some x) {l : List Id} (hl : Family e t l) {w : Word} (hw : bad w = false) :
    ∃ e', commit e t w = some (e', .ok) ∧ After e t x l w e' := by
  obtain ⟨l', h1, h2⟩ := family_of hi hx
  rw [family_unique h1 l hl] at h2
  exact commitRec_ok hw (e.next + 1) hi hpan hl h2 x hx

theorem commit_panicked {e : Env} (hpan : e.panicked = true) (t : Id) (w : Word) :
    commit e t w = some (e, .einval) := by
  simp [commit, commitRec, hpan]

theorem commit_next {e : Env} (hi : Inv e) {t : Id} {x : Txn} (hx : e.txns t = some x) (w : Word) :
    ∃ e' r, commit e t w = some (e', r) ∧ Next e e' := by
  cases hpan : e.panicked with
  | true => exact ⟨e, _, commit_panicked hpan t w, Next.refl hi⟩
  | false =>
    obtain ⟨l, h1, h2⟩ := family_of hi hx
    cases hw : bad w with
    | false =>
      obtain ⟨e', h3, h4⟩ := commit_good hi hpan hx h1 hw
      exact ⟨e', _, h3, h4.toNext hi hx h1⟩
    | true =>
      obtain ⟨b, d, z, h3, h4, h5, h6, h7⟩ := commitRec_bad hw (e.next + 1) hi hpan h1 h2
      exact ⟨_, _, h6, (ended_next hi h4 h5 _ _ _).panic b⟩

theorem nosync_good : bad DB_TXN_NOSYNC = false := by decide
theorem zero_good : bad 0#32 = false := by decide

/-- The children are committed before the rest of an abort or a prepare. -/
theorem children_first {e : Env} (hi : Inv e) (hpan : e.panicked = false) {t : Id} {x : Txn}
    (hx : e.txns t = some x) {c : Id} (hc : x.child = some c) {w : Word} (hw : bad w = false) :
    ∃ e1 z l f n, commitRec (e.next + 1) e c w = some (e1, .ok) ∧ e.txns c = some z ∧ z.parent = some t ∧
      Family e c l ∧ After e c z l w e1 ∧
      e1.txns t = some { x with child := none, tchild := none, force := f, nRoll := n } ∧
      (x.force = true → f = true) := by
  obtain ⟨z, hz, hzp⟩ := (hi.ok t x hx).chi c hc
  obtain ⟨l, h1, h2⟩ := family_of hi hz
  obtain ⟨e1, h3, h4⟩ := commitRec_ok hw (e.next + 1) hi hpan h1 h2 z hz
  obtain ⟨f, n, h5, h6⟩ := h4.par t x hzp hx
  exact ⟨e1, z, l, f, n, h3, hz, hzp, h1, h4, h5, fun h => h6 (Or.inl h)⟩

theorem abort_full {e : Env} (hi : Inv e) (hpan : e.panicked = false) {t : Id} {x : Txn}
    (hx : e.txns t = some x) {l : List Id} (hl : Family e t l) :
    ∃ e', abort e t = some (e', .ok) ∧ Next e e' ∧ e'.panicked = false ∧
      (∀ i ∈ l, e'.txns i = none) ∧
      (∀ i, i ∉ l → x.parent ≠ some i → e'.txns i = e.txns i) ∧
      (∀ p y, x.parent = some p → e.txns p = some y →
        e'.txns p = some { y with child := none, tchild := none }) ∧
      e'.log = e.log ++ (l.tail.reverse.filter (loggedIn e)).map Rec.commit ++
        (if loggedIn e t then [.abort t] else []) ∧
      e'.trace = e.trace ++ l.reverse.flatMap (fun i => [Ev.complete i, Ev.release i]) := by
  cases hl with
  | leaf _ y hy hc =>
    rw [hx] at hy; simp only [Option.some.injEq] at hy; subst hy
    refine ⟨ended e t x true false false, ?_, ended_next hi hx hc _ _ _, hpan, ?_, ?_, ?_, ?_, ?_⟩
    · simp only [abort, hpan, Bool.false_eq_true, if_false, hx, hc]
      exact abortSelf_eq hi hx hc
    · intro i h; simp at h; subst h; simp [ended]
    · intro i h h2; simp at h; simp [ended, h, h2]
    · intro p y hp hy
      have hpt : p ≠ t := Nat.ne_of_lt ((hi.ok t x hx).par p hp).1
      simp [ended, hpt, hp, hy]
    · cases hlg : x.logged <;> simp [ended, loggedIn, hx, hlg]
    · simp [ended]
  | node _ y c l hy hc hfl =>
    rw [hx] at hy; simp only [Option.some.injEq] at hy; subst hy
    obtain ⟨e1, z, l', f, n, h1, hz, hzp, h2, h3, h4, h5⟩ := children_first hi hpan hx hc nosync_good
    have := family_unique h2 _ hfl
    subst this
    have hp1 : e1.panicked = false := by rw [h3.pan, hpan]
    have hlt := ((hi.ok c z hz).par t hzp).1
    have hout : ∀ p, x.parent = some p → p ∉ l' ∧ p ≠ t ∧ z.parent ≠ some p := by
      intro p hp
      have hpt := ((hi.ok t x hx).par p hp).1
      refine ⟨?_, Nat.ne_of_lt hpt, ?_⟩
      · intro h
        have := (family_gt hi h2 p h).1
        exact absurd (Nat.lt_trans hpt hlt) (Nat.not_lt.2 this)
      · rw [hzp]
        intro h
        simp only [Option.some.injEq] at h
        subst h
        exact Nat.lt_irrefl _ hpt
    have hself := abortSelf_eq h3.inv h4 rfl
    refine ⟨_, ?_, (h3.toNext hi hz h2).trans hi (ended_next h3.inv h4 rfl true false false), hp1, ?_, ?_, ?_, ?_, ?_⟩
    · simp only [abort, hpan, Bool.false_eq_true, if_false, hx, hc, h1, ne_eq, not_true_eq_false, hp1]
      exact hself
    · intro i h
      by_cases hit : i = t
      · simp [ended, hit]
      · have hil : i ∈ l' := by simpa [hit] using h
        have hpi : x.parent ≠ some i := fun h => (hout i h).1 hil
        simp only [ended, hit, if_false, hpi]
        exact h3.gone i hil
    · intro i h hpi
      have hit : i ≠ t ∧ i ∉ l' := by simpa using h
      simp only [ended, hit.1, if_false, hpi]
      apply h3.rest i hit.2
      rw [hzp]
      intro h
      simp only [Option.some.injEq] at h
      exact hit.1 h.symm
    · intro p y hp hy
      obtain ⟨g1, g2, g3⟩ := hout p hp
      have hy1 : e1.txns p = some y := by rw [h3.rest p g1 g3, hy]
      simp [ended, g2, hp, hy1]
    · simp only [ended, h3.log, List.tail_cons]
      cases hlg : x.logged <;> simp [loggedIn, hx, hlg]
    · simp only [ended, h3.trace]
      simp

theorem abort_next {e : Env} (hi : Inv e) {t : Id} {x : Txn} (hx : e.txns t = some x) :
    ∃ e' r, abort e t = some (e', r) ∧ Next e e' := by
  cases hpan : e.panicked with
  | true => exact ⟨e, .einval, by simp [abort, hpan], Next.refl hi⟩
  | false =>
    obtain ⟨l, h1, h2⟩ := family_of hi hx
    obtain ⟨e', h3, h4, _⟩ := abort_full hi hpan hx h1
    exact ⟨e', _, h3, h4⟩

theorem prepareSelf_next {e : Env} (hi : Inv e) {t : Id} {x : Txn} (hx : e.txns t = some x)
    (hc : x.child = none) (hs : x.state ≠ .preparing) (hp : x.parent = none) (w : Word) :
    ∃ e', prepareSelf e t w = some (e', .ok) ∧ Next e e' := by
  obtain ⟨e', h1, h2, h3, h4, h5, h6, h7, h8, h9, h10⟩ := prepareSelf_ok hi hx hc hs hp w
  refine ⟨e', h1, h2, ⟨_, h5.symm⟩, by rw [h4]; exact List.prefix_refl _, h7, h8, Nat.le_of_eq h3.symm, ?_, ?_,
    mkDone (same_next h3) ?_, ?_⟩
  · intro i _ hn
    obtain ⟨s, d, l, h⟩ := h10 i
    rw [h, hn]; rfl
  · intro i h; rw [h4] at h; exact Or.inl h
  · intro i z hz hn
    obtain ⟨s, d, l, h⟩ := h10 i
    rw [h, hz] at hn; cases hn
  · intro i z z' hz hz'
    obtain ⟨s, d, l, h⟩ := h10 i
    rw [h, hz] at hz'
    simp only [Option.map_some, Option.some.injEq] at hz'
    subst hz'
    split <;> exact ⟨id, List.prefix_refl _, rfl, rfl, rfl, rfl⟩

theorem prepare_next {e : Env} (hi : Inv e) {t : Id} {x : Txn} (hx : e.txns t = some x)
    (hs : x.state ≠ .preparing) (w : Word) :
    ∃ e' r, prepare e t w = some (e', r) ∧ Next e e' := by
  cases hp : x.parent with
  | some p => exact ⟨e, .ok, by simp [prepare, hx, hp], Next.refl hi⟩
  | none =>
    cases hpan : e.panicked with
    | true => exact ⟨e, .einval, by simp [prepare, hx, hp, hpan], Next.refl hi⟩
    | false =>
      cases hc : x.child with
      | none =>
        obtain ⟨e', h1, h2⟩ := prepareSelf_next hi hx hc hs hp w
        exact ⟨e', .ok, by simp [prepare, hx, hp, hpan, hc, h1], h2⟩
      | some c =>
        obtain ⟨e1, z, l', f, n, h1, hz, hzp, h2, h3, h4, h5⟩ := children_first hi hpan hx hc zero_good
        obtain ⟨e', h6, h7⟩ := prepareSelf_next h3.inv h4 rfl hs hp w
        have hp1 : e1.panicked = false := by rw [h3.pan, hpan]
        exact ⟨e', .ok, by simp [prepare, hx, hp, hpan, hc, h1, h6, hp1], (h3.toNext hi hz h2).trans hi h7⟩

theorem discard_next {e : Env} (hi : Inv e) {t : Id} {x : Txn} (hx : e.txns t = some x)
    (hc : x.child = none) (w : Word) : ∃ e' r, discard e t w = some (e', r) ∧ Next e e' := by
  rcases discard_self hi hx hc w with h | ⟨e', h1, h2, h3, h4, h5, h6, h7⟩
  · exact ⟨e, _, h, Next.refl hi⟩
  · refine ⟨e', _, h1, h2, by rw [h3]; exact List.prefix_refl _, ⟨_, h6.symm⟩, Nat.le_of_eq h4.symm,
      by rw [h3, h4]; exact id, Nat.le_of_eq h5.symm, ?_, ?_, mkDone (same_next h5) ?_, ?_⟩
    · intro i _ hn; rw [h7]; split <;> simp [hn]
    · intro i hr
      simp only [h6, List.mem_append, List.mem_cons, reduceCtorEq, Ev.release.injEq, List.not_mem_nil, or_false,
        false_or] at hr
      rcases hr with hr | hr
      · exact Or.inl hr
      · subst hr; exact Or.inr ⟨by rw [h5]; exact (hi.ok i x hx).lt, by simp [h7]⟩
    · intro i z hz hn
      rw [h7] at hn
      split at hn
      · rename_i hit; subst hit; simp [h6]
      · rw [hz] at hn; cases hn
    · intro i z z' hz hz'
      rw [h7] at hz'
      split at hz'
      · cases hz'
      · rw [hz] at hz'
        simp only [Option.some.injEq] at hz'
        subst hz'
        exact ⟨id, List.prefix_refl _, rfl, rfl, rfl, rfl⟩

theorem lock_next {e : Env} (hi : Inv e) {t : Id} {x : Txn} (hx : e.txns t = some x) (k : Nat) :
    ∃ e' r, lock e t k = some (e', r) ∧ Next e e' := by
  obtain ⟨a, y, h1, h2, h3, h4, h5⟩ := lock_ok hi hx k
  refine ⟨_, _, h4, h5, List.prefix_refl _, List.prefix_refl _, Nat.le_refl _, id, Nat.le_refl _, ?_,
    fun _ h => Or.inl h, mkDone (same_next rfl) ?_, ?_⟩
  rotate_left
  · intro i z hz hn
    simp only [set_txns, hz] at hn
    split at hn <;> cases hn
  rotate_left
  · intro i _ hn
    have : i ≠ a := by intro h; subst h; rw [h2] at hn; cases hn
    simp [this, hn]
  · intro i z z' hz hz'
    by_cases hia : i = a
    · subst hia
      rw [h2] at hz
      simp only [Option.some.injEq] at hz; subst hz
      simp only [set_txns, if_true, Option.some.injEq] at hz'
      subst hz'
      exact ⟨id, List.prefix_append _ _, rfl, rfl, rfl, rfl⟩
    · simp only [set_txns, hia, if_false, hz, Option.some.injEq] at hz'
      subst hz'
      exact ⟨id, List.prefix_refl _, rfl, rfl, rfl, rfl⟩

theorem write_next {e : Env} (hi : Inv e) {t : Id} {x : Txn} (hx : e.txns t = some x) (k : Nat) :
    ∃ e' r, write e t k = some (e', r) ∧ Next e e' := by
  cases hpan : e.panicked with
  | true => exact ⟨e, .einval, by simp [write, hpan], Next.refl hi⟩
  | false =>
    rcases write_ok hi hpan hx k with ⟨h, _⟩ | ⟨_, _, e', a, y, h1, h2, h3, h4, h5, h6, ⟨l, h7, h8⟩, h9, h10, h11, h12⟩
    · exact ⟨e, _, h, Next.refl hi⟩
    · refine ⟨e', _, h1, h2, ⟨l ++ [.work t], by rw [h7, List.append_assoc]⟩, by rw [h6]; exact List.prefix_refl _,
        Nat.le_of_eq h5.symm, ?_, Nat.le_of_eq h3.symm, ?_, (by rw [h6]; exact fun _ h => Or.inl h),
        mkDone (same_next h3) ?_, ?_⟩
      · intro h; rw [h5, h7]; simp; omega
      rotate_left
      · intro i z hz hn
        obtain ⟨b, n, h⟩ := h12 i
        rw [h, hz] at hn; cases hn
      rotate_left
      · intro i _ hn
        obtain ⟨b, n, h⟩ := h12 i
        rw [h, hn]; rfl
      · intro i z z' hz hz'
        obtain ⟨b, n, h⟩ := h12 i
        rw [h, hz] at hz'
        simp only [Option.map_some, Option.some.injEq] at hz'
        subst hz'
        refine ⟨id, ?_, rfl, rfl, rfl, rfl⟩
        by_cases hia : i = a
        · simp only [hia, if_true]; exact List.prefix_append _ _
        · simp only [hia, if_false]; exact List.prefix_refl _

theorem begin_next {e : Env} (hi : Inv e) (p : Option Id) (w : Word)
    (hp : ∀ q, p = some q → (e.txns q).isSome = true) :
    ∃ e' r, begin e p w = some (e', r) ∧ Next e e' := by
  cases hpan : e.panicked with
  | true => exact ⟨e, .einval, by simp [begin, hpan], Next.refl hi⟩
  | false =>
    have hlook : ∃ parent, parentOf e p = some parent := by
      cases p with
      | none => exact ⟨none, rfl⟩
      | some q =>
        obtain ⟨y, hy⟩ := Option.isSome_iff_exists.1 (hp q rfl)
        exact ⟨some y, by simp [parentOf, hy]⟩
    obtain ⟨parent, hlook⟩ := hlook
    rcases begin_ok hi hpan p parent hlook w with ⟨h, _⟩ | ⟨tf, iso, ro, n, e', h1, h2, h3, h4, h5, h6, h7⟩
    · exact ⟨e, _, h, Next.refl hi⟩
    · refine ⟨e', _, h1, ?_⟩
      have hinv := inv_begin hi p parent hlook h2 h3 h4 h5
      rw [← h7] at hinv
      subst h7
      refine ⟨hinv, List.prefix_refl _, List.prefix_refl _, Nat.le_refl _, id, Nat.le_succ _, ?_,
        fun _ h => Or.inl h, mkDone ?_ ?_, ?_⟩
      rotate_left
      · intro i h1 h2
        have : i = e.next := Nat.le_antisymm (Nat.le_of_lt_succ h2) h1
        simp [this]
      · intro i z hz hn
        have : i ≠ e.next := Nat.ne_of_lt (hi.ok i z hz).lt
        simp only [this, if_false, hz, Option.map_some] at hn
        split at hn <;> cases hn
      rotate_left
      · intro i hlt hn
        have : i ≠ e.next := Nat.ne_of_lt hlt
        simp [this, hn]
      · intro i z z' hz hz'
        have : i ≠ e.next := Nat.ne_of_lt (hi.ok i z hz).lt
        simp only [this, if_false, hz, Option.map_some] at hz'
        split at hz' <;>
          (simp only [Option.some.injEq] at hz'; subst hz'
           exact ⟨id, List.prefix_refl _, rfl, rfl, rfl, rfl⟩)

/-- No request of a client that keeps the contract stops the program, and every one keeps the
invariant. -/
theorem step_next {e : Env} (hi : Inv e) (op : Op) (hl : Legal e op) :
    ∃ e' r, step e op = some (e', r) ∧ Next e e' := by
  cases op with
  | begin p w =>
    apply begin_next hi
    intro q hq; subst hq; exact hl
  | commit t w =>
    obtain ⟨x, hx⟩ := Option.isSome_iff_exists.1 hl
    exact commit_next hi hx w
  | abort t =>
    obtain ⟨x, hx⟩ := Option.isSome_iff_exists.1 hl
    exact abort_next hi hx
  | prepare t w =>
    obtain ⟨x, hx, hs⟩ := hl
    exact prepare_next hi hx hs w
  | discard t w =>
    obtain ⟨x, hx, hc⟩ := hl
    exact discard_next hi hx hc w
  | write t k =>
    obtain ⟨x, hx⟩ := Option.isSome_iff_exists.1 hl
    exact write_next hi hx k
  | lock t k =>
    obtain ⟨x, hx⟩ := Option.isSome_iff_exists.1 hl
    exact lock_next hi hx k

theorem Next.of_step {e e' : Env} (hi : Inv e) {op : Op} (hl : Legal e op) {r : Ret}
    (h : step e op = some (e', r)) : Next e e' := by
  obtain ⟨e1, r1, h1, h2⟩ := step_next hi op hl
  rw [h1] at h
  simp only [Option.some.injEq, Prod.mk.injEq] at h
  rw [← h.1]; exact h2

/-- Released means ended, and ended means released. -/
def RelInv (e : Env) : Prop :=
  (∀ i, Ev.release i ∈ e.trace → i < e.next ∧ e.txns i = none) ∧
  (∀ i, i < e.next → e.txns i = none → Ev.release i ∈ e.trace)

theorem RelInv.step {e e' : Env} (h : Next e e') (hr : RelInv e) : RelInv e' := by
  refine ⟨?_, ?_⟩
  · intro i hm
    rcases h.ends i hm with h1 | h1
    · have := hr.1 i h1
      exact ⟨Nat.lt_of_lt_of_le this.1 h.next, h.gone i this.1 this.2⟩
    · exact h1
  · intro i hlt hn
    rcases h.done i hlt hn with ⟨h1, h2⟩ | h1
    · exact h.trace.subset (hr.2 i h1 h2)
    · exact h1

theorem reach_rel {e : Env} (h : Reach e) : RelInv e := by
  have : Inv e ∧ RelInv e := by
    induction h with
    | init =>
      refine ⟨inv_init, ?_, ?_⟩
      · intro i h; cases h
      · intro i h; exact absurd h (Nat.not_lt_zero i)
    | step e op e' r _ hl hs ih =>
      have := Next.of_step ih.1 hl hs
      exact ⟨this.inv, ih.2.step this⟩
  exact this.2

theorem reach_inv {e : Env} (h : Reach e) : Inv e ∧ e.fsynced ≤ e.log.length := by
  induction h with
  | init => exact ⟨inv_init, Nat.le_refl _⟩
  | step e op e' r _ hl hs ih =>
    have := Next.of_step ih.1 hl hs
    exact ⟨this.inv, this.fsle ih.2⟩

theorem depth_nXids {e : Env} (hi : Inv e) : ∀ {t n}, Depth e t n → ∀ x, e.txns t = some x →
    x.ro = false → x.nXids = n := by
  intro t n h
  induction h with
  | root t y hy hp =>
    intro x hx hro
    rw [hx] at hy; simp only [Option.some.injEq] at hy; subst hy
    exact ((hi.ok t x hx).dep hro).2 hp
  | child t y p n hy hp _ ih =>
    intro x hx hro
    rw [hx] at hy; simp only [Option.some.injEq] at hy; subst hy
    obtain ⟨_, z, hz, _, _, hzro, _, hn⟩ := (hi.ok t x hx).par p hp
    rw [hn hro, ih z hz (by rw [hzro, hro])]

theorem depth_exists {e : Env} (hi : Inv e) : ∀ m t x, e.txns t = some x → t < m → ∃ n, Depth e t n := by
  intro m
  induction m with
  | zero => intro t x _ h; exact absurd h (Nat.not_lt_zero t)
  | succ m ih =>
    intro t x hx hlt
    cases hp : x.parent with
    | none => exact ⟨1, .root t x hx hp⟩
    | some p =>
      obtain ⟨h1, y, h2, _⟩ := (hi.ok t x hx).par p hp
      obtain ⟨n, hn⟩ := ih p y h2 (Nat.lt_of_lt_of_le h1 (Nat.le_of_lt_succ hlt))
      exact ⟨n + 1, .child t x p n hx hp hn⟩

theorem family_head {e : Env} {t : Id} {l : List Id} (h : Family e t l) : ∃ m, l = t :: m := by
  cases h with
  | leaf => exact ⟨[], rfl⟩
  | node _ _ _ l => exact ⟨l, rfl⟩

theorem tail_parent {e : Env} (hi : Inv e) {t : Id} {l : List Id} (h : Family e t l) :
    ∀ j ∈ l.tail, ∃ z q, e.txns j = some z ∧ z.parent = some q ∧ q ∈ l := by
  induction h with
  | leaf t x hx hc => intro j h; cases h
  | node t x c l hx hc hl ih =>
    intro j hj
    obtain ⟨m, rfl⟩ := family_head hl
    simp only [List.tail_cons, List.mem_cons] at hj ih
    rcases hj with rfl | hj
    · obtain ⟨z, hz, hzp⟩ := (hi.ok t x hx).chi j hc
      exact ⟨z, t, hz, hzp, by simp⟩
    · obtain ⟨z, q, h1, h2, h3⟩ := ih j hj
      exact ⟨z, q, h1, h2, List.mem_cons_of_mem _ (by simpa using h3)⟩

theorem began_iff {e : Env} (hi : Inv e) {t : Id} {x : Txn} (hx : e.txns t = some x) :
    began e.log t = x.logged := by
  have ok := hi.ok t x hx
  cases hl : x.logged with
  | true => exact (began_mem _ _).2 ⟨_, (ok.lpar hl).1⟩
  | false =>
    cases hb : began e.log t with
    | false => rfl
    | true =>
      obtain ⟨p, h⟩ := (began_mem _ _).1 hb
      exact absurd h ((ok.unl hl).2.2 p)

theorem later_next {e e' : Env} (hi : Inv e) (h : Later e e') : Next e e' := by
  induction h with
  | refl => exact Next.refl hi
  | step e1 op e2 r h1 hl hs ih => exact ih.trans hi (Next.of_step ih.inv hl hs)

theorem later_reach {e e' : Env} (hr : Reach e) (h : Later e e') : Reach e' := by
  induction h with
  | refl => exact hr
  | step e1 op e2 r _ hl hs ih => exact .step e1 op e2 r ih hl hs

theorem unlogged_family {e : Env} (hi : Inv e) {t : Id} {l : List Id} (h : Family e t l)
    (ht : loggedIn e t = false) : ∀ i ∈ l, loggedIn e i = false := by
  induction h with
  | leaf t x hx hc => intro i h; simp at h; subst h; exact ht
  | node t x c l hx hc hl ih =>
    intro i h
    rcases List.mem_cons.1 h with rfl | h
    · exact ht
    · refine ih ?_ i h
      obtain ⟨z, hz, hzp⟩ := (hi.ok t x hx).chi c hc
      obtain ⟨_, y, hy, _, _, _, hlg, _⟩ := (hi.ok c z hz).par t hzp
      rw [hx] at hy; simp only [Option.some.injEq] at hy; subst hy
      simp only [loggedIn, hx, Option.any_some] at ht
      cases hzl : z.logged with
      | false => simp [loggedIn, hz, hzl]
      | true => rw [hlg hzl] at ht; cases ht

theorem logged_of_surviving {e : Env} (hi : Inv e) {t : Id} {x : Txn} (hx : e.txns t = some x) {l : List Id}
    (hf : Family e t l) {w : Word} {e' : Env} (h : After e t x l w e') (hs : 0 < surviving e'.log t) :
    x.logged = true := by
  cases hl : x.logged with
  | true => rfl
  | false =>
    have h1 := unlogged_family hi hf (by simp [loggedIn, hx, hl])
    have h2 : l.reverse.filter (loggedIn e) = [] := by
      rw [List.filter_eq_nil_iff]
      intro i hi; rw [h1 i (List.mem_reverse.1 hi)]; simp
    have h3 := h.log
    rw [h2] at h3
    simp only [List.map_nil, List.append_nil] at h3
    rw [h3, ← (hi.ok t x hx).roll, ((hi.ok t x hx).unl hl).1] at hs
    exact absurd hs (Nat.lt_irrefl _)

end Verif.Ydb
