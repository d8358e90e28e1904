import Verif.Load.Tree
/-! Lemmas: the extractor and the loader. -/
set_option autoImplicit false
set_option linter.unusedVariables false
set_option linter.unusedSimpArgs false

namespace Verif.Load
open Spec

variable {K V : Type} {cmp : K → K → Int}

/-- The runs on disk are sorted, and the last key written is the largest of the last run. -/
structure FInv' (cmp : K → K → Int) (fs : FS K V) : Prop where
  sorted : ∀ f ∈ fs.files, Sorted cmp f
  prev : ∀ p, fs.prev = some p → ∃ f, fs.files.getLast? = some f ∧ ∀ r ∈ f, cmp r.1 p ≤ 0

theorem dropLast_getLast {α : Type} {l : List α} {x : α} (h : l.getLast? = some x) : l = l.dropLast ++ [x] := by
  rcases List.eq_nil_or_concat l with rfl | ⟨t, m, rfl⟩
  · cases h
  · rw [List.concat_eq_append] at *
    simp at h
    subst h
    simp

theorem sorted_last_le (ho : Order cmp) {l : List (Row K V)} (hs : Sorted cmp l) {hi : Row K V} (h : l.getLast? = some hi) :
    ∀ r ∈ l, cmp r.1 hi.1 ≤ 0 := lastKey_le ho hs (by simp [lastKey, h])

theorem sorted_head_le (ho : Order cmp) {l : List (Row K V)} (hs : Sorted cmp l) {lo : Row K V} (h : l.head? = some lo) :
    ∀ r ∈ l, cmp lo.1 r.1 ≤ 0 := by
  cases l with
  | nil => cases h
  | cons a l =>
    simp at h
    subst h
    intro r hr
    rcases List.mem_cons.1 hr with rfl | hr
    · have := ho.refl r.1; omega
    · have := (List.pairwise_cons.1 hs).1 r hr; omega

/-- The result of `sortAndWrite`. -/
def SW (cmp : K → K → Int) (fs : FS K V) (rows : List (Row K V)) : R K V (FS K V) → Prop
  | .ok fs' => FInv' cmp fs' ∧ fs'.files.flatten.Perm (fs.files.flatten ++ rows)
  | .err (.exist r) => Twice cmp r rows
  | .err _ => False
  | .crash => False

theorem sortAndWrite_spec {e : Env K V} (he : EnvOk e) (rows : List (Row K V)) (fs : FS K V) (h : FInv' e.cmp fs) :
    SW e.cmp fs rows (sortAndWrite e rows fs) := by
  have ho := he.order
  unfold sortAndWrite
  split
  · rename_i h0
    have : rows = [] := List.eq_nil_of_length_eq_zero h0
    subst this
    exact ⟨h, by simp⟩
  · rename_i h0
    have hg := sortRows_good he rows
    cases hr : sortRows e rows with
    | crash => rw [hr] at hg; exact hg.elim
    | err x =>
      rw [hr] at hg
      cases x with
      | exist r => exact hg
      | _ => exact hg.elim
    | ok s =>
      rw [hr] at hg
      obtain ⟨hs, hp⟩ := hg
      have hne : s ≠ [] := by
        intro h1
        rw [h1] at hp
        exact h0 (by rw [hp.symm.eq_nil]; rfl)
      obtain ⟨lo, hlo⟩ : ∃ lo, s.head? = some lo := by
        cases s with
        | nil => exact absurd rfl hne
        | cons a s => exact ⟨a, rfl⟩
      have hhi := List.getLast?_eq_some_getLast hne
      generalize s.getLast hne = hi at hhi
      simp only [hlo, hhi]
      have hnew : SW e.cmp fs rows (.ok ⟨fs.files ++ [s], some hi.1⟩) := by
        refine ⟨⟨?_, ?_⟩, ?_⟩
        · intro f hf
          rcases List.mem_append.1 hf with hf | hf
          · exact h.sorted f hf
          · rw [List.mem_singleton.1 hf]; exact hs
        · intro p hpp
          injection hpp with hpp
          subst hpp
          exact ⟨s, by simp, sorted_last_le ho hs hhi⟩
        · simp only [List.flatten_append, List.flatten_cons, List.flatten_nil, List.append_nil]
          exact hp.append_left _
      split
      · rename_i p hpp
        split
        · rename_i hlt
          obtain ⟨f, hf, hle⟩ := h.prev p hpp
          have hfl := dropLast_getLast hf
          rw [hf]
          have hfs : Sorted e.cmp f := h.sorted f (by rw [hfl]; simp)
          refine ⟨⟨?_, ?_⟩, ?_⟩
          · intro g hg
            rcases List.mem_append.1 hg with hg | hg
            · exact h.sorted g (by rw [hfl]; simp [hg])
            · rw [List.mem_singleton.1 hg]
              refine List.pairwise_append.2 ⟨hfs, hs, ?_⟩
              intro a ha b hb
              exact ho.lt_of_le_of_lt (hle a ha) (ho.lt_of_lt_of_le hlt (sorted_head_le ho hs hlo b hb))
          · intro p' hpp'
            injection hpp' with hpp'
            subst hpp'
            refine ⟨f ++ s, by simp, ?_⟩
            intro r hr
            rcases List.mem_append.1 hr with hr | hr
            · have h1 := ho.lt_of_le_of_lt (hle r hr) hlt
              have h2 := sorted_head_le ho hs hlo hi (List.mem_of_getLast? hhi)
              have := ho.lt_of_lt_of_le h1 h2
              omega
            · exact sorted_last_le ho hs hhi r hr
          · have h1 : fs.files.flatten = fs.files.dropLast.flatten ++ f := by
              conv => lhs; rw [hfl]
              simp
            rw [h1]
            simp only [List.flatten_append, List.flatten_cons, List.flatten_nil, List.append_nil, List.append_assoc]
            exact (hp.append_left _).append_left _
        · exact hnew
      · exact hnew

/-! ## The extractor -/

/-- What the extractor has after some rows of the dictionary. -/
structure EInv (e : Env K V) (g : List (Row K V)) (x : Ext K V) : Prop where
  fs : FInv' e.cmp x.fs
  rows : (x.fs.files.flatten ++ x.rows).Perm g
  size : x.size = sizes e g

/-- Keys and values are not too large. -/
def Small (e : Env K V) (g : List (Row K V)) : Prop := ∀ r ∈ g, e.klen r.1 ≤ e.klimit ∧ e.vlen r.2 ≤ e.vlimit

/-- The result of adding the rows `m` after `g`. -/
def Added (e : Env K V) (g m : List (Row K V)) : R K V (Ext K V) → Prop
  | .ok x' => EInv e (g ++ m) x' ∧ Small e m
  | .err (.exist r) => Twice e.cmp r (g ++ m)
  | .err .inval => ¬ Small e m
  | .err _ => False
  | .crash => False

theorem ext_add {e : Env K V} (he : EnvOk e) {g : List (Row K V)} {x : Ext K V} (h : EInv e g x) (r : Row K V) :
    Added e g [r] (x.add e r) := by
  unfold Ext.add
  split
  · rename_i hk
    intro hs
    have := (hs r (by simp)).1
    omega
  · split
    · rename_i hk
      intro hs
      have := (hs r (by simp)).2
      omega
    · rename_i hk hv
      have hsm : Small e [r] := by
        intro r' hr'
        rw [List.mem_singleton.1 hr']
        omega
      have hsz : x.size + e.les r = sizes e (g ++ [r]) := by
        rw [sizes_append, h.size]; simp [sizes]
      simp only
      split
      · have hw := sortAndWrite_spec he x.rows x.fs h.fs
        cases hr : sortAndWrite e x.rows x.fs with
        | crash => rw [hr] at hw; exact hw.elim
        | err c =>
          rw [hr] at hw
          cases c with
          | exist r' =>
            exact ((hw.right x.fs.files.flatten).perm h.rows).left [r]
          | _ => exact hw.elim
        | ok fs =>
          rw [hr] at hw
          refine ⟨⟨hw.1, ?_, hsz⟩, hsm⟩
          exact (hw.2.trans h.rows).append_right [r]
      · refine ⟨⟨h.fs, ?_, hsz⟩, hsm⟩
        simp only
        rw [← List.append_assoc]
        exact h.rows.append_right [r]

theorem Small.append {e : Env K V} {g m : List (Row K V)} (h : Small e g) (h' : Small e m) : Small e (g ++ m) := by
  intro r hr
  rcases List.mem_append.1 hr with hr | hr
  · exact h r hr
  · exact h' r hr

theorem ext_addAll {e : Env K V} (he : EnvOk e) : ∀ (m g : List (Row K V)) (x : Ext K V), EInv e g x → Added e g m (x.addAll e m) := by
  intro m
  induction m with
  | nil =>
    intro g x h
    refine ⟨by simpa using h, by intro r hr; cases hr⟩
  | cons r m ih =>
    intro g x h
    have h1 := ext_add he h r
    simp only [Ext.addAll]
    cases hr : x.add e r with
    | crash => rw [hr] at h1; exact h1.elim
    | err c =>
      rw [hr] at h1
      cases c with
      | exist r' =>
        have : Twice e.cmp r' ((g ++ [r]) ++ m) := Spec.Twice.left h1 m
        simpa [Added] using this
      | inval =>
        intro hs
        exact h1 (fun r' hr' => hs r' (by rw [List.mem_singleton.1 hr']; simp))
      | _ => exact h1.elim
    | ok x' =>
      rw [hr] at h1
      obtain ⟨h1, hs1⟩ := h1
      have h2 := ih _ _ h1
      simp only
      cases hr2 : x'.addAll e m with
      | crash => rw [hr2] at h2; exact h2.elim
      | err c =>
        rw [hr2] at h2
        cases c with
        | exist r' => simpa [Added] using h2
        | inval =>
          intro hs
          exact h2 (fun r' hr' => hs r' (by simp [hr']))
        | _ => exact h2.elim
      | ok x2 =>
        rw [hr2] at h2
        refine ⟨by simpa using h2.1, ?_⟩
        have := hs1.append h2.2
        simpa using this

theorem made_append (e : Env K V) (l m : List (Row K V)) : made e (l ++ m) = made e l ++ made e m := by
  simp [made]

theorem made_cons (e : Env K V) (r : Row K V) (l g : List (Row K V)) (h : e.gen r = .ok g) : made e (r :: l) = g ++ made e l := by
  simp [made, h]

/-- The row generator fails for none of the rows. -/
def Gens (e : Env K V) (l : List (Row K V)) : Prop := ∀ r ∈ l, ∃ g, e.gen r = .ok g

/-- The result of the extraction of the primary rows `p` after `g`. -/
def Took (e : Env K V) (g p : List (Row K V)) : R K V (Ext K V) → Prop
  | .ok x' => EInv e (g ++ made e p) x' ∧ Small e (made e p) ∧ Gens e p
  | .err (.exist r) => Twice e.cmp r (g ++ made e p)
  | .err .inval => ¬ Small e (made e p)
  | .err (.gen c) => ∃ r ∈ p, e.gen r = .error c
  | .err _ => False
  | .crash => False

theorem ext_process {e : Env K V} (he : EnvOk e) : ∀ (p g : List (Row K V)) (x : Ext K V), EInv e g x → Took e g p (x.process e p) := by
  intro p
  induction p with
  | nil =>
    intro g x h
    refine ⟨by simpa [made] using h, by simp [made, Small], by intro r hr; cases hr⟩
  | cons r p ih =>
    intro g x h
    simp only [Ext.process]
    cases hg : e.gen r with
    | error c => exact ⟨r, by simp, hg⟩
    | ok m =>
      have h1 := ext_addAll he m g x h
      have hmc := made_cons e r p m hg
      simp only
      cases hr : x.addAll e m with
      | crash => rw [hr] at h1; exact h1.elim
      | err c =>
        rw [hr] at h1
        cases c with
        | exist r' =>
          have : Twice e.cmp r' ((g ++ m) ++ made e p) := Spec.Twice.left h1 _
          simp only [Took, hmc]
          simpa using this
        | inval =>
          simp only [Took, hmc]
          intro hs
          exact h1 (fun r' hr' => hs r' (by simp [hr']))
        | _ => exact h1.elim
      | ok x' =>
        rw [hr] at h1
        obtain ⟨h1, hs1⟩ := h1
        have h2 := ih _ _ h1
        simp only
        cases hr2 : x'.process e p with
        | crash => rw [hr2] at h2; exact h2.elim
        | err c =>
          rw [hr2] at h2
          cases c with
          | exist r' =>
            simp only [Took, hmc]
            simpa [Took] using h2
          | inval =>
            simp only [Took, hmc]
            intro hs
            exact h2 (fun r' hr' => hs r' (by simp [hr']))
          | gen c =>
            obtain ⟨r', hr', hc⟩ := h2
            exact ⟨r', by simp [hr'], hc⟩
          | _ => exact h2.elim
        | ok x2 =>
          rw [hr2] at h2
          obtain ⟨h2, hs2, hg2⟩ := h2
          simp only [Took, hmc]
          refine ⟨by simpa using h2, hs1.append hs2, ?_⟩
          intro r' hr'
          rcases List.mem_cons.1 hr' with rfl | hr'
          · exact ⟨m, hg⟩
          · exact hg2 r' hr'

theorem ext_finish {e : Env K V} (he : EnvOk e) {g : List (Row K V)} {x : Ext K V} (h : EInv e g x) :
    (∃ x', x.finish e = .ok x' ∧ EInv e g x' ∧ x'.rows = []) ∨ (∃ r, x.finish e = .err (.exist r) ∧ Twice e.cmp r g) := by
  have hw := sortAndWrite_spec he x.rows x.fs h.fs
  unfold Ext.finish
  cases hr : sortAndWrite e x.rows x.fs with
  | crash => rw [hr] at hw; exact hw.elim
  | err c =>
    rw [hr] at hw
    cases c with
    | exist r' => exact .inr ⟨r', rfl, (hw.right x.fs.files.flatten).perm h.rows⟩
    | _ => exact hw.elim
  | ok fs =>
    rw [hr] at hw
    refine .inl ⟨_, rfl, ⟨hw.1, ?_, h.size⟩, rfl⟩
    simp only [List.append_nil]
    exact hw.2.trans h.rows

/-! ## The loader -/

/-- The invariant of a loader. -/
structure LdInv (e : Env K V) (s : Ld K V) (l x : List (Row K V)) : Prop where
  ext : ∃ g, EInv e g s.ext
  good : s.err = none → x = [] ∧ s.failed = false ∧ ∃ d, l = d ++ s.queue.flatten ++ s.prim ∧ Gens e d ∧ Small e (made e d) ∧ EInv e (made e d) s.ext
  bad : ∀ c, s.err = some c → Cause e l c

theorem not_small {e : Env K V} {g : List (Row K V)} (h : ¬ Small e g) : ∃ r ∈ g, e.klimit < e.klen r.1 ∨ e.vlimit < e.vlen r.2 := by
  apply Classical.byContradiction
  intro hn
  apply h
  intro r hr
  constructor
  · apply Nat.le_of_not_lt; intro hlt; exact hn ⟨r, hr, .inl hlt⟩
  · apply Nat.le_of_not_lt; intro hlt; exact hn ⟨r, hr, .inr hlt⟩

theorem Cause.more {e : Env K V} {l : List (Row K V)} {c : Err K V} (h : Cause e l c) (m : List (Row K V)) : Cause e (l ++ m) c := by
  cases c with
  | exist r => simp only [Cause, made_append] at *; exact h.left _
  | inval =>
    obtain ⟨r, hr, h⟩ := h
    exact ⟨r, by rw [made_append]; simp [hr], h⟩
  | gen c =>
    obtain ⟨r, hr, h⟩ := h
    exact ⟨r, by simp [hr], h⟩
  | _ => exact h.elim

theorem ld_extract {e : Env K V} (he : EnvOk e) {s : Ld K V} {l x : List (Row K V)} (h : LdInv e s l x) :
    ∃ s', s.extract e = some s' ∧ LdInv e s' l x ∧ s'.queue.length = s.queue.length - 1 ∧ s'.prim = s.prim := by
  unfold Ld.extract
  split
  · rename_i hq
    exact ⟨s, rfl, h, by simp [hq], rfl⟩
  · rename_i p q hq
    obtain ⟨g, hg⟩ := h.ext
    cases hr : s.ext.process e p with
    | crash => have := ext_process he p g _ hg; rw [hr] at this; exact this.elim
    | ok x' =>
      refine ⟨_, rfl, ?_, by simp [hq], rfl⟩
      constructor
      · have := ext_process he p g _ hg
        rw [hr] at this
        exact ⟨_, this.1⟩
      · intro hn
        obtain ⟨hx, _, d, hl, h1, h2, h3⟩ := h.good hn
        have := ext_process he p _ _ h3
        rw [hr] at this
        obtain ⟨h4, h5, h6⟩ := this
        refine ⟨hx, rfl, d ++ p, ?_, ?_, ?_, ?_⟩
        · rw [hl, hq]; simp
        · intro r hr
          rcases List.mem_append.1 hr with hr | hr
          · exact h1 r hr
          · exact h6 r hr
        · rw [made_append]; exact h2.append h5
        · rw [made_append]; exact h4
      · exact h.bad
    | err c =>
      refine ⟨_, rfl, ?_, by simp [hq, Ld.panic], rfl⟩
      constructor
      · exact ⟨g, hg⟩
      · intro hn
        simp only [Ld.panic] at hn
        split at hn <;> cases hn
      · intro c' hc'
        simp only [Ld.panic] at hc'
        split at hc'
        · rename_i hn
          injection hc' with hc'
          subst hc'
          obtain ⟨hx, _, d, hl, h1, h2, h3⟩ := h.good hn
          have := ext_process he p _ _ h3
          rw [hr] at this
          have hl' : l = (d ++ p) ++ (q.flatten ++ s.prim) := by rw [hl, hq]; simp
          rw [hl']
          refine Cause.more ?_ _
          cases c with
          | exist r => simp only [Cause, made_append]; exact this
          | inval =>
            obtain ⟨r, hr, h⟩ := not_small this
            exact ⟨r, by rw [made_append]; simp [hr], h⟩
          | gen c =>
            obtain ⟨r, hr, h⟩ := this
            exact ⟨r, by simp [hr], h⟩
          | _ => exact this.elim
        · rename_i y hy
          injection hc' with hc'
          subst hc'
          exact h.bad _ hy

theorem ld_put {e : Env K V} {s s' : Ld K V} {l x : List (Row K V)} (h : LdInv e s l x) (r : Row K V) (hp : s.put e r = (s', none)) :
    LdInv e s' (l ++ [r]) x := by
  unfold Ld.put at hp
  split at hp
  · cases hp
  · rename_i hn
    obtain ⟨hx, hf, d, hl, h1, h2, h3⟩ := h.good hn
    split at hp
    all_goals
      injection hp with hp _
      subst hp
      refine ⟨h.ext, fun _ => ⟨hx, hf, d, ?_, h1, h2, h3⟩, ?_⟩
      · rw [hl]; simp
      · intro c hc
        simp only [hn] at hc
        cases hc

theorem ld_refused {e : Env K V} {s s' : Ld K V} {l x : List (Row K V)} (h : LdInv e s l x) (r : Row K V) (c : Err K V) (hp : s.put e r = (s', some c)) :
    LdInv e s' l (x ++ [r]) := by
  unfold Ld.put at hp
  split at hp
  · rename_i y hy
    injection hp with hp _
    subst hp
    exact ⟨h.ext, fun hn => (by rw [hn] at hy; cases hy), h.bad⟩
  · split at hp <;> cases hp

theorem reached_inv {e : Env K V} (he : EnvOk e) {s : Ld K V} {l x : List (Row K V)} (h : Reached e s l x) : LdInv e s l x := by
  have h0 : EInv e [] (Ld.open : Ld K V).ext := by
    refine ⟨⟨?_, ?_⟩, ?_, rfl⟩
    · intro f hf; cases hf
    · intro p hp; cases hp
    · simp [Ld.open]
  induction h with
  | start =>
    refine ⟨⟨[], h0⟩, fun _ => ⟨rfl, rfl, [], rfl, ?_, ?_, h0⟩, ?_⟩
    · intro r hr; cases hr
    · intro r hr; cases hr
    · intro c hc; cases hc
  | put r hs hp ih => exact ld_put ih r hp
  | refused r c hs hp ih => exact ld_refused ih r c hp
  | extract hs hp ih =>
    obtain ⟨s', h1, h2, _⟩ := ld_extract he ih
    rw [h1] at hp
    injection hp with hp
    rw [← hp]; exact h2

theorem ld_drain {e : Env K V} (he : EnvOk e) {l x : List (Row K V)} : ∀ (n : Nat) (s : Ld K V), LdInv e s l x → s.queue.length = n →
    ∃ s', s.drain e n = some s' ∧ LdInv e s' l x ∧ s'.queue = [] ∧ s'.prim = s.prim := by
  intro n
  induction n with
  | zero => intro s h hn; exact ⟨s, rfl, h, List.eq_nil_of_length_eq_zero hn, rfl⟩
  | succ n ih =>
    intro s h hn
    obtain ⟨s1, h1, h2, h3, h4⟩ := ld_extract he h
    obtain ⟨s2, g1, g2, g3, g4⟩ := ih s1 h2 (by omega)
    refine ⟨s2, ?_, g2, g3, g4.trans h4⟩
    simp only [Ld.drain, h1, Option.bind_some, g1]

theorem ld_finish {e : Env K V} (he : EnvOk e) {s : Ld K V} {l x : List (Row K V)} (h : LdInv e s l x) :
    ∃ s', s.finishExtractor e = some s' ∧
      (s'.err = none → x = [] ∧ Gens e l ∧ Small e (made e l) ∧ EInv e (made e l) s'.ext ∧ s'.ext.rows = []) ∧
      (∀ c, s'.err = some c → Cause e l c) := by
  have hs : ∃ s1, LdInv e s1 l x ∧ s1.prim = [] ∧
      (if 0 < s.prim.length then { s with prim := [], queue := s.queue ++ [s.prim] } else s) = s1 := by
    by_cases hp : 0 < s.prim.length
    · rw [if_pos hp]
      refine ⟨{ s with prim := [], queue := s.queue ++ [s.prim] }, ⟨h.ext, ?_, h.bad⟩, rfl, rfl⟩
      intro hn
      obtain ⟨hx, hf, d, hl, h1, h2, h3⟩ := h.good hn
      exact ⟨hx, hf, d, by rw [hl]; simp, h1, h2, h3⟩
    · rw [if_neg hp]
      exact ⟨s, h, List.eq_nil_of_length_eq_zero (by omega), rfl⟩
  obtain ⟨s1, h1, h2, h3⟩ := hs
  obtain ⟨s2, g1, g2, g3, g4⟩ := ld_drain he s1.queue.length s1 h1 rfl
  unfold Ld.finishExtractor
  simp only [h3, g1]
  split
  · rename_i hf
    refine ⟨s2, rfl, ?_, g2.bad⟩
    intro hn
    have := (g2.good hn).2.1
    rw [this] at hf
    cases hf
  · obtain ⟨g, hg⟩ := g2.ext
    have hfull : s2.err = none → x = [] ∧ Gens e l ∧ Small e (made e l) ∧ EInv e (made e l) s2.ext := by
      intro hn
      obtain ⟨hx, hf, d, hl, k1, k2, k3⟩ := g2.good hn
      rw [g3, g4, h2] at hl
      simp at hl
      subst hl
      exact ⟨hx, k1, k2, k3⟩
    rcases ext_finish he hg with ⟨x', f1, f2, f3⟩ | ⟨r, f1, f2⟩
    · rw [f1]
      refine ⟨_, rfl, ?_, g2.bad⟩
      intro hn
      obtain ⟨hx, k1, k2, k3⟩ := hfull hn
      rcases ext_finish he k3 with ⟨x2, f4, f5, f6⟩ | ⟨r, f4, f5⟩
      · rw [f1] at f4
        injection f4 with f4
        subst f4
        exact ⟨hx, k1, k2, f5, f6⟩
      · rw [f1] at f4; cases f4
    · rw [f1]
      refine ⟨_, rfl, ?_, ?_⟩
      · intro hn
        simp only [Ld.panic] at hn
        split at hn <;> cases hn
      · intro c hc
        simp only [Ld.panic] at hc
        split at hc
        · rename_i hn
          injection hc with hc
          subst hc
          obtain ⟨hx, k1, k2, k3⟩ := hfull hn
          rcases ext_finish he k3 with ⟨x2, f4, f5, f6⟩ | ⟨r', f4, f5⟩
          · rw [f1] at f4; cases f4
          · rw [f1] at f4
            injection f4 with f4
            injection f4 with f4
            subst f4
            exact f5
        · rename_i y hy
          injection hc with hc
          subst hc
          exact g2.bad _ hy

/-- What closing a loader can give. -/
def Closed (e : Env K V) (l x : List (Row K V)) (s : Ld K V) : R K V (Tree K V) → Prop
  | .ok t => x = [] ∧ Fit e l ∧ ∃ h, Search e.cmp h t ∧ Sorted e.cmp (rowsOf h t) ∧ (rowsOf h t).Perm (made e l)
  | .err c => Cause e l c
  | .crash => ∃ s', s.finishExtractor e = some s' ∧ 3 ≤ s'.ext.fs.files.length ∧ ∃ r, Twice e.cmp r (made e l)

theorem close_spec {e : Env K V} (he : EnvOk e) {s : Ld K V} {l x : List (Row K V)} (h : Reached e s l x) :
    Closed e l x s (s.close e) := by
  obtain ⟨s', h1, h2, h3⟩ := ld_finish he (reached_inv he h)
  unfold Ld.close
  rw [h1]
  simp only
  cases hn : s'.err with
  | some c => exact h3 c hn
  | none =>
    obtain ⟨hx, k1, k2, k3, k4⟩ := h2 hn
    have hp : s'.ext.fs.files.flatten.Perm (made e l) := by
      have := k3.rows
      rw [k4, List.append_nil] at this
      exact this
    have hm := mergeFiles_spec he s'.ext.fs.files k3.fs.sorted
    simp only
    cases hr : mergeFiles e s'.ext.fs.files with
    | crash =>
      rw [hr] at hm
      obtain ⟨hm1, r, hm2⟩ := hm
      exact ⟨s', h1, hm1, r, hm2.perm hp⟩
    | err c =>
      rw [hr] at hm
      cases c with
      | exist r => exact Spec.Twice.perm hm hp
      | _ => exact hm.elim
    | ok q =>
      rw [hr] at hm
      obtain ⟨hm1, hm2⟩ := hm
      obtain ⟨t, ht, w1, w2, w3⟩ := writeTree_spec he.order s'.ext.size q hm1 (by rw [k3.size]; exact sizes_perm e (hm2.trans hp).symm)
      simp only [w1]
      refine ⟨hx, ⟨k1, fun r hr => (k2 r hr).1, fun r hr => (k2 r hr).2⟩, ht, w2, ?_, ?_⟩
      · rw [w3]; exact hm1
      · rw [w3]; exact hm2.trans hp

end Verif.Load
