import Verif.Stale.Lemmas
import Mathlib.Data.List.Perm.Subperm

/-! # Every step of the cachetable is a step of the promise -/

namespace Verif.Stale

/-- Numbers that are tried and refused are in use. -/
theorem reserve_sound {used : List Nat} : ∀ {fuel n num next : Nat}, reserveFrom used fuel n = some (num, next) →
    num ≠ none32 ∧ num ∉ used
  | 0, _, _, _, h => by cases h
  | fuel + 1, n, num, next, h => by
    unfold reserveFrom at h
    split at h
    · exact reserve_sound h
    · next hc =>
      split at h
      · exact reserve_sound h
      · next hd => cases h; exact ⟨hd, hc⟩

theorem reserve_fail {used : List Nat} : ∀ {fuel n : Nat}, n < 4294967296 → reserveFrom used fuel n = none →
    ∀ i < fuel, (n + i) % 4294967296 ∈ none32 :: used
  | 0, _, _, _, i, hi => by omega
  | fuel + 1, n, hn, h, i, hi => by
    unfold reserveFrom at h
    split at h
    · next hc =>
      cases i with
      | zero =>
        rw [Nat.add_zero, Nat.mod_eq_of_lt hn]
        exact List.mem_cons_of_mem _ hc
      | succ i =>
        have := reserve_fail (Nat.mod_lt _ (by omega)) h i (by omega)
        have e : ((n + 1) % 4294967296 + i) % 4294967296 = (n + (i + 1)) % 4294967296 := by omega
        rwa [e] at this
    · split at h
      · next hc =>
        cases i with
        | zero =>
          rw [Nat.add_zero, Nat.mod_eq_of_lt hn, hc]
          exact List.mem_cons_self
        | succ i =>
          have := reserve_fail (by omega) h i (by omega)
          have e : (0 + i) % 4294967296 = (n + (i + 1)) % 4294967296 := by
            have : n = 4294967295 := hc
            omega
          rwa [e] at this
      · cases h

/-- As many different numbers as fit in a list are at most its length. -/
theorem pigeon {l : List Nat} {f : Nat → Nat} {m : Nat} (hinj : ∀ i < m, ∀ j < m, f i = f j → i = j)
    (hm : ∀ i < m, f i ∈ l) : m ≤ l.length := by
  have hnd : ((List.range m).map f).Nodup := by
    rw [List.nodup_iff_pairwise_ne, List.pairwise_map]
    refine List.Pairwise.imp_of_mem ?_ (List.nodup_range (n := m))
    intro a b ha hb hne e
    exact hne (hinj a (List.mem_range.mp ha) b (List.mem_range.mp hb) e)
  have hsub : ((List.range m).map f) ⊆ l := by
    intro x hx
    obtain ⟨i, hi, rfl⟩ := List.mem_map.mp hx
    exact hm i (List.mem_range.mp hi)
  have := (List.Nodup.subperm hnd hsub).length_le
  simpa using this

theorem reserve_ok {s : S} (hn : s.next < 4294967296) (hl : s.used.length + 1 < 4294967296) : s.reserve ≠ none := by
  intro h
  have := reserve_fail hn h
  have hp := pigeon (l := none32 :: s.used) (m := s.used.length + 2) (f := fun i => (s.next + i) % 4294967296)
    (fun i hi j hj e => by
      have e' : (s.next + i) % 4294967296 = (s.next + j) % 4294967296 := e
      omega) this
  rw [List.length_cons] at hp
  omega

theorem reserveFrom_lt {used : List Nat} : ∀ {fuel n num next : Nat}, n < 4294967296 →
    reserveFrom used fuel n = some (num, next) → num < 4294967296
  | 0, _, _, _, _, h => by cases h
  | fuel + 1, n, num, next, hn, h => by
    unfold reserveFrom at h
    split at h
    · exact reserveFrom_lt (Nat.mod_lt _ (by omega)) h
    · split at h
      · exact reserveFrom_lt (by omega) h
      · cases h; exact hn

theorem reserve_lt {s : S} {num next : Nat} (hn : s.next < 4294967296) (h : s.reserve = some (num, next)) :
    num < 4294967296 := reserveFrom_lt hn h

theorem all_dir {s : S} {n i : Nat}
    (h : (s.dir.all (fun p => p.1 != n && p.2 != i) && s.active.all (fun c => c.ino != i)) = true) :
    (∀ p ∈ s.dir, p.1 ≠ n ∧ p.2 ≠ i) ∧ (∀ c ∈ s.active, c.ino ≠ i) := by
  rw [Bool.and_eq_true, List.all_eq_true, List.all_eq_true] at h
  exact ⟨fun p hp => by simpa using h.1 p hp, fun c hc => by simpa using h.2 c hc⟩

theorem nameOf_absent {dir : List (Nat × Nat)} {n : Nat} (h : ∀ p ∈ dir, p.1 ≠ n) : nameOf dir n = none := by
  unfold nameOf
  rw [Option.map_eq_none_iff, List.find?_eq_none]
  intro p hp
  simpa using h p hp

theorem find_ino {l : List Cf} {i : Nat} {c : Cf} (h : l.find? (fun c => c.ino == i) = some c) : c ∈ l ∧ c.ino = i := by
  refine ⟨List.mem_of_find?_eq_some h, ?_⟩
  have := List.find?_some h
  simpa using this

theorem find_name {l : List Cf} {i : Nat} {c : Cf} (h : l.find? (fun c => c.name == i) = some c) : c ∈ l ∧ c.name = i := by
  refine ⟨List.mem_of_find?_eq_some h, ?_⟩
  have := List.find?_some h
  simpa using this

theorem find_ino_none {l : List Cf} {i : Nat} (h : l.find? (fun c => c.ino == i) = none) : ∀ c ∈ l, c.ino ≠ i := by
  intro c hc e
  exact List.find?_eq_none.mp h c hc (by simpa using e)

/-- No handle on a file whose inode is not open. -/
theorem Sim.closed {b : Nat → Nat} {s : S} {t : T} {n i : Nat} (h : Sim b s t) (hn : (n, i) ∈ s.dir)
    (hf : ∀ c ∈ s.active, c.ino ≠ i) (k m : Nat) : t.handle k ≠ some (m, b i) := by
  intro e
  obtain ⟨c, hc, hk⟩ := h.back k _ e
  have hh := h.handles c hc
  rw [hk, e] at hh
  have hb : b i = b c.ino := congrArg Prod.snd (Option.some.inj hh)
  exact hf c hc (h.binj _ (h.linked c hc) _ hn hb.symm)

theorem Sim.free {b : Nat → Nat} {s : S} {t : T} {num : Nat} (h : Sim b s t) : num ∉ s.used ↔ t.handle num = none := by
  constructor
  · intro hu
    cases hx : t.handle num with
    | none => rfl
    | some x =>
      obtain ⟨c, hc, e⟩ := h.back num x hx
      exact absurd (List.mem_map.mpr ⟨c, hc, e⟩) hu
  · intro e hu
    obtain ⟨c, hc, hn⟩ := List.mem_map.mp hu
    have := h.handles c hc
    rw [hn, e] at this; cases this

theorem Sim.open_ {b : Nat → Nat} {s s' : S} {t : T} {n : Nat} {w : Option Nat} {a : Ans} (h : Sim b s t)
    (hs : act s (.open n w) = some (some (s', a))) : ∃ t', Step t (.open n w) a t' ∧ Sim b s' t' := by
  unfold act at hs
  dsimp only at hs
  split at hs
  · next hno => cases hs; exact ⟨t, .noent t n w (by rw [h.dirEq, hno]; rfl), h⟩
  · next ino hno =>
    have hn := nameOf_mem hno
    have hd : t.dir n = some (b ino) := by rw [h.dirEq, hno]; rfl
    split at hs
    · next c hf =>
      obtain ⟨hc, hi⟩ := find_ino hf
      split at hs
      · cases hs
      · cases hs
        have := h.handles c hc
        rw [hi] at this
        exact ⟨t, .again t n _ _ c.name w hd this, h⟩
    · next hf =>
      have hfree := find_ino_none hf
      split at hs
      · cases hs
      · next num next hr =>
        split at hs
        · cases hs
        · next hbad =>
          have h32 : num ≠ none32 := fun e => hbad (Or.inl e)
          have hu : num ∉ s.used := fun e => hbad (Or.inr e)
          have hw : ∀ x, w = some x → x = num := by
            intro x hx
            subst hx
            cases hr; rfl
          have hstep := Step.opens t n _ num w hd (h.closed hn hfree) (h.free.mp hu) h32 hw
          split at hs
          · next c hst =>
            obtain ⟨hc, hi⟩ := find_ino hst
            split at hs
            · cases hs
            · cases hs
              refine ⟨_, hstep, ?_⟩
              exact sim_open (c := { c with num := num, name := n }) h hn hfree h32 hu rfl rfl rfl rfl hi rfl rfl
                (h.sun c hc).1 (by rw [← hi]; exact h.spage c hc)
          · next hst =>
            cases hs
            refine ⟨_, hstep, ?_⟩
            refine sim_open (c := ⟨s.nextId, ino, num, n, [], false⟩) h hn hfree h32 hu rfl rfl rfl ?_ rfl rfl rfl rfl
              (fun p hp => by cases hp)
            show s.stale = s.stale.filter _
            rw [List.filter_eq_self.mpr]
            intro c hc
            simpa using find_ino_none hst c hc

theorem aok_put {sc tc : Nat → Nat} {c : Cf} (h : AOk sc tc c.pages) (k v : Nat) :
    AOk sc (upd tc k v) (⟨k, v, true⟩ :: c.without k) := by
  have hw : ∀ p ∈ c.without k, p ∈ c.pages ∧ p.key ≠ k := by
    intro p hp
    obtain ⟨x, y⟩ := List.mem_filter.mp hp
    exact ⟨x, by simpa using y⟩
  refine ⟨?_, ?_, ?_⟩
  · intro p hp
    rcases List.mem_cons.mp hp with rfl | hp
    · exact (upd_same _ _ _).symm
    · rw [upd_ne (hw p hp).2]; exact h.val p (hw p hp).1
  · intro p hp hd
    rcases List.mem_cons.mp hp with rfl | hp
    · cases hd
    · exact h.clean p (hw p hp).1 hd
  · intro j hj
    have hk : j ≠ k := fun e => hj _ List.mem_cons_self e.symm
    rw [upd_ne hk]
    refine h.rest j (fun p hp e => hj p (List.mem_cons_of_mem _ (List.mem_filter.mpr ⟨hp, ?_⟩)) e)
    have : p.key ≠ k := by rw [e]; exact hk
    simpa using this

theorem aok_get {sc tc : Nat → Nat} {c : Cf} (h : AOk sc tc c.pages) {k : Nat} (hk : c.look k = none) :
    AOk sc tc (⟨k, sc k, false⟩ :: c.pages) ∧ sc k = tc k := by
  have hr : sc k = tc k := h.rest k (fun p hp e => List.find?_eq_none.mp hk p hp (by simpa using e))
  refine ⟨⟨?_, ?_, ?_⟩, hr⟩
  · intro p hp
    rcases List.mem_cons.mp hp with rfl | hp
    · exact hr
    · exact h.val p hp
  · intro p hp hd
    rcases List.mem_cons.mp hp with rfl | hp
    · rfl
    · exact h.clean p hp hd
  · intro j hj
    exact h.rest j (fun p hp => hj p (List.mem_cons_of_mem _ hp))

theorem aok_drop {sc tc : Nat → Nat} {c : Cf} (h : AOk sc tc c.pages) (k : Nat) :
    AOk (fun j => if j = k then flush sc c.pages j else sc j) tc (c.without k) := by
  have hw : ∀ p ∈ c.without k, p ∈ c.pages ∧ p.key ≠ k := by
    intro p hp
    obtain ⟨x, y⟩ := List.mem_filter.mp hp
    exact ⟨x, by simpa using y⟩
  refine ⟨fun p hp => h.val p (hw p hp).1, ?_, ?_⟩
  · intro p hp hd
    rw [if_neg (hw p hp).2]; exact h.clean p (hw p hp).1 hd
  · intro j hj
    split
    · exact flush_ok h j
    · next hne =>
      refine h.rest j (fun p hp e => hj p (List.mem_filter.mpr ⟨hp, ?_⟩) e)
      have : p.key ≠ k := by rw [e]; exact hne
      simpa using this

/-- Every step keeps the pages, the disk and the promise together. -/
theorem act_sim {b : Nat → Nat} {s s' : S} {t : T} {e : Ev} {a : Ans} (h : Sim b s t)
    (ht : ∀ n i, e = .rollbackLoad n → s.active.find? (fun c => c.name == n) = none → nameOf s.dir n = some i →
      ∀ c ∈ s.stale, c.ino ≠ i)
    (hs : act s e = some (some (s', a))) : ∃ b' t', Step t e a t' ∧ Sim b' s' t' := by
  cases e with
  | create n i =>
    unfold act at hs
    dsimp only at hs
    split at hs
    · next hc =>
      cases hs
      obtain ⟨h1, h2⟩ := all_dir hc
      refine ⟨_, _, .create t n i ?_, sim_create h h1 h2⟩
      rw [h.dirEq, nameOf_absent (fun p hp => (h1 p hp).1)]; rfl
    · cases hs
  | «open» n w => exact ⟨b, h.open_ hs⟩
  | put num k v =>
    unfold act at hs
    dsimp only at hs
    split at hs
    · next c hb =>
      cases hs
      obtain ⟨hc, hn⟩ := byNum_mem hb
      have hh := h.handles c hc
      rw [hn] at hh
      refine ⟨b, _, .put t num k v c.name (b c.ino) hh, ?_⟩
      have := sim_pages (sc := s.content c.ino) (tc := upd (t.content (b c.ino)) k v)
        (g := fun c => { c with pages := ⟨k, v, true⟩ :: c.without k }) h hc hn
        (fun _ => ⟨rfl, rfl, rfl, rfl⟩) (aok_put (h.apage c hc) k v)
      rw [upd_self] at this
      exact this
    · cases hs
  | get num k =>
    unfold act at hs
    dsimp only at hs
    split at hs
    · next c hb =>
      obtain ⟨hc, hn⟩ := byNum_mem hb
      have hh := h.handles c hc
      rw [hn] at hh
      have hstep := Step.get t num k c.name (b c.ino) hh
      split at hs
      · next p hl =>
        cases hs
        have hp := List.mem_of_find?_eq_some hl
        have hk : p.key = k := by have := List.find?_some hl; simpa using this
        have hv := (h.apage c hc).val p hp
        rw [hk] at hv
        rw [← hv] at hstep
        exact ⟨b, t, hstep, h⟩
      · next hl =>
        cases hs
        obtain ⟨h1, h2⟩ := aok_get (h.apage c hc) hl
        rw [← h2] at hstep
        refine ⟨b, t, hstep, ?_⟩
        have := sim_pages (sc := s.content c.ino) (tc := t.content (b c.ino))
          (g := fun c => { c with pages := ⟨k, s.content c.ino k, false⟩ :: c.pages }) h hc hn
          (fun _ => ⟨rfl, rfl, rfl, rfl⟩) h1
        rw [upd_self, upd_self] at this
        exact this
    · cases hs
  | drop num k =>
    unfold act at hs
    dsimp only at hs
    split at hs
    · next c hb =>
      cases hs
      obtain ⟨hc, hn⟩ := byNum_mem hb
      refine ⟨b, t, .drop t num k, ?_⟩
      have := sim_pages (g := fun c => { c with pages := c.without k }) h hc hn (fun _ => ⟨rfl, rfl, rfl, rfl⟩)
        (aok_drop (h.apage c hc) k)
      rw [upd_self t.content] at this
      exact this
    · cases hs
  | mark num =>
    unfold act at hs
    dsimp only at hs
    split at hs
    · next c hb =>
      split at hs
      · cases hs
      · cases hs
        obtain ⟨hc, hn⟩ := byNum_mem hb
        have hh := h.handles c hc
        rw [hn] at hh
        exact ⟨b, _, .mark t num (by rw [hh]; simp), sim_mark h⟩
    · cases hs
  | close num =>
    unfold act at hs
    dsimp only at hs
    split at hs
    · next c hb =>
      obtain ⟨hc, hn⟩ := byNum_mem hb
      have hh := h.handles c hc
      rw [hn] at hh
      refine ⟨b, _, ?_, sim_close (s' := s') h hc hn ?_ ?_ ?_⟩
      · have : a = .done := by
          split at hs
          · split at hs
            · cases hs
            · cases hs; rfl
          · split at hs <;> (cases hs; rfl)
        rw [this]
        exact .close t num c.name (b c.ino) hh
      · split at hs
        · split at hs
          · cases hs
          · cases hs; rfl
        · split at hs <;> (cases hs; rfl)
      · split at hs
        · split at hs
          · cases hs
          · cases hs; rfl
        · split at hs <;> (cases hs; rfl)
      · split at hs
        · next hu =>
          split at hs
          · cases hs
          · cases hs; exact Or.inl ⟨hu, rfl, rfl⟩
        · next hu =>
          have hu' : c.unlink = false := by simpa using hu
          split at hs
          · cases hs; exact Or.inr ⟨hu', rfl, Or.inl rfl⟩
          · next hp => cases hs; exact Or.inr ⟨hu', rfl, Or.inr ⟨hp, rfl⟩⟩
    · cases hs
  | rollbackLoad n =>
    unfold act at hs
    dsimp only at hs
    split at hs
    · next c hf =>
      obtain ⟨hc, hn⟩ := find_name hf
      split at hs
      · cases hs
      · cases hs
        have hh := h.handles c hc
        rw [hn] at hh
        exact ⟨b, _, .loadOpen t c.num n (b c.ino) hh, sim_mark h⟩
    · next hf =>
      cases hs
      have hna : ∀ c ∈ s.active, c.name ≠ n := fun c hc e => List.find?_eq_none.mp hf c hc (by simpa using e)
      refine ⟨b, _, .loadClosed t n ?_, sim_unlink h hna (fun i hi => ht n i rfl hf (mem_nameOf h.names hi))⟩
      intro num f e
      obtain ⟨c, hc, hk⟩ := h.back num _ e
      have hh := h.handles c hc
      rw [hk, e] at hh
      exact hna c hc (congrArg Prod.fst (Option.some.inj hh)).symm
  | evBegin i =>
    unfold act at hs
    dsimp only at hs
    split at hs
    · next c he hi =>
      have hcm : c ∈ s.stale := List.mem_of_getElem? hi
      split at hs
      · cases hs
      · next p ps hp =>
        cases hs
        refine ⟨b, t, .evBegin t i, sim_stale h rfl rfl rfl ?_ ?_⟩
        · show ((if ps = [] then _ else _ : List Cf).map Cf.ino).Sublist _
          split
          · exact List.Sublist.map _ (List.eraseIdx_sublist _ _)
          · rw [List.map_set]
            have : (s.stale.map Cf.ino).set i c.ino = s.stale.map Cf.ino := by
              apply List.ext_getElem?
              intro j
              rw [List.getElem?_set]
              split
              · next e =>
                subst e
                rw [List.getElem?_map, hi]
                have := (List.getElem?_eq_some_iff.mp hi).1
                simp [this]
              · rfl
            show ((s.stale.map Cf.ino).set i c.ino).Sublist _
            rw [this]
        · intro d hd
          have hd' : d ∈ (if ps = [] then s.stale.eraseIdx i else s.stale.set i { c with pages := ps }) := hd
          split at hd'
          · have := List.mem_of_mem_eraseIdx hd'
            exact ⟨(h.sun d this).2, d, this, rfl, rfl, fun _ hq => hq⟩
          · next hne =>
            rcases List.mem_or_eq_of_mem_set hd' with hd | rfl
            · exact ⟨(h.sun d hd).2, d, hd, rfl, rfl, fun _ hq => hq⟩
            · exact ⟨hne, c, hcm, rfl, rfl, fun q hq => by rw [hp]; exact List.mem_cons_of_mem _ hq⟩
    · cases hs
  | evEnd =>
    refine ⟨b, t, .evEnd t a, ?_⟩
    unfold act at hs
    dsimp only at hs
    split at hs
    · split at hs
      · cases hs
        exact sim_stale h rfl rfl rfl (List.Sublist.refl _) (fun d hd => ⟨(h.sun d hd).2, d, hd, rfl, rfl, fun _ hq => hq⟩)
      · cases hs
        exact sim_stale h rfl rfl rfl (List.Sublist.refl _) (fun d hd => ⟨(h.sun d hd).2, d, hd, rfl, rfl, fun _ hq => hq⟩)
    · cases hs
  | shutdown =>
    unfold act at hs
    dsimp only at hs
    split at hs
    · cases hs
      exact ⟨b, t, .shutdown t, sim_stale h rfl rfl rfl (List.nil_sublist _) (fun d hd => by cases hd)⟩
    · cases hs

theorem run_sim {es : List Ev} : ∀ {b : Nat → Nat} {s s' : S} {t : T} {as : List Ans}, Sim b s t → tidy s es →
    run s es = some (some (s', as)) → ∃ b' t', Steps t es as t' ∧ Sim b' s' t' := by
  induction es with
  | nil => intro b s s' t as h _ hr; cases hr; exact ⟨b, t, .nil t, h⟩
  | cons e es ih =>
    intro b s s' t as h ht hr
    unfold run at hr
    split at hr
    · cases hr
    · cases hr
    · next s1 a hs =>
      split at hr
      · next r as' hr' =>
        cases hr
        obtain ⟨b1, t1, hst, h1⟩ := act_sim h ht.1 hs
        obtain ⟨b2, t2, hsts, h2⟩ := ih h1 (ht.2 _ _ hs) hr'
        exact ⟨b2, t2, .cons hst hsts, h2⟩
      · next hx => exact absurd hr (hx _ _)

/-- An assertion fails only when the caller asks for what is not allowed. -/
theorem act_assert {b : Nat → Nat} {s : S} {t : T} {e : Ev} (h : Sim b s t) (hs : act s e = some none) : Asked t e := by
  cases e with
  | create n i => unfold act at hs; dsimp only at hs; split at hs <;> cases hs
  | «open» n w =>
    unfold act at hs
    dsimp only at hs
    split at hs
    · cases hs
    · next ino hno =>
      have hd : t.dir n = some (b ino) := by rw [h.dirEq, hno]; rfl
      split at hs
      · next c hf =>
        obtain ⟨hc, hi⟩ := find_ino hf
        split at hs
        · next hu =>
          have := h.handles c hc
          rw [hi] at this
          exact Or.inr (Or.inl ⟨n, w, c.num, c.name, b ino, rfl, hd, this, by rw [h.doom c hc]; exact hu⟩)
        · cases hs
      · next hf =>
        split at hs
        · cases hs
        · next num next hr =>
          split at hs
          · next hbad =>
            cases w with
            | none =>
              obtain ⟨h1, h2⟩ := reserve_sound hr
              exact absurd hbad (fun x => x.elim h1 h2)
            | some x =>
              cases hr
              refine Or.inr (Or.inr (Or.inr ⟨n, _, rfl, ?_⟩))
              rcases hbad with y | y
              · exact Or.inl y
              · exact Or.inr (fun e => h.free.mpr e y)
          · split at hs
            · next c hst =>
              split at hs
              · next hu => rw [(h.sun c (find_ino hst).1).1] at hu; cases hu
              · cases hs
            · cases hs
  | put num k v => unfold act at hs; dsimp only at hs; split at hs <;> cases hs
  | get num k =>
    unfold act at hs; dsimp only at hs
    split at hs
    · split at hs <;> cases hs
    · cases hs
  | drop num k => unfold act at hs; dsimp only at hs; split at hs <;> cases hs
  | mark num =>
    unfold act at hs; dsimp only at hs
    split at hs
    · next c hb =>
      obtain ⟨hc, hn⟩ := byNum_mem hb
      split at hs
      · next hu => exact Or.inl ⟨num, rfl, by rw [← hn, h.doom c hc]; exact hu⟩
      · cases hs
    · cases hs
  | close num =>
    unfold act at hs; dsimp only at hs
    split at hs
    · next c hb =>
      obtain ⟨hc, hn⟩ := byNum_mem hb
      split at hs
      · split at hs
        · next hno => rw [mem_nameOf h.names (h.linked c hc)] at hno; cases hno
        · cases hs
      · split at hs <;> cases hs
    · cases hs
  | rollbackLoad n =>
    unfold act at hs; dsimp only at hs
    split at hs
    · next c hf =>
      obtain ⟨hc, hn⟩ := find_name hf
      split at hs
      · next hu =>
        have := h.handles c hc
        rw [hn] at this
        exact Or.inr (Or.inr (Or.inl ⟨n, c.num, b c.ino, rfl, this, by rw [h.doom c hc]; exact hu⟩))
      · cases hs
    · cases hs
  | evBegin i =>
    unfold act at hs; dsimp only at hs
    split at hs
    · next c he hi =>
      split at hs
      · next hp => exact absurd hp (h.sun c (List.mem_of_getElem? hi)).2
      · cases hs
    · cases hs
  | evEnd =>
    unfold act at hs; dsimp only at hs
    split at hs
    · split at hs <;> cases hs
    · cases hs
  | shutdown => unfold act at hs; dsimp only at hs; split at hs <;> cases hs

theorem Sim.byNum {b : Nat → Nat} {s : S} {t : T} {num : Nat} (h : Sim b s t) (hh : t.handle num ≠ none) :
    ∃ c, s.byNum num = some c := by
  cases hb : s.byNum num with
  | some c => exact ⟨c, rfl⟩
  | none =>
    cases hx : t.handle num with
    | none => exact absurd hx hh
    | some x =>
      obtain ⟨c, hc, e⟩ := h.back num x hx
      exact absurd (by simpa using e) (List.find?_eq_none.mp hb c hc)

theorem next_lt {s s' : S} {e : Ev} {a : Ans} (h : s.next < 4294967296) (hs : act s e = some (some (s', a))) :
    s'.next < 4294967296 := by
  have hr : ∀ {used : List Nat} {fuel n num next : Nat}, reserveFrom used fuel n = some (num, next) → next < 4294967296 := by
    intro used fuel
    induction fuel with
    | zero => intro n num next h; cases h
    | succ f ih =>
      intro n num next h
      unfold reserveFrom at h
      split at h
      · exact ih h
      · split at h
        · exact ih h
        · cases h; exact Nat.mod_lt _ (by omega)
  cases e with
  | «open» n w =>
    unfold act at hs; dsimp only at hs
    split at hs
    · cases hs; exact h
    · split at hs
      · split at hs
        · cases hs
        · cases hs; exact h
      · split at hs
        · cases hs
        · next num next hq =>
          have hn : next < 4294967296 := by
            cases w with
            | none => exact hr hq
            | some x => cases hq; exact h
          split at hs
          · cases hs
          · split at hs
            · split at hs
              · cases hs
              · cases hs; exact hn
            · cases hs; exact hn
  | create n i => unfold act at hs; dsimp only at hs; split at hs <;> cases hs; exact h
  | put num k v => unfold act at hs; dsimp only at hs; split at hs <;> cases hs; exact h
  | get num k =>
    unfold act at hs; dsimp only at hs
    split at hs
    · split at hs <;> (cases hs; exact h)
    · cases hs
  | drop num k => unfold act at hs; dsimp only at hs; split at hs <;> cases hs; exact h
  | mark num =>
    unfold act at hs; dsimp only at hs
    split at hs
    · split at hs <;> cases hs; exact h
    · cases hs
  | close num =>
    unfold act at hs; dsimp only at hs
    split at hs
    · split at hs
      · split at hs <;> cases hs; exact h
      · split at hs <;> (cases hs; exact h)
    · cases hs
  | rollbackLoad n =>
    unfold act at hs; dsimp only at hs
    split at hs
    · split at hs <;> cases hs; exact h
    · cases hs; exact h
  | evBegin i =>
    unfold act at hs; dsimp only at hs
    split at hs
    · split at hs <;> cases hs; exact h
    · cases hs
  | evEnd =>
    unfold act at hs; dsimp only at hs
    split at hs
    · split at hs <;> (cases hs; exact h)
    · cases hs
  | shutdown => unfold act at hs; dsimp only at hs; split at hs <;> cases hs; exact h

theorem run_next {es : List Ev} : ∀ {s s' : S} {as : List Ans}, s.next < 4294967296 →
    run s es = some (some (s', as)) → s'.next < 4294967296 := by
  induction es with
  | nil => intro s s' as h hr; cases hr; exact h
  | cons e es ih =>
    intro s s' as h hr
    unfold run at hr
    split at hr
    · cases hr
    · cases hr
    · next s1 a hs =>
      split at hr
      · next r as' hr' => cases hr; exact ih (next_lt h hs) hr'
      · next hx => exact absurd hr (hx _ _)

/-- What the callers can always do. -/
theorem act_goes {b : Nat → Nat} {s : S} {t : T} (h : Sim b s t) (hn : s.next < 4294967296) :
    (∀ num k v, t.handle num ≠ none → act s (.put num k v) ≠ none ∧ act s (.get num k) ≠ none ∧ act s (.drop num k) ≠ none ∧
      act s (.mark num) ≠ none ∧ act s (.close num) ≠ none) ∧
    (s.used.length + 1 < 4294967296 → ∀ n w, act s (.open n w) ≠ none) ∧
    (∀ n, act s (.rollbackLoad n) ≠ none) := by
  refine ⟨?_, ?_, ?_⟩
  · intro num k v hh
    obtain ⟨c, hc⟩ := h.byNum hh
    unfold act
    simp only [hc]
    refine ⟨by simp, ?_, by simp, ?_, ?_⟩
    · split <;> simp
    · split <;> simp
    · split
      · split <;> simp
      · split <;> simp
  · intro hl n w
    unfold act
    dsimp only
    split
    · simp
    · split
      · split <;> simp
      · split
        · next hr =>
          cases w with
          | some x => cases hr
          | none => exact absurd hr (reserve_ok hn hl)
        · split
          · simp
          · split
            · split <;> simp
            · simp
  · intro n
    unfold act
    dsimp only
    split
    · split <;> simp
    · simp

end Verif.Stale
