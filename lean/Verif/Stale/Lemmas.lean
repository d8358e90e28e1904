import Verif.Stale.Spec

/-! # Lemmas on closed and reopened files -/

namespace Verif.Stale

theorem upd_same {β : Type} (f : Nat → β) (a : Nat) (x : β) : upd f a x a = x := by simp [upd]
theorem upd_ne {β : Type} {f : Nat → β} {a y : Nat} {x : β} (h : y ≠ a) : upd f a x y = f y := by simp [upd, h]
theorem upd_self {β : Type} (f : Nat → β) (a : Nat) : upd f a (f a) = f := by
  funext x; unfold upd; split
  · next h => rw [h]
  · rfl

theorem map_inj {α β : Type} {f : α → β} : ∀ {l : List α} {a b : α}, (l.map f).Nodup → a ∈ l → b ∈ l → f a = f b → a = b
  | x :: l, a, b, h, ha, hb, e => by
    rw [List.map_cons, List.nodup_cons] at h
    rcases List.mem_cons.mp ha with rfl | ha' <;> rcases List.mem_cons.mp hb with rfl | hb'
    · rfl
    · exact absurd (List.mem_map.mpr ⟨b, hb', e.symm⟩) h.1
    · exact absurd (List.mem_map.mpr ⟨a, ha', e⟩ : f _ ∈ l.map f) h.1
    · exact map_inj h.2 ha' hb' e

theorem nameOf_mem {dir : List (Nat × Nat)} {n i : Nat} (h : nameOf dir n = some i) : (n, i) ∈ dir := by
  unfold nameOf at h
  cases hf : dir.find? (fun p => p.1 == n) with
  | none => rw [hf] at h; cases h
  | some p =>
    rw [hf] at h
    cases h
    have h1 := List.mem_of_find?_eq_some hf
    have h2 := List.find?_some hf
    have : p.1 = n := by simpa using h2
    rw [← this]; exact h1

theorem nameOf_none {dir : List (Nat × Nat)} {n : Nat} (h : nameOf dir n = none) : ∀ p ∈ dir, p.1 ≠ n := by
  unfold nameOf at h
  rw [Option.map_eq_none_iff, List.find?_eq_none] at h
  intro p hp e
  exact h p hp (by simpa using e)

theorem mem_nameOf {dir : List (Nat × Nat)} {n i : Nat} (hn : (dir.map (·.1)).Nodup) (h : (n, i) ∈ dir) :
    nameOf dir n = some i := by
  cases hx : nameOf dir n with
  | none => exact absurd rfl (nameOf_none hx _ h)
  | some j =>
    have := map_inj hn h (nameOf_mem hx) rfl
    cases this; rfl

theorem nameOf_filter (dir : List (Nat × Nat)) (n m : Nat) :
    nameOf (dir.filter (fun p => p.1 != m)) n = if n = m then none else nameOf dir n := by
  induction dir with
  | nil => unfold nameOf; simp
  | cons p l ih =>
    unfold nameOf at *
    rw [List.filter_cons]
    split
    · next h =>
      rw [List.find?_cons, List.find?_cons]
      split
      · next e =>
        have e1 : p.1 = n := by simpa using e
        have h1 : p.1 ≠ m := by simpa using h
        rw [if_neg (by omega)]
      · exact ih
    · next h =>
      have h1 : p.1 = m := by simpa using h
      rw [ih]
      split
      · rfl
      · next hne =>
        rw [List.find?_cons]
        have : (p.1 == n) = false := by simp; omega
        rw [this]

/-- The pages of an open file against the disk and the contents. -/
structure AOk (sc tc : Nat → Nat) (pages : List Page) : Prop where
  val : ∀ p ∈ pages, p.val = tc p.key
  clean : ∀ p ∈ pages, p.dirty = false → sc p.key = p.val
  rest : ∀ k, (∀ p ∈ pages, p.key ≠ k) → sc k = tc k

theorem flush_ok {sc tc : Nat → Nat} {pages : List Page} (h : AOk sc tc pages) (k : Nat) : flush sc pages k = tc k := by
  unfold flush
  split
  · next p hf =>
    have hm := List.mem_of_find?_eq_some hf
    have hk : p.key = k := by have := List.find?_some hf; simpa using this
    split
    · rw [h.val p hm, hk]
    · next hd =>
      rw [← hk, h.clean p hm (by simpa using hd), h.val p hm]
  · next hf =>
    refine h.rest k (fun p hp e => ?_)
    exact List.find?_eq_none.mp hf p hp (by simpa using e)

structure Sim (b : Nat → Nat) (s : S) (t : T) : Prop where
  dirEq : ∀ n, t.dir n = (nameOf s.dir n).map b
  names : (s.dir.map (·.1)).Nodup
  inos : (s.dir.map (·.2)).Nodup
  young : ∀ p ∈ s.dir, b p.2 < t.fresh
  binj : ∀ p ∈ s.dir, ∀ q ∈ s.dir, b p.2 = b q.2 → p.2 = q.2
  linked : ∀ c ∈ s.active, (c.name, c.ino) ∈ s.dir
  nums : (s.active.map Cf.num).Nodup
  aino : (s.active.map Cf.ino).Nodup
  notNone : ∀ c ∈ s.active, c.num ≠ none32
  handles : ∀ c ∈ s.active, t.handle c.num = some (c.name, b c.ino)
  back : ∀ n x, t.handle n = some x → ∃ c ∈ s.active, c.num = n
  doom : ∀ c ∈ s.active, t.doomed c.num = c.unlink
  stinos : (s.stale.map Cf.ino).Nodup
  sep : ∀ c ∈ s.stale, ∀ d ∈ s.active, c.ino ≠ d.ino
  slinked : ∀ c ∈ s.stale, ∃ n, (n, c.ino) ∈ s.dir
  sun : ∀ c ∈ s.stale, c.unlink = false ∧ c.pages ≠ []
  apage : ∀ c ∈ s.active, AOk (s.content c.ino) (t.content (b c.ino)) c.pages
  spage : ∀ c ∈ s.stale, ∀ p ∈ c.pages, p.val = t.content (b c.ino) p.key ∧ p.dirty = false
  disk : ∀ p ∈ s.dir, (∀ c ∈ s.active, c.ino ≠ p.2) → ∀ k, s.content p.2 k = t.content (b p.2) k

theorem sim_start : Sim (fun _ => 0) start T.start := by
  refine ⟨fun _ => rfl, List.nodup_nil, List.nodup_nil, ?_, ?_, ?_, List.nodup_nil, List.nodup_nil, ?_, ?_, ?_, ?_,
    List.nodup_nil, ?_, ?_, ?_, ?_, ?_, ?_⟩
  case refine_6 => intro n x hx; cases hx
  all_goals intro x hx; cases hx

theorem byNum_mem {s : S} {num : Nat} {c : Cf} (h : s.byNum num = some c) : c ∈ s.active ∧ c.num = num := by
  unfold S.byNum at h
  refine ⟨List.mem_of_find?_eq_some h, ?_⟩
  have := List.find?_some h
  simpa using this

theorem mem_change {s : S} {num : Nat} {g : Cf → Cf} {c' : Cf} (h : c' ∈ (s.change num g).active) :
    ∃ c ∈ s.active, (c.num = num ∧ c' = g c) ∨ (c.num ≠ num ∧ c' = c) := by
  obtain ⟨c, hc, e⟩ := List.mem_map.mp h
  refine ⟨c, hc, ?_⟩
  split at e
  · next hn => exact Or.inl ⟨hn, e.symm⟩
  · next hn => exact Or.inr ⟨hn, e.symm⟩

theorem change_map {β : Type} {s : S} {num : Nat} {g : Cf → Cf} (f : Cf → β) (hg : ∀ c, f (g c) = f c) :
    (s.change num g).active.map f = s.active.map f := by
  show (s.active.map _).map f = _
  rw [List.map_map]
  apply List.map_congr_left
  intro c _
  show f (if c.num = num then g c else c) = f c
  split
  · exact hg c
  · rfl

theorem change_mem {s : S} {num : Nat} {g : Cf → Cf} {c : Cf} (h : c ∈ s.active) :
    (if c.num = num then g c else c) ∈ (s.change num g).active :=
  List.mem_map.mpr ⟨c, h, rfl⟩

/-- The pages of one open file change, with the disk and the contents of that file. -/
theorem sim_pages {b : Nat → Nat} {s : S} {t : T} {num : Nat} {c0 : Cf} {g : Cf → Cf} {sc tc : Nat → Nat}
    (h : Sim b s t) (h0 : c0 ∈ s.active) (hnum : c0.num = num)
    (hg : ∀ c, (g c).num = c.num ∧ (g c).ino = c.ino ∧ (g c).name = c.name ∧ (g c).unlink = c.unlink)
    (hok : AOk sc tc (g c0).pages) :
    Sim b { (s.change num g) with content := upd s.content c0.ino sc } { t with content := upd t.content (b c0.ino) tc } := by
  have uniq : ∀ c ∈ s.active, c.num = num → c = c0 := fun c hc e => map_inj h.nums hc h0 (e.trans hnum.symm)
  have inj : ∀ i j n m, (n, i) ∈ s.dir → (m, j) ∈ s.dir → b i = b j → i = j :=
    fun i j n m hi hj e => h.binj _ hi _ hj e
  have h0l := h.linked c0 h0
  refine ⟨h.dirEq, h.names, h.inos, h.young, h.binj, ?_, ?_, ?_, ?_, ?_, ?_, ?_, h.stinos, ?_, h.slinked, h.sun, ?_, ?_, ?_⟩
  · intro c' hc'
    obtain ⟨c, hc, ⟨_, rfl⟩ | ⟨_, rfl⟩⟩ := mem_change hc'
    · rw [(hg c).2.2.1, (hg c).2.1]; exact h.linked c hc
    · exact h.linked c' hc
  · show ((s.change num g).active.map Cf.num).Nodup
    rw [change_map Cf.num (fun c => (hg c).1)]; exact h.nums
  · show ((s.change num g).active.map Cf.ino).Nodup
    rw [change_map Cf.ino (fun c => (hg c).2.1)]; exact h.aino
  · intro c' hc'
    obtain ⟨c, hc, ⟨_, rfl⟩ | ⟨_, rfl⟩⟩ := mem_change hc'
    · rw [(hg c).1]; exact h.notNone c hc
    · exact h.notNone c' hc
  · intro c' hc'
    obtain ⟨c, hc, ⟨_, rfl⟩ | ⟨_, rfl⟩⟩ := mem_change hc'
    · rw [(hg c).1, (hg c).2.1, (hg c).2.2.1]; exact h.handles c hc
    · exact h.handles c' hc
  · intro n x hx
    obtain ⟨c, hc, e⟩ := h.back n x hx
    refine ⟨_, change_mem hc, ?_⟩
    split
    · rw [(hg c).1]; exact e
    · exact e
  · intro c' hc'
    obtain ⟨c, hc, ⟨_, rfl⟩ | ⟨_, rfl⟩⟩ := mem_change hc'
    · rw [(hg c).1, (hg c).2.2.2]; exact h.doom c hc
    · exact h.doom c' hc
  · intro c hc d' hd'
    obtain ⟨d, hd, ⟨_, rfl⟩ | ⟨_, rfl⟩⟩ := mem_change hd'
    · rw [(hg d).2.1]; exact h.sep c hc d hd
    · exact h.sep c hc d' hd
  · intro c' hc'
    show AOk (upd s.content c0.ino sc c'.ino) (upd t.content (b c0.ino) tc (b c'.ino)) c'.pages
    obtain ⟨c, hc, ⟨e, rfl⟩ | ⟨e, rfl⟩⟩ := mem_change hc'
    · have := uniq c hc e
      subst this
      rw [(hg c).2.1, upd_same, upd_same]; exact hok
    · have hne : c'.ino ≠ c0.ino := by
        intro x
        have := map_inj h.aino hc h0 x
        rw [this] at e; exact e hnum
      have hbne : b c'.ino ≠ b c0.ino := fun x => hne (inj _ _ _ _ (h.linked c' hc) h0l x)
      rw [upd_ne hne, upd_ne hbne]; exact h.apage c' hc
  · intro c hc p hp
    show p.val = upd t.content (b c0.ino) tc (b c.ino) p.key ∧ _
    obtain ⟨n, hn⟩ := h.slinked c hc
    have hbne : b c.ino ≠ b c0.ino := fun x => h.sep c hc c0 h0 (inj _ _ _ _ hn h0l x)
    rw [upd_ne hbne]; exact h.spage c hc p hp
  · intro p hp hfree k
    have hne : p.2 ≠ c0.ino := by
      intro x
      have := hfree _ (change_mem (num := num) (g := g) h0)
      rw [if_pos hnum, (hg c0).2.1] at this
      exact this x.symm
    have hbne : b p.2 ≠ b c0.ino := fun x => hne (h.binj p hp _ h0l x)
    show upd s.content c0.ino sc p.2 k = upd t.content (b c0.ino) tc (b p.2) k
    rw [upd_ne hne, upd_ne hbne]
    refine h.disk p hp (fun c hc e => ?_) k
    have := hfree _ (change_mem (num := num) (g := g) hc)
    split at this
    · rw [(hg c).2.1] at this; exact this e
    · exact this e

theorem sim_mark {b : Nat → Nat} {s : S} {t : T} {num : Nat} (h : Sim b s t) :
    Sim b (s.change num (fun c => { c with unlink := true })) { t with doomed := upd t.doomed num true } := by
  refine ⟨h.dirEq, h.names, h.inos, h.young, h.binj, ?_, ?_, ?_, ?_, ?_, ?_, ?_, h.stinos, ?_, h.slinked, h.sun, ?_, h.spage, ?_⟩
  · intro c' hc'
    obtain ⟨c, hc, ⟨_, rfl⟩ | ⟨_, rfl⟩⟩ := mem_change hc'
    · exact h.linked c hc
    · exact h.linked c' hc
  · rw [change_map (g := fun c => { c with unlink := true }) Cf.num (fun _ => rfl)]; exact h.nums
  · rw [change_map (g := fun c => { c with unlink := true }) Cf.ino (fun _ => rfl)]; exact h.aino
  · intro c' hc'
    obtain ⟨c, hc, ⟨_, rfl⟩ | ⟨_, rfl⟩⟩ := mem_change hc'
    · exact h.notNone c hc
    · exact h.notNone c' hc
  · intro c' hc'
    obtain ⟨c, hc, ⟨_, rfl⟩ | ⟨_, rfl⟩⟩ := mem_change hc'
    · exact h.handles c hc
    · exact h.handles c' hc
  · intro n x hx
    obtain ⟨c, hc, e⟩ := h.back n x hx
    refine ⟨_, change_mem hc, ?_⟩
    split <;> exact e
  · intro c' hc'
    show upd t.doomed num true c'.num = c'.unlink
    obtain ⟨c, hc, ⟨e, rfl⟩ | ⟨e, rfl⟩⟩ := mem_change hc'
    · show upd t.doomed num true c.num = true
      rw [e, upd_same]
    · rw [upd_ne e]; exact h.doom c' hc
  · intro c hc d' hd'
    obtain ⟨d, hd, ⟨_, rfl⟩ | ⟨_, rfl⟩⟩ := mem_change hd'
    · exact h.sep c hc d hd
    · exact h.sep c hc d' hd
  · intro c' hc'
    obtain ⟨c, hc, ⟨_, rfl⟩ | ⟨_, rfl⟩⟩ := mem_change hc'
    · exact h.apage c hc
    · exact h.apage c' hc
  · intro p hp hfree k
    refine h.disk p hp (fun c hc e => ?_) k
    have := hfree _ (change_mem (num := num) (g := fun c => { c with unlink := true }) hc)
    split at this <;> exact this e

theorem sim_create {b : Nat → Nat} {s : S} {t : T} {n i : Nat} (h : Sim b s t)
    (hd : ∀ p ∈ s.dir, p.1 ≠ n ∧ p.2 ≠ i) (ha : ∀ c ∈ s.active, c.ino ≠ i) :
    Sim (upd b i t.fresh) { s with dir := (n, i) :: s.dir, content := upd s.content i (fun _ => 0) }
      { t with dir := upd t.dir n (some t.fresh), content := upd t.content t.fresh (fun _ => 0), fresh := t.fresh + 1 } := by
  have hold : ∀ p ∈ s.dir, upd b i t.fresh p.2 = b p.2 := fun p hp => upd_ne (hd p hp).2
  have hyn : ∀ p ∈ s.dir, b p.2 ≠ t.fresh := fun p hp => by have := h.young p hp; omega
  have hact : ∀ c ∈ s.active, upd b i t.fresh c.ino = b c.ino := fun c hc => upd_ne (ha c hc)
  have hst : ∀ c ∈ s.stale, c.ino ≠ i := by
    intro c hc
    obtain ⟨m, hm⟩ := h.slinked c hc
    exact (hd _ hm).2
  refine ⟨?_, ?_, ?_, ?_, ?_, ?_, h.nums, h.aino, h.notNone, ?_, h.back, h.doom, h.stinos, h.sep, ?_, h.sun, ?_, ?_, ?_⟩
  · intro m
    show upd t.dir n (some t.fresh) m = (nameOf ((n, i) :: s.dir) m).map _
    unfold nameOf
    rw [List.find?_cons]
    by_cases e : m = n
    · subst e
      rw [upd_same]
      simp [upd_same]
    · rw [upd_ne e]
      have : ((n, i).1 == m) = false := by simp; omega
      rw [this]
      have hm := h.dirEq m
      unfold nameOf at hm
      rw [hm]
      cases hf : s.dir.find? (fun p => p.1 == m) with
      | none => rfl
      | some p =>
        show some (b p.2) = some (upd b i t.fresh p.2)
        rw [hold p (List.mem_of_find?_eq_some hf)]
  · rw [List.map_cons, List.nodup_cons]
    refine ⟨?_, h.names⟩
    intro hm
    obtain ⟨p, hp, e⟩ := List.mem_map.mp hm
    exact (hd p hp).1 e
  · rw [List.map_cons, List.nodup_cons]
    refine ⟨?_, h.inos⟩
    intro hm
    obtain ⟨p, hp, e⟩ := List.mem_map.mp hm
    exact (hd p hp).2 e
  · intro p hp
    show upd b i t.fresh p.2 < t.fresh + 1
    rcases List.mem_cons.mp hp with rfl | hp
    · rw [upd_same]; omega
    · rw [hold p hp]; have := h.young p hp; omega
  · intro p hp q hq e
    rcases List.mem_cons.mp hp with rfl | hp <;> rcases List.mem_cons.mp hq with rfl | hq
    · rfl
    · rw [upd_same, hold q hq] at e; exact absurd e.symm (hyn q hq)
    · rw [upd_same, hold p hp] at e; exact absurd e (hyn p hp)
    · rw [hold p hp, hold q hq] at e; exact h.binj p hp q hq e
  · intro c hc; exact List.mem_cons_of_mem _ (h.linked c hc)
  · intro c hc
    rw [hact c hc]; exact h.handles c hc
  · intro c hc
    obtain ⟨m, hm⟩ := h.slinked c hc
    exact ⟨m, List.mem_cons_of_mem _ hm⟩
  · intro c hc
    show AOk (upd s.content i _ c.ino) (upd t.content t.fresh _ (upd b i t.fresh c.ino)) c.pages
    rw [hact c hc, upd_ne (ha c hc), upd_ne (hyn _ (h.linked c hc))]
    exact h.apage c hc
  · intro c hc p hp
    show p.val = upd t.content t.fresh _ (upd b i t.fresh c.ino) p.key ∧ _
    obtain ⟨m, hm⟩ := h.slinked c hc
    rw [upd_ne (hst c hc), upd_ne (hyn _ hm)]
    exact h.spage c hc p hp
  · intro p hp hfree k
    show upd s.content i _ p.2 k = upd t.content t.fresh _ (upd b i t.fresh p.2) k
    rcases List.mem_cons.mp hp with rfl | hp
    · rw [upd_same, upd_same, upd_same]
    · rw [upd_ne (hd p hp).2, hold p hp, upd_ne (hyn p hp)]
      exact h.disk p hp hfree k

/-- A file is opened that was not open: from the list of stale ones, or new. -/
theorem sim_open {b : Nat → Nat} {s s' : S} {t : T} {n i num : Nat} {c : Cf} (h : Sim b s t) (hn : (n, i) ∈ s.dir)
    (hfree : ∀ d ∈ s.active, d.ino ≠ i) (h32 : num ≠ none32) (hu : num ∉ s.used)
    (hdir : s'.dir = s.dir) (hcont : s'.content = s.content) (hact : s'.active = c :: s.active)
    (hst : s'.stale = s.stale.filter (fun d => d.ino != i))
    (c1 : c.ino = i) (c2 : c.num = num) (c3 : c.name = n) (c4 : c.unlink = false)
    (c5 : ∀ p ∈ c.pages, p.val = t.content (b i) p.key ∧ p.dirty = false) :
    Sim b s' { t with handle := upd t.handle num (some (n, b i)), doomed := upd t.doomed num false } := by
  have hnum : ∀ d ∈ s.active, d.num ≠ num := fun d hd e => hu (List.mem_map.mpr ⟨d, hd, e⟩)
  have hdisk := h.disk (n, i) hn hfree
  have stsub : ∀ d ∈ s'.stale, d ∈ s.stale ∧ d.ino ≠ i := by
    intro d hd
    rw [hst] at hd
    obtain ⟨x, y⟩ := List.mem_filter.mp hd
    exact ⟨x, by simpa using y⟩
  refine ⟨?_, ?_, ?_, ?_, ?_, ?_, ?_, ?_, ?_, ?_, ?_, ?_, ?_, ?_, ?_, ?_, ?_, ?_, ?_⟩
  · rw [hdir]; exact h.dirEq
  · rw [hdir]; exact h.names
  · rw [hdir]; exact h.inos
  · rw [hdir]; exact h.young
  · rw [hdir]; exact h.binj
  · rw [hdir, hact]
    intro d hd
    rcases List.mem_cons.mp hd with rfl | hd
    · rw [c3, c1]; exact hn
    · exact h.linked d hd
  · rw [hact, List.map_cons, List.nodup_cons, c2]; exact ⟨hu, h.nums⟩
  · rw [hact, List.map_cons, List.nodup_cons, c1]
    refine ⟨?_, h.aino⟩
    intro hm
    obtain ⟨d, hd, e⟩ := List.mem_map.mp hm
    exact hfree d hd e
  · rw [hact]
    intro d hd
    rcases List.mem_cons.mp hd with rfl | hd
    · rw [c2]; exact h32
    · exact h.notNone d hd
  · rw [hact]
    intro d hd
    show upd t.handle num _ d.num = _
    rcases List.mem_cons.mp hd with rfl | hd
    · rw [c2, upd_same, c3, c1]
    · rw [upd_ne (hnum d hd)]; exact h.handles d hd
  · rw [hact]
    intro m x hx
    have hx' : upd t.handle num (some (n, b i)) m = some x := hx
    by_cases e : m = num
    · exact ⟨c, List.mem_cons_self, by rw [c2, e]⟩
    · rw [upd_ne e] at hx'
      obtain ⟨d, hd, e⟩ := h.back m x hx'
      exact ⟨d, List.mem_cons_of_mem _ hd, e⟩
  · rw [hact]
    intro d hd
    show upd t.doomed num _ d.num = _
    rcases List.mem_cons.mp hd with rfl | hd
    · rw [c2, upd_same, c4]
    · rw [upd_ne (hnum d hd)]; exact h.doom d hd
  · rw [hst]
    exact List.Nodup.sublist (List.Sublist.map _ List.filter_sublist) h.stinos
  · rw [hact]
    intro d hd e he
    rcases List.mem_cons.mp he with rfl | he
    · rw [c1]; exact (stsub d hd).2
    · exact h.sep d (stsub d hd).1 e he
  · rw [hdir]; intro d hd; exact h.slinked d (stsub d hd).1
  · intro d hd; exact h.sun d (stsub d hd).1
  · rw [hact, hcont]
    intro d hd
    rcases List.mem_cons.mp hd with rfl | hd
    · rw [c1]
      refine ⟨fun p hp => (c5 p hp).1, fun p hp _ => ?_, fun k _ => hdisk k⟩
      rw [(c5 p hp).1]; exact hdisk p.key
    · exact h.apage d hd
  · intro d hd; exact h.spage d (stsub d hd).1
  · rw [hdir, hact, hcont]
    intro p hp hf
    exact h.disk p hp (fun d hd => hf d (List.mem_cons_of_mem _ hd))

/-- A file is closed. -/
theorem sim_close {b : Nat → Nat} {s s' : S} {t : T} {num : Nat} {c : Cf} (h : Sim b s t) (hc : c ∈ s.active)
    (hcn : c.num = num) (hcont : s'.content = upd s.content c.ino (flush (s.content c.ino) c.pages))
    (hact : s'.active = s.active.filter (fun d => d.num != num))
    (hcase : (c.unlink = true ∧ s'.dir = s.dir.filter (fun p => p.1 != c.name) ∧ s'.stale = s.stale) ∨
      (c.unlink = false ∧ s'.dir = s.dir ∧ (s'.stale = s.stale ∨
        (c.pages ≠ [] ∧ s'.stale = { c with num := none32, pages := c.pages.map Page.clean } :: s.stale)))) :
    Sim b s' { t with handle := upd t.handle num none, dir := if t.doomed num then upd t.dir c.name none else t.dir } := by
  have hcl := h.linked c hc
  have hok := h.apage c hc
  have hdm : t.doomed num = c.unlink := by rw [← hcn]; exact h.doom c hc
  have asub : ∀ d ∈ s'.active, d ∈ s.active ∧ d.num ≠ num := by
    intro d hd
    rw [hact] at hd
    obtain ⟨x, y⟩ := List.mem_filter.mp hd
    exact ⟨x, by simpa using y⟩
  have aback : ∀ d ∈ s.active, d.num ≠ num → d ∈ s'.active := by
    intro d hd e
    rw [hact]
    exact List.mem_filter.mpr ⟨hd, by simpa using e⟩
  have ane : ∀ d ∈ s'.active, d.ino ≠ c.ino := by
    intro d hd e
    have := map_inj h.aino (asub d hd).1 hc e
    exact (asub d hd).2 (by rw [this]; exact hcn)
  have dsub : ∀ p ∈ s'.dir, p ∈ s.dir := by
    intro p hp
    rcases hcase with ⟨_, x, _⟩ | ⟨_, x, _⟩
    · rw [x] at hp; exact (List.mem_filter.mp hp).1
    · rw [x] at hp; exact hp
  have dkeep : ∀ p ∈ s.dir, p.2 ≠ c.ino → p ∈ s'.dir := by
    intro p hp hne
    rcases hcase with ⟨_, x, _⟩ | ⟨_, x, _⟩
    · rw [x]
      refine List.mem_filter.mpr ⟨hp, ?_⟩
      have : p.1 ≠ c.name := by
        intro e
        have := map_inj h.names hp hcl e
        rw [this] at hne; exact hne rfl
      simpa using this
    · rw [x]; exact hp
  have stsub : ∀ d ∈ s'.stale, d ∈ s.stale ∨ (c.unlink = false ∧ c.pages ≠ [] ∧ s'.dir = s.dir ∧
      d = { c with num := none32, pages := c.pages.map Page.clean }) := by
    intro d hd
    rcases hcase with ⟨_, _, x⟩ | ⟨y, z, x | ⟨w, x⟩⟩
    · rw [x] at hd; exact Or.inl hd
    · rw [x] at hd; exact Or.inl hd
    · rw [x] at hd
      rcases List.mem_cons.mp hd with e | e
      · exact Or.inr ⟨y, w, z, e⟩
      · exact Or.inl e
  refine ⟨?_, ?_, ?_, fun p hp => h.young p (dsub p hp), fun p hp q hq => h.binj p (dsub p hp) q (dsub q hq), ?_, ?_, ?_,
    fun d hd => h.notNone d (asub d hd).1, ?_, ?_, fun d hd => h.doom d (asub d hd).1, ?_, ?_, ?_, ?_, ?_, ?_, ?_⟩
  · intro m
    show (if t.doomed num then upd t.dir c.name none else t.dir) m = _
    rw [hdm]
    rcases hcase with ⟨x, y, _⟩ | ⟨x, y, _⟩
    · rw [x, y, nameOf_filter]
      simp only [if_true]
      by_cases e : m = c.name
      · rw [e, upd_same]; simp
      · rw [upd_ne e, if_neg e]; exact h.dirEq m
    · rw [x, y]; exact h.dirEq m
  · rcases hcase with ⟨_, y, _⟩ | ⟨_, y, _⟩
    · rw [y]; exact List.Nodup.sublist (List.Sublist.map _ List.filter_sublist) h.names
    · rw [y]; exact h.names
  · rcases hcase with ⟨_, y, _⟩ | ⟨_, y, _⟩
    · rw [y]; exact List.Nodup.sublist (List.Sublist.map _ List.filter_sublist) h.inos
    · rw [y]; exact h.inos
  · intro d hd; exact dkeep _ (h.linked d (asub d hd).1) (ane d hd)
  · rw [hact]; exact List.Nodup.sublist (List.Sublist.map _ List.filter_sublist) h.nums
  · rw [hact]; exact List.Nodup.sublist (List.Sublist.map _ List.filter_sublist) h.aino
  · intro d hd
    show upd t.handle num none d.num = _
    rw [upd_ne (asub d hd).2]; exact h.handles d (asub d hd).1
  · intro m x hx
    have hx' : upd t.handle num none m = some x := hx
    by_cases e : m = num
    · rw [e, upd_same] at hx'; cases hx'
    · rw [upd_ne e] at hx'
      obtain ⟨d, hd, e'⟩ := h.back m x hx'
      exact ⟨d, aback d hd (by rw [e']; exact e), e'⟩
  · rcases hcase with ⟨_, _, x⟩ | ⟨_, _, x | ⟨_, x⟩⟩
    · rw [x]; exact h.stinos
    · rw [x]; exact h.stinos
    · rw [x, List.map_cons, List.nodup_cons]
      refine ⟨?_, h.stinos⟩
      intro hm
      obtain ⟨d, hd, e⟩ := List.mem_map.mp hm
      exact h.sep d hd c hc e
  · intro d hd e he
    rcases stsub d hd with hd | ⟨_, _, _, rfl⟩
    · exact h.sep d hd e (asub e he).1
    · exact fun x => ane e he x.symm
  · intro d hd
    rcases stsub d hd with hd | ⟨_, _, x, rfl⟩
    · obtain ⟨m, hm⟩ := h.slinked d hd
      exact ⟨m, dkeep _ hm (h.sep d hd c hc)⟩
    · exact ⟨c.name, by rw [x]; exact hcl⟩
  · intro d hd
    rcases stsub d hd with hd | ⟨x, y, _, rfl⟩
    · exact h.sun d hd
    · exact ⟨x, by simpa using y⟩
  · intro d hd
    rw [hcont, upd_ne (ane d hd)]; exact h.apage d (asub d hd).1
  · intro d hd p hp
    rcases stsub d hd with hd | ⟨x, y, _, rfl⟩
    · exact h.spage d hd p hp
    · obtain ⟨q, hq, rfl⟩ := List.mem_map.mp hp
      exact ⟨hok.val q hq, rfl⟩
  · intro p hp hf k
    rw [hcont]
    by_cases e : p.2 = c.ino
    · rw [e, upd_same]; exact flush_ok hok k
    · rw [upd_ne e]
      refine h.disk p (dsub p hp) (fun d hd => ?_) k
      by_cases e' : d.num = num
      · have := map_inj h.nums hd hc (e'.trans hcn.symm)
        rw [this]; exact fun x => e x.symm
      · exact hf d (aback d hd e')

/-- A name goes away whose file is neither open nor in memory. -/
theorem sim_unlink {b : Nat → Nat} {s : S} {t : T} {n : Nat} (h : Sim b s t)
    (hna : ∀ c ∈ s.active, c.name ≠ n) (hst : ∀ i, (n, i) ∈ s.dir → ∀ c ∈ s.stale, c.ino ≠ i) :
    Sim b { s with dir := s.dir.filter (fun p => p.1 != n) } { t with dir := upd t.dir n none } := by
  have dsub : ∀ p ∈ s.dir.filter (fun p => p.1 != n), p ∈ s.dir := fun p hp => (List.mem_filter.mp hp).1
  have dkeep : ∀ p ∈ s.dir, p.1 ≠ n → p ∈ s.dir.filter (fun p => p.1 != n) :=
    fun p hp hne => List.mem_filter.mpr ⟨hp, by simpa using hne⟩
  refine ⟨?_, List.Nodup.sublist (List.Sublist.map _ List.filter_sublist) h.names,
    List.Nodup.sublist (List.Sublist.map _ List.filter_sublist) h.inos, fun p hp => h.young p (dsub p hp),
    fun p hp q hq => h.binj p (dsub p hp) q (dsub q hq), fun c hc => dkeep _ (h.linked c hc) (hna c hc), h.nums, h.aino,
    h.notNone, h.handles, h.back, h.doom, h.stinos, h.sep, ?_, h.sun, h.apage, h.spage,
    fun p hp => h.disk p (dsub p hp)⟩
  · intro m
    show upd t.dir n none m = (nameOf (s.dir.filter _) m).map b
    rw [nameOf_filter]
    by_cases e : m = n
    · rw [e, upd_same]; simp
    · rw [upd_ne e, if_neg e]; exact h.dirEq m
  · intro c hc
    obtain ⟨m, hm⟩ := h.slinked c hc
    refine ⟨m, dkeep _ hm ?_⟩
    intro e
    have e' : m = n := e
    subst e'
    exact hst _ hm c hc rfl

theorem sim_stale {b : Nat → Nat} {s s' : S} {t : T} (h : Sim b s t) (h1 : s'.dir = s.dir) (h2 : s'.content = s.content)
    (h3 : s'.active = s.active) (hsub : (s'.stale.map Cf.ino).Sublist (s.stale.map Cf.ino))
    (hst : ∀ c ∈ s'.stale, c.pages ≠ [] ∧ ∃ d ∈ s.stale, c.ino = d.ino ∧ c.unlink = d.unlink ∧ ∀ p ∈ c.pages, p ∈ d.pages) :
    Sim b s' t := by
  refine ⟨by rw [h1]; exact h.dirEq, by rw [h1]; exact h.names, by rw [h1]; exact h.inos, by rw [h1]; exact h.young,
    by rw [h1]; exact h.binj, by rw [h1, h3]; exact h.linked, by rw [h3]; exact h.nums, by rw [h3]; exact h.aino,
    by rw [h3]; exact h.notNone, by rw [h3]; exact h.handles, by rw [h3]; exact h.back, by rw [h3]; exact h.doom,
    List.Nodup.sublist hsub h.stinos, ?_, ?_, ?_, by rw [h2, h3]; exact h.apage, ?_,
    by rw [h1, h2, h3]; exact h.disk⟩
  · rw [h3]
    intro c hc d hd
    obtain ⟨_, c', hc', e, _⟩ := hst c hc
    rw [e]; exact h.sep c' hc' d hd
  · rw [h1]
    intro c hc
    obtain ⟨_, c', hc', e, _⟩ := hst c hc
    rw [e]; exact h.slinked c' hc'
  · intro c hc
    obtain ⟨x, c', hc', _, e, _⟩ := hst c hc
    exact ⟨by rw [e]; exact (h.sun c' hc').1, x⟩
  · intro c hc p hp
    obtain ⟨_, c', hc', e, _, hp'⟩ := hst c hc
    rw [e]; exact h.spage c' hc' p (hp' p hp)

end Verif.Stale
