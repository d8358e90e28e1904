import Verif.Ahead.Spec

/-! # Lemmas on reading ahead -/

namespace Verif.Ahead

structure FInv (f : F) : Prop where
  content : f.orig = f.got ++ f.left
  busy : f.c ≠ .idle → f.buf0 = [] ∧ f.err0 = none
  asleep : ∀ w h, f.c = .sleeps w h → f.ready = false
  full : f.ready = true → (f.err1 = none ∧ f.buf1 ≠ [] ∧ f.ioDone = false) ∨
    (∃ c, f.err1 = some (.fail c) ∧ f.buf1 = [] ∧ f.ioDone = false) ∨
    (f.err1 = some .eof ∧ f.buf1 = [] ∧ f.rest = [] ∧ f.ioDone = true)
  fin : f.err0 = some .eof → f.buf0 = [] ∧ f.rest = [] ∧ f.ready = false ∧ f.ioDone = true
  done : f.ioDone = true → f.ready = false → f.err0 = some .eof

theorem wake_held (c : C) : c.wake.held = c.held := by cases c <;> rfl

theorem wake_inv {f : F} (h : FInv f) : FInv f.wake := by
  obtain ⟨h1, h2, h3, h4, h5, h6⟩ := h
  refine ⟨?_, ?_, ?_, h4, h5, h6⟩
  · show f.orig = f.got ++ (f.c.wake.held ++ f.buf0 ++ (if f.ready then f.buf1 else []) ++ f.rest)
    rw [wake_held]; exact h1
  · intro hc
    refine h2 (fun e => hc ?_)
    show f.c.wake = .idle
    rw [e]; rfl
  · intro w h hc
    have hc' : f.c.wake = .sleeps w h := hc
    cases hx : f.c <;> rw [hx] at hc' <;> cases hc'

/-- Files after a change of one, and maybe a broadcast. -/
theorem get_set {α : Type} {l : List α} {i j : Nat} {x y : α} (h : (l.set i x)[j]? = some y) :
    (j = i ∧ y = x) ∨ (j ≠ i ∧ l[j]? = some y) := by
  by_cases c : j = i
  · subst c
    left
    rw [List.getElem?_set] at h
    simp only [if_pos] at h
    split at h
    · cases h; exact ⟨rfl, rfl⟩
    · cases h
  · right
    rw [List.getElem?_set_ne (fun e => c e.symm)] at h
    exact ⟨c, h⟩

theorem get_wake {l : List F} {j : Nat} {y : F} (h : (l.map F.wake)[j]? = some y) :
    ∃ f, l[j]? = some f ∧ y = f.wake := by
  rw [List.getElem?_map] at h
  cases hl : l[j]? with
  | none => rw [hl] at h; cases h
  | some f => rw [hl] at h; cases h; exact ⟨f, rfl, rfl⟩

theorem set_get {α : Type} {l : List α} {i : Nat} {x y : α} (h : l[i]? = some y) : (l.set i x)[i]? = some x := by
  rw [List.getElem?_set]
  have : i < l.length := by
    rcases Nat.lt_or_ge i l.length with c | c
    · exact c
    · rw [List.getElem?_eq_none c] at h; cases h
  simp [this]

/-- Not marked ready and not read to the end. -/
def F.open (f : F) : Bool := !f.ready && !f.ioDone

theorem wake_open (f : F) : f.wake.open = f.open := rfl

structure Inv (s : S) : Prop where
  files : ∀ (i : Nat) (f : F), s.fs[i]? = some f → FInv f
  nodup : s.queue.Nodup
  queued : ∀ i : Nat, i ∈ s.queue → ∃ f, s.fs[i]? = some f ∧ f.open = true
  reading : ∀ i : Nat, s.io = .reading i → i ∉ s.queue ∧ ∃ f, s.fs[i]? = some f ∧ f.open = true
  place : ∀ (i : Nat) (f : F), s.fs[i]? = some f → f.open = true → i ∈ s.queue ∨ s.io = .reading i ∨ s.panic = true
  waiting : s.io = .waiting → s.queue = [] ∧ s.notDone ≠ 0 ∧ s.panic = false
  gone : s.io = .gone → s.panic = true ∨ s.notDone = 0

theorem consume_left {f : F} {want : Nat} {hv : List Nat} (hr : f.c.held = hv) :
    (f.consume want hv).1.got ++ (f.consume want hv).1.left = f.got ++ f.left := by
  unfold F.consume F.left
  rw [hr]
  split
  · next c =>
    simp only [C.held, List.nil_append]
    rw [List.append_assoc, List.append_assoc]
    congr 1
    rw [← List.append_assoc, ← List.append_assoc, ← List.append_assoc]
    conv => rhs; rw [← List.take_append_drop want f.buf0]
    simp only [List.append_assoc]
  · simp only [C.held, List.append_nil]

theorem consume_inv {f : F} {want : Nat} {hv : List Nat} (hr : f.c.held = hv)
    (he : f.err0 = none) (h : FInv { f with c := .idle, got := f.got ++ hv })
    : FInv (f.consume want hv).1 := by
  obtain ⟨h1, h2, h3, h4, h5, h6⟩ := h
  have hc : f.orig = f.got ++ f.left := by
    have : f.orig = (f.got ++ hv) ++ ([] ++ f.buf0 ++ (if f.ready then f.buf1 else []) ++ f.rest) := h1
    rw [this]; unfold F.left; rw [hr]; simp only [List.nil_append, List.append_assoc]
  have hl := consume_left (want := want) hr
  unfold F.consume at hl ⊢
  split
  · next c =>
    rw [if_pos c] at hl
    refine ⟨hc.trans hl.symm, fun x => absurd rfl x, fun w h x => (by cases x), h4, ?_, h6⟩
    intro x
    have x' : f.err0 = some .eof := x
    rw [he] at x'; cases x'
  · next c =>
    rw [if_neg c] at hl
    refine ⟨hc.trans hl.symm, fun _ => ⟨rfl, he⟩, fun w h x => (by cases x), h4, ?_, h6⟩
    intro x
    have x' : f.err0 = some .eof := x
    rw [he] at x'; cases x'

theorem consume_open (f : F) (want : Nat) (hv : List Nat) : (f.consume want hv).1.open = f.open := by
  unfold F.consume; split <;> rfl

/-- Putting back the bytes a reader holds. -/
theorem idle_inv {f : F} (h : FInv f) : FInv { f with c := .idle, got := f.got ++ f.c.held } := by
  obtain ⟨h1, h2, h3, h4, h5, h6⟩ := h
  refine ⟨?_, fun x => absurd rfl x, fun w h x => (by cases x), h4, h5, h6⟩
  show f.orig = (f.got ++ f.c.held) ++ ([] ++ f.buf0 ++ (if f.ready then f.buf1 else []) ++ f.rest)
  rw [h1]; unfold F.left; simp only [List.nil_append, List.append_assoc]

/-- After a swap. -/
theorem swap_inv {f : F} (h : FInv f) (hr : f.ready = true) (hb : f.c ≠ .idle) :
    FInv { f.swap with c := .idle, got := f.got ++ f.c.held } := by
  obtain ⟨h1, h2, h3, h4, h5, h6⟩ := h
  obtain ⟨b1, b2⟩ := h2 hb
  refine ⟨?_, fun x => absurd rfl x, fun w h x => (by cases x), fun x => (by cases x), ?_, ?_⟩
  · show f.orig = (f.got ++ f.c.held) ++ ([] ++ f.buf1 ++ [] ++ f.rest)
    rw [h1]; unfold F.left
    rw [b1, hr]
    simp only [if_true, List.nil_append, List.append_nil, List.append_assoc]
  · intro x
    have x' : f.err1 = some .eof := x
    rcases h4 hr with ⟨y, _⟩ | ⟨c, y, _⟩ | ⟨_, y1, y2, y3⟩
    · rw [y] at x'; cases x'
    · rw [y] at x'; cases x'
    · exact ⟨y1, y2, rfl, y3⟩
  · intro x _
    have x' : f.ioDone = true := x
    rcases h4 hr with ⟨_, _, y⟩ | ⟨c, _, _, y⟩ | ⟨y, _⟩
    · rw [x'] at y; cases y
    · rw [x'] at y; cases y
    · exact y

/-- A file that is filled; its reader has been woken. -/
theorem fill_inv {f : F} {k b : Nat} (h : FInv f) (ho : f.open = true) (hk : fits b f.rest k = true) :
    FInv (f.fill k).wake := by
  obtain ⟨h1, h2, h3, h4, h5, h6⟩ := h
  have hr : f.ready = false := by
    unfold F.open at ho; cases hx : f.ready
    · rfl
    · rw [hx] at ho; cases ho
  have hd : f.ioDone = false := by
    unfold F.open at ho; cases hx : f.ioDone
    · rfl
    · rw [hx, hr] at ho; cases ho
  have hidle : f.wake.c ≠ .idle → f.c ≠ .idle := by
    intro x e; apply x; show f.c.wake = .idle; rw [e]; rfl
  have hno : ∀ w h, f.c.wake ≠ .sleeps w h := by
    intro w h x; cases hx : f.c <;> rw [hx] at x <;> cases x
  have he0 : f.err0 ≠ some .eof := by
    intro x; have := (h5 x).2.2.2; rw [hd] at this; cases this
  unfold F.fill fits at *
  split
  · next hz =>
    have hrest : f.rest = [] := by
      split at hk
      · assumption
      · simp [hz] at hk
    refine ⟨?_, fun x => h2 (hidle x), fun w h x => absurd x (hno w h), fun _ => Or.inr (Or.inr ⟨rfl, rfl, hrest, rfl⟩),
      fun x => absurd x he0, fun _ x => (by cases x)⟩
    show f.orig = f.got ++ (f.c.wake.held ++ f.buf0 ++ [] ++ f.rest)
    rw [wake_held, h1]; unfold F.left; rw [hr]; rfl
  · next hz =>
    have hrest : f.rest ≠ [] := by
      intro x; rw [if_pos x] at hk; exact hz (by simpa using hk)
    refine ⟨?_, fun x => h2 (hidle x), fun w h x => absurd x (hno w h), fun _ => Or.inl ⟨rfl, ?_, hd⟩,
      fun x => absurd x he0, fun x => ?_⟩
    · show f.orig = f.got ++ (f.c.wake.held ++ f.buf0 ++ f.rest.take k ++ f.rest.drop k)
      rw [wake_held, h1]; unfold F.left; rw [hr]
      simp only [List.append_assoc, List.take_append_drop, Bool.false_eq_true, if_false, List.nil_append]
    · show f.rest.take k ≠ []
      intro x
      rw [List.take_eq_nil_iff] at x
      rcases x with x | x
      · exact hz x
      · exact hrest x
    · have x' : f.ioDone = true := x
      rw [hd] at x'; cases x'

theorem fillError_inv {f : F} {code : Nat} (h : FInv f) (ho : f.open = true) : FInv (f.fillError code).wake := by
  obtain ⟨h1, h2, h3, h4, h5, h6⟩ := h
  have hr : f.ready = false := by
    unfold F.open at ho; cases hx : f.ready
    · rfl
    · rw [hx] at ho; cases ho
  have hd : f.ioDone = false := by
    unfold F.open at ho; cases hx : f.ioDone
    · rfl
    · rw [hx, hr] at ho; cases ho
  have hidle : f.wake.c ≠ .idle → f.c ≠ .idle := by
    intro x e; apply x; show f.c.wake = .idle; rw [e]; rfl
  have hno : ∀ w h, f.c.wake ≠ .sleeps w h := by
    intro w h x; cases hx : f.c <;> rw [hx] at x <;> cases x
  have he0 : f.err0 ≠ some .eof := by
    intro x; have := (h5 x).2.2.2; rw [hd] at this; cases this
  refine ⟨?_, fun x => h2 (hidle x), fun w h x => absurd x (hno w h), fun _ => Or.inr (Or.inl ⟨code, rfl, rfl, hd⟩),
    fun x => absurd x he0, fun _ x => (by cases x)⟩
  show f.orig = f.got ++ (f.c.wake.held ++ f.buf0 ++ [] ++ f.rest)
  rw [wake_held, h1]; unfold F.left; rw [hr]; rfl

theorem openFile_inv {b : Nat} {p : List Nat × Nat} (h : fits b p.1 p.2 = true) : FInv (openFile p.1 p.2) := by
  obtain ⟨l, k⟩ := p
  unfold openFile fits at *
  split
  · next hz =>
    have hrest : l = [] := by
      dsimp only at h hz
      split at h
      · assumption
      · simp [hz] at h
    subst hrest
    exact ⟨rfl, fun x => absurd rfl x, fun w h x => (by cases x), fun x => (by cases x),
      fun _ => ⟨rfl, rfl, rfl, rfl⟩, fun _ _ => rfl⟩
  · refine ⟨?_, fun x => absurd rfl x, fun w h x => (by cases x), fun x => (by cases x), fun x => (by cases x),
      fun x => (by cases x)⟩
    show l = [] ++ ([] ++ l.take k ++ [] ++ l.drop k)
    simp only [List.nil_append, List.append_nil, List.take_append_drop]

theorem openFile_open (l : List Nat) (k : Nat) : (openFile l k).open = (k != 0) := by
  unfold openFile
  split
  · next h => subst h; rfl
  · next h =>
    have : (k != 0) = true := by simpa using h
    rw [this]; rfl

theorem create_inv {b : Nat} {files : List (List Nat × Nat)} {s : S} (h : create b files = some s) : Inv s := by
  unfold create at h
  split at h
  · next ok =>
    cases h
    have gf : ∀ (i : Nat) (f : F), (files.map (fun p => openFile p.1 p.2))[i]? = some f →
        ∃ p, files[i]? = some p ∧ f = openFile p.1 p.2 := by
      intro i f hf
      rw [List.getElem?_map] at hf
      cases hp : files[i]? with
      | none => rw [hp] at hf; cases hf
      | some p => rw [hp] at hf; cases hf; exact ⟨p, rfl, rfl⟩
    refine ⟨?_, ?_, ?_, fun i hi => (by cases hi), ?_, fun hi => (by cases hi), fun hi => (by cases hi)⟩
    · intro i f hf
      obtain ⟨p, hp, rfl⟩ := gf i f hf
      exact openFile_inv (List.all_eq_true.mp ok p (List.mem_of_getElem? hp))
    · exact List.Nodup.sublist List.filter_sublist List.nodup_range
    · intro i hi
      obtain ⟨h1, h2⟩ := List.mem_filter.mp hi
      have hlt : i < files.length := List.mem_range.mp h1
      refine ⟨openFile files[i].1 files[i].2, ?_, ?_⟩
      · show (files.map (fun p => openFile p.1 p.2))[i]? = _
        rw [List.getElem?_map, List.getElem?_eq_getElem hlt]; rfl
      · rw [openFile_open]
        rw [List.getElem?_map, List.getElem?_eq_getElem hlt] at h2
        exact h2
    · intro i f hf ho
      obtain ⟨p, hp, rfl⟩ := gf i f hf
      left
      have hlt : i < files.length := by
        rcases Nat.lt_or_ge i files.length with c | c
        · exact c
        · rw [List.getElem?_eq_none c] at hp; cases hp
      refine List.mem_filter.mpr ⟨List.mem_range.mpr hlt, ?_⟩
      rw [List.getElem?_map, hp]
      rw [openFile_open] at ho
      exact ho
  · cases h

theorem wake_ne_waiting (i : Io) : i.wake ≠ .waiting := by cases i <;> exact Io.noConfusion
theorem wake_reading {i : Io} {j : Nat} (h : i.wake = .reading j) : i = .reading j := by
  cases i <;> first | (cases h; done) | exact h
theorem wake_gone {i : Io} (h : i.wake = .gone) : i = .gone := by cases i <;> first | (cases h; done) | rfl
theorem reading_wake {i : Io} {j : Nat} (h : i = .reading j) : i.wake = .reading j := by rw [h]; rfl

theorem open_ready {f : F} (h : f.open = true) : f.ready = false ∧ f.ioDone = false := by
  unfold F.open at h
  cases hr : f.ready <;> cases hd : f.ioDone <;> rw [hr, hd] at h <;> first | exact ⟨rfl, rfl⟩ | cases h

/-- Replacing one file by one that is open just when the old one was. -/
theorem inv_set {s : S} {i : Nat} {f g : F} (h : Inv s) (hf : s.fs[i]? = some f) (hg : FInv g)
    (ho : g.open = f.open) : Inv { s with fs := s.fs.set i g } := by
  obtain ⟨h1, h2, h3, h4, h5, h6, h7⟩ := h
  have get : ∀ (j : Nat) (x : F), s.fs[j]? = some x → ∃ y : F, (s.fs.set i g)[j]? = some y ∧ y.open = x.open := by
    intro j x hx
    by_cases c : j = i
    · subst c; rw [hf] at hx; cases hx; exact ⟨g, set_get hf, ho⟩
    · exact ⟨x, by rw [List.getElem?_set_ne (fun e => c e.symm)]; exact hx, rfl⟩
  refine ⟨?_, h2, ?_, ?_, ?_, h6, h7⟩
  · intro j x hx
    rcases get_set hx with ⟨_, rfl⟩ | ⟨_, hx⟩
    · exact hg
    · exact h1 j x hx
  · intro j hj
    obtain ⟨x, hx, ho⟩ := h3 j hj
    obtain ⟨y, hy, e⟩ := get j x hx
    exact ⟨y, hy, e.trans ho⟩
  · intro j hj
    obtain ⟨a, x, hx, ho⟩ := h4 j hj
    obtain ⟨y, hy, e⟩ := get j x hx
    exact ⟨a, y, hy, e.trans ho⟩
  · intro j x hx hox
    rcases get_set hx with ⟨rfl, rfl⟩ | ⟨_, hx⟩
    · exact h5 j f hf (ho.symm.trans hox)
    · exact h5 j x hx hox

theorem gone_inv {s : S} (h : Inv s) (hp : s.panic = true) : Inv { s with io := .gone } := by
  obtain ⟨h1, h2, h3, h4, h5, h6, h7⟩ := h
  exact ⟨h1, h2, h3, fun i x => (by cases x), fun _ _ _ _ => Or.inr (Or.inr hp), fun x => (by cases x),
    fun _ => Or.inl hp⟩

theorem fill_step {s : S} {i : Nat} {f g : F} {n : Int} (h : Inv s) (hio : s.io = .reading i) (hf : s.fs[i]? = some f)
    (hg : FInv g.wake) (ho : g.open = false) :
    Inv (({ s with
      fs := s.fs.set i g
      notDone := n
      io := .free } : S).broadcast) := by
  obtain ⟨h1, h2, h3, h4, h5, h6, h7⟩ := h
  obtain ⟨hnq, _⟩ := h4 i hio
  have get : ∀ (j : Nat) (x : F), j ≠ i → s.fs[j]? = some x → ((s.fs.set i g).map F.wake)[j]? = some x.wake := by
    intro j x c hx
    rw [List.getElem?_map, List.getElem?_set_ne (fun e => c e.symm), hx]; rfl
  refine ⟨?_, h2, ?_, fun j x => (by cases x), ?_, fun x => (by cases x), fun x => (by cases x)⟩
  · intro j y hy
    obtain ⟨x, hx, rfl⟩ := get_wake hy
    rcases get_set hx with ⟨_, rfl⟩ | ⟨_, hx⟩
    · exact hg
    · exact wake_inv (h1 j x hx)
  · intro j hj
    have hj' : j ∈ s.queue := hj
    obtain ⟨x, hx, hox⟩ := h3 j hj'
    exact ⟨x.wake, get j x (fun e => hnq (e ▸ hj')) hx, hox⟩
  · intro j y hy hoy
    obtain ⟨x, hx, rfl⟩ := get_wake hy
    rcases get_set hx with ⟨_, rfl⟩ | ⟨c, hx⟩
    · have : x.open = true := hoy
      rw [ho] at this; cases this
    · rcases h5 j x hx hoy with r | r | r
      · exact Or.inl r
      · rw [hio] at r; cases r; exact absurd rfl c
      · exact Or.inr (Or.inr r)

theorem act_inv {s s' : S} {e : Ev} {a : Ans} (h : Inv s) (ha : act s e = some (some (s', a))) : Inv s' := by
  cases e with
  | call i count =>
    simp only [act] at ha
    split at ha
    · next f hf =>
      split at ha
      · next hc =>
        split at ha
        · cases ha; exact h
        · next he =>
          cases ha
          have hi := h.files i f hf
          refine inv_set h hf ?_ (consume_open f count [])
          refine consume_inv (by rw [hc]; rfl) he ?_
          have := idle_inv hi
          rw [hc] at this
          exact this
      · cases ha
    · cases ha
  | look i =>
    simp only [act] at ha
    split at ha
    · next f hf =>
      have hi := h.files i f hf
      split at ha
      · next want hv hc =>
        have hni : f.c ≠ .idle := by rw [hc]; exact C.noConfusion
        split at ha
        · next hr =>
          -- the state after the swap, whatever the file becomes
          have key : ∀ g : F, FInv g → g.open = !f.ioDone →
              Inv ((if f.ioDone = true then s else { s with queue := s.queue ++ [i] }).broadcast.fs.set i g |> fun l =>
                { (if f.ioDone = true then s else { s with queue := s.queue ++ [i] }).broadcast with fs := l }) := by
            intro g hg hgo
            obtain ⟨h1, h2, h3, h4, h5, h6, h7⟩ := h
            have hfo : f.open = false := by unfold F.open; rw [hr]; rfl
            have hnq : i ∉ s.queue := by
              intro x; obtain ⟨y, hy, ho⟩ := h3 i x; rw [hf] at hy; cases hy; rw [hfo] at ho; cases ho
            have hnr : s.io ≠ .reading i := by
              intro x; obtain ⟨_, y, hy, ho⟩ := h4 i x; rw [hf] at hy; cases hy; rw [hfo] at ho; cases ho
            have hw : (s.fs.map F.wake)[i]? = some f.wake := by rw [List.getElem?_map, hf]; rfl
            have get : ∀ j x, j ≠ i → s.fs[j]? = some x → ((s.fs.map F.wake).set i g)[j]? = some x.wake := by
              intro j x c hx
              rw [List.getElem?_set_ne (fun e => c e.symm), List.getElem?_map, hx]; rfl
            have back : ∀ j y, ((s.fs.map F.wake).set i g)[j]? = some y →
                (j = i ∧ y = g) ∨ ∃ x, j ≠ i ∧ s.fs[j]? = some x ∧ y = x.wake := by
              intro j y hy
              rcases get_set hy with ⟨e1, e2⟩ | ⟨e1, e2⟩
              · exact Or.inl ⟨e1, e2⟩
              · obtain ⟨x, hx, e⟩ := get_wake e2
                exact Or.inr ⟨x, e1, hx, e⟩
            cases hd : f.ioDone with
            | true =>
              rw [hd] at hgo
              simp only [if_true]
              refine ⟨?_, h2, ?_, ?_, ?_, fun x => absurd x (wake_ne_waiting _), fun x => h7 (wake_gone x)⟩
              · intro j y hy
                rcases back j y hy with ⟨_, rfl⟩ | ⟨x, _, hx, rfl⟩
                · exact hg
                · exact wake_inv (h1 j x hx)
              · intro j hj
                have hj' : j ∈ s.queue := hj
                obtain ⟨x, hx, ho⟩ := h3 j hj'
                exact ⟨x.wake, get j x (fun e => hnq (e ▸ hj')) hx, ho⟩
              · intro j hj
                have hj' := wake_reading hj
                obtain ⟨q, x, hx, ho⟩ := h4 j hj'
                exact ⟨q, x.wake, get j x (fun e => hnr (e ▸ hj')) hx, ho⟩
              · intro j y hy ho
                rcases back j y hy with ⟨_, rfl⟩ | ⟨x, _, hx, rfl⟩
                · rw [hgo] at ho; cases ho
                · rcases h5 j x hx ho with r | r | r
                  · exact Or.inl r
                  · exact Or.inr (Or.inl (reading_wake r))
                  · exact Or.inr (Or.inr r)
            | false =>
              rw [hd] at hgo
              simp only [Bool.false_eq_true, if_false]
              refine ⟨?_, ?_, ?_, ?_, ?_, fun x => absurd x (wake_ne_waiting _), fun x => h7 (wake_gone x)⟩
              · intro j y hy
                rcases back j y hy with ⟨_, rfl⟩ | ⟨x, _, hx, rfl⟩
                · exact hg
                · exact wake_inv (h1 j x hx)
              · show (s.queue ++ [i]).Nodup
                rw [List.nodup_append]
                refine ⟨h2, by simp, ?_⟩
                intro x hx y hy e
                rw [List.mem_singleton] at hy
                exact hnq (hy ▸ e ▸ hx)
              · intro j hj
                have hj' : j ∈ s.queue ++ [i] := hj
                rcases List.mem_append.mp hj' with hj' | hj'
                · obtain ⟨x, hx, ho⟩ := h3 j hj'
                  exact ⟨x.wake, get j x (fun e => hnq (e ▸ hj')) hx, ho⟩
                · rw [List.mem_singleton] at hj'
                  subst hj'
                  exact ⟨g, set_get hw, hgo⟩
              · intro j hj
                have hj' := wake_reading hj
                have hji : j ≠ i := fun e => hnr (e ▸ hj')
                obtain ⟨q, x, hx, ho⟩ := h4 j hj'
                refine ⟨?_, x.wake, get j x hji hx, ho⟩
                intro hm
                rcases List.mem_append.mp hm with hm | hm
                · exact q hm
                · exact hji (List.mem_singleton.mp hm)
              · intro j y hy ho
                rcases back j y hy with ⟨rfl, rfl⟩ | ⟨x, _, hx, rfl⟩
                · exact Or.inl (List.mem_append_right _ (List.mem_singleton.mpr rfl))
                · rcases h5 j x hx ho with r | r | r
                  · exact Or.inl (List.mem_append_left _ r)
                  · exact Or.inr (Or.inl (reading_wake r))
                  · exact Or.inr (Or.inr r)
          have hsw := swap_inv hi hr hni
          rw [hc] at hsw
          split at ha
          · next he =>
            split at ha
            · cases ha
            · cases ha
              refine key _ ?_ ?_
              · refine consume_inv (f := f.swap) ?_ he hsw
                show f.c.held = hv
                rw [hc]; rfl
              · rw [consume_open]; rfl
          · next e he =>
            split at ha
            · next hn =>
              cases ha
              refine key _ ?_ rfl
              rw [hn] at hsw
              have e : f.got ++ C.held (.asks want []) = f.got := List.append_nil _
              rw [e] at hsw
              exact hsw
            · cases ha
              refine key _ ?_ rfl
              exact hsw
        · next hr =>
          cases ha
          refine inv_set h hf ?_ rfl
          obtain ⟨h1, h2, h3, h4, h5, h6⟩ := hi
          refine ⟨?_, fun _ => h2 hni, fun _ _ _ => by simpa using hr, h4, h5, h6⟩
          rw [h1]; unfold F.left; rw [hc]; rfl
      · cases ha
    · cases ha
  | io =>
    simp only [act] at ha
    obtain ⟨h1, h2, h3, h4, h5, h6, h7⟩ := h
    split at ha
    · next hio =>
      have np : ∀ j, s.io ≠ .reading j := fun j x => by rw [hio] at x; cases x
      split at ha
      · next hp =>
        cases ha
        exact ⟨h1, h2, h3, fun i x => (by cases x), fun i f hf ho => Or.inr (Or.inr hp), fun x => (by cases x),
          fun _ => Or.inl hp⟩
      · next hp =>
        have hp' : s.panic = false := by simpa using hp
        split at ha
        · next hz =>
          cases ha
          refine ⟨h1, h2, h3, fun i x => (by cases x), ?_, fun x => (by cases x), fun _ => Or.inr hz⟩
          intro i f hf ho
          rcases h5 i f hf ho with r | r | r
          · exact Or.inl r
          · exact absurd r (np i)
          · exact Or.inr (Or.inr r)
        · next hz =>
          split at ha
          · next hq =>
            cases ha
            refine ⟨h1, h2, h3, fun i x => (by cases x), ?_, fun _ => ⟨hq, hz, hp'⟩, fun x => (by cases x)⟩
            intro i f hf ho
            rcases h5 i f hf ho with r | r | r
            · exact Or.inl r
            · exact absurd r (np i)
            · exact Or.inr (Or.inr r)
          · next i q hq =>
            split at ha
            · next f hf =>
              split at ha
              · cases ha
              · next hn =>
                cases ha
                rw [hq] at h2 h3
                obtain ⟨n1, n2⟩ := List.nodup_cons.mp h2
                refine ⟨h1, n2, fun j hj => h3 j (List.mem_cons_of_mem _ hj), ?_, ?_, fun x => (by cases x),
                  fun x => (by cases x)⟩
                · intro j hj
                  cases hj
                  exact ⟨n1, h3 i List.mem_cons_self⟩
                · intro j g hg ho
                  rcases h5 j g hg ho with r | r | r
                  · rw [hq] at r
                    rcases List.mem_cons.mp r with r | r
                    · exact Or.inr (Or.inl (by rw [r]))
                    · exact Or.inl r
                  · exact absurd r (np j)
                  · exact Or.inr (Or.inr r)
            · cases ha
    · cases ha
  | ioRead k =>
    simp only [act] at ha
    split at ha
    · next i hio =>
      split at ha
      · next f hf =>
        split at ha
        · next hk =>
          have ho : f.open = true := by
            obtain ⟨_, g, hg, ho⟩ := h.reading i hio
            rw [hf] at hg; cases hg; exact ho
          split at ha
          · next hp => cases ha; exact gone_inv h hp
          · cases ha
            refine fill_step (n := if k = 0 then s.notDone - 1 else s.notDone) h hio hf
              (fill_inv (h.files i f hf) ho hk) ?_
            unfold F.fill F.open
            split <;> rfl
        · cases ha
      · cases ha
    · cases ha
  | ioFail code =>
    simp only [act] at ha
    split at ha
    · next i hio =>
      split at ha
      · next f hf =>
        have ho : f.open = true := by
          obtain ⟨_, g, hg, ho⟩ := h.reading i hio
          rw [hf] at hg; cases hg; exact ho
        split at ha
        · next hp => cases ha; exact gone_inv h hp
        · cases ha
          exact fill_step (n := s.notDone - 1) h hio hf (fillError_inv (h.files i f hf) ho) rfl
      · cases ha
    · cases ha
  | spurious i =>
    simp only [act] at ha
    split at ha
    · next f hf =>
      split at ha
      · cases ha; exact inv_set h hf (wake_inv (h.files i f hf)) rfl
      · cases ha
    · cases ha
  | ioSpurious =>
    simp only [act] at ha
    obtain ⟨h1, h2, h3, h4, h5, h6, h7⟩ := h
    split at ha
    · next hio =>
      cases ha
      refine ⟨h1, h2, h3, fun i x => (by cases x), ?_, fun x => (by cases x), fun x => (by cases x)⟩
      intro i f hf ho
      rcases h5 i f hf ho with r | r | r
      · exact Or.inl r
      · rw [hio] at r; cases r
      · exact Or.inr (Or.inr r)
    · cases ha
  | panic =>
    simp only [act] at ha
    cases ha
    obtain ⟨h1, h2, h3, h4, h5, h6, h7⟩ := h
    have get : ∀ (j : Nat) (x : F), s.fs[j]? = some x → (s.fs.map F.wake)[j]? = some x.wake := by
      intro j x hx; rw [List.getElem?_map, hx]; rfl
    refine ⟨?_, h2, ?_, ?_, fun _ _ _ _ => Or.inr (Or.inr rfl), fun x => absurd x (wake_ne_waiting _), fun _ => Or.inl rfl⟩
    · intro j y hy
      obtain ⟨x, hx, rfl⟩ := get_wake hy
      exact wake_inv (h1 j x hx)
    · intro j hj
      obtain ⟨x, hx, ho⟩ := h3 j hj
      exact ⟨x.wake, get j x hx, ho⟩
    · intro j hj
      obtain ⟨q, x, hx, ho⟩ := h4 j (wake_reading hj)
      exact ⟨q, x.wake, get j x hx, ho⟩
  | join =>
    simp only [act] at ha
    split at ha
    · cases ha; exact h
    · cases ha

theorem run_inv : ∀ {es : List Ev} {s s' : S} {as : List Ans}, Inv s → run s es = some (some (s', as)) → Inv s'
  | [], s, s', as, h, hr => by simp only [run] at hr; cases hr; exact h
  | e :: es, s, s', as, h, hr => by
    simp only [run] at hr
    split at hr
    · cases hr
    · cases hr
    · next s1 a ha =>
      split at hr
      · next r as' hr' => cases hr; exact run_inv (act_inv h ha) hr'
      · next x hx => exact absurd hr (hx _ _)

end Verif.Ahead
