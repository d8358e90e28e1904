import Verif.Ahead.More

/-! # Lemmas on how much a call gives, and on who is awake -/

namespace Verif.Ahead

/-- The call under way is for `n` bytes. -/
def Owes (f : F) (n : Nat) : Prop :=
  (∀ w h, f.c = .asks w h → 0 < w ∧ w + h.length = n) ∧ (∀ w h, f.c = .sleeps w h → 0 < w ∧ w + h.length = n)

theorem owes_idle {f : F} {n : Nat} (h : f.c = .idle) : Owes f n :=
  ⟨fun w hv x => (by rw [h] at x; cases x), fun w hv x => (by rw [h] at x; cases x)⟩

theorem owes_wake {f : F} {n : Nat} (h : Owes f n) : Owes f.wake n := by
  refine ⟨?_, ?_⟩
  · intro w hv x
    have x' : f.c.wake = .asks w hv := x
    cases hc : f.c with
    | idle => rw [hc] at x'; cases x'
    | asks a b => rw [hc] at x'; cases x'; exact h.1 _ _ hc
    | sleeps a b => rw [hc] at x'; cases x'; exact h.2 _ _ hc
  · intro w hv x
    have x' : f.c.wake = .sleeps w hv := x
    cases hc : f.c <;> rw [hc] at x' <;> cases x'

theorem owes_consume {f : F} {w n : Nat} {hv : List Nat} (h : w + hv.length = n) : Owes (f.consume w hv).1 n := by
  unfold F.consume
  split
  · exact owes_idle rfl
  · next c =>
    refine ⟨?_, fun w hv x => (by cases x)⟩
    intro w' hv' x
    cases x
    refine ⟨by omega, ?_⟩
    rw [List.length_append]
    omega

theorem asked_file {i n : Nat} {e : Ev} (h : e.file ≠ some i ∨ e = .look i) : asked i n [e] = n := by
  cases e with
  | call j m =>
    have : j ≠ i := by
      rcases h with h | h
      · intro x; exact h (by rw [x]; rfl)
      · cases h
    simp [asked, this]
  | _ => rfl

theorem step_owes {i n : Nat} {e : Ev} {a : Ans} {f f' : F} (h : FStep i e a f f') (ho : Owes f n) (he' : ∀ m, e = .call i m → f.c = .idle) :
    Owes f' (asked i n [e]) := by
  cases h with
  | same h _ =>
    by_cases c : e.file = some i
    · cases e with
      | call j m =>
        have : j = i := Option.some.inj c
        subst this
        exact owes_idle (he' m rfl)
      | look j => rw [asked_file (Or.inr (by rw [Option.some.inj c]))]; exact ho
      | _ => cases c
    · rw [asked_file (Or.inl c)]; exact ho
  | wake _ h => rw [asked_file (Or.inl h)]; exact owes_wake ho
  | spurious h => rw [asked_file (Or.inl h)]; exact owes_wake ho
  | call m he hc h0 ha =>
    subst he
    refine owes_consume ?_
    simp [asked]
  | sleep w h he hc hr ha =>
    rw [asked_file (Or.inr he)]
    exact ⟨fun w hv x => (by cases x), fun w hv x => (by cases x; exact ho.1 _ _ hc)⟩
  | swap w h he hc hr h1 ha =>
    rw [asked_file (Or.inr he)]
    exact owes_consume (ho.1 _ _ hc).2
  | short w h x he hc hr h1 ha => exact owes_idle rfl
  | fill k b he ha ho' hk =>
    rw [asked_file (Or.inl (by rw [he]; intro x; cases x))]
    refine owes_wake ?_
    have : (f.fill k).c = f.c := by unfold F.fill; split <;> rfl
    unfold Owes
    rw [this]
    exact ho
  | fail code he ha ho' =>
    rw [asked_file (Or.inl (by rw [he]; intro x; cases x))]
    exact owes_wake ho

theorem asked_cons (i n : Nat) (e : Ev) (es : List Ev) : asked i n (e :: es) = asked i (asked i n [e]) es := by
  cases e <;> rfl

theorem asked_append (i : Nat) : ∀ (n : Nat) (es ks : List Ev), asked i n (es ++ ks) = asked i (asked i n es) ks
  | n, [], ks => rfl
  | n, e :: es, ks => by
    rw [List.cons_append, asked_cons, asked_append i _ es ks, ← asked_cons]

theorem call_idle {s s' : S} {i m : Nat} {a : Ans} {f : F} (ha : act s (.call i m) = some (some (s', a)))
    (hf : s.fs[i]? = some f) : f.c = .idle := by
  simp only [act] at ha
  rw [hf] at ha
  dsimp only at ha
  split at ha
  · assumption
  · cases ha

/-- No error but the end of the file. -/
def Clean (f : F) : Prop := (∀ c, f.err0 ≠ some (.fail c)) ∧ (∀ c, f.err1 ≠ some (.fail c))

theorem step_clean {i : Nat} {e : Ev} {a : Ans} {f f' : F} (h : FStep i e a f f') (ho : Clean f) (hf : e.fine = true) :
    Clean f' := by
  have hs : ∀ x, f.err1 = x → Clean { f.swap with c := .idle, got := f.got } := by
    intro x _
    exact ⟨ho.2, ho.2⟩
  cases h with
  | same => exact ho
  | wake => exact ho
  | spurious => exact ho
  | call m => unfold F.consume; split <;> exact ho
  | sleep w h => exact ho
  | swap w h => unfold F.consume; split <;> exact ⟨ho.2, ho.2⟩
  | short w h x => exact ⟨ho.2, ho.2⟩
  | fill k b =>
    show (∀ c, (f.fill k).err0 ≠ _) ∧ (∀ c, (f.fill k).err1 ≠ _)
    unfold F.fill
    split
    · exact ⟨ho.1, fun c x => (by cases x)⟩
    · exact ⟨ho.1, fun c x => (by cases x)⟩
  | fail code he => rw [he] at hf; cases hf

theorem run_owes : ∀ {es : List Ev} {s s' : S} {as : List Ans} {i n : Nat} {f : F}, Inv s →
    run s es = some (some (s', as)) → s.fs[i]? = some f → Owes f n →
    ∃ f', s'.fs[i]? = some f' ∧ Owes f' (asked i n es)
  | [], s, s', as, i, n, f, h, hr, hf, hx => by
    simp only [run] at hr; cases hr; exact ⟨f, hf, hx⟩
  | e :: es, s, s', as, i, n, f, h, hr, hf, hx => by
    obtain ⟨s1, a, as', ha, hr', rfl⟩ := run_cons hr
    obtain ⟨f1, hf1, st⟩ := act_file h ha hf
    have := step_owes st hx (fun m hm => by subst hm; exact call_idle ha hf)
    rw [asked_cons]
    exact run_owes (act_inv h ha) hr' hf1 this

theorem run_clean : ∀ {es : List Ev} {s s' : S} {as : List Ans} {i : Nat} {f : F}, Inv s →
    run s es = some (some (s', as)) → s.fs[i]? = some f → Clean f → es.all Ev.fine = true →
    ∃ f', s'.fs[i]? = some f' ∧ Clean f'
  | [], s, s', as, i, f, h, hr, hf, hx, _ => by
    simp only [run] at hr; cases hr; exact ⟨f, hf, hx⟩
  | e :: es, s, s', as, i, f, h, hr, hf, hx, hfine => by
    obtain ⟨s1, a, as', ha, hr', rfl⟩ := run_cons hr
    obtain ⟨f1, hf1, st⟩ := act_file h ha hf
    rw [List.all_cons, Bool.and_eq_true] at hfine
    exact run_clean (act_inv h ha) hr' hf1 (step_clean st hx hfine.1) hfine.2

theorem openFile_clean (l : List Nat) (k : Nat) : Clean (openFile l k) := by
  unfold openFile
  split
  · exact ⟨fun c x => (by cases x), fun c x => (by cases x)⟩
  · exact ⟨fun c x => (by cases x), fun c x => (by cases x)⟩

theorem consume_data {f : F} {w : Nat} {hv l : List Nat} (h : (f.consume w hv).2 = .data l) :
    l.length = w + hv.length := by
  unfold F.consume at h
  split at h
  · next c =>
    cases h
    rw [List.length_append, List.length_take]
    omega
  · cases h

/-- The bytes a step gives: as many as asked, or all that is left. -/
theorem step_data {i n : Nat} {e : Ev} {l : List Nat} {f f' : F} (h : FStep i e (.data l) f f')
    (ho : Owes f n) (hfile : e.file = some i) :
    l.length = asked i n [e] ∨
      (l ≠ [] ∧ l.length < asked i n [e] ∧ (f'.err0 = some .eof ∨ ∃ c, f.err1 = some (.fail c))) := by
  cases h with
  | same _ h =>
    obtain ⟨x, h3, _⟩ := h hfile
    cases h3
  | wake _ h => exact absurd hfile h
  | spurious h => exact absurd hfile h
  | call m he hc h0 ha =>
    subst he
    left
    rw [consume_data ha.symm]
    simp [asked]
  | sleep w h he hc hr ha => cases ha
  | swap w h he hc hr h1 ha =>
    left
    rw [asked_file (Or.inr he), consume_data ha.symm, (ho.1 _ _ hc).2]
  | short w h x he hc hr h1 ha =>
    right
    split at ha
    · cases ha
    · next hn =>
      cases ha
      obtain ⟨o1, o2⟩ := ho.1 _ _ hc
      refine ⟨hn, by rw [asked_file (Or.inr he)]; omega, ?_⟩
      cases x with
      | eof => exact Or.inl h1
      | fail c => exact Or.inr ⟨c, h1⟩
  | fill k b he ha => cases ha
  | fail code he ha => cases ha

/-! ## Counting the files not read to the end -/

def opens : List F → Int
  | [] => 0
  | f :: l => (if f.ioDone then 0 else 1) + opens l

theorem opens_wake : ∀ l : List F, opens (l.map F.wake) = opens l
  | [] => rfl
  | f :: l => by
    show (if f.wake.ioDone then (0 : Int) else 1) + opens (l.map F.wake) = _
    rw [opens_wake l]; rfl

theorem opens_set : ∀ {l : List F} {i : Nat} {f : F} (g : F), l[i]? = some f →
    opens (l.set i g) = opens l - (if f.ioDone then 0 else 1) + (if g.ioDone then 0 else 1)
  | [], i, f, g, h => by cases h
  | x :: l, 0, f, g, h => by
    cases h
    show (if g.ioDone then (0 : Int) else 1) + opens l = (if x.ioDone then (0 : Int) else 1) + opens l - _ + _
    omega
  | x :: l, i + 1, f, g, h => by
    have h' : l[i]? = some f := h
    show (if x.ioDone then (0 : Int) else 1) + opens (l.set i g) = (if x.ioDone then (0 : Int) else 1) + opens l - _ + _
    rw [opens_set g h']
    omega

theorem opens_nonneg : ∀ l : List F, 0 ≤ opens l
  | [] => Int.le_refl 0
  | f :: l => by
    have := opens_nonneg l
    show 0 ≤ (if f.ioDone then (0 : Int) else 1) + opens l
    split <;> omega

theorem opens_pos : ∀ {l : List F} {i : Nat} {f : F}, l[i]? = some f → f.ioDone = false → 0 < opens l
  | [], i, f, h, _ => by cases h
  | x :: l, 0, f, h, hd => by
    cases h
    have := opens_nonneg l
    show 0 < (if x.ioDone then (0 : Int) else 1) + opens l
    rw [hd]
    simp only [Bool.false_eq_true, if_false]
    omega
  | x :: l, i + 1, f, h, hd => by
    have h' : l[i]? = some f := h
    have := opens_pos h' hd
    show 0 < (if x.ioDone then (0 : Int) else 1) + opens l
    split <;> omega

theorem opens_zero : ∀ {l : List F}, (∀ f ∈ l, f.ioDone = true) → opens l = 0
  | [], _ => rfl
  | x :: l, h => by
    show (if x.ioDone then (0 : Int) else 1) + opens l = 0
    rw [h x List.mem_cons_self, opens_zero (fun f hf => h f (List.mem_cons_of_mem _ hf))]
    rfl

theorem opens_same {l : List F} {i : Nat} {f g : F} (h : l[i]? = some f) (e : g.ioDone = f.ioDone) :
    opens (l.set i g) = opens l := by
  rw [opens_set g h, e]; omega

theorem consume_done (f : F) (w : Nat) (h : List Nat) : (f.consume w h).1.ioDone = f.ioDone := by
  unfold F.consume; split <;> rfl

theorem act_count {s s' : S} {e : Ev} {a : Ans} (h : Inv s) (ha : act s e = some (some (s', a))) (hf : e.fine = true)
    (hn : s.notDone = opens s.fs) : s'.notDone = opens s'.fs := by
  cases e with
  | call i count =>
    simp only [act] at ha
    split at ha
    · next f hf =>
      split at ha
      · split at ha
        · cases ha; exact hn
        · cases ha
          show s.notDone = opens (s.fs.set i _)
          rw [opens_same hf (consume_done f count [])]; exact hn
      · cases ha
    · cases ha
  | look i =>
    simp only [act] at ha
    split at ha
    · next f hf =>
      have hw : (s.fs.map F.wake)[i]? = some f.wake := by rw [List.getElem?_map, hf]; rfl
      have key : ∀ (b : Bool) (g : F), g.ioDone = f.ioDone →
          (if b = true then s else { s with queue := s.queue ++ [i] }).broadcast.notDone =
            opens ((if b = true then s else { s with queue := s.queue ++ [i] }).broadcast.fs.set i g) := by
        intro b g hg
        have : opens ((s.fs.map F.wake).set i g) = s.notDone := by
          rw [opens_same hw hg, opens_wake]; exact hn.symm
        cases b <;> exact this.symm
      split at ha
      · split at ha
        · split at ha
          · split at ha
            · cases ha
            · cases ha; exact key _ _ (consume_done f.swap _ _)
          · split at ha
            · cases ha; exact key _ _ rfl
            · cases ha; exact key _ _ rfl
        · cases ha
          refine hn.trans (Eq.symm (opens_same hf ?_))
          rfl
      · cases ha
    · cases ha
  | io =>
    simp only [act] at ha
    split at ha
    · split at ha
      · cases ha; exact hn
      · split at ha
        · cases ha; exact hn
        · split at ha
          · cases ha; exact hn
          · split at ha
            · split at ha
              · cases ha
              · cases ha; exact hn
            · cases ha
    · cases ha
  | ioRead k =>
    simp only [act] at ha
    split at ha
    · next i hio =>
      split at ha
      · next f hf =>
        split at ha
        · split at ha
          · cases ha; exact hn
          · cases ha
            obtain ⟨_, g, hg, ho⟩ := h.reading i hio
            rw [hf] at hg; cases hg
            have hd := (open_ready ho).2
            show (if k = 0 then s.notDone - 1 else s.notDone) = opens ((s.fs.set i (f.fill k)).map F.wake)
            rw [opens_wake, opens_set _ hf, hd, hn]
            unfold F.fill
            split
            · simp
            · simp [hd]
        · cases ha
      · cases ha
    · cases ha
  | ioFail code => cases hf
  | spurious i =>
    simp only [act] at ha
    split at ha
    · next f hf =>
      split at ha
      · cases ha
        exact hn.trans (opens_same hf (rfl : f.wake.ioDone = f.ioDone)).symm
      · cases ha
    · cases ha
  | ioSpurious => simp only [act] at ha; split at ha <;> cases ha; exact hn
  | panic =>
    simp only [act] at ha
    cases ha
    show s.notDone = opens (s.fs.map F.wake)
    rw [opens_wake]; exact hn
  | join => simp only [act] at ha; split at ha <;> cases ha; exact hn

/-- Only one step sets the panic flag. -/
theorem act_panic {s s' : S} {e : Ev} {a : Ans} (ha : act s e = some (some (s', a))) :
    s'.panic = (s.panic || !e.calm) := by
  cases e with
  | call i count =>
    simp only [act] at ha
    split at ha
    · split at ha
      · split at ha <;> cases ha <;> exact (Bool.or_false _).symm
      · cases ha
    · cases ha
  | look i =>
    have key : ∀ b : Bool, (if b = true then s else { s with queue := s.queue ++ [i] }).broadcast.panic = s.panic := by
      intro b; cases b <;> rfl
    simp only [act] at ha
    split at ha
    · split at ha
      · split at ha
        · split at ha
          · split at ha
            · cases ha
            · cases ha; exact (key _).trans (Bool.or_false _).symm
          · split at ha
            · cases ha; exact (key _).trans (Bool.or_false _).symm
            · cases ha; exact (key _).trans (Bool.or_false _).symm
        · cases ha; exact (Bool.or_false _).symm
      · cases ha
    · cases ha
  | io =>
    simp only [act] at ha
    split at ha
    · split at ha
      · cases ha; exact (Bool.or_false _).symm
      · split at ha
        · cases ha; exact (Bool.or_false _).symm
        · split at ha
          · cases ha; exact (Bool.or_false _).symm
          · split at ha
            · split at ha
              · cases ha
              · cases ha; exact (Bool.or_false _).symm
            · cases ha
    · cases ha
  | ioRead k =>
    simp only [act] at ha
    split at ha
    · split at ha
      · split at ha
        · split at ha <;> cases ha <;> exact (Bool.or_false _).symm
        · cases ha
      · cases ha
    · cases ha
  | ioFail code =>
    simp only [act] at ha
    split at ha
    · split at ha
      · split at ha <;> cases ha <;> exact (Bool.or_false _).symm
      · cases ha
    · cases ha
  | spurious i =>
    simp only [act] at ha
    split at ha
    · split at ha <;> cases ha; exact (Bool.or_false _).symm
    · cases ha
  | ioSpurious => simp only [act] at ha; split at ha <;> cases ha; exact (Bool.or_false _).symm
  | panic => simp only [act] at ha; cases ha; exact (Bool.or_true _).symm
  | join => simp only [act] at ha; split at ha <;> cases ha; exact (Bool.or_false _).symm

theorem run_count : ∀ {es : List Ev} {s s' : S} {as : List Ans}, Inv s → run s es = some (some (s', as)) →
    es.all Ev.fine = true → s.notDone = opens s.fs → s'.notDone = opens s'.fs
  | [], s, s', as, h, hr, _, hn => by simp only [run] at hr; cases hr; exact hn
  | e :: es, s, s', as, h, hr, hfine, hn => by
    obtain ⟨s1, a, as', ha, hr', rfl⟩ := run_cons hr
    rw [List.all_cons, Bool.and_eq_true] at hfine
    exact run_count (act_inv h ha) hr' hfine.2 (act_count h ha hfine.1 hn)

theorem run_panic : ∀ {es : List Ev} {s s' : S} {as : List Ans}, run s es = some (some (s', as)) →
    s'.panic = (s.panic || !es.all Ev.calm)
  | [], s, s', as, hr => by simp only [run] at hr; cases hr; exact (Bool.or_false _).symm
  | e :: es, s, s', as, hr => by
    obtain ⟨s1, a, as', ha, hr', rfl⟩ := run_cons hr
    rw [run_panic hr', act_panic ha, List.all_cons]
    cases s.panic <;> cases e.calm <;> rfl

theorem create_count {b : Nat} {files : List (List Nat × Nat)} {s : S} (h : create b files = some s) :
    s.notDone = opens s.fs ∧ s.panic = false := by
  unfold create at h
  split at h
  · cases h
    refine ⟨?_, rfl⟩
    show (files.map (fun p => if p.2 = 0 then (0 : Int) else 1)).sum = opens (files.map (fun p => openFile p.1 p.2))
    clear ‹(files.all fun p => fits b p.1 p.2) = true›
    induction files with
    | nil => rfl
    | cons p l ih =>
      rw [List.map_cons, List.sum_cons, List.map_cons, ih]
      show _ = (if (openFile p.1 p.2).ioDone then (0 : Int) else 1) + _
      congr 1
      unfold openFile
      split <;> rfl
  · cases h

/-! ## The background thread comes to every file in the list -/

/-- How many steps of the background thread it takes at most. -/
inductive Soon (i : Nat) (s : S) : Nat → Prop
  | ready (f : F) (n : Nat) : s.fs[i]? = some f → f.ready = true → Soon i s n
  | reading (n : Nat) : s.io = .reading i → 1 ≤ n → Soon i s n
  | free (pre post : List Nat) (n : Nat) : s.io = .free → s.queue = pre ++ i :: post → 2 * pre.length + 2 ≤ n → Soon i s n
  | other (j : Nat) (pre post : List Nat) (n : Nat) : s.io = .reading j → s.queue = pre ++ i :: post →
      2 * pre.length + 3 ≤ n → Soon i s n

theorem soon_step {i n : Nat} {s s' : S} {e : Ev} {a : Ans} (h : Inv s) (hs : Soon i s (n + 1))
    (hp : s.panic = false) (hz : s.notDone ≠ 0 ∨ ∃ f : F, s.fs[i]? = some f ∧ f.ready = true) (he : e.ofIo = true)
    (hfn : e.fine = true) (ha : act s e = some (some (s', a))) : Soon i s' n := by
  cases hs with
  | ready f n' hf hr =>
    obtain ⟨f', hf', st⟩ := act_file h ha hf
    refine .ready f' n hf' ?_
    cases st with
    | same => exact hr
    | wake => exact hr
    | spurious => exact hr
    | call m e1 => subst e1; cases he
    | sleep w hv e1 => subst e1; cases he
    | swap w hv e1 => subst e1; cases he
    | short w hv x e1 => subst e1; cases he
    | fill k b e1 e2 ho => rw [(open_ready ho).1] at hr; cases hr
    | fail c e1 e2 ho => rw [(open_ready ho).1] at hr; cases hr
  | reading n' hio hle =>
    cases e with
    | io => simp only [act] at ha; rw [hio] at ha; simp at ha
    | ioRead k =>
      simp only [act] at ha
      rw [hio] at ha
      dsimp only at ha
      split at ha
      · next f hf =>
        split at ha
        · rw [hp] at ha
          simp only [Bool.false_eq_true, if_false] at ha
          cases ha
          refine .ready (f.fill k).wake n ?_ ?_
          · show ((s.fs.set i (f.fill k)).map F.wake)[i]? = _
            rw [List.getElem?_map, set_get hf]; rfl
          · show (f.fill k).ready = true
            unfold F.fill; split <;> rfl
        · cases ha
      · cases ha
    | ioFail c => cases hfn
    | _ => cases he
  | free pre post n' hio hq hle =>
    cases e with
    | io =>
      obtain ⟨g0, hg0, ho0⟩ := h.queued i (by rw [hq]; simp)
      have hz' : s.notDone ≠ 0 := by
        rcases hz with hz | ⟨f, hf, hr⟩
        · exact hz
        · rw [hg0] at hf; cases hf
          rw [(open_ready ho0).1] at hr; cases hr
      simp only [act] at ha
      rw [if_pos hio, hp] at ha
      simp only [Bool.false_eq_true, if_false] at ha
      rw [if_neg hz'] at ha
      cases pre with
      | nil =>
        rw [hq] at ha
        dsimp only [List.nil_append] at ha
        split at ha
        · split at ha
          · cases ha
          · cases ha
            exact .reading n rfl (by simp at hle; omega)
        · cases ha
      | cons j pre =>
        rw [hq] at ha
        dsimp only [List.cons_append] at ha
        split at ha
        · split at ha
          · cases ha
          · cases ha
            exact .other j pre post n rfl rfl (by simp at hle; omega)
        · cases ha
    | ioRead k => simp only [act] at ha; rw [hio] at ha; cases ha
    | ioFail c => cases hfn
    | _ => cases he
  | other j pre post n' hio hq hle =>
    cases e with
    | io => simp only [act] at ha; rw [hio] at ha; simp at ha
    | ioRead k =>
      simp only [act] at ha
      rw [hio] at ha
      dsimp only at ha
      split at ha
      · split at ha
        · rw [hp] at ha
          simp only [Bool.false_eq_true, if_false] at ha
          cases ha
          exact .free pre post n rfl hq (by omega)
        · cases ha
      · cases ha
    | ioFail c => cases hfn
    | _ => cases he

theorem soon_run : ∀ {es : List Ev} {i n : Nat} {s s' : S} {as : List Ans}, Inv s → Soon i s n → s.panic = false →
    s.notDone = opens s.fs → es.all (fun e => e.ofIo && e.fine) = true → run s es = some (some (s', as)) →
    n ≤ es.length → Soon i s' 0
  | [], i, n, s, s', as, h, hs, hp, hn, hall, hr, hle => by
    simp only [run] at hr; cases hr
    have : n = 0 := Nat.le_zero.mp hle
    subst this; exact hs
  | e :: es, i, n, s, s', as, h, hs, hp, hn, hall, hr, hle => by
    obtain ⟨s1, a, as', ha, hr', rfl⟩ := run_cons hr
    rw [List.all_cons, Bool.and_eq_true, Bool.and_eq_true] at hall
    obtain ⟨⟨e1, e2⟩, e3⟩ := hall
    have hs1 : Soon i s (n - 1 + 1) := by
      cases hs with
      | ready f n' hf hr => exact .ready f _ hf hr
      | reading n' a b => exact .reading _ a (by omega)
      | free pre post n' a b c => exact .free pre post _ a b (by omega)
      | other j pre post n' a b c => exact .other j pre post _ a b (by omega)
    have hz : s.notDone ≠ 0 ∨ ∃ f : F, s.fs[i]? = some f ∧ f.ready = true := by
      have pos : ∀ f : F, s.fs[i]? = some f → f.open = true → s.notDone ≠ 0 := by
        intro f hf ho x
        have := opens_pos hf (open_ready ho).2
        rw [hn] at x; omega
      cases hs with
      | ready f n' hf hr => exact Or.inr ⟨f, hf, hr⟩
      | reading n' a b =>
        obtain ⟨_, f, hf, ho⟩ := h.reading i a
        exact Or.inl (pos f hf ho)
      | free pre post n' a b c =>
        obtain ⟨f, hf, ho⟩ := h.queued i (by rw [b]; simp)
        exact Or.inl (pos f hf ho)
      | other j pre post n' a b c =>
        obtain ⟨f, hf, ho⟩ := h.queued i (by rw [b]; simp)
        exact Or.inl (pos f hf ho)
    have hc1 : e.calm = true := by cases e <;> first | rfl | cases e1
    refine soon_run (act_inv h ha) (soon_step h hs1 hp hz e1 e2 ha) ?_ (act_count h ha e2 hn) e3 hr' ?_
    · rw [act_panic ha, hp, hc1]; rfl
    · simp only [List.length_cons] at hle; omega

theorem soon_zero {i : Nat} {s : S} (h : Soon i s 0) : ∃ f : F, s.fs[i]? = some f ∧ f.ready = true := by
  cases h with
  | ready f n' hf hr => exact ⟨f, hf, hr⟩
  | reading n' a b => omega
  | free pre post n' a b c => omega
  | other j pre post n' a b c => omega

/-- A file that is not ready and not at its end is on the way. -/
theorem open_soon {i : Nat} {s : S} {f : F} (h : Inv s) (hf : s.fs[i]? = some f) (ho : f.open = true)
    (hp : s.panic = false) (hn : s.notDone = opens s.fs) : Soon i s (2 * s.queue.length + 1) := by
  have hpos := opens_pos hf (open_ready ho).2
  have hmem : i ∈ s.queue → Soon i s (2 * s.queue.length + 1) := by
    intro hm
    obtain ⟨pre, post, hq⟩ := List.append_of_mem hm
    have hlen : s.queue.length = pre.length + (post.length + 1) := by rw [hq]; simp
    cases hio : s.io with
    | free => exact .free pre post _ hio hq (by omega)
    | waiting => rw [(h.waiting hio).1] at hm; cases hm
    | reading j => exact .other j pre post _ hio hq (by omega)
    | gone =>
      rcases h.gone hio with x | x
      · rw [hp] at x; cases x
      · rw [hn] at x; omega
  rcases h.place i f hf ho with r | r | r
  · exact hmem r
  · exact .reading _ r (by omega)
  · rw [hp] at r; cases r

theorem io_can {s : S} (h : Inv s) (hne : s.io ≠ .waiting) (hng : s.io ≠ .gone) :
    s.bufsize ≠ 0 → ∃ e : Ev, e.ofIo = true ∧ e.fine = true ∧ (act s e).isSome = true := by
  intro hb
  cases hio : s.io with
  | free =>
    refine ⟨.io, rfl, rfl, ?_⟩
    simp only [act]
    rw [if_pos hio]
    split
    · rfl
    · split
      · rfl
      · split
        · rfl
        · split
          · split <;> rfl
          · rfl
  | waiting => exact absurd hio hne
  | reading j =>
    obtain ⟨_, f, hf, ho⟩ := h.reading j hio
    refine ⟨.ioRead (if f.rest = [] then 0 else 1), rfl, rfl, ?_⟩
    simp only [act]
    rw [hio]
    dsimp only
    rw [hf]
    have : fits s.bufsize f.rest (if f.rest = [] then 0 else 1) = true := by
      unfold fits
      split
      · rfl
      · next hr =>
        have : 0 < f.rest.length := List.length_pos_iff.mpr hr
        simp; omega
    dsimp only
    rw [if_pos this]
    split <;> rfl
  | gone => exact absurd hio hng

theorem act_bufsize {s s' : S} {e : Ev} {a : Ans} (ha : act s e = some (some (s', a))) : s'.bufsize = s.bufsize := by
  cases e <;> simp only [act] at ha <;> (repeat' split at ha) <;> cases ha <;> rfl

theorem run_bufsize : ∀ {es : List Ev} {s s' : S} {as : List Ans}, run s es = some (some (s', as)) →
    s'.bufsize = s.bufsize
  | [], s, s', as, hr => by simp only [run] at hr; cases hr; rfl
  | e :: es, s, s', as, hr => by
    obtain ⟨s1, a, as', ha, hr', rfl⟩ := run_cons hr
    rw [run_bufsize hr', act_bufsize ha]

theorem create_bufsize {b : Nat} {files : List (List Nat × Nat)} {s : S} (h : create b files = some s) :
    s.bufsize = b ∧ s.fs.length = files.length := by
  unfold create at h
  split at h
  · cases h; exact ⟨rfl, by simp⟩
  · cases h

theorem act_length {s s' : S} {e : Ev} {a : Ans} (ha : act s e = some (some (s', a))) : s'.fs.length = s.fs.length := by
  cases e <;> simp only [act] at ha <;> (repeat' split at ha) <;> cases ha <;> simp [S.broadcast]

theorem run_length : ∀ {es : List Ev} {s s' : S} {as : List Ans}, run s es = some (some (s', as)) →
    s'.fs.length = s.fs.length
  | [], s, s', as, hr => by simp only [run] at hr; cases hr; rfl
  | e :: es, s, s', as, hr => by
    obtain ⟨s1, a, as', ha, hr', rfl⟩ := run_cons hr
    rw [run_length hr', act_length ha]

theorem run_append : ∀ {es ks : List Ev} {s s1 s2 : S} {as bs : List Ans}, run s es = some (some (s1, as)) →
    run s1 ks = some (some (s2, bs)) → run s (es ++ ks) = some (some (s2, as ++ bs))
  | [], ks, s, s1, s2, as, bs, h1, h2 => by simp only [run] at h1; cases h1; exact h2
  | e :: es, ks, s, s1, s2, as, bs, h1, h2 => by
    obtain ⟨s', a, as', ha, hr', rfl⟩ := run_cons h1
    simp only [List.cons_append, run, ha]
    rw [run_append hr' h2]

/-! ## Rows -/

theorem num_four (n : Nat) (h : n < 4294967296) :
    num [n % 256, n / 256 % 256, n / 65536 % 256, n / 16777216 % 256] = n := by
  simp only [num]
  omega

theorem readBytes_app (a b : List Nat) (h : a ++ b ≠ [] ∨ a = []) : readBytes (a ++ b) a.length = .ok (a, b) := by
  unfold readBytes
  rw [if_neg]
  · rw [List.take_left, List.drop_left]
  · rintro ⟨x, y⟩
    rcases h with h | h
    · exact h x
    · rw [h] at y; exact y rfl

theorem readDbt_write (d rest : List Nat) (h : d.length < 4294967296) : readDbt (writeDbt d ++ rest) = .ok (d, rest) := by
  unfold readDbt writeDbt
  have h1 := readBytes_app [d.length % 256, d.length / 256 % 256, d.length / 65536 % 256, d.length / 16777216 % 256]
    (d ++ rest) (Or.inl (by simp))
  rw [List.append_assoc]
  have e4 : ∀ a b c e : Nat, [a, b, c, e].length = 4 := fun _ _ _ _ => rfl
  rw [e4] at h1
  rw [h1]
  dsimp only
  rw [if_neg (by simp), num_four _ h]
  by_cases hd : d = []
  · subst hd
    rw [readBytes_app [] rest (Or.inr rfl)]
    simp
  · rw [readBytes_app d rest (Or.inl (by simp [hd]))]
    simp

theorem readRow_write (r : List Nat × List Nat) (rest : List Nat) (h1 : r.1.length < 4294967296)
    (h2 : r.2.length < 4294967296) : readRow (writeRow r ++ rest) = .ok (r, rest) := by
  unfold readRow writeRow
  rw [List.append_assoc, readDbt_write _ _ h1]
  dsimp only
  rw [readDbt_write _ _ h2]

theorem readRows_write : ∀ (rows : List (List Nat × List Nat)) (fuel : Nat), rows.length < fuel →
    (∀ r ∈ rows, r.1.length < 4294967296 ∧ r.2.length < 4294967296) →
    readRows fuel (rows.flatMap writeRow) = some rows
  | [], 0, h, _ => by omega
  | [], fuel + 1, _, _ => rfl
  | r :: rows, 0, h, _ => by omega
  | r :: rows, fuel + 1, h, hl => by
    rw [List.flatMap_cons]
    unfold readRows
    obtain ⟨a, b⟩ := hl r List.mem_cons_self
    rw [readRow_write r _ a b]
    dsimp only
    rw [readRows_write rows fuel (by simp at h; omega) (fun x hx => hl x (List.mem_cons_of_mem _ hx))]
    rfl

/-- A piece cut inside its length or inside its data is an error. -/
theorem readDbt_cut (d : List Nat) (j : Nat) (h : d.length < 4294967296) (h0 : 0 < j) (h1 : j < 4 + d.length)
    (h4 : j ≠ 4) : readDbt ((writeDbt d).take j) = .error .noData := by
  have hlen : (writeDbt d).length = 4 + d.length := by simp [writeDbt]; omega
  have hl : ((writeDbt d).take j).length = j := by rw [List.length_take, hlen]; omega
  have hne : (writeDbt d).take j ≠ [] := by
    intro e
    rw [e] at hl
    simp at hl
    omega
  unfold readDbt readBytes
  rw [if_neg (fun x => hne x.1)]
  dsimp only
  by_cases hj : j < 4
  · rw [if_pos (by rw [List.length_take, hl]; omega)]
  · have e1 : ((writeDbt d).take j).take 4 =
        [d.length % 256, d.length / 256 % 256, d.length / 65536 % 256, d.length / 16777216 % 256] := by
      rw [List.take_take, Nat.min_eq_left (by omega)]
      simp [writeDbt]
    have e2 : ((writeDbt d).take j).drop 4 = d.take (j - 4) := by
      rw [List.drop_take]
      simp [writeDbt]
    rw [e1, e2, if_neg (by simp), num_four _ h]
    have hd : (d.take (j - 4)).length = j - 4 := by rw [List.length_take]; omega
    rw [if_neg (by
      intro x
      rw [x.1] at hd
      simp at hd
      omega)]
    dsimp only
    rw [if_pos (by rw [List.length_take, hd]; omega)]

theorem readRows_more : ∀ (rows : List (List Nat × List Nat)) (fuel : Nat) (tail : List Nat), rows.length ≤ fuel →
    (∀ r ∈ rows, r.1.length < 4294967296 ∧ r.2.length < 4294967296) → readRows (fuel - rows.length) tail = none →
    readRows fuel (rows.flatMap writeRow ++ tail) = none
  | [], fuel, tail, _, _, ht => ht
  | r :: rows, 0, _, h, _, _ => by simp at h
  | r :: rows, fuel + 1, tail, h, hl, ht => by
    rw [List.flatMap_cons, List.append_assoc]
    unfold readRows
    obtain ⟨a, b⟩ := hl r List.mem_cons_self
    rw [readRow_write r _ a b]
    dsimp only
    rw [readRows_more rows fuel tail (by simp at h; omega) (fun x hx => hl x (List.mem_cons_of_mem _ hx))
      (by rw [List.length_cons, Nat.add_sub_add_right] at ht; exact ht)]
    rfl

end Verif.Ahead
