import Verif.Ahead.Lemmas

/-! # Lemmas on what was delivered, and on who is awake -/

namespace Verif.Ahead

theorem run_cons {s r : S} {e : Ev} {es : List Ev} {as : List Ans} (h : run s (e :: es) = some (some (r, as))) :
    ∃ s1 a as', act s e = some (some (s1, a)) ∧ run s1 es = some (some (r, as')) ∧ as = a :: as' := by
  simp only [run] at h
  split at h
  · cases h
  · cases h
  · next s1 a ha =>
    split at h
    · next r' as' hr' => cases h; exact ⟨s1, a, as', ha, hr', rfl⟩
    · next x hx => exact absurd h (hx _ _)

theorem act_total {s : S} (h : Inv s) (e : Ev) : act s e ≠ some none := by
  intro ha
  cases e with
  | call i count =>
    simp only [act] at ha
    split at ha
    · split at ha
      · split at ha <;> cases ha
      · cases ha
    · cases ha
  | look i =>
    simp only [act] at ha
    split at ha
    · next f hf =>
      split at ha
      · split at ha
        · next hr =>
          split at ha
          · next he =>
            split at ha
            · next hb =>
              have he' : f.err1 = none := he
              have hb' : f.buf1 = [] := hb
              rcases (h.files i f hf).full hr with ⟨_, x, _⟩ | ⟨c, x, _⟩ | ⟨x, _⟩
              · exact x hb'
              · rw [he'] at x; cases x
              · rw [he'] at x; cases x
            · cases ha
          · split at ha <;> cases ha
        · cases ha
      · cases ha
    · cases ha
  | io =>
    simp only [act] at ha
    split at ha
    · split at ha
      · cases ha
      · split at ha
        · cases ha
        · split at ha
          · cases ha
          · next i q hq =>
            obtain ⟨f, hf, ho⟩ := h.queued i (by rw [hq]; exact List.mem_cons_self)
            obtain ⟨o1, o2⟩ := open_ready ho
            rw [hf] at ha
            simp [o1, o2] at ha
    · cases ha
  | ioRead k =>
    simp only [act] at ha
    split at ha
    · split at ha
      · split at ha
        · split at ha <;> cases ha
        · cases ha
      · cases ha
    · cases ha
  | ioFail code =>
    simp only [act] at ha
    split at ha
    · split at ha
      · split at ha <;> cases ha
      · cases ha
    · cases ha
  | spurious i =>
    simp only [act] at ha
    split at ha
    · split at ha <;> cases ha
    · cases ha
  | ioSpurious => simp only [act] at ha; split at ha <;> cases ha
  | panic => simp only [act] at ha; cases ha
  | join => simp only [act] at ha; split at ha <;> cases ha

theorem run_total : ∀ {es : List Ev} {s : S}, Inv s → run s es ≠ some none
  | [], s, h => by intro x; simp only [run] at x; cases x
  | e :: es, s, h => by
    intro x
    simp only [run] at x
    split at x
    · cases x
    · next ha => exact act_total h e ha
    · next s1 a ha =>
      split at x
      · cases x
      · next y hy =>
        have : run s1 es = some none := x
        exact run_total (act_inv h ha) this

/-- What a step does to a file. -/
inductive FStep (i : Nat) (e : Ev) (a : Ans) (f : F) : F → Prop
  | same : gave i e a = [] → (e.file = some i → ∃ x, a = .err x ∧ f.err0 = some x) → FStep i e a f f
  | wake : gave i e a = [] → e.file ≠ some i → FStep i e a f f.wake
  | spurious : e.file ≠ some i → gave i e a = [] → FStep i e a f f.wake
  | call (n : Nat) : e = .call i n → f.c = .idle → f.err0 = none → a = (f.consume n []).2 →
      FStep i e a f (f.consume n []).1
  | sleep (w : Nat) (h : List Nat) : e = .look i → f.c = .asks w h → f.ready = false → a = .none →
      FStep i e a f { f with c := .sleeps w h }
  | swap (w : Nat) (h : List Nat) : e = .look i → f.c = .asks w h → f.ready = true → f.err1 = none →
      a = (f.swap.consume w h).2 → FStep i e a f (f.swap.consume w h).1
  | short (w : Nat) (h : List Nat) (x : Err) : e = .look i → f.c = .asks w h → f.ready = true → f.err1 = some x →
      a = (if h = [] then .err x else .data h) → FStep i e a f { f.swap with c := .idle, got := f.got ++ h }
  | fill (k b : Nat) : e = .ioRead k → a = .none → f.open = true → fits b f.rest k = true → FStep i e a f (f.fill k).wake
  | fail (code : Nat) : e = .ioFail code → a = .none → f.open = true → FStep i e a f (f.fillError code).wake

theorem gave_none (i : Nat) (e : Ev) : gave i e .none = [] := rfl

theorem gave_other {i : Nat} {e : Ev} {a : Ans} (h : e.file ≠ some i) : gave i e a = [] := by
  unfold gave
  split
  · rw [if_neg h]
  · rfl

theorem act_file {s s' : S} {e : Ev} {a : Ans} {i : Nat} {f : F} (h : Inv s) (ha : act s e = some (some (s', a)))
    (hf : s.fs[i]? = some f) : ∃ f', s'.fs[i]? = some f' ∧ FStep i e a f f' := by
  cases e with
  | call j count =>
    simp only [act] at ha
    split at ha
    · next g hg =>
      split at ha
      · next hc =>
        split at ha
        · next er he =>
          cases ha
          refine ⟨f, hf, .same rfl ?_⟩
          intro hfile
          by_cases c : j = i
          · subst c
            rw [hf] at hg; cases hg
            exact ⟨er, rfl, he⟩
          · exact absurd (Option.some.inj hfile) c
        · next he =>
          cases ha
          by_cases c : j = i
          · subst c
            rw [hf] at hg; cases hg
            exact ⟨_, set_get hf, .call count rfl hc he rfl⟩
          · refine ⟨f, by show (s.fs.set j _)[i]? = _; rw [List.getElem?_set_ne c]; exact hf, ?_⟩
            have hne : (Ev.call j count).file ≠ some i := fun x => c (Option.some.inj x)
            exact .same (gave_other hne) (fun x => absurd x hne)
      · cases ha
    · cases ha
  | look j =>
    simp only [act] at ha
    split at ha
    · next g hg =>
      split at ha
      · next want hv hc =>
        -- what happens to the others
        have fsb : ∀ b : Bool, (if b = true then s else { s with queue := s.queue ++ [j] }).broadcast.fs = s.fs.map F.wake := by
          intro b; cases b <;> rfl
        have hne : j ≠ i → (Ev.look j).file ≠ some i := fun c x => c (Option.some.inj x)
        have other : ∀ x : F, j ≠ i → ∀ b, ∃ f', ((if b = true then s else { s with queue := s.queue ++ [j] }).broadcast.fs.set j x)[i]? = some f' ∧ FStep i (.look j) a f f' := by
          intro x c b
          refine ⟨f.wake, ?_, .wake (gave_other (hne c)) (hne c)⟩
          rw [fsb, List.getElem?_set_ne c, List.getElem?_map, hf]; rfl
        have own : ∀ x : F, j = i → ∀ b, ((if b = true then s else { s with queue := s.queue ++ [j] }).broadcast.fs.set j x)[i]? = some x := by
          intro x c b
          subst c
          rw [fsb]
          have : (s.fs.map F.wake)[j]? = some f.wake := by rw [List.getElem?_map, hf]; rfl
          exact set_get this
        split at ha
        · next hr =>
          split at ha
          · next he =>
            split at ha
            · cases ha
            · cases ha
              by_cases c : j = i
              · have hfg : f = g := by subst c; rw [hf] at hg; cases hg; rfl
                subst hfg
                exact ⟨_, own _ c _, .swap want hv (by rw [c]) hc hr he rfl⟩
              · exact other _ c _
          · next er he =>
            split at ha
            · next hn =>
              cases ha
              by_cases c : j = i
              · have hfg : f = g := by subst c; rw [hf] at hg; cases hg; rfl
                subst hfg
                refine ⟨_, own _ c _, ?_⟩
                have := FStep.short (i := i) (e := .look j) (a := .err er) (f := f) want hv er (by rw [c]) hc hr he
                  (by rw [if_pos hn])
                rw [hn, List.append_nil] at this
                exact this
              · exact other _ c _
            · next hn =>
              cases ha
              by_cases c : j = i
              · have hfg : f = g := by subst c; rw [hf] at hg; cases hg; rfl
                subst hfg
                exact ⟨_, own _ c _, .short want hv er (by rw [c]) hc hr he (by rw [if_neg hn])⟩
              · exact other _ c _
        · next hr =>
          cases ha
          by_cases c : j = i
          · subst c
            rw [hf] at hg; cases hg
            exact ⟨_, set_get hf, .sleep want hv rfl hc (by simpa using hr) rfl⟩
          · refine ⟨f, by show (s.fs.set j _)[i]? = _; rw [List.getElem?_set_ne c]; exact hf, ?_⟩
            exact .same rfl (fun x => absurd x (hne c))
      · cases ha
    · cases ha
  | io =>
    have hn : (Ev.io).file ≠ some i := by intro x; cases x
    have same : ∃ f', s.fs[i]? = some f' ∧ FStep i .io a f f' := ⟨f, hf, .same (gave_other hn) (fun x => absurd x hn)⟩
    simp only [act] at ha
    split at ha
    · split at ha
      · cases ha; exact same
      · split at ha
        · cases ha; exact same
        · split at ha
          · cases ha; exact same
          · split at ha
            · split at ha
              · cases ha
              · cases ha; exact same
            · cases ha
    · cases ha
  | ioRead k =>
    have hn : (Ev.ioRead k).file ≠ some i := by intro x; cases x
    simp only [act] at ha
    split at ha
    · next j hio =>
      split at ha
      · next g hg =>
        split at ha
        · next hk =>
          split at ha
          · cases ha; exact ⟨f, hf, .same (gave_other hn) (fun x => absurd x hn)⟩
          · cases ha
            by_cases c : j = i
            · subst c
              rw [hf] at hg; cases hg
              obtain ⟨_, g, hg, ho⟩ := h.reading j hio
              rw [hf] at hg; cases hg
              refine ⟨(f.fill k).wake, ?_, .fill k s.bufsize rfl rfl ho hk⟩
              show ((s.fs.set j (f.fill k)).map F.wake)[j]? = _
              rw [List.getElem?_map, set_get hf]; rfl
            · refine ⟨f.wake, ?_, .wake (gave_other hn) hn⟩
              show ((s.fs.set j (g.fill k)).map F.wake)[i]? = _
              rw [List.getElem?_map, List.getElem?_set_ne c, hf]; rfl
        · cases ha
      · cases ha
    · cases ha
  | ioFail code =>
    have hn : (Ev.ioFail code).file ≠ some i := by intro x; cases x
    simp only [act] at ha
    split at ha
    · next j hio =>
      split at ha
      · next g hg =>
        split at ha
        · cases ha; exact ⟨f, hf, .same (gave_other hn) (fun x => absurd x hn)⟩
        · cases ha
          by_cases c : j = i
          · subst c
            rw [hf] at hg; cases hg
            obtain ⟨_, g, hg, ho⟩ := h.reading j hio
            rw [hf] at hg; cases hg
            refine ⟨(f.fillError code).wake, ?_, .fail code rfl rfl ho⟩
            show ((s.fs.set j (f.fillError code)).map F.wake)[j]? = _
            rw [List.getElem?_map, set_get hf]; rfl
          · refine ⟨f.wake, ?_, .wake (gave_other hn) hn⟩
            show ((s.fs.set j (g.fillError code)).map F.wake)[i]? = _
            rw [List.getElem?_map, List.getElem?_set_ne c, hf]; rfl
      · cases ha
    · cases ha
  | spurious j =>
    have hn : (Ev.spurious j).file ≠ some i := by intro x; cases x
    simp only [act] at ha
    split at ha
    · next g hg =>
      split at ha
      · cases ha
        by_cases c : j = i
        · subst c
          rw [hf] at hg; cases hg
          exact ⟨_, set_get hf, .spurious hn (gave_other hn)⟩
        · refine ⟨f, by show (s.fs.set j _)[i]? = _; rw [List.getElem?_set_ne c]; exact hf, ?_⟩
          exact .same rfl (fun x => absurd x hn)
      · cases ha
    · cases ha
  | ioSpurious =>
    have hn : (Ev.ioSpurious).file ≠ some i := by intro x; cases x
    simp only [act] at ha
    split at ha
    · cases ha; exact ⟨f, hf, .same rfl (fun x => absurd x hn)⟩
    · cases ha
  | panic =>
    have hn : (Ev.panic).file ≠ some i := by intro x; cases x
    simp only [act] at ha
    cases ha
    refine ⟨f.wake, ?_, .wake rfl hn⟩
    show (s.fs.map F.wake)[i]? = _
    rw [List.getElem?_map, hf]; rfl
  | join =>
    have hn : (Ev.join).file ≠ some i := by intro x; cases x
    simp only [act] at ha
    split at ha
    · cases ha; exact ⟨f, hf, .same rfl (fun x => absurd x hn)⟩
    · cases ha

theorem gave_look {i : Nat} {l : List Nat} : gave i (.look i) (.data l) = l := by
  simp [gave, Ev.file]
theorem gave_call {i n : Nat} {l : List Nat} : gave i (.call i n) (.data l) = l := by
  simp [gave, Ev.file]

/-- Bytes are delivered just when they count as delivered. -/
theorem step_got {i : Nat} {e : Ev} {a : Ans} {f f' : F} (h : FStep i e a f f') :
    f'.got = f.got ++ gave i e a ∧ f'.orig = f.orig := by
  cases h with
  | same h _ => rw [h]; exact ⟨(List.append_nil _).symm, rfl⟩
  | wake h _ => rw [h]; exact ⟨(List.append_nil _).symm, rfl⟩
  | spurious _ h => rw [h]; exact ⟨(List.append_nil _).symm, rfl⟩
  | call n he hc h0 ha =>
    subst ha he
    unfold F.consume
    split
    · rw [gave_call]; exact ⟨rfl, rfl⟩
    · exact ⟨(List.append_nil _).symm, rfl⟩
  | sleep w h he hc hr ha => subst ha; exact ⟨(List.append_nil _).symm, rfl⟩
  | swap w h he hc hr h1 ha =>
    subst ha he
    unfold F.consume
    split
    · rw [gave_look]; exact ⟨rfl, rfl⟩
    · exact ⟨(List.append_nil _).symm, rfl⟩
  | short w h x he hc hr h1 ha =>
    subst ha he
    split
    · next hn => subst hn; exact ⟨rfl, rfl⟩
    · rw [gave_look]; exact ⟨rfl, rfl⟩
  | fill k b he ha ho hk =>
    subst ha
    refine ⟨?_, ?_⟩
    · show (f.fill k).got = _; unfold F.fill; split <;> exact (List.append_nil _).symm
    · show (f.fill k).orig = _; unfold F.fill; split <;> rfl
  | fail code he ha ho => subst ha; exact ⟨(List.append_nil _).symm, rfl⟩

theorem run_file : ∀ {es : List Ev} {s s' : S} {as : List Ans} {i : Nat} {f : F}, Inv s →
    run s es = some (some (s', as)) → s.fs[i]? = some f →
    ∃ f', s'.fs[i]? = some f' ∧ f'.got = f.got ++ delivered i es as ∧ f'.orig = f.orig
  | [], s, s', as, i, f, h, hr, hf => by
    simp only [run] at hr; cases hr; exact ⟨f, hf, (List.append_nil _).symm, rfl⟩
  | e :: es, s, s', as, i, f, h, hr, hf => by
    obtain ⟨s1, a, as', ha, hr', rfl⟩ := run_cons hr
    obtain ⟨f1, hf1, st⟩ := act_file h ha hf
    obtain ⟨g1, g2⟩ := step_got st
    obtain ⟨f2, hf2, k1, k2⟩ := run_file (act_inv h ha) hr' hf1
    refine ⟨f2, hf2, ?_, k2.trans g2⟩
    rw [k1, g1]
    show _ = f.got ++ (gave i e a ++ delivered i es as')
    rw [List.append_assoc]

theorem create_file {b : Nat} {files : List (List Nat × Nat)} {s : S} {i : Nat} {p : List Nat × Nat}
    (h : create b files = some s) (hp : files[i]? = some p) : s.fs[i]? = some (openFile p.1 p.2) := by
  unfold create at h
  split at h
  · cases h
    show (files.map (fun p => openFile p.1 p.2))[i]? = _
    rw [List.getElem?_map, hp]; rfl
  · cases h

theorem openFile_got (l : List Nat) (k : Nat) : (openFile l k).got = [] ∧ (openFile l k).orig = l ∧ (openFile l k).c = .idle := by
  unfold openFile; split <;> exact ⟨rfl, rfl, rfl⟩

/-- A file after any number of steps. -/
theorem from_create {b : Nat} {files : List (List Nat × Nat)} {s0 s : S} {es : List Ev} {as : List Ans} {i : Nat}
    {p : List Nat × Nat} (h : create b files = some s0) (hp : files[i]? = some p)
    (hr : run s0 es = some (some (s, as))) :
    ∃ f, s.fs[i]? = some f ∧ f.got = delivered i es as ∧ f.orig = p.1 := by
  obtain ⟨f, hf, h1, h2⟩ := run_file (create_inv h) hr (create_file h hp)
  obtain ⟨o1, o2, _⟩ := openFile_got p.1 p.2
  exact ⟨f, hf, by rw [h1, o1]; rfl, by rw [h2, o2]⟩

/-- End of file means nothing is left. -/
theorem eof_left {f : F} (h : FInv f) (he : f.err0 = some .eof) (hc : f.c = .idle) : f.got = f.orig := by
  obtain ⟨b, r, y, _⟩ := h.fin he
  rw [h.content]; unfold F.left
  rw [hc, b, r, y]
  simp [C.held]

theorem eof_idle {f : F} (h : FInv f) (he : f.err0 = some .eof) : f.c = .idle := by
  cases hc : f.c with
  | idle => rfl
  | asks w hv =>
    have := (h.busy (by rw [hc]; exact C.noConfusion)).2
    rw [he] at this; cases this
  | sleeps w hv =>
    have := (h.busy (by rw [hc]; exact C.noConfusion)).2
    rw [he] at this; cases this

/-- A reader told the end finds the file at its end. -/
theorem step_eof {i : Nat} {e : Ev} {a : Ans} {f f' : F} (h : FStep i e a f f') (hfile : e.file = some i)
    (ha' : a = .err .eof) : f'.err0 = some .eof := by
  cases h with
  | same h h2 =>
    obtain ⟨x, h3, h4⟩ := h2 hfile
    rw [ha'] at h3; cases h3; exact h4
  | wake _ h => exact absurd hfile h
  | spurious h => exact absurd hfile h
  | call n he hc h0 ha =>
    rw [ha'] at ha
    unfold F.consume at ha
    split at ha <;> cases ha
  | sleep w h he hc hr ha => rw [ha'] at ha; cases ha
  | swap w h he hc hr h1 ha =>
    rw [ha'] at ha
    unfold F.consume at ha
    split at ha <;> cases ha
  | short w h x he hc hr h1 ha =>
    rw [ha'] at ha
    split at ha
    · cases ha; exact h1
    · cases ha
  | fill k b he ha => rw [ha'] at ha; cases ha
  | fail code he ha => rw [ha'] at ha; cases ha

/-- The end of file stays. -/
theorem step_eof_stays {i : Nat} {e : Ev} {a : Ans} {f f' : F} (hi : FInv f) (h : FStep i e a f f')
    (hx : f.err0 = some .eof) : f'.err0 = some .eof := by
  have hid := eof_idle hi hx
  obtain ⟨_, _, h3, h4⟩ := hi.fin hx
  cases h with
  | same => exact hx
  | wake => exact hx
  | spurious => exact hx
  | call n he hc h0 ha => rw [hx] at h0; cases h0
  | sleep w h he hc => rw [hid] at hc; cases hc
  | swap w h he hc => rw [hid] at hc; cases hc
  | short w h x he hc => rw [hid] at hc; cases hc
  | fill k b he ha ho => rw [(show f.open = (!f.ready && !f.ioDone) from rfl), h3, h4] at ho; cases ho
  | fail code he ha ho => rw [(show f.open = (!f.ready && !f.ioDone) from rfl), h3, h4] at ho; cases ho

theorem run_stays : ∀ {es : List Ev} {s s' : S} {as : List Ans} {i : Nat} {f : F}, Inv s →
    run s es = some (some (s', as)) → s.fs[i]? = some f → (f.err0 = some .eof ∨ toldEof i es as = true) →
    ∃ f', s'.fs[i]? = some f' ∧ f'.err0 = some .eof
  | [], s, s', as, i, f, h, hr, hf, hx => by
    simp only [run] at hr; cases hr
    rcases hx with hx | hx
    · exact ⟨f, hf, hx⟩
    · cases hx
  | e :: es, s, s', as, i, f, h, hr, hf, hx => by
    obtain ⟨s1, a, as', ha, hr', rfl⟩ := run_cons hr
    obtain ⟨f1, hf1, st⟩ := act_file h ha hf
    refine run_stays (act_inv h ha) hr' hf1 ?_
    rcases hx with hx | hx
    · exact Or.inl (step_eof_stays (h.files i f hf) st hx)
    · simp only [toldEof, Bool.or_eq_true, Bool.and_eq_true, beq_iff_eq] at hx
      rcases hx with ⟨x1, x2⟩ | hx
      · exact Or.inl (step_eof st x1 x2)
      · exact Or.inr hx

end Verif.Ahead
