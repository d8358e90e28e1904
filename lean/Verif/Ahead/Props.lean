import Verif.Ahead.Awake

/-! # Reading ahead in the temporary files of a bulk load: theorems -/

namespace Verif.Ahead

/-- Two files, of five bytes and of none; buffers of two bytes. -/
def demo0 : S := (create 2 [([1, 2, 3, 4, 5], 2), ([], 0)]).getD ⟨[], [], 0, .free, false, 0⟩

/-- The first file is read to its end, three bytes at a time. -/
def demoEs : List Ev :=
  [.call 0 3, .look 0, .io, .ioRead 2, .look 0, .io, .ioRead 1, .call 0 3, .look 0, .io, .ioRead 0, .look 0, .call 1 4,
   .call 0 3]

def demo : Option (Option (S × List Ans)) := run demo0 demoEs

/-- **C82** The bytes the reader of a file was given are, in order and without a gap, a beginning of the file. -/
theorem C82_bytes {b : Nat} {files : List (List Nat × Nat)} {s0 s : S} {es : List Ev} {as : List Ans} {i : Nat}
    {p : List Nat × Nat} (h : create b files = some s0) (hp : files[i]? = some p)
    (hr : run s0 es = some (some (s, as))) : delivered i es as <+: p.1 := by
  obtain ⟨f, hf, h1, h2⟩ := from_create h hp hr
  have := ((run_inv (create_inv h) hr).files i f hf).content
  rw [h1, h2] at this
  exact ⟨f.left, this.symm⟩

/-- **C82** When the reader is told that the file is at its end, it was given the whole file. -/
theorem C82_eof {b : Nat} {files : List (List Nat × Nat)} {s0 s : S} {es : List Ev} {as : List Ans} {i : Nat}
    {p : List Nat × Nat} (h : create b files = some s0) (hp : files[i]? = some p)
    (hr : run s0 es = some (some (s, as))) (he : toldEof i es as = true) : delivered i es as = p.1 := by
  obtain ⟨f, hf, h1, h2⟩ := from_create h hp hr
  have hi := (run_inv (create_inv h) hr).files i f hf
  obtain ⟨f', hf', h3⟩ := run_stays (create_inv h) hr (create_file h hp) (Or.inr he)
  rw [hf] at hf'; cases hf'
  rw [← h1, eof_left hi h3 (eof_idle hi h3), h2]

/-- **C82** A call gives as many bytes as were asked for; less, but something, only if that is all the file still
has, when no read failed.  And when no read failed it reports no error but the end of the file. -/
theorem C82_exact {b : Nat} {files : List (List Nat × Nat)} {s0 s s' : S} {es : List Ev} {as : List Ans} {i : Nat}
    {p : List Nat × Nat} {e : Ev} {a : Ans} (h : create b files = some s0) (hp : files[i]? = some p)
    (hr : run s0 es = some (some (s, as))) (hfine : es.all Ev.fine = true) (he : e.file = some i)
    (ha : act s e = some (some (s', a))) :
    (∀ l, a = .data l → l.length = asked i 0 (es ++ [e]) ∨
      (l ≠ [] ∧ l.length < asked i 0 (es ++ [e]) ∧ delivered i es as ++ l = p.1)) ∧
    (∀ x, a = .err x → x = .eof) := by
  have hi := run_inv (create_inv h) hr
  obtain ⟨f, hf, h1, h2⟩ := from_create h hp hr
  obtain ⟨f', hf', st⟩ := act_file hi ha hf
  have hi' := (act_inv hi ha).files i f' hf'
  obtain ⟨fo, hfo, ho⟩ := run_owes (create_inv h) hr (create_file h hp) (n := 0) (owes_idle (openFile_got _ _).2.2)
  rw [hf] at hfo; cases hfo
  obtain ⟨fc, hfc, hc⟩ := run_clean (create_inv h) hr (create_file h hp) (openFile_clean _ _) hfine
  rw [hf] at hfc; cases hfc
  refine ⟨?_, ?_⟩
  · rintro l rfl
    rw [asked_append]
    rcases step_data st ho he with r | ⟨r1, r2, r3 | ⟨c, r3⟩⟩
    · exact Or.inl r
    · refine Or.inr ⟨r1, r2, ?_⟩
      obtain ⟨g1, g2⟩ := step_got st
      have := eof_left hi' r3 (eof_idle hi' r3)
      rw [g1, g2, h1, h2] at this
      rw [← this]
      have : gave i e (.data l) = l := by unfold gave; simp [he]
      rw [this]
    · exact absurd r3 (hc.2 c)
  · rintro x rfl
    cases x with
    | eof => rfl
    | fail c =>
      exfalso
      cases st with
      | same _ hx =>
        obtain ⟨y, hy, hz⟩ := hx he
        cases hy
        exact hc.1 c hz
      | wake _ hx => exact hx he
      | spurious hx => exact hx he
      | call n _ _ _ hx => unfold F.consume at hx; split at hx <;> cases hx
      | sleep w hv _ _ _ hx => cases hx
      | swap w hv _ _ _ _ hx => unfold F.consume at hx; split at hx <;> cases hx
      | short w hv y _ _ _ h1 hx =>
        split at hx
        · cases hx; exact hc.2 c h1
        · cases hx
      | fill k b _ hx => cases hx
      | fail code _ hx => cases hx

-- five bytes, three and then two; then the end is reported, and at once for the empty file
example : (demo.map (·.map (·.2))) = some (some [.none, .none, .none, .none, .data [1, 2, 3], .none, .none, .none,
    .none, .none, .none, .data [4, 5], .err .eof, .err .eof]) := by decide +kernel
example : (demo.map (·.map (fun r => (delivered 0 demoEs r.2, toldEof 0 demoEs r.2)))) =
    some (some ([1, 2, 3, 4, 5], true)) := by decide +kernel
example : asked 0 0 (demoEs.take 12) = 3 := by decide +kernel

/-- **C82** A reader that sleeps is woken: as long as no read fails and nobody gives up, the background thread can
go on while a reader sleeps, and after as many of its steps as it takes to read one block of every file before
this one in its list, the reader is awake. -/
theorem C82_awake {b : Nat} {files : List (List Nat × Nat)} {s0 s : S} {es : List Ev} {as : List Ans} {i : Nat}
    (hb : b ≠ 0) (h : create b files = some s0) (hr : run s0 es = some (some (s, as)))
    (hfine : es.all Ev.fine = true) (hcalm : es.all Ev.calm = true) (hs : s.sleeps i) :
    (∃ e : Ev, e.ofIo = true ∧ e.fine = true ∧ (act s e).isSome = true) ∧
    (∀ ks s' bs, ks.all (fun e => e.ofIo && e.fine) = true → run s ks = some (some (s', bs)) →
      2 * s.queue.length + 1 ≤ ks.length → ¬ s'.sleeps i) := by
  have hi := run_inv (create_inv h) hr
  obtain ⟨c1, c2⟩ := create_count h
  have hn := run_count (create_inv h) hr hfine c1
  have hp : s.panic = false := by rw [run_panic hr, c2, hcalm]; rfl
  obtain ⟨f, w, hv, hf, hc⟩ := hs
  have fi := hi.files i f hf
  have hr0 := fi.asleep w hv hc
  have ho : f.open = true := by
    have hd : f.ioDone = false := by
      cases hd : f.ioDone with
      | false => rfl
      | true =>
        have := fi.done hd hr0
        rw [(fi.busy (by rw [hc]; exact C.noConfusion)).2] at this; cases this
    unfold F.open; rw [hr0, hd]; rfl
  have so := open_soon hi hf ho hp hn
  refine ⟨?_, ?_⟩
  · have hbs : s.bufsize ≠ 0 := by rw [run_bufsize hr, (create_bufsize h).1]; exact hb
    refine io_can hi ?_ ?_ hbs
    · intro x
      cases so with
      | ready f' n hf' hr' => rw [hf] at hf'; cases hf'; rw [hr0] at hr'; cases hr'
      | reading n y => rw [x] at y; cases y
      | free pre post n y => rw [x] at y; cases y
      | other j pre post n y => rw [x] at y; cases y
    · intro x
      cases so with
      | ready f' n hf' hr' => rw [hf] at hf'; cases hf'; rw [hr0] at hr'; cases hr'
      | reading n y => rw [x] at y; cases y
      | free pre post n y => rw [x] at y; cases y
      | other j pre post n y => rw [x] at y; cases y
  · intro ks s' bs hall hrk hle
    obtain ⟨f', hf', hr'⟩ := soon_zero (soon_run hi so hp hn hall hrk hle)
    rintro ⟨g, w', hv', hg, hcg⟩
    rw [hf'] at hg; cases hg
    have := ((run_inv hi hrk).files i f' hf').asleep _ _ hcg
    rw [hr'] at this; cases this

example : ∃ s, (run demo0 [.call 0 3, .look 0, .io]).map (·.map (·.1)) = some (some s) ∧ s.sleeps 0 ∧ s.queue = [] :=
  ⟨_, rfl, ⟨_, 1, [1, 2], rfl, rfl⟩, rfl⟩

/-- **C82** destroy_dbufio_fileset returns: after panic_dbufio_fileset, or when every reader was told the end of its
file and no read failed, the background thread is gone or can take a step, and is gone after one step. -/
theorem C82_ends {b : Nat} {files : List (List Nat × Nat)} {s0 s : S} {es : List Ev} {as : List Ans}
    (hb : b ≠ 0) (h : create b files = some s0) (hr : run s0 es = some (some (s, as)))
    (hend : Ev.panic ∈ es ∨ (es.all Ev.fine = true ∧ ∀ i < files.length, toldEof i es as = true)) :
    (act s .join = some (some (s, .joined)) ∨ ∃ e : Ev, e.ofIo = true ∧ (act s e).isSome = true) ∧
    (∀ e s' a, e.ofIo = true → act s e = some (some (s', a)) → act s' .join = some (some (s', .joined))) := by
  have hi := run_inv (create_inv h) hr
  have joined : ∀ t : S, t.io = .gone → act t .join = some (some (t, .joined)) := by
    intro t ht; simp only [act]; rw [if_pos ht]
  have hbs : s.bufsize ≠ 0 := by rw [run_bufsize hr, (create_bufsize h).1]; exact hb
  have hcase : s.panic = true ∨ (s.notDone = 0 ∧ ∀ (i : Nat) (f : F), s.fs[i]? = some f → f.open = false) := by
    rcases hend with hp | ⟨hfine, htold⟩
    · left
      rw [run_panic hr]
      have : es.all Ev.calm = false := by
        cases hx : es.all Ev.calm with
        | false => rfl
        | true => have := List.all_eq_true.mp hx _ hp; cases this
      rw [this]; simp
    · right
      have hd : ∀ (i : Nat) (f : F), s.fs[i]? = some f → f.ioDone = true := by
        intro i f hf
        have hlt : i < s.fs.length := by
          rcases Nat.lt_or_ge i s.fs.length with c | c
          · exact c
          · rw [List.getElem?_eq_none c] at hf; cases hf
        rw [run_length hr, (create_bufsize h).2] at hlt
        obtain ⟨f', hf', h3⟩ := run_stays (create_inv h) hr
          (create_file h (List.getElem?_eq_getElem hlt)) (Or.inr (htold i hlt))
        rw [hf] at hf'; cases hf'
        exact ((hi.files i f hf).fin h3).2.2.2
      refine ⟨?_, fun i f hf => by unfold F.open; rw [hd i f hf]; simp⟩
      rw [run_count (create_inv h) hr hfine (create_count h).1]
      refine opens_zero (fun f hf => ?_)
      obtain ⟨i, hif⟩ := List.mem_iff_getElem?.mp hf
      exact hd i f hif
  have hnw : s.io ≠ .waiting := by
    intro x
    obtain ⟨_, y, z⟩ := hi.waiting x
    rcases hcase with hp | ⟨hz, _⟩
    · rw [hp] at z; cases z
    · exact y hz
  refine ⟨?_, ?_⟩
  · by_cases hg : s.io = .gone
    · exact Or.inl (joined s hg)
    · obtain ⟨e, e1, _, e3⟩ := io_can hi hnw hg hbs
      exact Or.inr ⟨e, e1, e3⟩
  · intro e s' a he ha
    refine joined s' ?_
    have hreading : ∀ j, s.io = .reading j → s.panic = true := by
      intro j hj
      rcases hcase with hp | ⟨_, hz⟩
      · exact hp
      · obtain ⟨_, f, hf, ho⟩ := hi.reading j hj
        rw [hz j f hf] at ho; cases ho
    cases e with
    | io =>
      simp only [act] at ha
      split at ha
      · split at ha
        · cases ha; rfl
        · next hp =>
          rcases hcase with hp' | ⟨hz, _⟩
          · exact absurd hp' hp
          · rw [if_pos hz] at ha; cases ha; rfl
      · cases ha
    | ioRead k =>
      simp only [act] at ha
      split at ha
      · next j hj =>
        rw [hreading j hj] at ha
        split at ha
        · split at ha
          · simp only [if_true] at ha; cases ha; rfl
          · cases ha
        · cases ha
      · cases ha
    | ioFail c =>
      simp only [act] at ha
      split at ha
      · next j hj =>
        rw [hreading j hj] at ha
        split at ha
        · simp only [if_true] at ha; cases ha; rfl
        · cases ha
      · cases ha
    | _ => cases he

example : (demo.map (·.map (fun r => ((List.range 2).all (fun i => toldEof i demoEs r.2), (act r.1 .join).isNone)))) =
    some (some (true, true)) := by decide +kernel

/-- **C82** None of the assertions in this code fails, whatever the reads answer and however the threads run. -/
theorem C82_asserts {b : Nat} {files : List (List Nat × Nat)} {s0 : S} (es : List Ev)
    (h : create b files = some s0) : run s0 es ≠ some none := run_total (create_inv h)

/-- **C82** Rows written one after the other are read back: the same rows, in order, and then the end. -/
theorem C82_rows (rows : List (List Nat × List Nat))
    (hl : ∀ r ∈ rows, r.1.length < 4294967296 ∧ r.2.length < 4294967296) :
    readRows (rows.length + 1) (rows.flatMap writeRow) = some rows :=
  readRows_write rows _ (Nat.lt_succ_self _) hl

example : readRows 3 ([([7, 8], []), ([9], [1, 2, 3])].flatMap writeRow) = some [([7, 8], []), ([9], [1, 2, 3])] := by
  decide +kernel

/-- **C82** A file cut off inside a length, or inside the bytes of a key or of a value, is an error and not the end of
the rows, however many whole rows are before the cut. -/
theorem C82_cut (rows : List (List Nat × List Nat)) (k v : List Nat) (j fuel : Nat)
    (hl : ∀ r ∈ rows, r.1.length < 4294967296 ∧ r.2.length < 4294967296) (hk : k.length < 4294967296)
    (hv : v.length < 4294967296) (h0 : 0 < j) (h4 : j ≠ 4) :
    (j < 4 + k.length → readRows fuel (rows.flatMap writeRow ++ (writeDbt k).take j) = none) ∧
    (j < 4 + v.length → readRows fuel (rows.flatMap writeRow ++ (writeDbt k ++ (writeDbt v).take j)) = none) := by
  have few : ∀ (fuel : Nat) (rows : List (List Nat × List Nat)) (tail : List Nat), fuel ≤ rows.length →
      (∀ r ∈ rows, r.1.length < 4294967296 ∧ r.2.length < 4294967296) →
      readRows fuel (rows.flatMap writeRow ++ tail) = none := by
    intro fuel
    induction fuel with
    | zero => intros; rfl
    | succ f ih =>
      intro rows tail h hl
      cases rows with
      | nil => simp at h
      | cons r rows =>
        rw [List.flatMap_cons, List.append_assoc]
        unfold readRows
        obtain ⟨a, b⟩ := hl r List.mem_cons_self
        rw [readRow_write r _ a b]
        dsimp only
        rw [ih rows tail (by simpa using h) (fun x hx => hl x (List.mem_cons_of_mem _ hx))]
        rfl
  by_cases hf : fuel ≤ rows.length
  · exact ⟨fun _ => few fuel rows _ hf hl, fun _ => few fuel rows _ hf hl⟩
  · obtain ⟨m, hm⟩ : ∃ m, fuel - rows.length = m + 1 := ⟨fuel - rows.length - 1, by omega⟩
    refine ⟨fun hj => readRows_more rows fuel _ (by omega) hl ?_, fun hj => readRows_more rows fuel _ (by omega) hl ?_⟩
    · rw [hm]
      unfold readRows readRow
      rw [readDbt_cut k j hk h0 hj h4]
    · rw [hm]
      unfold readRows readRow
      rw [readDbt_write k _ hk]
      dsimp only
      rw [readDbt_cut v j hv h0 hj h4]

example : readRows 5 ([([7, 8], [6])].flatMap writeRow ++ (writeDbt [9] ++ (writeDbt [1, 2, 3]).take 2)) = none := by
  decide +kernel

/-- **C82** A read that fails counts as the end of its file, and the file goes back into the list: after two failures
of one file (its reader going on) the background thread returns, with another file unread, and the reader of that
file sleeps with nobody left to wake it. -/
theorem C82_fail_refuted : ∃ s0 s es as,
    create 1 [([1, 2], 1), ([3, 4], 1)] = some s0 ∧ run s0 es = some (some (s, as)) ∧
    es.all Ev.calm = true ∧ s.sleeps 1 ∧ (∀ e : Ev, e.ofIo = true → act s e = none) ∧
    delivered 1 es as = [3] :=
  ⟨_, _, [.io, .ioFail 5, .call 0 1, .call 0 1, .look 0, .io, .ioRead 1, .io, .ioFail 5, .call 1 1, .call 1 2, .look 1,
      .io, .look 1],
    _, rfl, rfl, rfl, ⟨_, 1, [4], rfl, rfl⟩, (by intro e he; cases e <;> first | rfl | cases he), rfl⟩

/-- **C82** A reader that sleeps does not look whether everything was given up: after panic_dbufio_fileset it goes back
to sleep, and nobody is left to wake it. -/
theorem C82_panic_refuted : ∃ s0 s es as,
    create 1 [([1, 2], 1)] = some s0 ∧ run s0 es = some (some (s, as)) ∧ es.all Ev.fine = true ∧
    s.sleeps 0 ∧ (∀ e : Ev, e.ofIo = true → act s e = none) ∧ act s .join = some (some (s, .joined)) :=
  ⟨_, _, [.io, .call 0 2, .look 0, .panic, .ioRead 1, .look 0], _, rfl, rfl, rfl, ⟨_, 1, [1], rfl, rfl⟩,
    (by intro e he; cases e <;> first | rfl | cases he), rfl⟩

/-- **C82** A file cut off between the pieces of a row is taken for a file that ends there: the row is lost without an
error.  (Cut off inside a piece, it is an error.) -/
theorem C82_truncated_refuted : ∃ (rows : List (List Nat × List Nat)) (l : List Nat),
    l <+: rows.flatMap writeRow ∧ readRows 3 l = some (rows.take 1) ∧ (rows.take 1).flatMap writeRow ≠ l ∧
    rows.length = 2 ∧ readRows 3 (l.take (l.length - 1)) = none :=
  ⟨[([1], [2]), ([3, 4], [5])], writeRow ([1], [2]) ++ writeDbt [3, 4], by decide +kernel, by decide +kernel,
    by decide +kernel, rfl, by decide +kernel⟩

end Verif.Ahead
