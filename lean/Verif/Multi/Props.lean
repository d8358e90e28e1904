import Verif.Multi.Hist

/-!
# Several dictionaries at once: the properties

C63: the dictionaries stay in step with the table.  C64: recovery brings back, from the
source rows in the log, what the calls left.
-/

namespace Verif.Multi

/-! ## C63 -/

/-- Every history that keeps to the rules, from any table that is in step: the
    dictionaries show the rows computed from the table and nothing else, unless an open
    transaction has to abort.  Missing: the rules ask that an empty value under a key
    that stays was empty before, that the keys computed for one dictionary are different
    from each other, and that a transaction aborts when a `put_multiple` in it failed
    after it began to write; without each of them it fails
    (`C63_empty_value_not_stored`, `C63_repeated_key_lost`, `C63_half_put`). -/
theorem C63_dictionaries_stay_in_step_partial {E : Env} (L : Lawful E) (G : GenAgree E)
    (src : Db) (fam : List Db) (table : List Row) (s : State) (es : List Ev)
    (hgood : Good E src fam table) (hstart : InStep E src fam table s) (hR : Respects E s)
    (hrules : Follows E src fam ⟨s, []⟩ ⟨table, []⟩ [] es)
    {w : World} {recs : List Rec} (hrun : run E ⟨s, []⟩ es = some (w, recs))
    (hclean : clean (marksAfter E ⟨s, []⟩ [] es)) :
    InStep E src fam (tablesAfter E ⟨s, []⟩ ⟨table, []⟩ es).cur w.cur :=
  ((run_in_step L G (w := ⟨s, []⟩) (t := ⟨table, []⟩) (fs := []) es ⟨hR, hgood, hstart⟩ hrules hrun).top.2
    hclean).2

/-- A call that returns 0, made by the rules, takes the dictionaries from one table to
    the next, whatever flags and locks it was made with. -/
theorem C63_one_call_partial {E : Env} (L : Lawful E) (G : GenAgree E) (src : Db)
    (fam : List Db) (table : List Row) (s s' : State) (c : Call) (recs : List Rec)
    (hgood : Good E src fam table) (hstart : InStep E src fam table s) (hR : Respects E s)
    (hc : Proper E src fam table c) (hrun : c.run E s = (s', recs, .ok)) :
    InStep E src fam (tableAfter table c) s' ∧ Good E src fam (tableAfter table c) :=
  (call_in_step L G hR hgood hstart hc hrun).symm

/-- `del_multiple` and `update_multiple` that return a code have changed nothing and
    written nothing to the log; they never stop the process. -/
theorem C63_failed_del_or_update_changes_nothing {E : Env} (s s' : State) (c : Call)
    (recs : List Rec) (o : Outcome) (hc : ∀ g src k v ts, c ≠ .put g src k v ts)
    (hrun : c.run E s = (s', recs, o)) (ho : o ≠ .ok) : s' = s ∧ recs = [] ∧ o ≠ .crash := by
  have hcr : o ≠ .crash := by
    cases c with
    | put g src k v ts => exact (hc _ _ _ _ _ rfl).elim
    | del g src k v ts =>
      have h : delMultiple E s g src k v ts = (s', recs, o) := hrun
      unfold delMultiple at h
      split at h <;> cases h <;> intro h <;> cases h
    | update g src ok ov nk nv n m ts =>
      have h : updateMultiple E s g src ok ov nk nv n m ts = (s', recs, o) := hrun
      rcases update_cases (E := E) (s := s) (grant := g) (src := src) (ok := ok) (ov := ov)
        (nk := nk) (nv := nv) (n := n) (m := m) (ts := ts) with ⟨e, he⟩ | ⟨parts, _, _, he⟩
      · rw [he] at h; cases h; intro h; cases h
      · rw [he] at h; cases h; intro h; cases h
  have hsp : spoils E s c = false := by
    cases c with
    | put g src k v ts => exact (hc _ _ _ _ _ rfl).elim
    | del => rfl
    | update => rfl
  obtain ⟨a, b⟩ := call_failed hrun ho hcr hsp
  exact ⟨a, b, hcr⟩

theorem put_keeps {E : Env} {s : State} {d d' : Db} {row : Row} {x : Bytes}
    (h : E.put s d row d' x = none) : s d' x = none := by
  unfold Env.put at h
  split at h
  · rename_i hd
    split at h
    · cases h
    · rw [hd]; exact h
  · exact h

theorem putAll_keeps {E : Env} {d d' : Db} {x : Bytes} (rows : List Row) {s : State}
    (h : putAll E d rows s d' x = none) : s d' x = none := by
  induction rows generalizing s with
  | nil => exact h
  | cons r rs ih => exact put_keeps (ih h)

theorem putRows_new {E : Env} {d : Db} (rows : List Row) {s s' : State}
    (h : putRows E d (some noOverwrite) s rows = (s', .ok)) : ∀ r ∈ rows, s d r.1 = none := by
  induction rows generalizing s with
  | nil => intro r hr; cases hr
  | cons q qs ih =>
    rw [putRows] at h
    rw [if_neg (by decide)] at h
    split at h
    · rename_i s1 he
      have hq : s d q.1 = none ∧ s1 = E.put s d q := by
        change dbPut E s d q noOverwrite = _ at he
        unfold dbPut at he
        rw [if_pos rfl] at he
        split at he
        · cases he
        · rename_i hn; cases he; exact ⟨hn, rfl⟩
      intro r hr
      rcases List.mem_cons.mp hr with rfl | hr
      · exact hq.1
      · have := ih h r hr
        rw [hq.2] at this
        exact put_keeps this
    · rename_i hno he
      cases h
      exact (hno rfl).elim

theorem doPut_new {E : Env} (plan : List (Db × Option Nat × List Row)) {s s' : State}
    (h : doPut E s plan = (s', .ok)) :
    ∀ p ∈ plan, p.2.1 = some noOverwrite → ∀ r ∈ p.2.2, s p.1 r.1 = none := by
  induction plan generalizing s with
  | nil => intro p hp; cases hp
  | cons q qs ih =>
    obtain ⟨d, f, rows⟩ := q
    rw [doPut] at h
    split at h
    · rename_i s1 he
      intro p hp hf r hr
      rcases List.mem_cons.mp hp with rfl | hp
      · replace hf : f = some noOverwrite := hf
        subst hf
        exact putRows_new rows he r hr
      · have := ih h p hp hf r hr
        rw [putRows_ok rows he] at this
        exact putAll_keeps rows this
    · rename_i hno _
      cases h
      exact (hno rfl).elim

/-- A `put_multiple` that returns 0 has overwritten nothing in a dictionary that it was
    told not to overwrite in. -/
theorem C63_put_overwrites_nothing {E : Env} (s s' : State) (grant : Db → Bytes → Bool)
    (src : Option Db) (k v : Bytes) (ts : List Target) (recs : List Rec)
    (hrun : putMultiple E s grant src k v ts = (s', recs, .ok)) (t : Target) (ht : t ∈ ts)
    (hf : t.flags.rest = noOverwrite) (rows : List Row)
    (hrows : rowsOf E src t.db k v = some rows) : ∀ r ∈ rows, s t.db r.1 = none := by
  unfold putMultiple at hrun
  split at hrun
  · cases hrun
  · split at hrun
    · cases hrun
    · rename_i plan hplan
      obtain ⟨hts, hr⟩ := buildPut_ok ts hplan
      split at hrun
      · rename_i s1 hd
        rw [← hts] at ht
        obtain ⟨p, hp, rfl⟩ := List.mem_map.mp ht
        have := doPut_new _ hd (p.1.db, some p.1.flags.rest, p.2)
          (List.mem_map.mpr ⟨p, hp, rfl⟩) (by rw [hf])
        have he : some rows = some p.2 := hrows.symm.trans (hr p hp)
        cases he
        exact this
      · rename_i hno _
        cases hrun
        exact (hno rfl).elim

/-- An `update_multiple` that returns 0 has, in a dictionary that it was told not to
    overwrite in, overwritten only rows computed from the old source row. -/
theorem C63_update_overwrites_only_its_row {E : Env} (L : Lawful E) (s s' : State)
    (grant : Db → Bytes → Bool) (src : Option Db) (ok ov nk nv : Bytes) (n m : Nat)
    (ts : List Target) (recs : List Rec)
    (hrun : updateMultiple E s grant src ok ov nk nv n m ts = (s', recs, .ok))
    (hnd : (ts.map Target.db).Nodup) (t : Target) (ht : t ∈ ts)
    (hf : t.flags.rest = noOverwrite) (old new : List Row)
    (hold : rowsOf E src t.db ok ov = some old) (hnew : rowsOf E src t.db nk nv = some new) :
    ∀ r ∈ new, s t.db r.1 = none ∨ ∃ q ∈ old, E.same t.db q.1 r.1 = true := by
  rcases update_cases (E := E) (s := s) (grant := grant) (src := src) (ok := ok) (ov := ov)
    (nk := nk) (nv := nv) (n := n) (m := m) (ts := ts) with ⟨e, he⟩ | ⟨parts, hdb, hok, he⟩
  · rw [he] at hrun; cases hrun
  · have hmem : t.db ∈ parts.map Part.db := by rw [hdb]; exact List.mem_map_of_mem ht
    obtain ⟨p, hp, hpd⟩ := List.mem_map.mp hmem
    obtain ⟨h1, h2, t', ht', htd, hM⟩ := hok p hp
    have huniq : t' = t := by
      have key : ∀ l : List Target, (l.map Target.db).Nodup → t ∈ l → t' ∈ l →
          t'.db = t.db → t' = t := by
        intro l
        induction l with
        | nil => intro _ h; cases h
        | cons a as ih =>
          intro hn h h' hd
          obtain ⟨ha, hn⟩ := List.nodup_cons.mp hn
          rcases List.mem_cons.mp h with rfl | h
          · rcases List.mem_cons.mp h' with rfl | h'
            · rfl
            · exact (ha (hd ▸ List.mem_map_of_mem h')).elim
          · rcases List.mem_cons.mp h' with h1 | h'
            · exact (ha (h1 ▸ hd ▸ List.mem_map_of_mem h)).elim
            · exact ih hn h h' hd
      exact key ts hnd ht ht' (htd.trans hpd)
    subst huniq
    rw [htd] at hold hnew
    have e1 : some old = some p.ro := hold.symm.trans h1
    have e2 : some new = some p.rn := hnew.symm.trans h2
    cases e1
    cases e2
    have key : ∀ {old : List Bytes} {new : List Row} {D : List Bytes} {P S : List Row},
        Merged E p.db (putAllowed s t') old new D P S →
        ∀ r ∈ new, s t'.db r.1 = none ∨ ∃ q ∈ old, E.same p.db q r.1 = true := by
      intro old new D P S h
      induction h with
      | nil => intro r hr; cases hr
      | del _ ih =>
        intro r hr
        exact (ih r hr).imp id fun ⟨q, hq, hs⟩ => ⟨q, List.mem_cons_of_mem _ hq, hs⟩
      | put hQ _ ih =>
        intro r hr
        rcases List.mem_cons.mp hr with rfl | hr
        · exact Or.inl (hQ hf)
        · exact ih r hr
      | both hs _ ih =>
        intro r hr
        rcases List.mem_cons.mp hr with rfl | hr
        · exact Or.inr ⟨_, List.mem_cons_self .., hs⟩
        · exact (ih r hr).imp id fun ⟨q, hq, hs⟩ => ⟨q, List.mem_cons_of_mem _ hq, hs⟩
      | skip _ _ ih =>
        intro r hr
        rcases List.mem_cons.mp hr with rfl | hr
        · exact Or.inr ⟨_, List.mem_cons_self .., L.refl _ _⟩
        · exact (ih r hr).imp id fun ⟨q, hq, hs⟩ => ⟨q, List.mem_cons_of_mem _ hq, hs⟩
    intro r hr
    refine (key hM r hr).imp id fun ⟨q, hq, hs⟩ => ?_
    obtain ⟨a, ha, rfl⟩ := List.mem_map.mp hq
    exact ⟨a, ha, by rw [htd]; exact hs⟩

/-! ## C64 -/

/-- Every history and every place where the log can end: after the records of the
    history, or in the middle of the records of one more event.  Recovery does not stop,
    and every dictionary whose file is there holds what was committed.  The transactions
    that were open when recovery's starting point was taken count too.  Missing: the
    files of the sources must be there, a transaction must abort when a `put_multiple`
    in it failed after it began to write, and `update_multiple` must be given different
    keys and no new empty values; without each of them it fails
    (`C64_lost_when_source_gone`, `C64_half_put_lost`, `C64_repeated_key_comes_back`). -/
theorem C64_recovery_repeats_the_calls_partial {E : Env} (L : Lawful E) (G : GenAgree E)
    (here : Db → Bool) (w0 : World) (es : List Ev)
    (hR : Respects E w0.cur) (hRs : ∀ s ∈ w0.saved, Respects E s)
    (hrules : Replayable E here w0 (w0.saved.map fun _ => false) es)
    {w : World} {recs : List Rec} (hrun : run E w0 es = some (w, recs)) :
    (∃ r, redoAll E here w0 recs = some r ∧ ∀ d, here d = true → r.settle d = w.settle d) ∧
    ∀ e w' p q, step E w e = some (w', p ++ q) → q ≠ [] →
      (∀ c, e = .call c → SourceFound here c.src) →
      ∃ r, redoAll E here w0 (recs ++ p) = some r ∧
        ∀ d, here d = true → r.settle d = w.settle d := by
  obtain ⟨r, hr, ha⟩ := run_replays L G es (Agr.start hR hRs) hrules hrun
  refine ⟨⟨r, hr, fun d hd => (ha.settle d hd).symm⟩, ?_⟩
  intro e w' p q hs hq hsrc
  obtain ⟨r', hr', hag⟩ := step_cut L G ha hsrc hs hq
  refine ⟨r', ?_, fun d hd => (hag d hd).symm⟩
  unfold redoAll at hr hr' ⊢
  rw [List.foldlM_append, hr]
  exact hr'

/-- Two worlds are the same in one dictionary, at every level. -/
def SameIn (d : Db) (w w' : World) : Prop :=
  w.cur d = w'.cur d ∧ w.saved.map (· d) = w'.saved.map (· d)

theorem redoPutDb_local {E : Env} {here : Db → Bool} {src : Option Db} {k v : Bytes} {d : Db}
    {s s' s1 : State} {d1 : Db} (hs : s d = s' d)
    (h : redoPutDb E here src k v s d1 = some s1) :
    ∃ s1', redoPutDb E here src k v s' d1 = some s1' ∧ s1 d = s1' d := by
  unfold redoPutDb at h ⊢
  by_cases hh : here d1 = true
  · rw [if_pos hh] at h ⊢
    by_cases hsd : src = some d1
    · rw [if_pos hsd] at h ⊢
      cases h
      exact ⟨_, rfl, putAll_congr [(k, v)] hs⟩
    · rw [if_neg hsd] at h ⊢
      cases hg : E.genPut d1 src k v with
      | none => rw [hg] at h; cases h
      | some rows =>
        rw [hg] at h
        cases h
        exact ⟨_, rfl, putAll_congr rows hs⟩
  · rw [if_neg hh] at h ⊢
    cases h
    exact ⟨_, rfl, hs⟩

theorem redoDelDb_local {E : Env} {here : Db → Bool} {src : Option Db} {k v : Bytes} {d : Db}
    {s s' s1 : State} {d1 : Db} (hs : s d = s' d)
    (h : redoDelDb E here src k v s d1 = some s1) :
    ∃ s1', redoDelDb E here src k v s' d1 = some s1' ∧ s1 d = s1' d := by
  unfold redoDelDb at h ⊢
  by_cases hh : here d1 = true
  · rw [if_pos hh] at h ⊢
    by_cases hsd : src = some d1
    · rw [if_pos hsd] at h ⊢
      cases h
      exact ⟨_, rfl, delKeys_congr [k] hs⟩
    · rw [if_neg hsd] at h ⊢
      cases hg : E.genDel d1 src k v with
      | none => rw [hg] at h; cases h
      | some keys =>
        rw [hg] at h
        cases h
        exact ⟨_, rfl, delKeys_congr keys hs⟩
  · rw [if_neg hh] at h ⊢
    cases h
    exact ⟨_, rfl, hs⟩

theorem fold_local {f : State → Db → Option State} {d : Db}
    (hf : ∀ {s s' s1 : State} {d1 : Db}, s d = s' d → f s d1 = some s1 →
      ∃ s1', f s' d1 = some s1' ∧ s1 d = s1' d)
    (dbs : List Db) {s s' s1 : State} (hs : s d = s' d) (h : dbs.foldlM f s = some s1) :
    ∃ s1', dbs.foldlM f s' = some s1' ∧ s1 d = s1' d := by
  induction dbs generalizing s s' with
  | nil => cases h; exact ⟨s', rfl, hs⟩
  | cons a as ih =>
    rw [List.foldlM_cons] at h ⊢
    cases ha : f s a with
    | none => rw [ha] at h; cases h
    | some s2 =>
      rw [ha] at h
      obtain ⟨s2', h2, h3⟩ := hf hs ha
      rw [h2]
      exact ih h3 h

theorem redo_local {E : Env} {here : Db → Bool} {d : Db} {w w' w1 : World} {r : Rec}
    (hw : SameIn d w w') (h : redo E here w r = some w1) :
    ∃ w1', redo E here w' r = some w1' ∧ SameIn d w1 w1' := by
  obtain ⟨s, xs⟩ := w
  obtain ⟨s', xs'⟩ := w'
  obtain ⟨h1, h2⟩ := hw
  replace h1 : s d = s' d := h1
  replace h2 : xs.map (· d) = xs'.map (· d) := h2
  cases r with
  | begin =>
    cases h
    exact ⟨⟨s', s' :: xs'⟩, rfl, h1, by
      show s d :: xs.map (· d) = s' d :: xs'.map (· d)
      rw [h1, h2]⟩
  | commit =>
    cases xs with
    | nil => cases h
    | cons x xs =>
      cases h
      cases xs' with
      | nil => cases h2
      | cons x' xs' => exact ⟨⟨s', xs'⟩, rfl, h1, (List.cons.inj h2).2⟩
  | abort =>
    cases xs with
    | nil => cases h
    | cons x xs =>
      cases h
      cases xs' with
      | nil => cases h2
      | cons x' xs' => exact ⟨⟨x', xs'⟩, rfl, (List.cons.inj h2).1, (List.cons.inj h2).2⟩
  | del d1 key =>
    have h0 : some (if here d1 then (⟨E.del s d1 key, xs⟩ : World) else ⟨s, xs⟩) = some w1 := h
    cases h0
    refine ⟨if here d1 then (⟨E.del s' d1 key, xs'⟩ : World) else ⟨s', xs'⟩, rfl, ?_⟩
    split
    · exact ⟨delKeys_congr [key] h1, h2⟩
    · exact ⟨h1, h2⟩
  | delMulti src dbs k v =>
    have h0 : (if srcHere here src then
      (dbs.foldlM (redoDelDb E here src k v) s).map (World.mk · xs)
      else some ⟨s, xs⟩) = some w1 := h
    show ∃ w1', (if srcHere here src then
      (dbs.foldlM (redoDelDb E here src k v) s').map (World.mk · xs')
      else some ⟨s', xs'⟩) = some w1' ∧ _
    split at h0
    · rename_i hh
      rw [if_pos hh]
      cases hf : dbs.foldlM (redoDelDb E here src k v) s with
      | none => rw [hf] at h0; cases h0
      | some s1 =>
        rw [hf] at h0; cases h0
        obtain ⟨s1', h3, h4⟩ := fold_local (f := redoDelDb E here src k v)
          (fun a b => redoDelDb_local a b) dbs h1 hf
        exact ⟨⟨s1', xs'⟩, by rw [h3]; rfl, h4, h2⟩
    · rename_i hh
      cases h0
      rw [if_neg hh]
      exact ⟨⟨s', xs'⟩, rfl, h1, h2⟩
  | putMulti src dbs k v =>
    have h0 : (if srcHere here src then
      (dbs.foldlM (redoPutDb E here src k v) s).map (World.mk · xs)
      else some ⟨s, xs⟩) = some w1 := h
    show ∃ w1', (if srcHere here src then
      (dbs.foldlM (redoPutDb E here src k v) s').map (World.mk · xs')
      else some ⟨s', xs'⟩) = some w1' ∧ _
    split at h0
    · rename_i hh
      rw [if_pos hh]
      cases hf : dbs.foldlM (redoPutDb E here src k v) s with
      | none => rw [hf] at h0; cases h0
      | some s1 =>
        rw [hf] at h0; cases h0
        obtain ⟨s1', h3, h4⟩ := fold_local (f := redoPutDb E here src k v)
          (fun a b => redoPutDb_local a b) dbs h1 hf
        exact ⟨⟨s1', xs'⟩, by rw [h3]; rfl, h4, h2⟩
    · rename_i hh
      cases h0
      rw [if_neg hh]
      exact ⟨⟨s', xs'⟩, rfl, h1, h2⟩

/-- Recovery does the same to a dictionary whatever the other dictionaries hold: each
    may start from its own checkpoint. -/
theorem C64_recovery_of_one_dictionary {E : Env} (here : Db → Bool) (d : Db)
    (recs : List Rec) {w w' r : World} (hw : SameIn d w w')
    (h : redoAll E here w recs = some r) :
    ∃ r', redoAll E here w' recs = some r' ∧ SameIn d r r' := by
  induction recs generalizing w w' with
  | nil => cases h; exact ⟨w', rfl, hw⟩
  | cons a as ih =>
    unfold redoAll at h ⊢
    rw [List.foldlM_cons] at h ⊢
    cases ha : redo E here w a with
    | none => rw [ha] at h; cases h
    | some w1 =>
      rw [ha] at h
      obtain ⟨w1', h1, h2⟩ := redo_local hw ha
      rw [h1]
      exact ih h2 h

/-- A caller who keeps to the rules of C63 gives `update_multiple` what C64 asks for. -/
theorem C64_rules_of_C63_suffice {E : Env} (L : Lawful E) (src : Db) (fam : List Db)
    (table : List Row) (s : State) (c : Call) (hgood : Good E src fam table)
    (hin : InStep E src fam table s) (hc : Proper E src fam table c) : Tidy E s c := by
  cases c with
  | put => trivial
  | del => trivial
  | update g sr ok ov nk nv n m ts =>
    obtain ⟨⟨rfl, hnd, hfam⟩, hmem, hjoin, hempty⟩ := hc
    refine ⟨hnd, ?_⟩
    intro t ht ro rn hro hrn
    have hd : t.db ∈ fam := (hfam _).mp (List.mem_map_of_mem ht)
    refine ⟨?_, (hjoin _ hd).1 rn hrn, ?_⟩
    · obtain ⟨rows, hr, hdis⟩ := hgood.1 _ hmem t.db hd
      have : some rows = some ro := hr.symm.trans hro
      cases this; exact hdis
    · intro r hr hv hk
      exact (hin t.db hd r.1 []).mpr ⟨_, hmem, ro, hro, (r.1, []),
        hempty t.db hd ro rn hro hrn r hr hv hk, L.refl _ _, rfl⟩

/-! ## Cases -/

/-- Bytes in the usual order; dictionary 1 is an index with one row for each different
    byte of the value, dictionary 2 a copy with a longer key, dictionary 3 an index with
    one row for each byte. -/
def ex : Env where
  cmp _ a b := if a = b then .eq else if a < b then .lt else .gt
  genPut d _ k v :=
    if d = 1 then some (v.eraseDups.map fun b => ([b] ++ k, []))
    else if d = 2 then some [(k ++ [9], v)]
    else if d = 3 then some (v.map fun b => ([b] ++ k, []))
    else none
  genDel d _ k v :=
    if d = 1 then some (v.eraseDups.map fun b => [b] ++ k)
    else if d = 2 then some [k ++ [9]]
    else if d = 3 then some (v.map fun b => [b] ++ k)
    else none
  ovAny := 33
  ovMultiple := 40

theorem ex_same {d : Db} {a b : Bytes} : ex.same d a b = true ↔ a = b := by
  unfold Env.same ex
  by_cases h : a = b
  · simp [h]
  · by_cases h2 : a < b <;> simp [h, h2]

theorem ex_lawful : Lawful ex where
  refl _ _ := ex_same.mpr rfl
  symm _ _ _ h := ex_same.mpr (ex_same.mp h).symm
  trans _ _ _ _ h1 h2 := ex_same.mpr ((ex_same.mp h1).trans (ex_same.mp h2))

theorem ex_agree : GenAgree ex := by
  intro d src k v
  unfold ex
  by_cases h1 : d = 1
  · simp [h1, Function.comp_def]
  · by_cases h2 : d = 2
    · simp [h2]
    · by_cases h3 : d = 3
      · simp [h3, Function.comp_def]
      · simp [h1, h2, h3]

/-- Nothing in any dictionary. -/
def none0 : State := fun _ _ => none

theorem none0_in_step (src : Db) (fam : List Db) : InStep ex src fam [] none0 := by
  intro d _ x y
  constructor
  · intro h; cases h
  · rintro ⟨row, h, _⟩; cases h

def yes : Db → Bytes → Bool := fun _ _ => true

/-- The dictionary with the given flags. -/
def to (d : Db) (f : Nat) : Target := ⟨d, false, f⟩

def all3 : List Target := [to 0 noOverwrite, to 1 0, to 2 0]

/-- A row is put and changed, a second one is put. -/
def story : List Ev :=
  [.begin, .call (.put yes (some 0) [1] [5, 6] all3), .begin,
   .call (.update yes (some 0) [1] [5, 6] [1] [6, 7] 6 3 all3), .commit,
   .call (.put yes (some 0) [2] [5] all3), .commit]

/-- Its log: the change deletes one key of the index and puts the rows of the new source
    row. -/
example : (run ex ⟨none0, []⟩ story).map Prod.snd = some [.begin,
    .putMulti (some 0) [0, 1, 2] [1] [5, 6], .begin, .del 1 [5, 1],
    .putMulti (some 0) [0, 1, 2] [1] [6, 7], .commit,
    .putMulti (some 0) [0, 1, 2] [2] [5], .commit] := by decide +kernel

theorem names3 : Names 0 [0, 1, 2] (some 0) all3 := by
  refine ⟨rfl, by decide, fun d => ?_⟩
  simp [all3, to]

theorem story_follows : Follows ex 0 [0, 1, 2] ⟨none0, []⟩ ⟨[], []⟩ [] story := by
  have nodis : ∀ {d : Db} {l : List Bytes}, l.Pairwise (· ≠ ·) → Distinct ex d l := by
    intro d l h
    refine h.imp fun {a b} hab => ?_
    cases hs : ex.same d a b with
    | false => rfl
    | true => exact (hab (ex_same.mp hs)).elim
  refine ⟨trivial, fun w recs h => ?_⟩
  cases h
  refine ⟨fun _ => ⟨names3, fun d hd => ⟨fun rows hr => ?_, fun _ h => by cases h⟩⟩,
    fun w recs h => ?_⟩
  · simp only [List.mem_cons, List.not_mem_nil, or_false] at hd
    rcases hd with rfl | rfl | rfl <;> (cases hr; exact nodis (by decide))
  cases h
  refine ⟨trivial, fun w recs h => ?_⟩
  cases h
  refine ⟨fun _ => ⟨names3, by decide, fun d hd => ⟨fun rows hr => ?_, fun _ h => ?_⟩,
    fun d hd ro rn hro hrn => ?_⟩, fun w recs h => ?_⟩
  · simp only [List.mem_cons, List.not_mem_nil, or_false] at hd
    rcases hd with rfl | rfl | rfl <;> (cases hr; exact nodis (by decide))
  · cases h
  · simp only [List.mem_cons, List.not_mem_nil, or_false] at hd
    rcases hd with rfl | rfl | rfl <;> (cases hro; cases hrn; decide)
  cases h
  refine ⟨by decide, fun w recs h => ?_⟩
  cases h
  refine ⟨fun _ => ⟨names3, fun d hd => ⟨fun rows hr => ?_, fun o ho => ?_⟩⟩,
    fun w recs h => ?_⟩
  · simp only [List.mem_cons, List.not_mem_nil, or_false] at hd
    rcases hd with rfl | rfl | rfl <;> (cases hr; exact nodis (by decide))
  · have ho' : o = ([1], [6, 7]) := by
      rcases List.mem_cons.mp ho with h | h
      · exact h
      · cases h
    subst ho'
    intro ra rb ha hb
    simp only [List.mem_cons, List.not_mem_nil, or_false] at hd
    rcases hd with rfl | rfl | rfl <;> (cases ha; cases hb; decide)
  cases h
  refine ⟨by decide, fun w recs h => trivial⟩

example : ∃ w recs, run ex ⟨none0, []⟩ story = some (w, recs) ∧
    InStep ex 0 [0, 1, 2] [([2], [5]), ([1], [6, 7])] w.cur := by
  refine ⟨_, _, rfl, ?_⟩
  exact C63_dictionaries_stay_in_step_partial ex_lawful ex_agree 0 [0, 1, 2] [] none0 story
    ⟨fun _ h => (by cases h), List.Pairwise.nil⟩ (none0_in_step _ _) (fun _ _ _ _ => rfl)
    story_follows rfl (fun _ h => by cases h)

theorem story_replayable :
    Replayable ex (fun _ => true) ⟨none0, []⟩ [] story := by
  have nodis : ∀ {d : Db} {l : List Bytes}, l.Pairwise (· ≠ ·) → Distinct ex d l := by
    intro d l h
    refine h.imp fun {a b} hab => ?_
    cases hs : ex.same d a b with
    | false => rfl
    | true => exact (hab (ex_same.mp hs)).elim
  refine ⟨trivial, fun w recs h => ?_⟩
  cases h
  refine ⟨⟨fun _ _ => rfl, fun _ => trivial⟩, fun w recs h => ?_⟩
  cases h
  refine ⟨trivial, fun w recs h => ?_⟩
  cases h
  refine ⟨⟨fun _ _ => rfl, fun _ => ⟨by decide, fun t ht ro rn hro hrn => ?_⟩⟩, fun w recs h => ?_⟩
  · simp only [all3, List.mem_cons, List.not_mem_nil, or_false] at ht
    rcases ht with rfl | rfl | rfl <;>
      (cases hro; cases hrn; exact ⟨nodis (by decide), nodis (by decide), by decide⟩)
  cases h
  refine ⟨by decide, fun w recs h => ?_⟩
  cases h
  refine ⟨⟨fun _ _ => rfl, fun _ => trivial⟩, fun w recs h => ?_⟩
  cases h
  exact ⟨by decide, fun w recs h => trivial⟩

/-- The log of the story read by recovery, whole or cut in a later call. -/
example : ∃ w recs r, run ex ⟨none0, []⟩ story = some (w, recs) ∧
    redoAll ex (fun _ => true) ⟨none0, []⟩ recs = some r ∧ ∀ d, r.settle d = w.settle d := by
  obtain ⟨⟨r, hr, h⟩, _⟩ := C64_recovery_repeats_the_calls_partial ex_lawful ex_agree
    (fun _ => true) ⟨none0, []⟩ story (fun _ _ _ _ => rfl) (fun _ h => by cases h)
    story_replayable rfl
  exact ⟨_, _, r, rfl, hr, fun d => h d rfl⟩

/-- One row `[1] ↦ [5]` in dictionary 0. -/
def one : State := fun d x => if d = 0 ∧ x = [1] then some [5] else none

theorem one_in_step : InStep ex 0 [0] [([1], [5])] one := by
  intro d hd x y
  have hd : d = 0 := by simpa using hd
  subst hd
  unfold one
  constructor
  · intro h
    split at h
    · rename_i hx
      cases h
      exact ⟨_, List.mem_cons_self .., [([1], [5])], rfl, ([1], [5]), List.mem_cons_self ..,
        ex_same.mpr hx.2, rfl⟩
    · cases h
  · rintro ⟨row, hrow, rows, hr, r, hrr, hx, rfl⟩
    have hrow : row = ([1], [5]) := by simpa using hrow
    subst hrow
    cases hr
    have hrr : r = ([1], [5]) := by simpa using hrr
    subst hrr
    rw [if_pos ⟨rfl, ex_same.mp hx⟩]

/-- `update_multiple` from `[1] ↦ [5]` to `[1] ↦ []` returns 0 and writes neither to the
    dictionary nor to the log: the old value stays. -/
theorem C63_empty_value_not_stored :
    InStep ex 0 [0] [([1], [5])] one ∧
    ∃ s, updateMultiple ex one yes (some 0) [1] [5] [1] [] 2 1 [to 0 0] = (s, [], .ok) ∧
      s 0 [1] = some [5] ∧ ¬ InStep ex 0 [0] [([1], [])] s := by
  refine ⟨one_in_step, one, rfl, rfl, fun h => ?_⟩
  have := (h 0 (by simp) [1] []).mpr ⟨([1], []), by simp, _, rfl, ([1], []), by simp,
    ex_same.mpr rfl, rfl⟩
  cases this

/-- A callback that gives a key twice (one index row for each byte of the value): the row
    `[5, 5]` is put and then changed to `[5]`.  Both calls return 0 and the index has no
    row. -/
theorem C63_repeated_key_lost :
    ∃ s s', (∃ recs, putMultiple ex none0 yes (some 0) [1] [5, 5] [to 0 0, to 3 0]
        = (s, recs, .ok)) ∧
      (∃ recs, updateMultiple ex s yes (some 0) [1] [5, 5] [1] [5] 4 2 [to 0 0, to 3 0]
        = (s', recs, .ok)) ∧
      s 3 [5, 1] = some [] ∧ s' 0 [1] = some [5] ∧ s' 3 [5, 1] = none :=
  ⟨_, _, ⟨_, rfl⟩, ⟨_, rfl⟩, by decide +kernel, by decide +kernel, by decide +kernel⟩

/-- ... and when recovery repeats the two calls, the row is there. -/
theorem C64_repeated_key_comes_back :
    ∃ w recs r, run ex ⟨none0, []⟩ [.begin,
        .call (.put yes (some 0) [1] [5, 5] [to 0 0, to 3 0]),
        .call (.update yes (some 0) [1] [5, 5] [1] [5] 4 2 [to 0 0, to 3 0]), .commit]
        = some (w, recs) ∧
      redoAll ex (fun _ => true) ⟨none0, []⟩ recs = some r ∧
      w.settle 3 [5, 1] = none ∧ r.settle 3 [5, 1] = some [] :=
  ⟨_, _, _, rfl, rfl, by decide +kernel, by decide +kernel⟩

/-- A `put_multiple` that may not overwrite in the second dictionary finds a row there:
    it returns the error, and the first dictionary holds the row. -/
theorem C63_half_put :
    ∃ s s', (∃ recs, putMultiple ex none0 yes (some 2) [1, 9] [7] [to 2 0] = (s, recs, .ok)) ∧
      putMultiple ex s yes (some 0) [1] [5] [to 0 0, to 2 noOverwrite]
        = (s', [], .err .keyExist) ∧
      s 0 [1] = none ∧ s' 0 [1] = some [5] :=
  ⟨_, _, ⟨_, rfl⟩, rfl, by decide +kernel, by decide +kernel⟩

/-- ... and nothing about it is in the log: if the transaction commits, the row is
    committed, and gone after a crash. -/
theorem C64_half_put_lost :
    ∃ w recs r, run ex ⟨none0, []⟩ [.begin,
        .call (.put yes (some 2) [1, 9] [7] [to 2 0]),
        .call (.put yes (some 0) [1] [5] [to 0 0, to 2 noOverwrite]), .commit]
        = some (w, recs) ∧
      redoAll ex (fun _ => true) ⟨none0, []⟩ recs = some r ∧
      w.settle 0 [1] = some [5] ∧ r.settle 0 [1] = none :=
  ⟨_, _, _, rfl, rfl, by decide +kernel, by decide +kernel⟩

/-- The source dictionary is removed later on: recovery passes over the whole record, and
    rows committed into the other dictionaries are gone. -/
theorem C64_lost_when_source_gone :
    ∃ w recs r, run ex ⟨none0, []⟩ [.begin,
        .call (.put yes (some 0) [1] [5] [to 0 0, to 2 0]), .commit] = some (w, recs) ∧
      redoAll ex (fun d => d ≠ 0) ⟨none0, []⟩ recs = some r ∧
      w.settle 2 [1, 9] = some [5] ∧ r.settle 2 [1, 9] = none :=
  ⟨_, _, _, rfl, rfl, by decide +kernel, by decide +kernel⟩

/-- `DB_NODUPDATA` (19), a flag that `put` answers with an error, stops the process. -/
theorem C63_odd_flag_stops_the_process :
    (putMultiple ex none0 yes (some 0) [1] [5] [to 0 19]).2.2 = .crash := by decide +kernel

example : updateMultiple ex one yes (some 0) [1] [5] [2] [6] 2 1 [to 0 noOverwrite]
    = ((updateMultiple ex one yes (some 0) [1] [5] [2] [6] 2 1 [to 0 noOverwrite]).1,
      [.del 0 [1], .putMulti (some 0) [0] [2] [6]], .ok) := rfl

example : (delMultiple ex one yes (some 0) [2] [5] [to 0 0]).2 = ([], .err .notFound) := by
  decide +kernel

end Verif.Multi
