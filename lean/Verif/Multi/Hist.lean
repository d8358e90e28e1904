import Verif.Multi.Replay

/-!
# Histories: the run beside the replay, the dictionaries beside the table
-/

namespace Verif.Multi

variable {E : Env}

/-! ## One event -/

theorem step_call_nil {w : World} {c : Call} (h : w.saved = []) :
    step E w (.call c) = some (w, []) := by
  show (match w.saved with
    | [] => some (w, [])
    | _ :: _ => _) = _
  rw [h]

theorem step_call_cons {w w' : World} {recs : List Rec} {c : Call} {x : State}
    {up : List State} (h : w.saved = x :: up) (hs : step E w (.call c) = some (w', recs)) :
    ∃ s' o, c.run E w.cur = (s', recs, o) ∧ o ≠ .crash ∧ w' = ⟨s', w.saved⟩ := by
  replace hs : (match w.saved with
    | [] => some (w, [])
    | _ :: _ =>
      match c.run E w.cur with
      | (_, _, .crash) => none
      | (s', recs, _) => some (⟨s', w.saved⟩, recs)) = some (w', recs) := hs
  rw [h] at hs
  rcases hr : c.run E w.cur with ⟨s', rs, o⟩
  rw [hr] at hs
  cases o with
  | crash => cases hs
  | ok => cases hs; exact ⟨s', .ok, rfl, Outcome.noConfusion, by rw [h]⟩
  | err e => cases hs; exact ⟨s', .err e, rfl, Outcome.noConfusion, by rw [h]⟩

/-! ## The run beside the replay -/

/-- The run and the replay agree at every level that no mark is above. -/
def Agr (E : Env) (here : Db → Bool) : State → List State → List Bool → State → List State → Prop
  | s, [], [], s', [] => Respects E s ∧ AgreeOn here s s'
  | s, x :: xs, f :: fs, s', x' :: xs' =>
    Respects E s ∧ (clean (f :: fs) → AgreeOn here s s') ∧ Agr E here x xs fs x' xs'
  | _, _, _, _, _ => False

theorem Agr.top {here : Db → Bool} {s s' : State} {xs xs' : List State} {fs : List Bool}
    (h : Agr E here s xs fs s' xs') : Respects E s ∧ (clean fs → AgreeOn here s s') := by
  match xs, fs, xs', h with
  | [], [], [], h => exact ⟨h.1, fun _ => h.2⟩
  | _ :: _, _ :: _, _ :: _, h => exact ⟨h.1, h.2.1⟩

theorem settle_cons (s x : State) (xs : List State) :
    World.settle ⟨s, x :: xs⟩ = World.settle ⟨x, xs⟩ := by
  cases xs with
  | nil => rfl
  | cons y ys =>
    have h : ((y :: ys).getLast?).isSome = true := by
      rw [List.getLast?_isSome]; exact List.cons_ne_nil _ _
    cases hq : (y :: ys).getLast? with
    | none => rw [hq] at h; cases h
    | some z => simp only [World.settle, List.getLast?_cons_cons, hq]

/-- At the bottom they agree. -/
theorem Agr.settle {here : Db → Bool} {s s' : State} {xs xs' : List State} {fs : List Bool}
    (h : Agr E here s xs fs s' xs') :
    AgreeOn here (World.settle ⟨s, xs⟩) (World.settle ⟨s', xs'⟩) := by
  induction xs generalizing s s' fs xs' with
  | nil =>
    match fs, xs', h with
    | [], [], h => exact h.2
  | cons x xs ih =>
    match fs, xs', h with
    | f :: fs, x' :: xs', h =>
      rw [settle_cons, settle_cons]
      exact ih h.2.2

theorem SourceFound.here {here : Db → Bool} {src : Option Db} (h : SourceFound here src) :
    srcHere here src = true := by
  cases src with
  | none => rfl
  | some d => exact h d rfl

theorem Agr.start {here : Db → Bool} {s : State} {xs : List State} (h : Respects E s)
    (hs : ∀ x ∈ xs, Respects E x) : Agr E here s xs (xs.map fun _ => false) s xs := by
  induction xs generalizing s with
  | nil => exact ⟨h, fun _ _ => rfl⟩
  | cons x xs ih =>
    exact ⟨h, fun _ _ _ => rfl, ih (hs x (List.mem_cons_self ..))
      fun y hy => hs y (List.mem_cons_of_mem _ hy)⟩

theorem step_replays (L : Lawful E) (G : GenAgree E) {here : Db → Bool} {w w' r : World}
    {fs : List Bool} {e : Ev} {recs : List Rec}
    (h : Agr E here w.cur w.saved fs r.cur r.saved)
    (hrule : match e with
      | .commit => fs.head? ≠ some true
      | .call c => SourceFound here c.src ∧ (clean fs → Tidy E w.cur c)
      | _ => True)
    (hs : step E w e = some (w', recs)) :
    ∃ r', redoAll E here r recs = some r' ∧
      Agr E here w'.cur w'.saved (mark E w fs e) r'.cur r'.saved := by
  obtain ⟨s, xs⟩ := w
  obtain ⟨s', xs'⟩ := r
  cases e with
  | begin =>
    cases hs
    refine ⟨⟨s', s' :: xs'⟩, rfl, h.top.1, fun hc => h.top.2 fun f hf => hc f ?_, h⟩
    exact List.mem_cons_of_mem _ hf
  | commit =>
    cases xs with
    | nil =>
      cases hs
      match fs, xs', h with
      | [], [], h => exact ⟨⟨s', []⟩, rfl, h⟩
    | cons x xs =>
      cases hs
      match fs, xs', h, hrule with
      | f :: fs, x' :: xs', h, hrule =>
        have hf : f = false := by
          cases f with
          | false => rfl
          | true => exact (hrule rfl).elim
        subst hf
        refine ⟨⟨s', xs'⟩, rfl, ?_⟩
        show Agr E here s xs fs s' xs'
        have hc : clean fs → AgreeOn here s s' := fun hc => h.2.1 fun f hf => by
          rcases List.mem_cons.mp hf with rfl | hf
          · rfl
          · exact hc f hf
        match xs, fs, xs', h.2.2, hc with
        | [], [], [], h2, hc => exact ⟨h.1, hc fun f hf => by cases hf⟩
        | _ :: _, _ :: _, _ :: _, h2, hc => exact ⟨h.1, hc, h2.2.2⟩
  | abort =>
    cases xs with
    | nil =>
      cases hs
      match fs, xs', h with
      | [], [], h => exact ⟨⟨s', []⟩, rfl, h⟩
    | cons x xs =>
      cases hs
      match fs, xs', h with
      | f :: fs, x' :: xs', h => exact ⟨⟨x', xs'⟩, rfl, h.2.2⟩
  | call c =>
    cases xs with
    | nil =>
      cases hs
      match fs, xs', h with
      | [], [], h => exact ⟨⟨s', []⟩, rfl, h⟩
    | cons x xs =>
      obtain ⟨s2, o, hrun, hcr, hw⟩ := step_call_cons rfl hs
      subst hw
      match fs, xs', h, hrule with
      | f :: fs, x' :: xs', h, hrule =>
        obtain ⟨r', hr, hsv, hag⟩ := call_replays L G c hrule.1.here hrun ⟨s', x' :: xs'⟩
        refine ⟨r', hr, ?_⟩
        obtain ⟨rc, rs⟩ := r'
        replace hsv : rs = x' :: xs' := hsv
        subst hsv
        have hresp : Respects E s2 := by
          have := call_respects L c h.1
          rw [hrun] at this; exact this
        refine ⟨hresp, fun hc => ?_, h.2.2⟩
        have hf0 := hc _ (List.mem_cons_self ..)
        have hf : f = false := by
          cases f with
          | false => rfl
          | true => cases hf0
        subst hf
        have hcl : clean (false :: fs) := fun g hg => by
          rcases List.mem_cons.mp hg with rfl | hg
          · rfl
          · exact hc g (List.mem_cons_of_mem _ hg)
        exact hag hcr hf0 (hrule.2 hcl) h.1 (h.2.1 hcl)

theorem run_replays (L : Lawful E) (G : GenAgree E) {here : Db → Bool} (es : List Ev)
    {w w' r : World} {fs : List Bool} {recs : List Rec}
    (h : Agr E here w.cur w.saved fs r.cur r.saved)
    (hrule : Replayable E here w fs es) (hs : run E w es = some (w', recs)) :
    ∃ r', redoAll E here r recs = some r' ∧
      Agr E here w'.cur w'.saved (marksAfter E w fs es) r'.cur r'.saved := by
  induction es generalizing w r fs recs with
  | nil => cases hs; exact ⟨r, rfl, h⟩
  | cons e es ih =>
    rw [run] at hs
    obtain ⟨hr1, hr2⟩ := hrule
    split at hs
    · cases hs
    · rename_i w1 recs1 he
      split at hs
      · cases hs
      · rename_i w2 more hm
        cases hs
        obtain ⟨r1, hr, ha⟩ := step_replays L G h hr1 he
        obtain ⟨r2, hr', ha'⟩ := ih ha (hr2 _ _ he) hm
        refine ⟨r2, ?_, ?_⟩
        · unfold redoAll at hr hr' ⊢
          rw [List.foldlM_append, hr]
          exact hr'
        · rw [marksAfter, he]
          exact ha'

/-! ## A log that is cut in the middle of a call -/

/-- A record of a change of rows. -/
def Rec.isData : Rec → Bool
  | .begin => false
  | .commit => false
  | .abort => false
  | _ => true

theorem redo_data {here : Db → Bool} {w w' : World} {r : Rec} (hd : r.isData = true)
    (h : redo E here w r = some w') : w'.saved = w.saved := by
  cases r with
  | begin => cases hd
  | commit => cases hd
  | abort => cases hd
  | del d key =>
    have h0 : some (if here d then (⟨E.del w.cur d key, w.saved⟩ : World) else w) = some w' := h
    cases h0
    split <;> rfl
  | delMulti src dbs k v =>
    have h0 : (if srcHere here src then
      (dbs.foldlM (redoDelDb E here src k v) w.cur).map (World.mk · w.saved)
      else some w) = some w' := h
    split at h0
    · cases hf : dbs.foldlM (redoDelDb E here src k v) w.cur with
      | none => rw [hf] at h0; cases h0
      | some s => rw [hf] at h0; cases h0; rfl
    · cases h0; rfl
  | putMulti src dbs k v =>
    have h0 : (if srcHere here src then
      (dbs.foldlM (redoPutDb E here src k v) w.cur).map (World.mk · w.saved)
      else some w) = some w' := h
    split at h0
    · cases hf : dbs.foldlM (redoPutDb E here src k v) w.cur with
      | none => rw [hf] at h0; cases h0
      | some s => rw [hf] at h0; cases h0; rfl
    · cases h0; rfl

theorem redoAll_data {here : Db → Bool} (recs : List Rec) {w w' : World}
    (hd : ∀ r ∈ recs, r.isData = true) (h : redoAll E here w recs = some w') :
    w'.saved = w.saved := by
  induction recs generalizing w with
  | nil => cases h; rfl
  | cons r rs ih =>
    unfold redoAll at h
    rw [List.foldlM_cons] at h
    cases hr : redo E here w r with
    | none => rw [hr] at h; cases h
    | some w1 =>
      rw [hr] at h
      exact (ih (fun q hq => hd q (List.mem_cons_of_mem _ hq)) h).trans
        (redo_data (hd r (List.mem_cons_self ..)) hr)

theorem logDel_data {src : Option Db} {k v : Bytes} (plan : List (Db × List Bytes)) :
    ∀ r ∈ logDel E src k v plan, r.isData = true := by
  intro r hr
  unfold logDel at hr
  split at hr
  · split at hr
    · obtain ⟨p, _, hp⟩ := List.mem_flatMap.mp hr
      obtain ⟨key, _, rfl⟩ := List.mem_map.mp hp
      rfl
    · cases List.mem_singleton.mp hr; rfl
  · cases hr

theorem logPut_data {src : Option Db} {k v : Bytes} (dbs : List Db) :
    ∀ r ∈ logPut src k v dbs, r.isData = true := by
  intro r hr
  unfold logPut at hr
  split at hr
  · cases List.mem_singleton.mp hr; rfl
  · cases hr

theorem call_data {s s' : State} {c : Call} {recs : List Rec} {o : Outcome}
    (h : c.run E s = (s', recs, o)) : ∀ r ∈ recs, r.isData = true := by
  cases c with
  | put grant src k v ts =>
    have hc : putMultiple E s grant src k v ts = (s', recs, o) := h
    unfold putMultiple at hc
    split at hc
    · cases hc; intro r hr; cases hr
    · split at hc
      · cases hc; intro r hr; cases hr
      · split at hc
        · cases hc; exact logPut_data _
        · cases hc; intro r hr; cases hr
  | del grant src k v ts =>
    have hc : delMultiple E s grant src k v ts = (s', recs, o) := h
    unfold delMultiple at hc
    split at hc
    · cases hc; intro r hr; cases hr
    · cases hc; exact logDel_data _
  | update grant src ok ov nk nv n m ts =>
    have hc : updateMultiple E s grant src ok ov nk nv n m ts = (s', recs, o) := h
    rcases update_cases (E := E) (s := s) (grant := grant) (src := src) (ok := ok) (ov := ov)
      (nk := nk) (nv := nv) (n := n) (m := m) (ts := ts) with ⟨e, he⟩ | ⟨parts, _, _, he⟩
    · rw [he] at hc; cases hc; intro r hr; cases hr
    · rw [he] at hc
      cases hc
      intro r hr
      rcases List.mem_append.mp hr with hr | hr
      · exact logDel_data _ r hr
      · exact logPut_data _ r hr

/-- Part of the records of one more event: nothing of it is seen in the end. -/
theorem step_cut (L : Lawful E) (G : GenAgree E) {here : Db → Bool} {w w' r : World}
    {fs : List Bool} {e : Ev} {p q : List Rec}
    (h : Agr E here w.cur w.saved fs r.cur r.saved)
    (hrule : ∀ c, e = .call c → SourceFound here c.src)
    (hs : step E w e = some (w', p ++ q)) (hq : q ≠ []) :
    ∃ r', redoAll E here r p = some r' ∧ AgreeOn here w.settle r'.settle := by
  have hset : AgreeOn here w.settle r.settle := h.settle
  have single : ∀ a : Rec, p ++ q = [a] → p = [] := by
    intro a ha
    cases p with
    | nil => rfl
    | cons b bs =>
      exfalso
      have hl := congrArg List.length ha
      cases q with
      | nil => exact hq rfl
      | cons c cs => simp at hl
  have emp : p = [] → ∃ r', redoAll E here r p = some r' ∧ AgreeOn here w.settle r'.settle := by
    intro hp; subst hp; exact ⟨r, rfl, hset⟩
  obtain ⟨s, xs⟩ := w
  obtain ⟨s', xs'⟩ := r
  cases e with
  | begin =>
    have hs0 : some ((⟨s, s :: xs⟩ : World), [Rec.begin]) = some (w', p ++ q) := hs
    injection hs0 with hs1
    injection hs1 with _ hs2
    exact emp (single _ hs2.symm)
  | commit =>
    cases xs with
    | nil =>
      have hs0 : some ((⟨s, []⟩ : World), ([] : List Rec)) = some (w', p ++ q) := hs
      injection hs0 with hs1
      injection hs1 with _ hs2
      exact emp (List.append_eq_nil_iff.mp hs2.symm).1
    | cons x xs =>
      have hs0 : some ((⟨s, xs⟩ : World), [Rec.commit]) = some (w', p ++ q) := hs
      injection hs0 with hs1
      injection hs1 with _ hs2
      exact emp (single _ hs2.symm)
  | abort =>
    cases xs with
    | nil =>
      have hs0 : some ((⟨s, []⟩ : World), ([] : List Rec)) = some (w', p ++ q) := hs
      injection hs0 with hs1
      injection hs1 with _ hs2
      exact emp (List.append_eq_nil_iff.mp hs2.symm).1
    | cons x xs =>
      have hs0 : some ((⟨x, xs⟩ : World), [Rec.abort]) = some (w', p ++ q) := hs
      injection hs0 with hs1
      injection hs1 with _ hs2
      exact emp (single _ hs2.symm)
  | call c =>
    cases xs with
    | nil =>
      have hs0 : some ((⟨s, []⟩ : World), ([] : List Rec)) = some (w', p ++ q) := hs
      injection hs0 with hs1
      injection hs1 with _ hs2
      exact emp (List.append_eq_nil_iff.mp hs2.symm).1
    | cons x xs =>
      obtain ⟨s2, o, hrun, _, _⟩ := step_call_cons rfl hs
      obtain ⟨r', hr, _, _⟩ := call_replays L G c (hrule c rfl).here hrun ⟨s', xs'⟩
      unfold redoAll at hr
      rw [List.foldlM_append] at hr
      cases hp : p.foldlM (redo E here) (⟨s', xs'⟩ : World) with
      | none => rw [hp] at hr; cases hr
      | some r1 =>
        refine ⟨r1, hp, ?_⟩
        have hsv := redoAll_data (E := E) (here := here) p
          (fun a ha => call_data hrun a (List.mem_append_left _ ha)) hp
        match fs, xs', h, hset, hsv with
        | _ :: _, x' :: xs', _, hset, hsv =>
          have e1 : r1.settle = World.settle ⟨s', x' :: xs'⟩ := by
            obtain ⟨rc, rs⟩ := r1
            replace hsv : rs = x' :: xs' := hsv
            subst hsv
            unfold World.settle
            rw [List.getLast?_eq_some_getLast (List.cons_ne_nil _ _)]
          rw [e1]; exact hset

/-! ## The dictionaries beside the table -/

theorem Apart.symm (L : Lawful E) {src d : Db} {a b : Row} (h : Apart E src d a b) :
    Apart E src d b a := by
  intro rb ra hb ha y hy x hx
  have := h ra rb ha hb x hx y hy
  cases hs : E.same d y.1 x.1 with
  | false => rfl
  | true => rw [L.symm _ _ _ hs] at this; cases this

theorem pairwise_erase {α} [BEq α] [LawfulBEq α] {R : α → α → Prop} (hsym : ∀ a b, R a b → R b a)
    {l : List α} (h : l.Pairwise R) {a : α} (ha : a ∈ l) : ∀ b ∈ l.erase a, R a b := by
  induction l with
  | nil => cases ha
  | cons x xs ih =>
    obtain ⟨h1, h2⟩ := List.pairwise_cons.mp h
    intro b hb
    rw [List.erase_cons] at hb
    split at hb
    · rename_i he
      have he : x = a := by simpa using he
      subst he
      exact h1 b hb
    · rename_i he
      have hne : ¬ x = a := by simpa using he
      have ha' : a ∈ xs := (List.mem_cons.mp ha).resolve_left (fun e => hne e.symm)
      rcases List.mem_cons.mp hb with rfl | hb
      · exact hsym _ _ (h1 a ha')
      · exact ih h2 ha' b hb

theorem mem_erase_or {α} [BEq α] [LawfulBEq α] {l : List α} {a b : α} (h : b ∈ l) :
    b = a ∨ b ∈ l.erase a := by
  by_cases he : b = a
  · exact Or.inl he
  · exact Or.inr ((List.mem_erase_of_ne he).mpr h)

/-- A successful call turns the dictionaries of one table into those of the next. -/
theorem call_in_step (L : Lawful E) (G : GenAgree E) {src : Db} {fam : List Db}
    {table : List Row} {s s' : State} {c : Call} {recs : List Rec}
    (hR : Respects E s) (hgood : Good E src fam table) (hin : InStep E src fam table s)
    (hp : Proper E src fam table c) (h : c.run E s = (s', recs, .ok)) :
    Good E src fam (tableAfter table c) ∧ InStep E src fam (tableAfter table c) s' := by
  have oneRow : ∀ {d : Db} {row : Row} {rows : List Row} {a b : Row},
      Distinct E d (rows.map Prod.fst) → a ∈ rows → b ∈ rows →
      E.same d a.1 b.1 = true → a.2 = b.2 := by
    intro d row rows a b hd ha hb hab
    have h1 := putAll_hit L rows (fun _ _ => none) hd a ha (L.refl d a.1)
    have h2 := putAll_hit L rows (fun _ _ => none) hd b hb hab
    rw [h1] at h2; injection h2
  cases c with
  | put grant sr k v ts =>
    obtain ⟨⟨rfl, hnd, hfam⟩, hjoin⟩ := hp
    have hc : putMultiple E s grant (some src) k v ts = (s', recs, .ok) := h
    unfold putMultiple at hc
    split at hc
    · cases hc
    · split at hc
      · cases hc
      · rename_i plan hplan
        obtain ⟨hts, hrows⟩ := buildPut_ok ts hplan
        split at hc
        · rename_i s1 hd1
          cases hc
          have he := doPut_ok _ hd1
          rw [List.map_map] at he
          have hdbs : (plan.map ((fun p : Db × Option Nat × List Row => (p.1, p.2.2)) ∘
              fun p => (p.1.db, some p.1.flags.rest, p.2))).map Prod.fst = ts.map Target.db := by
            rw [List.map_map, ← hts, List.map_map]; rfl
          have each : ∀ d ∈ fam, ∃ rows, rowsOf E (some src) d k v = some rows ∧
              s' d = putAll E d rows s d := by
            intro d hd
            obtain ⟨t, ht, htd⟩ := List.mem_map.mp ((hfam d).mpr hd)
            rw [← hts] at ht
            obtain ⟨p, hp, hpt⟩ := List.mem_map.mp ht
            have hpd : p.1.db = d := by rw [hpt]; exact htd
            refine ⟨p.2, hpd ▸ hrows p hp, ?_⟩
            rw [he]
            refine putPlan_hit _ _ (by rw [hdbs]; exact hnd) ?_
            exact List.mem_map.mpr ⟨p, hp, by rw [← hpd]; rfl⟩
          refine ⟨⟨?_, ?_⟩, ?_⟩
          · intro row hrow d hd
            rcases List.mem_cons.mp hrow with rfl | hrow
            · obtain ⟨rows, hr, _⟩ := each d hd
              exact ⟨rows, hr, (hjoin d hd).1 rows hr⟩
            · exact hgood.1 row hrow d hd
          · exact List.pairwise_cons.mpr ⟨fun b hb d hd => (hjoin d hd).2 b hb, hgood.2⟩
          · intro d hd x y
            obtain ⟨rows, hr, hsd⟩ := each d hd
            rw [hsd]
            have hdis := (hjoin d hd).1 rows hr
            by_cases hx : ∃ r ∈ rows, E.same d x r.1 = true
            · obtain ⟨r, hrr, hxr⟩ := hx
              rw [putAll_hit L rows s hdis r hrr hxr]
              constructor
              · intro hy; cases hy
                exact ⟨(k, v), List.mem_cons_self .., rows, hr, r, hrr, hxr, rfl⟩
              · rintro ⟨row, hrow, rows', hr', r', hrr', hxr', rfl⟩
                have hsame : E.same d r.1 r'.1 = true :=
                  L.trans _ _ _ _ (L.symm _ _ _ hxr) hxr'
                rcases List.mem_cons.mp hrow with rfl | hrow
                · have hr'' : some rows = some rows' := hr.symm.trans hr'
                  cases hr''
                  rw [oneRow (row := r) hdis hrr hrr' hsame]
                · have := (hjoin d hd).2 row hrow rows rows' hr hr' r hrr r' hrr'
                  rw [hsame] at this; cases this
            · have hx' : ∀ r ∈ rows, E.same d x r.1 = false := by
                intro r hrr
                cases hs : E.same d x r.1 with
                | false => rfl
                | true => exact (hx ⟨r, hrr, hs⟩).elim
              rw [putAll_miss rows s hx', hin d hd x y]
              constructor
              · rintro ⟨row, hrow, rest⟩
                exact ⟨row, List.mem_cons_of_mem _ hrow, rest⟩
              · rintro ⟨row, hrow, rows', hr', r', hrr', hxr', hy⟩
                rcases List.mem_cons.mp hrow with rfl | hrow
                · have hr'' : some rows = some rows' := hr.symm.trans hr'
                  cases hr''
                  rw [hx' r' hrr'] at hxr'; cases hxr'
                · exact ⟨row, hrow, rows', hr', r', hrr', hxr', hy⟩
        · rename_i hne _
          cases hc
          exact (hne rfl).elim
  | del grant sr k v ts =>
    obtain ⟨⟨rfl, hnd, hfam⟩, hmem⟩ := hp
    have hc : delMultiple E s grant (some src) k v ts = (s', recs, .ok) := h
    unfold delMultiple at hc
    split at hc
    · cases hc
    · rename_i plan hplan
      cases hc
      obtain ⟨hts, hkeys⟩ := buildDel_ok ts hplan
      have each : ∀ d ∈ fam, ∃ rows, rowsOf E (some src) d k v = some rows ∧
          doDel E s plan d = delKeys E d s (rows.map Prod.fst) d := by
        intro d hd
        have hd' := (hfam d).mpr hd
        rw [← hts] at hd'
        obtain ⟨p, hp, rfl⟩ := List.mem_map.mp hd'
        obtain ⟨rows, hr, hk⟩ := keysFor_ok G (hkeys p hp)
        refine ⟨rows, hr, ?_⟩
        rw [← hk]
        exact doDel_hit _ _ (by rw [hts]; exact hnd) hp
      refine ⟨⟨fun row hrow => hgood.1 row (List.mem_of_mem_erase hrow),
        hgood.2.sublist List.erase_sublist⟩, ?_⟩
      have hap := pairwise_erase (fun a b hab d hd => (hab d hd).symm L) hgood.2 hmem
      intro d hd x y
      obtain ⟨rows, hr, hsd⟩ := each d hd
      rw [hsd, delKeys_same]
      cases hany : (rows.map Prod.fst).any (E.same d x) with
      | true =>
        constructor
        · intro hy; cases hy
        · rintro ⟨row, hrow, rows', hr', r', hrr', hxr', _⟩
          rw [List.any_eq_true] at hany
          obtain ⟨key, hkey, hxk⟩ := hany
          obtain ⟨r, hrr, rfl⟩ := List.mem_map.mp hkey
          have := hap row hrow d hd rows rows' hr hr' r hrr r' hrr'
          rw [L.trans _ _ _ _ (L.symm _ _ _ hxk) hxr'] at this; cases this
      | false =>
        refine Iff.trans (b := s d x = some y) Iff.rfl ?_
        rw [hin d hd x y]
        constructor
        · rintro ⟨row, hrow, rows', hr', r', hrr', hxr', hy⟩
          rcases mem_erase_or (a := (k, v)) hrow with rfl | hrow'
          · have hr'' : some rows = some rows' := hr.symm.trans hr'
            cases hr''
            rw [List.any_eq_true.mpr ⟨r'.1, List.mem_map_of_mem hrr', hxr'⟩] at hany
            cases hany
          · exact ⟨row, hrow', rows', hr', r', hrr', hxr', hy⟩
        · rintro ⟨row, hrow, rest⟩
          exact ⟨row, List.mem_of_mem_erase hrow, rest⟩
  | update grant sr ok ov nk nv n m ts =>
    obtain ⟨⟨rfl, hnd, hfam⟩, hmem, hjoin, hempty⟩ := hp
    have hc : updateMultiple E s grant (some src) ok ov nk nv n m ts = (s', recs, .ok) := h
    rcases update_cases (E := E) (s := s) (grant := grant) (src := some src) (ok := ok)
      (ov := ov) (nk := nk) (nv := nv) (n := n) (m := m) (ts := ts) with
      ⟨e, he⟩ | ⟨parts, hdb, hok, he⟩
    · rw [he] at hc; cases hc
    · rw [he] at hc
      cases hc
      have hn : (parts.map Part.db).Nodup := by rw [hdb]; exact hnd
      have each : ∀ d ∈ fam, ∃ p ∈ parts, p.db = d := by
        intro d hd
        have hd' := (hfam d).mpr hd
        rw [← hdb] at hd'
        obtain ⟨p, hp, hpd⟩ := List.mem_map.mp hd'
        exact ⟨p, hp, hpd⟩
      refine ⟨⟨?_, ?_⟩, ?_⟩
      · intro row hrow d hd
        rcases List.mem_cons.mp hrow with rfl | hrow
        · obtain ⟨p, hp, rfl⟩ := each d hd
          exact ⟨p.rn, (hok p hp).2.1, (hjoin _ hd).1 _ (hok p hp).2.1⟩
        · exact hgood.1 row (List.mem_of_mem_erase hrow) d hd
      · exact List.pairwise_cons.mpr ⟨fun b hb d hd => (hjoin d hd).2 b hb,
          hgood.2.sublist List.erase_sublist⟩
      · have hap := pairwise_erase (fun a b hab d hd => (hab d hd).symm L) hgood.2 hmem
        intro d hd x y
        obtain ⟨p, hp, rfl⟩ := each d hd
        obtain ⟨hro, hrn, t, _, _, hM⟩ := hok p hp
        have hdo : Distinct E p.db (p.ro.map Prod.fst) := by
          obtain ⟨rows, hr, hdis⟩ := hgood.1 _ hmem p.db hd
          have : some rows = some p.ro := hr.symm.trans hro
          cases this; exact hdis
        have hdn := (hjoin p.db hd).1 p.rn hrn
        have hemp : ∀ r ∈ p.rn, r.2 = [] → r.1 ∈ p.ro.map Prod.fst → s p.db r.1 = some [] := by
          intro r hr hv hk
          refine (hin p.db hd r.1 []).mpr ⟨_, hmem, p.ro, hro, (r.1, []), ?_, L.refl _ _, rfl⟩
          exact hempty p.db hd p.ro p.rn hro hrn r hr hv hk
        have hval := hM.value L hdo hdn s hemp (hR p.db) x
        rw [putPlan_part hn hp, putAll_congr _ (doDel_part hn hp s)]
        by_cases hx : ∃ r ∈ p.rn, E.same p.db x r.1 = true
        · obtain ⟨r, hr, hxr⟩ := hx
          rw [hval.1 r hr hxr]
          constructor
          · intro hy; cases hy
            exact ⟨(nk, nv), List.mem_cons_self .., p.rn, hrn, r, hr, hxr, rfl⟩
          · rintro ⟨row, hrow, rows', hr', r', hrr', hxr', rfl⟩
            have hsame : E.same p.db r.1 r'.1 = true :=
              L.trans _ _ _ _ (L.symm _ _ _ hxr) hxr'
            rcases List.mem_cons.mp hrow with rfl | hrow
            · have hr'' : some p.rn = some rows' := hrn.symm.trans hr'
              cases hr''
              rw [oneRow (row := r) hdn hr hrr' hsame]
            · have := (hjoin p.db hd).2 row hrow p.rn rows' hrn hr' r hr r' hrr'
              rw [hsame] at this; cases this
        · have hx' : ∀ r ∈ p.rn, E.same p.db x r.1 = false := by
            intro r hrr
            cases hs : E.same p.db x r.1 with
            | false => rfl
            | true => exact (hx ⟨r, hrr, hs⟩).elim
          rw [hval.2 hx']
          cases hany : (p.ro.map Prod.fst).any (E.same p.db x) with
          | true =>
            constructor
            · intro hy; cases hy
            · rintro ⟨row, hrow, rows', hr', r', hrr', hxr', _⟩
              rcases List.mem_cons.mp hrow with rfl | hrow
              · have hr'' : some p.rn = some rows' := hrn.symm.trans hr'
                cases hr''
                rw [hx' r' hrr'] at hxr'; cases hxr'
              · rw [List.any_eq_true] at hany
                obtain ⟨key, hkey, hxk⟩ := hany
                obtain ⟨r, hrr, rfl⟩ := List.mem_map.mp hkey
                have := hap row hrow p.db hd p.ro rows' hro hr' r hrr r' hrr'
                rw [L.trans _ _ _ _ (L.symm _ _ _ hxk) hxr'] at this; cases this
          | false =>
            refine Iff.trans (b := s p.db x = some y) Iff.rfl ?_
            rw [hin p.db hd x y]
            constructor
            · rintro ⟨row, hrow, rows', hr', r', hrr', hxr', hy⟩
              rcases mem_erase_or (a := (ok, ov)) hrow with rfl | hrow'
              · have hr'' : some p.ro = some rows' := hro.symm.trans hr'
                cases hr''
                rw [List.any_eq_true.mpr ⟨r'.1, List.mem_map_of_mem hrr', hxr'⟩] at hany
                cases hany
              · exact ⟨row, List.mem_cons_of_mem _ hrow', rows', hr', r', hrr', hxr', hy⟩
            · rintro ⟨row, hrow, rows', hr', r', hrr', hxr', hy⟩
              rcases List.mem_cons.mp hrow with rfl | hrow
              · have hr'' : some p.rn = some rows' := hrn.symm.trans hr'
                cases hr''
                rw [hx' r' hrr'] at hxr'; cases hxr'
              · exact ⟨row, List.mem_of_mem_erase hrow, rows', hr', r', hrr', hxr', hy⟩

/-- A call that does not return 0 and is not a `put_multiple` that has begun to write
    changes nothing and writes nothing to the log. -/
theorem call_failed {s s' : State} {c : Call} {recs : List Rec} {o : Outcome}
    (h : c.run E s = (s', recs, o)) (ho : o ≠ .ok) (hcr : o ≠ .crash)
    (hsp : spoils E s c = false) : s' = s ∧ recs = [] := by
  cases c with
  | put grant src k v ts =>
    have hc : putMultiple E s grant src k v ts = (s', recs, o) := h
    have hsp' : o.afterWrite = false := by
      have : (putMultiple E s grant src k v ts).2.2.afterWrite = false := hsp
      rw [hc] at this; exact this
    unfold putMultiple at hc
    split at hc
    · cases hc; exact ⟨rfl, rfl⟩
    · split at hc
      · cases hc; exact ⟨rfl, rfl⟩
      · split at hc
        · cases hc; exact (ho rfl).elim
        · rename_i plan _ _ s1 o1 hne hd
          cases hc
          exfalso
          have h1 : ∀ (s : State) (d : Db) (r : Row) (f : Nat),
              (dbPut E s d r f).2 = .ok ∨ (dbPut E s d r f).2.afterWrite = true := by
            intro s d r f
            unfold dbPut
            split
            · split
              · exact Or.inr rfl
              · exact Or.inl rfl
            · split
              · exact Or.inr rfl
              · exact Or.inl rfl
          have h2 : ∀ (d : Db) (f : Option Nat) (rows : List Row) (s : State),
              (putRows E d f s rows).2 = .ok ∨ (putRows E d f s rows).2 = .crash ∨
              (putRows E d f s rows).2.afterWrite = true := by
            intro d f rows
            induction rows with
            | nil => intro s; exact Or.inl rfl
            | cons r rs ih =>
              intro s
              have hr := h1 s d r (f.getD 0)
              rw [putRows]
              split
              · exact Or.inr (Or.inl rfl)
              · split
                · exact ih _
                · rename_i s1 o hno he
                  rw [he] at hr
                  rcases hr with hr | hr
                  · exact (hno hr).elim
                  · exact Or.inr (Or.inr hr)
          have h3 : ∀ (plan : List (Db × Option Nat × List Row)) (s : State),
              (doPut E s plan).2 = .ok ∨ (doPut E s plan).2 = .crash ∨
              (doPut E s plan).2.afterWrite = true := by
            intro plan
            induction plan with
            | nil => intro s; exact Or.inl rfl
            | cons p ps ih =>
              intro s
              obtain ⟨d, f, rows⟩ := p
              have hr := h2 d f rows s
              rw [doPut]
              split
              · exact ih _
              · rename_i s1 o _ he
                rw [he] at hr; exact hr
          have := h3 (plan.map fun p => (p.1.db, some p.1.flags.rest, p.2)) s
          rw [hd] at this
          rcases this with h | h | h
          · exact ho h
          · exact hcr h
          · rw [hsp'] at h; cases h
  | del grant src k v ts =>
    have hc : delMultiple E s grant src k v ts = (s', recs, o) := h
    unfold delMultiple at hc
    split at hc
    · cases hc; exact ⟨rfl, rfl⟩
    · cases hc; exact (ho rfl).elim
  | update grant src ok ov nk nv n m ts =>
    have hc : updateMultiple E s grant src ok ov nk nv n m ts = (s', recs, o) := h
    rcases update_cases (E := E) (s := s) (grant := grant) (src := src) (ok := ok) (ov := ov)
      (nk := nk) (nv := nv) (n := n) (m := m) (ts := ts) with ⟨e, he⟩ | ⟨parts, _, _, he⟩
    · rw [he] at hc; cases hc; exact ⟨rfl, rfl⟩
    · rw [he] at hc; cases hc; exact (ho rfl).elim

/-- The table and the dictionaries fit. -/
def Fits (E : Env) (src : Db) (fam : List Db) (table : List Row) (s : State) : Prop :=
  Good E src fam table ∧ InStep E src fam table s

/-- They fit at every level that no mark is above. -/
def Stack (E : Env) (src : Db) (fam : List Db) :
    State → List State → List Row → List (List Row) → List Bool → Prop
  | s, [], t, [], [] => Respects E s ∧ Fits E src fam t s
  | s, x :: xs, t, y :: ys, f :: fs =>
    Respects E s ∧ (clean (f :: fs) → Fits E src fam t s) ∧ Stack E src fam x xs y ys fs
  | _, _, _, _, _ => False

theorem Stack.top {src : Db} {fam : List Db} {s : State} {xs : List State} {t : List Row}
    {ys : List (List Row)} {fs : List Bool} (h : Stack E src fam s xs t ys fs) :
    Respects E s ∧ (clean fs → Fits E src fam t s) := by
  match xs, ys, fs, h with
  | [], [], [], h => exact ⟨h.1, fun _ => h.2⟩
  | _ :: _, _ :: _, _ :: _, h => exact ⟨h.1, h.2.1⟩

theorem step_in_step (L : Lawful E) (G : GenAgree E) {src : Db} {fam : List Db}
    {w w' : World} {t : Tables} {fs : List Bool} {e : Ev} {recs : List Rec}
    (h : Stack E src fam w.cur w.saved t.cur t.saved fs)
    (hrule : match e with
      | .commit => fs.head? ≠ some true
      | .call c => clean fs → Proper E src fam t.cur c
      | _ => True)
    (hs : step E w e = some (w', recs)) :
    Stack E src fam w'.cur w'.saved (t.after E w e).cur (t.after E w e).saved
      (mark E w fs e) := by
  obtain ⟨s, xs⟩ := w
  obtain ⟨tc, ys⟩ := t
  cases e with
  | begin =>
    cases hs
    refine ⟨h.top.1, fun hc => h.top.2 fun f hf => hc f ?_, h⟩
    exact List.mem_cons_of_mem _ hf
  | commit =>
    cases xs with
    | nil =>
      cases hs
      match ys, fs, h with
      | [], [], h => exact h
    | cons x xs =>
      cases hs
      match ys, fs, h, hrule with
      | y :: ys, f :: fs, h, hrule =>
        have hf : f = false := by
          cases f with
          | false => rfl
          | true => exact (hrule rfl).elim
        subst hf
        show Stack E src fam s xs tc ys fs
        have hc : clean fs → Fits E src fam tc s := fun hc => h.2.1 fun f hf => by
          rcases List.mem_cons.mp hf with rfl | hf
          · rfl
          · exact hc f hf
        match xs, ys, fs, h.2.2, hc with
        | [], [], [], h2, hc => exact ⟨h.1, hc fun f hf => by cases hf⟩
        | _ :: _, _ :: _, _ :: _, h2, hc => exact ⟨h.1, hc, h2.2.2⟩
  | abort =>
    cases xs with
    | nil =>
      cases hs
      match ys, fs, h with
      | [], [], h => exact h
    | cons x xs =>
      cases hs
      match ys, fs, h with
      | y :: ys, f :: fs, h => exact h.2.2
  | call c =>
    cases xs with
    | nil =>
      cases hs
      match ys, fs, h with
      | [], [], h => exact h
    | cons x xs =>
      obtain ⟨s2, o, hrun, hcr, hw⟩ := step_call_cons rfl hs
      subst hw
      match ys, fs, h, hrule with
      | y :: ys, f :: fs, h, hrule =>
        have hresp : Respects E s2 := by
          have := call_respects L c h.1
          rw [hrun] at this; exact this
        have hclean : clean ((f || spoils E s c) :: fs) →
            clean (f :: fs) ∧ spoils E s c = false := by
          intro hc
          have h0 := hc _ (List.mem_cons_self ..)
          rw [Bool.or_eq_false_iff] at h0
          refine ⟨fun g hg => ?_, h0.2⟩
          rcases List.mem_cons.mp hg with rfl | hg
          · exact h0.1
          · exact hc g (List.mem_cons_of_mem _ hg)
        replace hrun : c.run E s = (s2, recs, o) := hrun
        cases o with
        | ok =>
          have ht : Tables.after E ⟨s, x :: xs⟩ ⟨tc, y :: ys⟩ (.call c)
              = ⟨tableAfter tc c, y :: ys⟩ := by
            show (match y :: ys, (c.run E s).2.2 with
              | _ :: _, .ok => (⟨tableAfter tc c, y :: ys⟩ : Tables)
              | _, _ => ⟨tc, y :: ys⟩) = _
            rw [hrun]
          rw [ht]
          refine ⟨hresp, fun hc => ?_, h.2.2⟩
          obtain ⟨hc1, _⟩ := hclean hc
          obtain ⟨a, b⟩ := h.2.1 hc1
          exact call_in_step L G h.1 a b (hrule hc1) hrun
        | err e =>
          have ht : Tables.after E ⟨s, x :: xs⟩ ⟨tc, y :: ys⟩ (.call c) = ⟨tc, y :: ys⟩ := by
            show (match y :: ys, (c.run E s).2.2 with
              | _ :: _, .ok => (⟨tableAfter tc c, y :: ys⟩ : Tables)
              | _, _ => ⟨tc, y :: ys⟩) = _
            rw [hrun]
          rw [ht]
          refine ⟨hresp, fun hc => ?_, h.2.2⟩
          obtain ⟨hc1, hc2⟩ := hclean hc
          obtain ⟨rfl, _⟩ := call_failed hrun (by intro h; cases h) hcr hc2
          exact h.2.1 hc1
        | crash => exact (hcr rfl).elim

theorem run_in_step (L : Lawful E) (G : GenAgree E) {src : Db} {fam : List Db} (es : List Ev)
    {w w' : World} {t : Tables} {fs : List Bool} {recs : List Rec}
    (h : Stack E src fam w.cur w.saved t.cur t.saved fs)
    (hrule : Follows E src fam w t fs es) (hs : run E w es = some (w', recs)) :
    Stack E src fam w'.cur w'.saved (tablesAfter E w t es).cur (tablesAfter E w t es).saved
      (marksAfter E w fs es) := by
  induction es generalizing w t fs recs with
  | nil => cases hs; exact h
  | cons e es ih =>
    rw [run] at hs
    obtain ⟨hr1, hr2⟩ := hrule
    split at hs
    · cases hs
    · rename_i w1 recs1 he
      split at hs
      · cases hs
      · rename_i w2 more hm
        cases hs
        have ha := step_in_step L G h hr1 he
        have := ih ha (hr2 _ _ he) hm
        rw [tablesAfter, marksAfter, he]
        exact this

end Verif.Multi
