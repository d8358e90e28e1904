import Verif.Multi.Update

/-!
# The log of a call does what the call did
-/

namespace Verif.Multi

variable {E : Env}

theorem Respects.put (L : Lawful E) {s : State} (h : Respects E s) (d : Db) (row : Row) :
    Respects E (E.put s d row) := by
  intro d' a b hab
  by_cases hd : d' = d
  · subst hd
    rw [put_same, put_same, h d' a b hab]
    cases ha : E.same d' a row.1 with
    | true => rw [L.trans _ _ _ _ (L.symm _ _ _ hab) ha]
    | false =>
      cases hb : E.same d' b row.1 with
      | true => rw [L.trans _ _ _ _ hab hb] at ha; cases ha
      | false => rfl
  · rw [put_other hd]; exact h d' a b hab

theorem Respects.del (L : Lawful E) {s : State} (h : Respects E s) (d : Db) (key : Bytes) :
    Respects E (E.del s d key) := by
  intro d' a b hab
  by_cases hd : d' = d
  · subst hd
    rw [del_same, del_same, h d' a b hab]
    cases ha : E.same d' a key with
    | true => rw [L.trans _ _ _ _ (L.symm _ _ _ hab) ha]
    | false =>
      cases hb : E.same d' b key with
      | true => rw [L.trans _ _ _ _ hab hb] at ha; cases ha
      | false => rfl
  · rw [del_other hd]; exact h d' a b hab

theorem Respects.putAll (L : Lawful E) {s : State} (h : Respects E s) (d : Db)
    (rows : List Row) : Respects E (putAll E d rows s) := by
  induction rows generalizing s with
  | nil => exact h
  | cons r rs ih => exact ih (h.put L d r)

theorem Respects.putPlan (L : Lawful E) {s : State} (h : Respects E s)
    (plan : List (Db × List Row)) : Respects E (putPlan E s plan) := by
  induction plan generalizing s with
  | nil => exact h
  | cons p ps ih => exact ih (h.putAll L p.1 p.2)

theorem Respects.delKeys (L : Lawful E) {s : State} (h : Respects E s) (d : Db)
    (keys : List Bytes) : Respects E (delKeys E d s keys) := by
  induction keys generalizing s with
  | nil => exact h
  | cons k ks ih => exact ih (h.del L d k)

theorem Respects.doDel (L : Lawful E) {s : State} (h : Respects E s)
    (plan : List (Db × List Bytes)) : Respects E (doDel E s plan) := by
  induction plan generalizing s with
  | nil => exact h
  | cons p ps ih => exact ih (h.delKeys L p.1 p.2)

theorem putRows_respects (L : Lawful E) {d : Db} {f : Option Nat} (rows : List Row) {s : State}
    (h : Respects E s) : Respects E (putRows E d f s rows).1 := by
  induction rows generalizing s with
  | nil => exact h
  | cons r rs ih =>
    have hd : Respects E (dbPut E s d r (f.getD 0)).1 := by
      unfold dbPut
      split
      · split
        · exact h
        · exact h.put L d r
      · split
        · exact h
        · exact h.put L d r
    rw [putRows]
    split
    · exact h
    · split
      · rename_i s1 he
        rw [he] at hd
        exact ih hd
      · rename_i s1 o _ he
        rw [he] at hd
        exact hd

theorem doPut_respects (L : Lawful E) (plan : List (Db × Option Nat × List Row)) {s : State}
    (h : Respects E s) : Respects E (doPut E s plan).1 := by
  induction plan generalizing s with
  | nil => exact h
  | cons p ps ih =>
    obtain ⟨d, f, rows⟩ := p
    have hd := putRows_respects (E := E) L (d := d) (f := f) rows h
    rw [doPut]
    split
    · rename_i s1 he
      rw [he] at hd
      exact ih hd
    · rename_i s1 o _ he
      rw [he] at hd
      exact hd

theorem call_respects (L : Lawful E) (c : Call) {s : State} (h : Respects E s) :
    Respects E (c.run E s).1 := by
  cases c with
  | put grant src k v ts =>
    show Respects E (putMultiple E s grant src k v ts).1
    unfold putMultiple
    split
    · exact h
    · split
      · exact h
      · rename_i plan _
        have hd := doPut_respects L
          (plan.map fun p => (p.1.db, some p.1.flags.rest, p.2)) h
        split
        · rename_i s1 he
          rw [he] at hd; exact hd
        · rename_i s1 o _ he
          rw [he] at hd; exact hd
  | del grant src k v ts =>
    show Respects E (delMultiple E s grant src k v ts).1
    unfold delMultiple
    split
    · exact h
    · exact h.doDel L _
  | update grant src ok ov nk nv n m ts =>
    show Respects E (updateMultiple E s grant src ok ov nk nv n m ts).1
    rcases update_cases (E := E) (s := s) (grant := grant) (src := src) (ok := ok) (ov := ov)
      (nk := nk) (nv := nv) (n := n) (m := m) (ts := ts) with ⟨e, he⟩ | ⟨parts, _, _, he⟩
    · rw [he]; exact h
    · rw [he]; exact (h.doDel L _).putPlan L _

/-! ## Records -/

/-- The two states show the same in every dictionary whose file is there. -/
def AgreeOn (here : Db → Bool) (s s' : State) : Prop := ∀ d, here d = true → s d = s' d

/-- The keys of a source row in a dictionary. -/
def keysOf (E : Env) (src : Option Db) (k v : Bytes) (d : Db) : List Bytes :=
  ((rowsOf E src d k v).getD []).map Prod.fst

theorem doDel_filter {here : Db → Bool} {d : Db} (hd : here d = true)
    (plan : List (Db × List Bytes)) (s : State) :
    doDel E s (plan.filter fun p => here p.1) d = doDel E s plan d := by
  induction plan generalizing s with
  | nil => rfl
  | cons p ps ih =>
    rw [List.filter_cons]
    split
    · exact ih _
    · rename_i hp
      refine (ih _).trans (doDel_congr ps (delKeys_other ?_ _ _).symm)
      intro e; exact hp (e ▸ hd)

theorem putPlan_filter {here : Db → Bool} {d : Db} (hd : here d = true)
    (plan : List (Db × List Row)) (s : State) :
    putPlan E s (plan.filter fun p => here p.1) d = putPlan E s plan d := by
  induction plan generalizing s with
  | nil => rfl
  | cons p ps ih =>
    rw [List.filter_cons]
    split
    · exact ih _
    · rename_i hp
      refine (ih _).trans (putPlan_congr ps (putAll_other ?_ _ _).symm)
      intro e; exact hp (e ▸ hd)

/-- The record with one source row, as a plan of deletes. -/
theorem redoDel_fold (G : GenAgree E) {here : Db → Bool} {src : Option Db} {k v : Bytes}
    (dbs : List Db) (h : ∀ d ∈ dbs, ∃ rows, rowsOf E src d k v = some rows) (s : State) :
    dbs.foldlM (redoDelDb E here src k v) s
      = some (doDel E s ((dbs.map fun d => (d, keysOf E src k v d)).filter fun p => here p.1)) := by
  induction dbs generalizing s with
  | nil => rfl
  | cons d ds ih =>
    have hs : redoDelDb E here src k v s d
        = some (if here d then delKeys E d s (keysOf E src k v d) else s) := by
      unfold redoDelDb
      split
      · split
        · rename_i hsrc
          unfold keysOf rowsOf
          rw [if_pos hsrc]; rfl
        · rename_i hsrc
          obtain ⟨rows, hr⟩ := h d (List.mem_cons_self ..)
          have hr' : E.genPut d src k v = some rows := by
            unfold rowsOf at hr; rwa [if_neg hsrc] at hr
          rw [G, hr']
          unfold keysOf
          rw [hr]; rfl
      · rfl
    rw [List.foldlM_cons, hs]
    refine (ih (fun d' hd' => h d' (List.mem_cons_of_mem _ hd')) _).trans ?_
    rw [List.map_cons, List.filter_cons]
    cases here d <;> rfl

/-- The record with one source row, as a plan of puts. -/
theorem redoPut_fold {here : Db → Bool} {src : Option Db} {k v : Bytes}
    (dbs : List Db) (h : ∀ d ∈ dbs, ∃ rows, rowsOf E src d k v = some rows) (s : State) :
    dbs.foldlM (redoPutDb E here src k v) s
      = some (putPlan E s
          ((dbs.map fun d => (d, (rowsOf E src d k v).getD [])).filter fun p => here p.1)) := by
  induction dbs generalizing s with
  | nil => rfl
  | cons d ds ih =>
    have hs : redoPutDb E here src k v s d
        = some (if here d then putAll E d ((rowsOf E src d k v).getD []) s else s) := by
      unfold redoPutDb
      split
      · split
        · rename_i hsrc
          unfold rowsOf
          rw [if_pos hsrc]; rfl
        · rename_i hsrc
          obtain ⟨rows, hr⟩ := h d (List.mem_cons_self ..)
          have hr' : E.genPut d src k v = some rows := by
            unfold rowsOf at hr; rwa [if_neg hsrc] at hr
          rw [hr', hr]; rfl
      · rfl
    rw [List.foldlM_cons, hs]
    refine (ih (fun d' hd' => h d' (List.mem_cons_of_mem _ hd')) _).trans ?_
    rw [List.map_cons, List.filter_cons]
    cases here d <;> rfl

/-- The single records, as a plan of deletes. -/
theorem redo_singles {here : Db → Bool} (plan : List (Db × List Bytes)) (w : World) :
    redoAll E here w (plan.flatMap fun p => p.2.map fun key => Rec.del p.1 key)
      = some ⟨doDel E w.cur (plan.filter fun p => here p.1), w.saved⟩ := by
  have one : ∀ (d : Db) (keys : List Bytes) (w : World),
      redoAll E here w (keys.map fun key => Rec.del d key)
        = some ⟨if here d then delKeys E d w.cur keys else w.cur, w.saved⟩ := by
    intro d keys
    induction keys with
    | nil => intro w; cases here d <;> rfl
    | cons k ks ih =>
      intro w
      rw [List.map_cons]
      show redoAll E here (if here d then ⟨E.del w.cur d k, w.saved⟩ else w) _ = _
      rw [ih]
      cases here d <;> rfl
  induction plan generalizing w with
  | nil => rfl
  | cons p ps ih =>
    rw [List.flatMap_cons]
    unfold redoAll
    rw [List.foldlM_append]
    have := one p.1 p.2 w
    unfold redoAll at this
    rw [this]
    refine (ih _).trans ?_
    rw [List.filter_cons]
    cases here p.1 <;> rfl

/-- What recovery does with the records of the deletes. -/
theorem redo_logDel (G : GenAgree E) {here : Db → Bool} {src : Option Db} {k v : Bytes}
    (hsrc : srcHere here src = true) (plan : List (Db × List Bytes))
    (h : ∀ p ∈ plan, ∃ rows, rowsOf E src p.1 k v = some rows) (w : World) :
    redoAll E here w (logDel E src k v plan)
        = some ⟨doDel E w.cur (plan.filter fun p => here p.1), w.saved⟩ ∨
    redoAll E here w (logDel E src k v plan)
        = some ⟨doDel E w.cur
            ((plan.map fun p => (p.1, keysOf E src k v p.1)).filter fun p => here p.1),
            w.saved⟩ := by
  unfold logDel
  split
  · split
    · exact Or.inl (redo_singles plan w)
    · refine Or.inr ?_
      show ((redo E here w (.delMulti src (plan.map Prod.fst) k v)) >>= pure) = _
      have hd := redoDel_fold G (here := here) (src := src) (k := k) (v := v)
        (plan.map Prod.fst)
        (fun d hd => by
          obtain ⟨p, hp, he⟩ := List.mem_map.mp hd
          exact he ▸ h p hp) w.cur
      have hr : redo E here w (.delMulti src (plan.map Prod.fst) k v)
          = some ⟨_, w.saved⟩ :=
        (if_pos hsrc).trans (congrArg (Option.map (World.mk · w.saved)) hd)
      rw [hr, List.map_map]
      rfl
  · rename_i hn
    have : plan = [] := List.eq_nil_of_length_eq_zero (by omega)
    subst this
    exact Or.inl rfl

/-- What recovery does with the record of the puts. -/
theorem redo_logPut {here : Db → Bool} {src : Option Db} {k v : Bytes}
    (hsrc : srcHere here src = true) (dbs : List Db)
    (h : ∀ d ∈ dbs, ∃ rows, rowsOf E src d k v = some rows) (w : World) :
    redoAll E here w (logPut src k v dbs)
        = some ⟨putPlan E w.cur
            ((dbs.map fun d => (d, (rowsOf E src d k v).getD [])).filter fun p => here p.1),
            w.saved⟩ := by
  unfold logPut
  split
  · show ((redo E here w (.putMulti src dbs k v)) >>= pure) = _
    have hr : redo E here w (.putMulti src dbs k v) = some ⟨_, w.saved⟩ :=
      (if_pos hsrc).trans (congrArg (Option.map (World.mk · w.saved)) (redoPut_fold dbs h w.cur))
    rw [hr]
    rfl
  · rename_i hn
    have : dbs = [] := List.eq_nil_of_length_eq_zero (by omega)
    subst this
    rfl

/-! ## Calls -/

theorem Merged.any_eq (L : Lawful E) {d : Db} {Q : Row → Prop} {old : List Bytes}
    {new : List Row} {D : List Bytes} {P S : List Row} (h : Merged E d Q old new D P S)
    {x : Bytes} (hx : ∀ r ∈ new, E.same d x r.1 = false) :
    D.any (E.same d x) = old.any (E.same d x) := by
  cases ho : old.any (E.same d x) with
  | true =>
    rw [List.any_eq_true] at ho ⊢
    obtain ⟨k, hk, hxk⟩ := ho
    rcases h.old_split L k hk with hD | ⟨r, hr, hkr⟩
    · exact ⟨k, hD, hxk⟩
    · have := L.trans _ _ _ _ hxk hkr
      rw [hx r hr] at this; cases this
  | false =>
    cases hD : D.any (E.same d x) with
    | false => rfl
    | true =>
      rw [List.any_eq_true] at hD
      obtain ⟨k, hk, hxk⟩ := hD
      rw [List.any_eq_true.mpr ⟨k, h.dels_old k hk, hxk⟩] at ho; cases ho

/-- The records of a call can be read by recovery and say what the call did. -/
theorem call_replays (L : Lawful E) (G : GenAgree E) {here : Db → Bool} (c : Call)
    (hsrc : srcHere here c.src = true) {s s2 : State} {recs : List Rec} {o : Outcome}
    (hc : c.run E s = (s2, recs, o)) (w : World) :
    ∃ w', redoAll E here w recs = some w' ∧ w'.saved = w.saved ∧
      (o ≠ .crash → spoils E s c = false → Tidy E s c → Respects E s → AgreeOn here s w.cur →
        AgreeOn here s2 w'.cur) := by
  cases c with
  | put grant src k v ts =>
    have hc0 : putMultiple E s grant src k v ts = (s2, recs, o) := hc
    replace hsrc : srcHere here src = true := hsrc
    have hspoil : spoils E s (.put grant src k v ts) = o.afterWrite := by
      show (putMultiple E s grant src k v ts).2.2.afterWrite = _
      rw [hc0]
    unfold putMultiple at hc0
    split at hc0
    · cases hc0
      exact ⟨w, rfl, rfl, fun _ hs => by rw [hspoil] at hs; cases hs⟩
    · split at hc0
      · cases hc0
        exact ⟨w, rfl, rfl, fun _ _ _ _ ha => ha⟩
      · rename_i plan hplan
        obtain ⟨hts, hrows⟩ := buildPut_ok ts hplan
        split at hc0
        · rename_i s1 hd
          cases hc0
          have he := doPut_ok _ hd
          refine ⟨_, redo_logPut hsrc _ ?_ w, rfl, ?_⟩
          · intro d hd'
            obtain ⟨p, hp, rfl⟩ := List.mem_map.mp hd'
            exact ⟨_, hrows p hp⟩
          · intro _ _ _ _ ha d hd'
            show s2 d = putPlan E w.cur _ d
            rw [he, putPlan_filter hd', List.map_map, List.map_map]
            have hl : plan.map ((fun p : Db × Option Nat × List Row => (p.1, p.2.2)) ∘
                  fun p => (p.1.db, some p.1.flags.rest, p.2))
                = plan.map ((fun d => (d, (rowsOf E src d k v).getD [])) ∘ fun p => p.1.db) := by
              refine List.map_congr_left fun p hp => ?_
              show (p.1.db, p.2) = (p.1.db, (rowsOf E src p.1.db k v).getD [])
              rw [hrows p hp]; rfl
            rw [hl]
            exact putPlan_congr _ (ha d hd')
        · rename_i s1 o1 hne hd
          cases hc0
          refine ⟨w, rfl, rfl, fun hcr hs => ?_⟩
          exfalso
          have hout : ∀ (plan : List (Db × Option Nat × List Row)) (s : State),
              (doPut E s plan).2 = .ok ∨ (doPut E s plan).2 = .crash ∨
              (doPut E s plan).2 = .err .keyExist ∨ (doPut E s plan).2 = .err .einval := by
            have h1 : ∀ (s : State) (d : Db) (r : Row) (f : Nat),
                (dbPut E s d r f).2 = .ok ∨ (dbPut E s d r f).2 = .crash ∨
                (dbPut E s d r f).2 = .err .keyExist ∨ (dbPut E s d r f).2 = .err .einval := by
              intro s d r f
              unfold dbPut
              split
              · split
                · exact Or.inr (Or.inr (Or.inl rfl))
                · exact Or.inl rfl
              · split
                · exact Or.inr (Or.inr (Or.inr rfl))
                · exact Or.inl rfl
            have h2 : ∀ (d : Db) (f : Option Nat) (rows : List Row) (s : State),
                (putRows E d f s rows).2 = .ok ∨ (putRows E d f s rows).2 = .crash ∨
                (putRows E d f s rows).2 = .err .keyExist ∨
                (putRows E d f s rows).2 = .err .einval := by
              intro d f rows
              induction rows with
              | nil => intro s; exact Or.inl rfl
              | cons r rs ih =>
                intro s
                have hr := h1 s d r (f.getD 0)
                rw [putRows]
                split
                · exact Or.inr (Or.inl rfl)
                · split
                  · exact ih _
                  · rename_i s1 o _ he
                    rw [he] at hr; exact hr
            intro plan
            induction plan with
            | nil => intro s; exact Or.inl rfl
            | cons p ps ih =>
              intro s
              obtain ⟨d, f, rows⟩ := p
              have hr := h2 d f rows s
              rw [doPut]
              split
              · exact ih _
              · rename_i s1 o _ he
                rw [he] at hr; exact hr
          have := hout (plan.map fun p => (p.1.db, some p.1.flags.rest, p.2)) s
          rw [hd] at this
          rcases this with h | h | h | h
          · exact hne h
          · exact hcr h
          · replace h : o = _ := h
            subst h; rw [hspoil] at hs; cases hs
          · replace h : o = _ := h
            subst h; rw [hspoil] at hs; cases hs
  | del grant src k v ts =>
    have hc0 : delMultiple E s grant src k v ts = (s2, recs, o) := hc
    replace hsrc : srcHere here src = true := hsrc
    unfold delMultiple at hc0
    split at hc0
    · cases hc0
      exact ⟨w, rfl, rfl, fun _ _ _ _ ha => ha⟩
    · rename_i plan hplan
      cases hc0
      obtain ⟨hts, hkeys⟩ := buildDel_ok ts hplan
      have hrows : ∀ p ∈ plan, ∃ rows, rowsOf E src p.1 k v = some rows ∧
          p.2 = rows.map Prod.fst := fun p hp => keysFor_ok G (hkeys p hp)
      have hl : plan.map (fun p => (p.1, keysOf E src k v p.1)) = plan := by
        conv => rhs; rw [← List.map_id plan]
        refine List.map_congr_left fun p hp => ?_
        obtain ⟨rows, hr, hk⟩ := hrows p hp
        show (p.1, keysOf E src k v p.1) = p
        unfold keysOf
        rw [hr]
        exact Prod.ext rfl hk.symm
      have hr : redoAll E here w (logDel E src k v plan)
          = some ⟨doDel E w.cur (plan.filter fun p => here p.1), w.saved⟩ := by
        rcases redo_logDel G hsrc plan (fun p hp => (hrows p hp).imp fun _ h => h.1) w with h | h
        · exact h
        · rw [hl] at h; exact h
      refine ⟨_, hr, rfl, fun _ _ _ _ ha d hd => ?_⟩
      show doDel E s plan d = doDel E w.cur (plan.filter fun p => here p.1) d
      rw [doDel_filter hd]
      exact doDel_congr _ (ha d hd)
  | update grant src ok ov nk nv n m ts =>
    have hc0 : updateMultiple E s grant src ok ov nk nv n m ts = (s2, recs, o) := hc
    replace hsrc : srcHere here src = true := hsrc
    rcases update_cases (E := E) (s := s) (grant := grant) (src := src) (ok := ok) (ov := ov)
      (nk := nk) (nv := nv) (n := n) (m := m) (ts := ts) with ⟨e, he⟩ | ⟨parts, hdb, hok, he⟩
    · rw [he] at hc0
      cases hc0
      exact ⟨w, rfl, rfl, fun _ _ _ _ ha => ha⟩
    · rw [he] at hc0
      cases hc0
      have hdelrows : ∀ p ∈ parts.filterMap Part.del?, ∃ rows, rowsOf E src p.1 ok ov = some rows := by
        intro p hp
        obtain ⟨q, hq, hqp⟩ := List.mem_filterMap.mp hp
        unfold Part.del? at hqp
        split at hqp
        · cases hqp; exact ⟨_, (hok q hq).1⟩
        · cases hqp
      have hputrows : ∀ d ∈ (parts.filterMap Part.put?).map Prod.fst,
          ∃ rows, rowsOf E src d nk nv = some rows := by
        intro d hd
        obtain ⟨p, hp, rfl⟩ := List.mem_map.mp hd
        obtain ⟨q, hq, hqp⟩ := List.mem_filterMap.mp hp
        unfold Part.put? at hqp
        split at hqp
        · cases hqp; exact ⟨_, (hok q hq).2.1⟩
        · cases hqp
      -- the dictionaries after the deletes, as recovery leaves them
      obtain ⟨s1, hr1, hs1⟩ : ∃ s1, redoAll E here w
            (logDel E src ok ov (parts.filterMap Part.del?)) = some ⟨s1, w.saved⟩ ∧
          ((parts.map Part.db).Nodup → ∀ d, here d = true →
            (d ∉ parts.map Part.db → s1 d = w.cur d) ∧
            ∀ p ∈ parts, p.db = d →
              (s1 d = delKeys E d w.cur p.D d ∨
                (p.D.length > 0 ∧ s1 d = delKeys E d w.cur (p.ro.map Prod.fst) d))) := by
        rcases redo_logDel G hsrc _ hdelrows w with h | h
        · refine ⟨_, h, fun hn d hd => ⟨fun hm => ?_, fun p hp hpd => Or.inl ?_⟩⟩
          · rw [doDel_filter hd]
            exact doDel_miss _ _ fun hm' => hm ((part_dels_dbs parts).subset hm')
          · rw [doDel_filter hd]
            subst hpd
            exact doDel_part hn hp _
        · refine ⟨_, h, fun hn d hd => ⟨fun hm => ?_, fun p hp hpd => ?_⟩⟩
          · rw [doDel_filter hd]
            refine doDel_miss _ _ fun hm' => hm ((part_dels_dbs parts).subset ?_)
            rw [List.map_map] at hm'
            exact hm'
          · rw [doDel_filter hd]
            subst hpd
            have hnd : (((parts.filterMap Part.del?).map
                fun p => (p.1, keysOf E src ok ov p.1)).map Prod.fst).Nodup := by
              rw [List.map_map]
              exact hn.sublist (part_dels_dbs parts)
            by_cases hD : p.D.length > 0
            · refine Or.inr ⟨hD, ?_⟩
              refine doDel_hit _ _ hnd ?_
              refine List.mem_map.mpr ⟨(p.db, p.D), List.mem_filterMap.mpr ⟨p, hp, ?_⟩, ?_⟩
              · unfold Part.del?; rw [if_pos hD]
              · show (p.db, keysOf E src ok ov p.db) = _
                unfold keysOf
                rw [(hok p hp).1]; rfl
            · refine Or.inl ?_
              have hD0 : p.D = [] := List.eq_nil_of_length_eq_zero (by omega)
              rw [hD0]
              refine doDel_miss _ _ ?_
              rw [List.map_map]
              intro hm
              obtain ⟨e, he, hd'⟩ := List.mem_map.mp hm
              obtain ⟨q, hq, hqe⟩ := List.mem_filterMap.mp he
              unfold Part.del? at hqe
              split at hqe
              · rename_i hc'
                cases hqe
                have := part_unique hn hp hq hd'.symm
                subst this
                exact hD hc'
              · cases hqe
      have hr2 := redo_logPut (E := E) (here := here) hsrc _ hputrows ⟨s1, w.saved⟩
      refine ⟨⟨putPlan E s1 ((((parts.filterMap Part.put?).map Prod.fst).map
            fun d => (d, (rowsOf E src d nk nv).getD [])).filter fun p => here p.1), w.saved⟩,
            ?_, ?_⟩
      · unfold redoAll at hr1 hr2 ⊢
        rw [List.foldlM_append, hr1]
        exact hr2
      · refine ⟨rfl, ?_⟩
        rintro _ _ ⟨hnd, htidy⟩ hresp ha d hd
        have hn : (parts.map Part.db).Nodup := by rw [hdb]; exact hnd
        obtain ⟨hmiss, hhit⟩ := hs1 hn d hd
        show putPlan E (doDel E s (parts.filterMap Part.del?)) (parts.filterMap Part.put?) d
          = putPlan E s1 _ d
        rw [putPlan_filter hd]
        by_cases hm : d ∈ parts.map Part.db
        · obtain ⟨p, hp, rfl⟩ := List.mem_map.mp hm
          obtain ⟨hro, hrn, t, ht, htd, hM⟩ := hok p hp
          have htt := htidy t ht p.ro p.rn (htd ▸ hro) (htd ▸ hrn)
          rw [htd] at htt
          obtain ⟨hdo, hdn, hempty⟩ := htt
          rw [putPlan_part hn hp, putAll_congr _ (doDel_part hn hp s)]
          funext x
          have hval := hM.value L hdo hdn s hempty (hresp p.db) x
          have hs1x : (∀ r ∈ p.rn, E.same p.db x r.1 = false) →
              s1 p.db x = if (p.ro.map Prod.fst).any (E.same p.db x) then none
                else s p.db x := by
            intro hx
            rw [ha p.db hd]
            rcases hhit p hp rfl with h | ⟨_, h⟩
            · rw [h, delKeys_same, hM.any_eq L hx]
            · rw [h, delKeys_same]
          have hns : (((parts.filterMap Part.put?).map Prod.fst).map
              fun d => (d, (rowsOf E src d nk nv).getD [])).map Prod.fst
              = (parts.filterMap Part.put?).map Prod.fst := by
            rw [List.map_map]
            exact (List.map_congr_left fun _ _ => rfl).trans (List.map_id _)
          by_cases hput : p.P.length > 0 ∨ (p.D.length > 0 ∧ p.S.length > 0)
          · have hin : p.db ∈ (parts.filterMap Part.put?).map Prod.fst := by
              refine List.mem_map.mpr ⟨(p.db, p.P), List.mem_filterMap.mpr ⟨p, hp, ?_⟩, rfl⟩
              unfold Part.put?; rw [if_pos hput]
            have hrep : putPlan E s1 (((parts.filterMap Part.put?).map Prod.fst).map
                fun d => (d, (rowsOf E src d nk nv).getD [])) p.db
                = putAll E p.db p.rn s1 p.db := by
              refine putPlan_hit _ _ ?_ ?_
              · rw [hns]; exact hn.sublist (part_puts_dbs parts)
              · refine List.mem_map.mpr ⟨p.db, hin, ?_⟩
                rw [hrn]; rfl
            rw [hrep]
            by_cases hx : ∃ r ∈ p.rn, E.same p.db x r.1 = true
            · obtain ⟨r, hr, hxr⟩ := hx
              rw [hval.1 r hr hxr, putAll_hit L p.rn s1 hdn r hr hxr]
            · have hx' : ∀ r ∈ p.rn, E.same p.db x r.1 = false := by
                intro r hr
                cases hs : E.same p.db x r.1 with
                | false => rfl
                | true => exact (hx ⟨r, hr, hs⟩).elim
              rw [hval.2 hx', putAll_miss _ _ hx', hs1x hx']
          · have hrep : putPlan E s1 (((parts.filterMap Part.put?).map Prod.fst).map
                fun d => (d, (rowsOf E src d nk nv).getD [])) p.db = s1 p.db := by
              refine putPlan_miss _ _ ?_
              rw [hns]
              intro hm'
              obtain ⟨e, he', hde⟩ := List.mem_map.mp hm'
              obtain ⟨q, hq, hqe⟩ := List.mem_filterMap.mp he'
              unfold Part.put? at hqe
              split at hqe
              · rename_i hc'
                cases hqe
                have := part_unique hn hp hq hde.symm
                subst this
                exact hput hc'
              · cases hqe
            rw [hrep]
            have hP0 : p.P = [] := List.eq_nil_of_length_eq_zero (by omega)
            by_cases hS : p.S.length > 0
            · have hD0 : p.D = [] := List.eq_nil_of_length_eq_zero (by omega)
              rcases hhit p hp rfl with h | ⟨hD, _⟩
              · rw [h, hP0, hD0]
                exact congrFun (ha p.db hd) x
              · rw [hD0] at hD; cases hD
            · have hS0 : p.S = [] := List.eq_nil_of_length_eq_zero (by omega)
              have hx' : ∀ r ∈ p.rn, E.same p.db x r.1 = false := by
                intro r hr
                rcases hM.new_split r hr with h | h
                · rw [hP0] at h; cases h
                · rw [hS0] at h; cases h
              rw [hval.2 hx', hs1x hx']
        · have h1 : d ∉ (parts.filterMap Part.put?).map Prod.fst :=
            fun h => hm ((part_puts_dbs parts).subset h)
          rw [putPlan_miss _ _ h1, doDel_miss _ _ fun h => hm ((part_dels_dbs parts).subset h),
            ha d hd, ← hmiss hm]
          refine (putPlan_miss _ _ ?_).symm
          rw [List.map_map]
          intro h
          exact h1 (by
            obtain ⟨e, he', hde⟩ := List.mem_map.mp h
            exact hde ▸ he')

end Verif.Multi
