import Verif.Stale.More

/-! # Memory given back is not used -/

namespace Verif.Stale

structure Mem (s : S) : Prop where
  anod : (s.active.map Cf.id).Nodup
  snod : (s.stale.map Cf.id).Nodup
  apart : ∀ c ∈ s.active, ∀ d ∈ s.stale, c.id ≠ d.id
  aold : ∀ c ∈ s.active, c.id < s.nextId ∧ c.id ∉ s.freed
  sold : ∀ c ∈ s.stale, c.id < s.nextId ∧ c.id ∉ s.freed
  fold : ∀ i ∈ s.freed, i < s.nextId
  ev : ∀ i l, s.evicting = some (i, l) → i ∉ s.freed ∧ i < s.nextId ∧ (∀ c ∈ s.active, c.id ≠ i) ∧
    (l = true → ∀ c ∈ s.stale, c.id ≠ i)

theorem nodup_idx {x : Nat} : ∀ {l : List Nat} {i j : Nat}, l.Nodup → l[i]? = some x → l[j]? = some x → i = j
  | [], i, _, _, hi, _ => by simp at hi
  | y :: l, 0, 0, _, _, _ => rfl
  | y :: l, 0, j + 1, h, hi, hj => by
    rw [List.getElem?_cons_zero] at hi
    rw [List.getElem?_cons_succ] at hj
    cases hi
    exact absurd (List.mem_of_getElem? hj) (List.nodup_cons.mp h).1
  | y :: l, i + 1, 0, h, hi, hj => by
    rw [List.getElem?_cons_zero] at hj
    rw [List.getElem?_cons_succ] at hi
    cases hj
    exact absurd (List.mem_of_getElem? hi) (List.nodup_cons.mp h).1
  | y :: l, i + 1, j + 1, h, hi, hj => by
    rw [List.getElem?_cons_succ] at hi hj
    rw [nodup_idx (List.nodup_cons.mp h).2 hi hj]

theorem mem_start : Mem start := by
  refine ⟨List.nodup_nil, List.nodup_nil, ?_, ?_, ?_, ?_, ?_⟩ <;> intro x hx
  · cases hx
  · cases hx
  · cases hx
  · cases hx
  · intro h; cases h

theorem mem_same {s s' : S} (h : Mem s) (h1 : s'.active.map Cf.id = s.active.map Cf.id) (h2 : s'.stale = s.stale)
    (h3 : s'.nextId = s.nextId) (h4 : s'.freed = s.freed) (h5 : s'.evicting = s.evicting) : Mem s' := by
  have ha : ∀ c ∈ s'.active, ∃ d ∈ s.active, d.id = c.id := by
    intro c hc
    have : c.id ∈ s.active.map Cf.id := by rw [← h1]; exact List.mem_map.mpr ⟨c, hc, rfl⟩
    exact List.mem_map.mp this
  refine ⟨by rw [h1]; exact h.anod, by rw [h2]; exact h.snod, ?_, ?_, by rw [h2, h3, h4]; exact h.sold,
    by rw [h3, h4]; exact h.fold, ?_⟩
  · rw [h2]
    intro c hc d hd
    obtain ⟨c', hc', e⟩ := ha c hc
    rw [← e]; exact h.apart c' hc' d hd
  · rw [h3, h4]
    intro c hc
    obtain ⟨c', hc', e⟩ := ha c hc
    rw [← e]; exact h.aold c' hc'
  · rw [h2, h3, h4, h5]
    intro i l hi
    obtain ⟨x, y, z, w⟩ := h.ev i l hi
    refine ⟨x, y, fun c hc => ?_, w⟩
    obtain ⟨c', hc', e⟩ := ha c hc
    rw [← e]; exact z c' hc'

/-- What an event does to the flag of `quiet`, and whether it is quiet. -/
def quietStep (b : Bool) : Ev → Option Bool
  | .evBegin _ => some true
  | .evEnd => some false
  | .open _ _ => if b then none else some b
  | .shutdown => if b then none else some b
  | _ => some b

theorem quiet_cons {b : Bool} {e : Ev} {es : List Ev} (h : quiet b (e :: es) = true) :
    ∃ b', quietStep b e = some b' ∧ quiet b' es = true := by
  cases e <;> cases b <;> simp [quiet, quietStep] at * <;> first | exact h | exact absurd h id

theorem act_mem {s s' : S} {e : Ev} {a : Ans} {q : Bool} (h : Mem s) (hq : quietStep s.evicting.isSome e = some q)
    (hs : act s e = some (some (s', a))) : Mem s' ∧ s'.evicting.isSome = q ∧ a ≠ .bad := by
  cases e with
  | create n i =>
    cases hq
    unfold act at hs; dsimp only at hs
    split at hs <;> cases hs
    exact ⟨mem_same h rfl rfl rfl rfl rfl, rfl, by simp⟩
  | «open» n w =>
    unfold quietStep at hq
    dsimp only at hq
    split at hq
    · cases hq
    · next hev =>
      cases hq
      have hnone : s.evicting = none := by
        cases hx : s.evicting with
        | none => rfl
        | some x => rw [hx] at hev; exact absurd rfl hev
      unfold act at hs; dsimp only at hs
      split at hs
      · cases hs; exact ⟨h, rfl, by simp⟩
      · next ino hno =>
        split at hs
        · split at hs
          · cases hs
          · cases hs; exact ⟨h, rfl, by simp⟩
        · split at hs
          · cases hs
          · next num next hr =>
            split at hs
            · cases hs
            · split at hs
              · next c hst =>
                obtain ⟨hc, hi⟩ := find_ino hst
                split at hs
                · cases hs
                · cases hs
                  refine ⟨⟨?_, List.Nodup.sublist (List.Sublist.map _ List.filter_sublist) h.snod, ?_, ?_, ?_, h.fold,
                    fun i l hi => by rw [hnone] at hi; cases hi⟩, rfl, by simp⟩
                  · rw [List.map_cons, List.nodup_cons]
                    refine ⟨?_, h.anod⟩
                    intro hm
                    obtain ⟨d, hd, e⟩ := List.mem_map.mp hm
                    exact h.apart d hd c hc e
                  · intro d hd x hx
                    obtain ⟨hx1, hx2⟩ := List.mem_filter.mp hx
                    rcases List.mem_cons.mp hd with rfl | hd
                    · intro e
                      have := map_inj h.snod hc hx1 e
                      subst this
                      simp [hi] at hx2
                    · exact h.apart d hd x hx1
                  · intro d hd
                    rcases List.mem_cons.mp hd with rfl | hd
                    · exact h.sold c hc
                    · exact h.aold d hd
                  · intro d hd
                    exact h.sold d (List.mem_filter.mp hd).1
              · cases hs
                refine ⟨⟨?_, h.snod, ?_, ?_, ?_, ?_, fun i l hi => by rw [hnone] at hi; cases hi⟩, rfl, by simp⟩
                · rw [List.map_cons, List.nodup_cons]
                  refine ⟨?_, h.anod⟩
                  intro hm
                  obtain ⟨d, hd, e⟩ := List.mem_map.mp hm
                  have := (h.aold d hd).1
                  dsimp only at e
                  omega
                · intro d hd x hx
                  rcases List.mem_cons.mp hd with rfl | hd
                  · have := (h.sold x hx).1
                    dsimp only
                    omega
                  · exact h.apart d hd x hx
                · intro d hd
                  rcases List.mem_cons.mp hd with rfl | hd
                  · refine ⟨Nat.lt_succ_self _, fun hf => ?_⟩
                    have := h.fold _ hf
                    dsimp only at this
                    omega
                  · exact ⟨Nat.lt_succ_of_lt (h.aold d hd).1, (h.aold d hd).2⟩
                · intro d hd
                  exact ⟨Nat.lt_succ_of_lt (h.sold d hd).1, (h.sold d hd).2⟩
                · intro i hi
                  exact Nat.lt_succ_of_lt (h.fold i hi)
  | put num k v =>
    cases hq
    unfold act at hs; dsimp only at hs
    split at hs <;> cases hs
    exact ⟨mem_same h (change_map Cf.id (fun _ => rfl)) rfl rfl rfl rfl, rfl, by simp⟩
  | get num k =>
    cases hq
    unfold act at hs; dsimp only at hs
    split at hs
    · split at hs
      · cases hs; exact ⟨h, rfl, by simp⟩
      · cases hs; exact ⟨mem_same h (change_map Cf.id (fun _ => rfl)) rfl rfl rfl rfl, rfl, by simp⟩
    · cases hs
  | drop num k =>
    cases hq
    unfold act at hs; dsimp only at hs
    split at hs <;> cases hs
    exact ⟨mem_same h (change_map Cf.id (fun _ => rfl)) rfl rfl rfl rfl, rfl, by simp⟩
  | mark num =>
    cases hq
    unfold act at hs; dsimp only at hs
    split at hs
    · split at hs <;> cases hs
      exact ⟨mem_same h (change_map Cf.id (fun _ => rfl)) rfl rfl rfl rfl, rfl, by simp⟩
    · cases hs
  | rollbackLoad n =>
    cases hq
    unfold act at hs; dsimp only at hs
    split at hs
    · split at hs <;> cases hs
      exact ⟨mem_same h (change_map Cf.id (fun _ => rfl)) rfl rfl rfl rfl, rfl, by simp⟩
    · cases hs; exact ⟨mem_same h rfl rfl rfl rfl rfl, rfl, by simp⟩
  | close num =>
    cases hq
    unfold act at hs; dsimp only at hs
    split at hs
    · next c hb =>
      obtain ⟨hc, hn⟩ := byNum_mem hb
      have asub : ∀ d ∈ s.active.filter (fun d => d.num != num), d ∈ s.active ∧ d.id ≠ c.id := by
        intro d hd
        obtain ⟨x, y⟩ := List.mem_filter.mp hd
        refine ⟨x, fun e => ?_⟩
        have := map_inj h.anod x hc e
        subst this
        simp [hn] at y
      have hfree : Mem { s with active := s.active.filter (fun d => d.num != num), freed := c.id :: s.freed } := by
        refine ⟨List.Nodup.sublist (List.Sublist.map _ List.filter_sublist) h.anod, h.snod,
          fun d hd => h.apart d (asub d hd).1, ?_, ?_, ?_, ?_⟩
        · intro d hd
          refine ⟨(h.aold d (asub d hd).1).1, fun hf => ?_⟩
          rcases List.mem_cons.mp hf with e | hf
          · exact (asub d hd).2 e
          · exact (h.aold d (asub d hd).1).2 hf
        · intro d hd
          refine ⟨(h.sold d hd).1, fun hf => ?_⟩
          rcases List.mem_cons.mp hf with e | hf
          · exact h.apart c hc d hd e.symm
          · exact (h.sold d hd).2 hf
        · intro i hi
          rcases List.mem_cons.mp hi with rfl | hi
          · exact (h.aold c hc).1
          · exact h.fold i hi
        · intro i l hi
          obtain ⟨x, y, z, w⟩ := h.ev i l hi
          refine ⟨fun hf => ?_, y, fun d hd => z d (asub d hd).1, w⟩
          rcases List.mem_cons.mp hf with e | hf
          · exact z c hc e.symm
          · exact x hf
      split at hs
      · split at hs
        · cases hs
        · cases hs; exact ⟨mem_same hfree rfl rfl rfl rfl rfl, rfl, by simp⟩
      · split at hs
        · cases hs; exact ⟨mem_same hfree rfl rfl rfl rfl rfl, rfl, by simp⟩
        · cases hs
          refine ⟨⟨List.Nodup.sublist (List.Sublist.map _ List.filter_sublist) h.anod, ?_, ?_,
            fun d hd => h.aold d (asub d hd).1, ?_, h.fold, ?_⟩, rfl, by simp⟩
          · rw [List.map_cons, List.nodup_cons]
            refine ⟨?_, h.snod⟩
            intro hm
            obtain ⟨d, hd, e⟩ := List.mem_map.mp hm
            exact h.apart c hc d hd e.symm
          · intro d hd x hx
            rcases List.mem_cons.mp hx with rfl | hx
            · exact (asub d hd).2
            · exact h.apart d (asub d hd).1 x hx
          · intro x hx
            rcases List.mem_cons.mp hx with rfl | hx
            · exact h.aold c hc
            · exact h.sold x hx
          · intro i l hi
            obtain ⟨x, y, z, w⟩ := h.ev i l hi
            refine ⟨x, y, fun d hd => z d (asub d hd).1, fun hl d hd => ?_⟩
            rcases List.mem_cons.mp hd with rfl | hd
            · exact z c hc
            · exact w hl d hd
    · cases hs
  | evBegin i =>
    cases hq
    unfold act at hs; dsimp only at hs
    split at hs
    · next c he hi =>
      have hcm : c ∈ s.stale := List.mem_of_getElem? hi
      split at hs
      · cases hs
      · next p ps hp =>
        cases hs
        by_cases hps : ps = []
        · simp only [hps, if_true]
          have hsub : ∀ d ∈ s.stale.eraseIdx i, d ∈ s.stale := fun d hd => List.mem_of_mem_eraseIdx hd
          refine ⟨⟨h.anod, List.Nodup.sublist (List.Sublist.map _ (List.eraseIdx_sublist _ _)) h.snod,
            fun d hd x hx => h.apart d hd x (hsub x hx), h.aold, fun x hx => h.sold x (hsub x hx), h.fold, ?_⟩, by simp, by simp⟩
          intro j l hj
          cases hj
          refine ⟨(h.sold c hcm).2, (h.sold c hcm).1, fun d hd => h.apart d hd c hcm, fun _ d hd e => ?_⟩
          have := map_inj h.snod (hsub d hd) hcm e
          subst this
          obtain ⟨j, hj, hji⟩ := List.mem_eraseIdx_iff_getElem?.mp hd
          exact hj (nodup_idx h.snod (by rw [List.getElem?_map, hji]; rfl) (by rw [List.getElem?_map, hi]; rfl))
        · simp only [hps, if_false]
          have hmap : (s.stale.set i { c with pages := ps }).map Cf.id = s.stale.map Cf.id := by
            rw [List.map_set]
            apply List.ext_getElem?
            intro j
            rw [List.getElem?_set]
            split
            · next e =>
              subst e
              rw [List.getElem?_map, hi]
              have := (List.getElem?_eq_some_iff.mp hi).1
              simp [this]
            · rfl
          have hst : ∀ d ∈ s.stale.set i { c with pages := ps }, ∃ x ∈ s.stale, x.id = d.id := by
            intro d hd
            have : d.id ∈ s.stale.map Cf.id := by rw [← hmap]; exact List.mem_map.mpr ⟨d, hd, rfl⟩
            exact List.mem_map.mp this
          refine ⟨⟨h.anod, by rw [hmap]; exact h.snod, ?_, h.aold, ?_, h.fold, ?_⟩, by simp, by simp⟩
          · intro d hd x hx
            obtain ⟨y, hy, e⟩ := hst x hx
            rw [← e]; exact h.apart d hd y hy
          · intro x hx
            obtain ⟨y, hy, e⟩ := hst x hx
            rw [← e]; exact h.sold y hy
          · intro j l hj
            cases hj
            refine ⟨(h.sold c hcm).2, (h.sold c hcm).1, fun d hd => h.apart d hd c hcm, fun hl => ?_⟩
            exact absurd (List.isEmpty_iff.mp hl) hps
    · cases hs
  | evEnd =>
    cases hq
    unfold act at hs; dsimp only at hs
    split at hs
    · next id last he =>
      obtain ⟨x, y, z, w⟩ := h.ev id last he
      split at hs
      · next hf => exact absurd hf x
      · cases hs
        refine ⟨?_, rfl, by simp⟩
        cases last with
        | false =>
          exact ⟨h.anod, h.snod, h.apart, h.aold, h.sold, h.fold, fun i l hi => by cases hi⟩
        | true =>
          refine ⟨h.anod, h.snod, h.apart, ?_, ?_, ?_, fun i l hi => by cases hi⟩
          · intro c hc
            refine ⟨(h.aold c hc).1, fun hf => ?_⟩
            rcases List.mem_cons.mp hf with e | hf
            · exact z c hc e
            · exact (h.aold c hc).2 hf
          · intro c hc
            refine ⟨(h.sold c hc).1, fun hf => ?_⟩
            rcases List.mem_cons.mp hf with e | hf
            · exact w rfl c hc e
            · exact (h.sold c hc).2 hf
          · intro i hi
            rcases List.mem_cons.mp hi with rfl | hi
            · exact y
            · exact h.fold i hi
    · cases hs
  | shutdown =>
    unfold quietStep at hq
    dsimp only at hq
    split at hq
    · cases hq
    · next hev =>
      cases hq
      have hnone : s.evicting = none := by
        cases hx : s.evicting with
        | none => rfl
        | some x => rw [hx] at hev; exact absurd rfl hev
      unfold act at hs; dsimp only at hs
      split at hs
      · next hact =>
        cases hs
        refine ⟨⟨h.anod, List.nodup_nil, fun _ _ d hd => (by cases hd), ?_, fun d hd => (by cases hd), ?_,
          fun i l hi => (by rw [hnone] at hi; cases hi)⟩, rfl, by simp⟩
        · intro c hc
          rw [hact] at hc; cases hc
        · intro i hi
          rcases List.mem_append.mp hi with hi | hi
          · obtain ⟨d, hd, rfl⟩ := List.mem_map.mp hi
            exact (h.sold d hd).1
          · exact h.fold i hi
      · cases hs

theorem run_mem {es : List Ev} : ∀ {s s' : S} {as : List Ans}, Mem s → quiet s.evicting.isSome es = true →
    run s es = some (some (s', as)) → Mem s' ∧ Ans.bad ∉ as := by
  induction es with
  | nil => intro s s' as h _ hr; cases hr; exact ⟨h, List.not_mem_nil⟩
  | cons e es ih =>
    intro s s' as h hq hr
    obtain ⟨q, h1, h2⟩ := quiet_cons hq
    unfold run at hr
    split at hr
    · cases hr
    · cases hr
    · next s1 a hs =>
      obtain ⟨hm, he, ha⟩ := act_mem h h1 hs
      split at hr
      · next r as' hr' =>
        cases hr
        obtain ⟨x, y⟩ := ih hm (by rw [he]; exact h2) hr'
        refine ⟨x, fun hb => ?_⟩
        rcases List.mem_cons.mp hb with e | hb
        · exact ha e.symm
        · exact y hb
      · next hx => exact absurd hr (hx _ _)

end Verif.Stale
