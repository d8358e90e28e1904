import Verif.Xa.Spec

/-!
C19: listing the prepared transactions.
-/

namespace Verif.Xa

open Spec

/-! ### The scan -/

theorem scan_ok (count : Nat) : ∀ (rs : List Root) (last : Nat) (acc : List Nat),
    rs.Pairwise (fun a b => a.xid < b.xid) → acc.length < count →
    ∃ last' new, scan count rs last acc = some (last', acc ++ new) ∧ last ≤ last' ∧
      new = ((rs.filter (fun r => r.prep && decide (last < r.xid) && decide (r.xid ≤ last'))).map (·.xid)) ∧
      acc.length + new.length ≤ count ∧
      (acc.length + new.length < count → ∀ r ∈ rs, r.xid ≤ last') ∧
      new = ((rs.filter (fun r => r.prep && decide (last < r.xid))).map (·.xid)).take (count - acc.length) := by
  intro rs
  induction rs with
  | nil =>
    intro last acc _ h
    exact ⟨last, [], by simp [scan], Nat.le_refl _, by simp, by simp; omega, by simp, by simp⟩
  | cons r rs ih =>
    intro last acc hs hlt
    obtain ⟨hr, hs'⟩ := List.pairwise_cons.1 hs
    simp only [scan]
    by_cases h1 : r.xid ≤ last
    · rw [if_pos h1]
      obtain ⟨last', new, g1, g2, g3, g4, g5, g6⟩ := ih last acc hs' hlt
      have h2 : ¬ last < r.xid := Nat.not_lt.2 h1
      refine ⟨last', new, g1, g2, ?_, g4, ?_, ?_⟩
      · simp [List.filter_cons, h2]; simpa using g3
      · intro h x hx
        rcases List.mem_cons.1 hx with rfl | hx
        · exact Nat.le_trans h1 g2
        · exact g5 h x hx
      · simp [List.filter_cons, h2]; simpa using g6
    · rw [if_neg h1]
      have h2 : last < r.xid := Nat.lt_of_not_le h1
      rw [if_neg (by simp; intro _; exact hlt)]
      have hgt : ∀ x ∈ rs, last < x.xid := fun x hx => Nat.lt_trans h2 (hr x hx)
      -- later roots are beyond `last` anyway
      have hfil : ∀ q : Nat, q ≤ r.xid → rs.filter (fun x => x.prep && decide (q < x.xid)) = rs.filter (·.prep) := by
        intro q hq
        apply List.filter_congr
        intro x hx
        have : q < x.xid := Nat.lt_of_le_of_lt hq (hr x hx)
        simp [this]
      cases hp : r.prep with
      | true =>
        simp only [if_true]
        by_cases h3 : count ≤ (acc ++ [r.xid]).length
        · rw [if_pos h3]
          have hlen : count = acc.length + 1 := by simp at h3; omega
          refine ⟨r.xid, [r.xid], rfl, Nat.le_of_lt h2, ?_, by simp; omega, ?_, ?_⟩
          · have hnone : rs.filter (fun x => x.prep && decide (last < x.xid) && decide (x.xid ≤ r.xid)) = [] := by
              rw [List.filter_eq_nil_iff]
              intro x hx
              have := hr x hx
              simp; omega
            simp [List.filter_cons, hp, h2, hnone]
          · intro h; simp at h; omega
          · have : count - acc.length = 1 := by omega
            rw [this]
            simp [List.filter_cons, hp, h2]
        · rw [if_neg h3]
          obtain ⟨last', new, g1, g2, g3, g4, g5, g6⟩ := ih r.xid (acc ++ [r.xid]) hs' (Nat.lt_of_not_le h3)
          refine ⟨last', r.xid :: new, by simp [g1], Nat.le_trans (Nat.le_of_lt h2) g2, ?_, ?_, ?_, ?_⟩
          · have hsame : rs.filter (fun x => x.prep && decide (last < x.xid) && decide (x.xid ≤ last')) =
                rs.filter (fun x => x.prep && decide (r.xid < x.xid) && decide (x.xid ≤ last')) := by
              apply List.filter_congr
              intro x hx
              have := hr x hx
              have := hgt x hx
              simp [*]
            rw [List.filter_cons]
            simp only [hp, h2, g2, decide_true, Bool.and_self, if_true, List.map_cons, hsame, ← g3]
          · simp at g4 ⊢; omega
          · intro h x hx
            rcases List.mem_cons.1 hx with rfl | hx
            · exact g2
            · exact g5 (by simp at h ⊢; omega) x hx
          · have hc : count - acc.length = (count - (acc ++ [r.xid]).length) + 1 := by simp at h3 ⊢; omega
            rw [hc, List.filter_cons]
            simp only [hp, h2, decide_true, Bool.and_self, if_true, List.map_cons, List.take_succ_cons]
            rw [hfil last (Nat.le_of_lt h2)]
            rw [hfil r.xid (Nat.le_refl _)] at g6
            rw [← g6]
      | false =>
        simp only [Bool.false_eq_true, if_false]
        rw [if_neg (Nat.not_le.2 hlt)]
        obtain ⟨last', new, g1, g2, g3, g4, g5, g6⟩ := ih r.xid acc hs' hlt
        refine ⟨last', new, g1, Nat.le_trans (Nat.le_of_lt h2) g2, ?_, g4, ?_, ?_⟩
        · have hsame : rs.filter (fun x => x.prep && decide (last < x.xid) && decide (x.xid ≤ last')) =
              rs.filter (fun x => x.prep && decide (r.xid < x.xid) && decide (x.xid ≤ last')) := by
            apply List.filter_congr
            intro x hx
            have := hr x hx
            have := hgt x hx
            simp [*]
          rw [List.filter_cons]
          simp only [hp, Bool.false_and, Bool.false_eq_true, if_false, hsame, ← g3]
        · intro h x hx
          rcases List.mem_cons.1 hx with rfl | hx
          · exact g2
          · exact g5 h x hx
        · rw [List.filter_cons]
          simp only [hp, Bool.false_and, Bool.false_eq_true, if_false]
          rw [hfil last (Nat.le_of_lt h2)]
          rw [hfil r.xid (Nat.le_refl _)] at g6
          exact g6

/-- A call with room for at least one transaction. -/
theorem recover_ok {m : Mgr} (hg : Good m) {count flags : Nat} (hc : 0 < count)
    (hf : flags = DB_FIRST ∨ flags = DB_NEXT) :
    ∃ last' new, recover m count flags = ({ m with last := last' }, .ok new) ∧
      (if flags = DB_FIRST then 0 else m.last) ≤ last' ∧
      new = ((m.roots.filter (fun r => r.prep && decide ((if flags = DB_FIRST then 0 else m.last) < r.xid) &&
        decide (r.xid ≤ last'))).map (·.xid)) ∧
      new.length ≤ count ∧ (new.length < count → ∀ r ∈ m.roots, r.xid ≤ last') ∧
      new = ((m.roots.filter (fun r => r.prep && decide ((if flags = DB_FIRST then 0 else m.last) < r.xid))).map
        (·.xid)).take count := by
  obtain ⟨last', new, g1, g2, g3, g4, g5, g6⟩ :=
    scan_ok count m.roots (if flags = DB_FIRST then 0 else m.last) [] hg.sorted (by simpa using hc)
  refine ⟨last', new, ?_, g2, g3, by simpa using g4, by simpa using g5, by simpa using g6⟩
  have hnot : ¬ (flags ≠ DB_FIRST ∧ flags ≠ DB_NEXT) := by
    rcases hf with h | h <;> simp [h]
  simp only [recover, if_neg hnot, g1, List.nil_append]
  rw [if_pos (by simpa using g4)]

theorem good_work {m : Mgr} (hg : Good m) (w : Work) : Good (work m w) := by
  cases w with
  | «begin» =>
    refine ⟨?_, ?_⟩
    · simp only [work, beginRoot]
      rw [List.pairwise_append]
      refine ⟨hg.sorted, by simp, ?_⟩
      intro a ha b hb
      simp at hb; subst hb
      exact Nat.lt_succ_of_le (hg.pos a ha).2
    · intro r hr
      simp only [work, beginRoot, List.mem_append, List.mem_singleton] at hr ⊢
      rcases hr with hr | rfl
      · exact ⟨(hg.pos r hr).1, Nat.le_succ_of_le (hg.pos r hr).2⟩
      · simp
  | other => exact ⟨hg.sorted, fun r hr => ⟨(hg.pos r hr).1, Nat.le_succ_of_le (hg.pos r hr).2⟩⟩
  | prepare x =>
    refine ⟨?_, ?_⟩
    · simp only [work, prepare]
      rw [List.pairwise_map]
      apply hg.sorted.imp
      intro a b h
      split <;> split <;> exact h
    · intro r hr
      simp only [work, prepare, List.mem_map] at hr ⊢
      obtain ⟨r', h1, rfl⟩ := hr
      have := hg.pos r' h1
      split <;> exact this
  | finish x =>
    refine ⟨hg.sorted.filter _, ?_⟩
    intro r hr
    simp only [work, finish, List.mem_filter] at hr ⊢
    exact hg.pos r hr.1

theorem mem_prepared {m : Mgr} {x : Nat} : x ∈ prepared m ↔ ∃ r ∈ m.roots, r.prep = true ∧ r.xid = x := by
  simp only [prepared, List.mem_map, List.mem_filter]
  constructor
  · rintro ⟨r, ⟨h1, h2⟩, h3⟩; exact ⟨r, h1, h2, h3⟩
  · rintro ⟨r, h1, h2, h3⟩; exact ⟨r, ⟨h1, h2⟩, h3⟩

/-- What holds during a listing. -/
structure Inv (m : Mgr) (ids since : List Nat) (ended : Bool) : Prop where
  good : Good m
  inc : ids.Pairwise (· < ·)
  le : ∀ x ∈ ids, x ≤ m.last
  sub : ∀ x ∈ since, x ∈ prepared m
  seen : ∀ x ∈ since, x ≤ m.last → x ∈ ids
  fin : ended = true → ∀ x ∈ since, x ≤ m.last

theorem listing_inv {m : Mgr} {ids since : List Nat} {ended : Bool} (h : Listing m ids since ended) :
    Inv m ids since ended := by
  have hsub : ∀ {m : Mgr} {p : Root → Bool}, Good m → ((m.roots.filter p).map (·.xid)).Pairwise (· < ·) := by
    intro m p hg
    rw [List.pairwise_map]
    exact hg.sorted.filter _
  have hzero : ∀ {m : Mgr} {f : Nat} {m' : Mgr} {ids : List Nat}, recover m 0 f = (m', .ok ids) → Good m →
      (f = DB_FIRST ∨ f = DB_NEXT) → ids = [] ∧ ∃ l, m' = { m with last := l } ∧
        (if f = DB_FIRST then 0 else m.last) ≤ l ∧
        ∀ r ∈ m.roots, r.prep = true → r.xid ≤ l → r.xid ≤ (if f = DB_FIRST then 0 else m.last) := by
    intro m f m' ids h hg hf
    have hnot : ¬ (f ≠ DB_FIRST ∧ f ≠ DB_NEXT) := by rcases hf with h | h <;> simp [h]
    simp only [recover, if_neg hnot] at h
    generalize (if f = DB_FIRST then 0 else m.last) = last at *
    have key : ∀ (rs : List Root) l i, rs.Pairwise (fun a b => a.xid < b.xid) → scan 0 rs last [] = some (l, i) →
        i = [] ∧ last ≤ l ∧ ∀ r ∈ rs, r.prep = true → r.xid ≤ l → r.xid ≤ last := by
      intro rs
      induction rs with
      | nil =>
        intro l i _ h; simp [scan] at h
        obtain ⟨h1, h2⟩ := h
        exact ⟨h2, Nat.le_of_eq h1, by simp⟩
      | cons r rs ih =>
        intro l i hs h
        obtain ⟨hr, hs'⟩ := List.pairwise_cons.1 hs
        simp only [scan] at h
        by_cases h1 : r.xid ≤ last
        · rw [if_pos h1] at h
          obtain ⟨g1, g2, g3⟩ := ih l i hs' h
          refine ⟨g1, g2, ?_⟩
          intro x hx
          rcases List.mem_cons.1 hx with rfl | hx
          · intro _ _; exact h1
          · exact g3 x hx
        · rw [if_neg h1] at h
          cases hp : r.prep with
          | true => simp [hp] at h
          | false =>
            simp [hp] at h
            obtain ⟨g1, g2⟩ := h
            subst g1
            refine ⟨g2, by omega, ?_⟩
            intro x hx hxp hxl
            rcases List.mem_cons.1 hx with rfl | hx
            · rw [hp] at hxp; cases hxp
            · exact absurd (hr x hx) (Nat.not_lt.2 hxl)
    cases hsc : scan 0 m.roots last [] with
    | none => rw [hsc] at h; simp at h
    | some s =>
      obtain ⟨l, i⟩ := s
      obtain ⟨g1, g2, g3⟩ := key m.roots l i hg.sorted hsc
      rw [hsc] at h
      subst g1
      simp at h
      exact ⟨h.2, l, h.1.symm, g2, g3⟩
  induction h with
  | first m m' count ids hg h =>
    have hf : DB_FIRST = DB_FIRST ∨ DB_FIRST = DB_NEXT := Or.inl rfl
    cases count with
    | zero =>
      obtain ⟨rfl, l, rfl, h1, h2⟩ := hzero h hg hf
      simp only [if_true] at h1 h2
      refine ⟨⟨hg.sorted, hg.pos⟩, by simp, by simp, ?_, ?_, ?_⟩
      · intro x hx; exact hx
      · intro x hx hle
        obtain ⟨r, g1, g2, rfl⟩ := mem_prepared.1 hx
        have := h2 r g1 g2 hle
        exact absurd (hg.pos r g1).1 (by omega)
      · intro h; simp at h
    | succ c =>
      obtain ⟨l, new, g1, g2, g3, g4, g5, _⟩ := recover_ok hg (Nat.succ_pos c) hf
      rw [g1] at h
      simp only [Prod.mk.injEq, Res.ok.injEq] at h
      obtain ⟨rfl, rfl⟩ := h
      simp only [if_true] at g3
      refine ⟨⟨hg.sorted, hg.pos⟩, ?_, ?_, fun x hx => hx, ?_, ?_⟩
      · rw [g3]; exact hsub hg
      · intro x hx
        rw [g3] at hx
        simp only [List.mem_map, List.mem_filter, Bool.and_eq_true, decide_eq_true_eq] at hx
        obtain ⟨r, ⟨_, _, h⟩, rfl⟩ := hx
        exact h
      · intro x hx hle
        obtain ⟨r, h1, h2, rfl⟩ := mem_prepared.1 hx
        rw [g3]
        simp only [List.mem_map, List.mem_filter, Bool.and_eq_true, decide_eq_true_eq]
        exact ⟨r, ⟨h1, ⟨h2, (hg.pos r h1).1⟩, hle⟩, rfl⟩
      · intro he x hx
        obtain ⟨r, h1, h2, rfl⟩ := mem_prepared.1 hx
        exact g5 (by simpa using he) r h1
  | next m m' count ids new since ended _ h ih =>
    have hg := ih.good
    have hf : DB_NEXT = DB_FIRST ∨ DB_NEXT = DB_NEXT := Or.inr rfl
    have hne : ¬ (DB_NEXT = DB_FIRST) := by decide
    cases count with
    | zero =>
      obtain ⟨rfl, l, rfl, h1, h2⟩ := hzero h hg hf
      simp only [if_neg hne] at h1 h2
      refine ⟨⟨hg.sorted, hg.pos⟩, by simpa using ih.inc, ?_, ih.sub, ?_, ?_⟩
      · intro x hx; exact Nat.le_trans (ih.le x (by simpa using hx)) h1
      · intro x hx hle
        obtain ⟨r, g1, g2, rfl⟩ := mem_prepared.1 (ih.sub x hx)
        simpa using ih.seen r.xid hx (h2 r g1 g2 hle)
      · intro h; simp at h
    | succ c =>
      obtain ⟨l, new', g1, g2, g3, g4, g5, _⟩ := recover_ok hg (Nat.succ_pos c) hf
      rw [g1] at h
      simp only [Prod.mk.injEq, Res.ok.injEq] at h
      obtain ⟨rfl, rfl⟩ := h
      simp only [if_neg hne] at g2 g3
      have hnew : ∀ x, x ∈ new' ↔ (x ∈ prepared m ∧ m.last < x ∧ x ≤ l) := by
        intro x
        rw [g3, mem_prepared]
        simp only [List.mem_map, List.mem_filter, Bool.and_eq_true, decide_eq_true_eq]
        constructor
        · rintro ⟨r, ⟨h1, ⟨h2, h3⟩, h4⟩, rfl⟩; exact ⟨⟨r, h1, h2, rfl⟩, h3, h4⟩
        · rintro ⟨⟨r, h1, h2, rfl⟩, h3, h4⟩; exact ⟨r, ⟨h1, ⟨h2, h3⟩, h4⟩, rfl⟩
      refine ⟨⟨hg.sorted, hg.pos⟩, ?_, ?_, ih.sub, ?_, ?_⟩
      · rw [List.pairwise_append]
        refine ⟨ih.inc, by rw [g3]; exact hsub hg, ?_⟩
        intro a ha b hb
        exact Nat.lt_of_le_of_lt (ih.le a ha) ((hnew b).1 hb).2.1
      · intro x hx
        rcases List.mem_append.1 hx with hx | hx
        · exact Nat.le_trans (ih.le x hx) g2
        · exact ((hnew x).1 hx).2.2
      · intro x hx hle
        rcases Nat.lt_or_ge m.last x with h1 | h1
        · exact List.mem_append_right _ ((hnew x).2 ⟨ih.sub x hx, h1, hle⟩)
        · exact List.mem_append_left _ (ih.seen x hx h1)
      · intro he x hx
        obtain ⟨r, h1, h2, rfl⟩ := mem_prepared.1 (ih.sub x hx)
        exact g5 (by simpa using he) r h1
  | work m ids since ended w _ ih =>
    have hlast : (work m w).last = m.last := by cases w <;> rfl
    refine ⟨good_work ih.good w, ih.inc, ?_, ?_, ?_, ?_⟩
    · rw [hlast]; exact ih.le
    · intro x hx; simpa using (List.mem_filter.1 hx).2
    · intro x hx; rw [hlast]; exact ih.seen x (List.mem_filter.1 hx).1
    · intro he x hx; rw [hlast]; exact ih.fin he x (List.mem_filter.1 hx).1

/-! ### C19 -/

/-- **C19.** No transaction is listed twice, whatever other threads do between the calls of a listing and
whatever the sizes of the batches; and once a call has returned fewer than it could, every transaction
that was prepared throughout the listing has been listed. -/
theorem listing_complete {m : Mgr} {ids since : List Nat} {ended : Bool} (h : Listing m ids since ended) :
    ids.Nodup ∧ (ended = true → ∀ x ∈ since, x ∈ ids) := by
  have hi := listing_inv h
  refine ⟨hi.inc.imp (fun h => Nat.ne_of_lt h), ?_⟩
  intro he x hx
  exact hi.seen x hx (hi.fin he x hx)

/-- **C19.** A call with room for at least one transaction always succeeds, returns no more than it has
room for, and only transactions that are prepared; it changes no transaction. -/
theorem recover_sound {m : Mgr} (hg : Good m) {count flags : Nat} (hc : 0 < count)
    (hf : flags = DB_FIRST ∨ flags = DB_NEXT) :
    ∃ m' ids, recover m count flags = (m', .ok ids) ∧ ids.length ≤ count ∧ (∀ x ∈ ids, x ∈ prepared m) ∧
      m'.roots = m.roots ∧ m'.maxXid = m.maxXid := by
  obtain ⟨l, new, g1, _, g3, g4, _⟩ := recover_ok hg hc hf
  refine ⟨_, new, g1, g4, ?_, rfl, rfl⟩
  intro x hx
  rw [g3] at hx
  simp only [List.mem_map, List.mem_filter, Bool.and_eq_true, decide_eq_true_eq] at hx
  obtain ⟨r, ⟨h1, ⟨h2, _⟩, _⟩, rfl⟩ := hx
  exact mem_prepared.2 ⟨r, h1, h2, rfl⟩

theorem batches_next {m : Mgr} (hg : Good m) : ∀ (cs : List Nat) (last : Nat), (∀ c ∈ cs, 0 < c) →
    ∃ bs, batches { m with last := last } DB_NEXT cs = some bs ∧
      bs.flatten = (((m.roots.filter (fun r => r.prep && decide (last < r.xid))).map (·.xid)).take cs.sum) := by
  intro cs
  induction cs with
  | nil => intro last _; exact ⟨[], rfl, by simp⟩
  | cons c cs ih =>
    intro last hpos
    have hgl : Good { m with last := last } := ⟨hg.sorted, hg.pos⟩
    obtain ⟨l, new, g1, g2, g3, g4, g5, g6⟩ := recover_ok hgl (hpos c (by simp)) (Or.inr rfl : DB_NEXT = DB_FIRST ∨ DB_NEXT = DB_NEXT)
    have hne : ¬ (DB_NEXT = DB_FIRST) := by decide
    simp only [if_neg hne] at g2 g3 g6
    obtain ⟨bs, h1, h2⟩ := ih l (fun c hc => hpos c (List.mem_cons_of_mem _ hc))
    refine ⟨new :: bs, ?_, ?_⟩
    · simp only [batches, g1]
      rw [h1]; rfl
    · rw [List.flatten_cons, h2, List.sum_cons]
      -- what lies beyond `last` is what was returned, then what lies beyond `l`
      have hsplit : ((m.roots.filter (fun r => r.prep && decide (last < r.xid))).map (·.xid)) =
          new ++ ((m.roots.filter (fun r => r.prep && decide (l < r.xid))).map (·.xid)) := by
        rw [g3]
        have : ∀ rs : List Root, rs.Pairwise (fun a b => a.xid < b.xid) →
            (rs.filter (fun r => r.prep && decide (last < r.xid))) =
            (rs.filter (fun r => r.prep && decide (last < r.xid) && decide (r.xid ≤ l))) ++
            (rs.filter (fun r => r.prep && decide (l < r.xid))) := by
          intro rs
          induction rs with
          | nil => intro _; rfl
          | cons r rs ih =>
            intro hs
            obtain ⟨hr, hs'⟩ := List.pairwise_cons.1 hs
            simp only [List.filter_cons]
            cases hp : r.prep with
            | false => simpa using ih hs'
            | true =>
              by_cases h3 : last < r.xid
              · by_cases h4 : r.xid ≤ l
                · have h5 : ¬ l < r.xid := Nat.not_lt.2 h4
                  simp [h3, h4, h5]
                  simpa using ih hs'
                · have h5 : l < r.xid := Nat.lt_of_not_le h4
                  have hnil : rs.filter (fun x => x.prep && decide (last < x.xid) && decide (x.xid ≤ l)) = [] := by
                    rw [List.filter_eq_nil_iff]
                    intro x hx
                    have := hr x hx
                    simp; omega
                  have := ih hs'
                  rw [hnil, List.nil_append] at this
                  simp [h3, h4, h5, hnil, this]
              · have h5 : ¬ l < r.xid := by omega
                simp [h3, h5]
                simpa using ih hs'
        rw [this m.roots hg.sorted, List.map_append]
      rw [hsplit, List.take_append]
      rw [hsplit, List.take_append] at g6
      have hl : new.length ≤ c := g4
      have e1 : new.take (c + cs.sum) = new := List.take_of_length_le (by omega)
      rw [e1]
      congr 1
      rcases Nat.lt_or_ge new.length c with h3 | h3
      · have hnil : (m.roots.filter (fun r => r.prep && decide (l < r.xid))) = [] := by
          rw [List.filter_eq_nil_iff]
          intro x hx
          have := g5 h3 x hx
          simp; omega
        simp [hnil]
      · have : c + cs.sum - new.length = cs.sum := by omega
        rw [this]

/-- **C19.** If nothing else happens meanwhile, the batches of any sizes put together are the prepared
transactions, oldest first, cut off only after as many as were asked for in all. -/
theorem batches_exact {m : Mgr} (hg : Good m) (cs : List Nat) (hpos : ∀ c ∈ cs, 0 < c) :
    ∃ bs, batches m DB_FIRST cs = some bs ∧ bs.flatten = (prepared m).take cs.sum := by
  cases cs with
  | nil => exact ⟨[], rfl, by simp⟩
  | cons c cs =>
    have hfirst : ∀ n, recover m n DB_FIRST = recover { m with last := 0 } n DB_NEXT := by
      intro n
      have h1 : ¬ (DB_FIRST ≠ DB_FIRST ∧ DB_FIRST ≠ DB_NEXT) := by decide
      have h2 : ¬ (DB_NEXT ≠ DB_FIRST ∧ DB_NEXT ≠ DB_NEXT) := by decide
      have h3 : ¬ (DB_NEXT = DB_FIRST) := by decide
      simp only [recover, if_neg h1, if_neg h2, if_true, if_neg h3]
    obtain ⟨bs, h1, h2⟩ := batches_next hg (c :: cs) 0 hpos
    refine ⟨bs, ?_, ?_⟩
    · rw [← h1]
      simp only [batches, hfirst]
    · rw [h2]
      congr 1
      simp only [prepared]
      congr 1
      apply List.filter_congr
      intro r hr
      simp [(hg.pos r hr).1]

/-- **C19 needs room for one.** A call with room for none stops the program, or writes outside the caller's
array, if there is a prepared transaction. -/
theorem no_room_stops : ∃ m, Good m ∧ (recover m 0 DB_FIRST).2 = .stop :=
  ⟨⟨[⟨3, true⟩], 0, 5⟩, ⟨by simp, by simp⟩, by decide⟩

/-- **C19 needs one listing at a time.** The cursor is shared. Here a second listing starts before the
first has made sure that it is at its end: the first is shown transaction 4 again, and the second is
told that it has seen everything although it never saw 4. -/
theorem two_listings_collide : ∃ m m1 m2 m3 m4, Good m ∧ prepared m = [3, 4] ∧
    recover m 2 DB_FIRST = (m1, .ok [3, 4]) ∧ recover m1 1 DB_FIRST = (m2, .ok [3]) ∧
    recover m2 1 DB_NEXT = (m3, .ok [4]) ∧ recover m3 1 DB_NEXT = (m4, .ok []) :=
  let rs := [⟨3, true⟩, ⟨4, true⟩]
  ⟨⟨rs, 0, 5⟩, ⟨rs, 4, 5⟩, ⟨rs, 3, 5⟩, ⟨rs, 4, 5⟩, ⟨rs, 4, 5⟩, ⟨by simp [rs], by simp [rs]⟩, by decide, by decide,
    by decide, by decide, by decide⟩

/-- A listing in two batches with work between: 2 and 5 are prepared throughout and both are listed. -/
example : ∃ m, Listing m [2, 5] [2, 5] true := by
  let m0 : Mgr := ⟨[⟨1, false⟩, ⟨2, true⟩, ⟨4, true⟩, ⟨5, true⟩], 0, 5⟩
  have hg : Good m0 := ⟨by simp [m0], by simp [m0]⟩
  have h1 := Listing.first m0 { m0 with last := 2 } 1 [2] hg (by decide)
  have h2 := Listing.work _ _ _ _ (.finish 4) h1
  have h3 := Listing.work _ _ _ _ .begin h2
  have h4 := Listing.next _ ⟨[⟨1, false⟩, ⟨2, true⟩, ⟨5, true⟩, ⟨6, false⟩], 6, 6⟩ 3 _ [5] _ _ h3 (by decide)
  exact ⟨_, h4⟩

end Verif.Xa
