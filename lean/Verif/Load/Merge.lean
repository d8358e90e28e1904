import Verif.Load.Queue
/-! Lemmas: merging of runs. -/
set_option autoImplicit false
set_option linter.unusedVariables false
set_option linter.unusedSimpArgs false

namespace Verif.Load
open Spec

variable {K V : Type} {cmp : K → K → Int}

/-- All rows of an output, in order. -/
def Out.flat (o : Out K V) : List (Row K V) := o.sent.flatten ++ o.cur

theorem emit_flat (e : Env K V) (toQ : Bool) (b : Nat) (o : Out K V) (r : Row K V) : (o.emit e toQ b r).flat = o.flat ++ [r] := by
  unfold Out.emit Out.flat
  split
  · simp
  · simp

theorem emit_sent (e : Env K V) (b : Nat) (o : Out K V) (r : Row K V) : (o.emit e false b r).sent = o.sent := by
  simp [Out.emit]

theorem perm_flatten_set {l : List (List (Row K V))} {i : Nat} {r : Row K V} {t : List (Row K V)} (h : l[i]? = some (r :: t)) :
    l.flatten.Perm (r :: (l.set i t).flatten) := by
  induction l generalizing i with
  | nil => simp at h
  | cons a l ih =>
    cases i with
    | zero =>
      simp only [List.getElem?_cons_zero, Option.some.injEq] at h
      subst h
      simp
    | succ i =>
      simp only [List.getElem?_cons_succ] at h
      simp only [List.flatten_cons, List.set_cons_succ]
      exact ((ih h).append_left a).trans List.perm_middle

/-- Invariant of the merge loop. -/
structure MInv (cmp : K → K → Int) (all : List (Row K V)) (srcs : List (List (Row K V))) (q : PQ K V) (out : List (Row K V)) : Prop where
  dup : q.dup = none
  heap : Heap cmp q.d
  avail : q.avail = srcs.length + 1
  size : q.d.length ≤ srcs.length
  sorted : ∀ l ∈ srcs, Sorted cmp l
  idx : ∀ x ∈ q.d, x.2 < srcs.length
  front : ∀ x ∈ q.d, ∀ l, srcs[x.2]? = some l → ∀ y ∈ l, cmp x.1.1 y.1 < 0
  there : ∀ i l, srcs[i]? = some l → l ≠ [] → ∃ x ∈ q.d, x.2 = i
  osort : Sorted cmp out
  less : ∀ a ∈ out, ∀ x ∈ q.d, cmp a.1 x.1.1 < 0
  perm : (out ++ (q.d.map (·.1) ++ srcs.flatten)).Perm all

/-- Result of a merge of `n` sources with the rows `all`. -/
def Merged (cmp : K → K → Int) (all : List (Row K V)) (n : Nat) (toQ : Bool) : R K V (Out K V) → Prop
  | .ok o => Sorted cmp o.flat ∧ o.flat.Perm all ∧ (toQ = false → o.sent = [])
  | .err (.exist r) => Twice cmp r all
  | .err _ => False
  | .crash => 3 ≤ n ∧ ∃ r, Twice cmp r all

theorem merge_loop {e : Env K V} (ho : Order e.cmp) (toQ : Bool) (budget : Nat) (all : List (Row K V)) :
    ∀ (n : Nat) (srcs : List (List (Row K V))) (q : PQ K V) (o : Out K V), q.d.length + srcs.flatten.length < n →
    MInv e.cmp all srcs q o.flat → (toQ = false → o.sent = []) →
    Merged e.cmp all srcs.length toQ (mergeSome.loop e toQ budget n srcs q o) := by
  intro n
  induction n with
  | zero => intro srcs q o h; omega
  | succ n ih =>
    intro srcs q o hn hi hq
    simp only [mergeSome.loop]
    split
    · rename_i h0
      have hd : q.d = [] := List.eq_nil_of_length_eq_zero h0
      refine ⟨hi.osort, ?_, hq⟩
      have hp := hi.perm
      have : srcs.flatten = [] := by
        rw [List.flatten_eq_nil_iff]
        intro l hl
        obtain ⟨i, hi', hil⟩ := List.getElem_of_mem hl
        by_cases hne : l = []
        · exact hne
        · obtain ⟨x, hx, _⟩ := hi.there i l (by rw [List.getElem?_eq_getElem hi', hil]) hne
          rw [hd] at hx; cases hx
      rw [hd, this] at hp
      simpa using hp
    · rename_i h0
      have hne : q.d ≠ [] := fun h => h0 (by rw [h]; rfl)
      have hpop := pop_spec ho q hi.dup hi.heap hne
      revert hpop
      cases hres : q.pop e.cmp with
      | crash => exact fun h => h.elim
      | err c =>
        cases c with
        | exist r =>
          rintro ⟨h1, h2⟩
          refine ⟨?_, r, ?_⟩
          · have := hi.size; omega
          · refine ((h1.left srcs.flatten).right o.flat).perm hi.perm
        | _ => exact fun h => h.elim
      | ok p =>
        obtain ⟨⟨r, i⟩, q'⟩ := p
        simp only
        rintro ⟨hd1, hh1, ha1, hp1, hlt1⟩
        have hmem : (r, i) ∈ q.d := hp1.mem_iff.2 List.mem_cons_self
        have hsub : ∀ y ∈ q'.d, y ∈ q.d := fun y hy => hp1.mem_iff.2 (List.mem_cons_of_mem _ hy)
        have hil : i < srcs.length := hi.idx _ hmem
        have hlen : q.d.length = q'.d.length + 1 := by rw [hp1.length_eq]; rfl
        have hx : srcs[i]? = some srcs[i] := List.getElem?_eq_getElem hil
        have hsrt : Sorted e.cmp srcs[i] := hi.sorted _ (List.getElem_mem hil)
        have hfr := hi.front _ hmem _ hx
        have hout : Sorted e.cmp (o.emit e toQ budget r).flat := by
          rw [emit_flat]
          refine List.pairwise_append.2 ⟨hi.osort, List.pairwise_singleton _ _, fun a ha b hb => ?_⟩
          rw [List.mem_singleton.1 hb]
          exact hi.less a ha _ hmem
        have hless : ∀ a ∈ (o.emit e toQ budget r).flat, ∀ y ∈ q'.d, e.cmp a.1 y.1.1 < 0 := by
          rw [emit_flat]
          intro a ha y hy
          rcases List.mem_append.1 ha with ha | ha
          · exact hi.less a ha y (hsub y hy)
          · rw [List.mem_singleton.1 ha]; exact hlt1 y hy
        have hsent : toQ = false → (o.emit e toQ budget r).sent = [] := by
          intro h; subst h; rw [emit_sent]; exact hq rfl
        have hperm1 : ((o.emit e toQ budget r).flat ++ (q'.d.map (·.1) ++ srcs.flatten)).Perm all := by
          rw [emit_flat]
          refine List.Perm.trans ?_ hi.perm
          rw [List.append_assoc]
          refine List.Perm.append_left _ ?_
          rw [← List.append_assoc]
          refine List.Perm.append_right _ ?_
          exact (hp1.map (fun x : Node K V => x.1)).symm
        have hz : o.emit e toQ budget r = o.emit e toQ budget r := rfl
        rw [hx]
        generalize hsi : srcs[i] = si at hx hsrt hfr
        cases si with
        | nil =>
          simp only
          refine ih srcs q' _ (by omega) ?_ hsent
          exact {
            dup := hd1, heap := hh1, avail := ha1.trans hi.avail, size := by have := hi.size; omega
            sorted := hi.sorted, idx := fun x hx => hi.idx x (hsub x hx)
            front := fun x hx => hi.front x (hsub x hx)
            there := by
              intro j l hj hl
              obtain ⟨x, hxm, hxj⟩ := hi.there j l hj hl
              refine ⟨x, ?_, hxj⟩
              rcases List.mem_cons.1 (hp1.mem_iff.1 hxm) with h | h
              · subst h
                simp only at hxj
                subst hxj
                rw [hx] at hj
                exact absurd (Option.some.inj hj).symm hl
              · exact h
            osort := hout, less := hless, perm := hperm1 }
        | cons r' rest =>
          simp only
          have hav : q'.d.length + 1 < q'.avail := by have := hi.size; rw [ha1, hi.avail]; omega
          have hins := insert_spec ho q' (r', i) hd1 hh1 hav
          have hsrt' := List.pairwise_cons.1 hsrt
          have hps := perm_flatten_set hx
          revert hins
          cases hres2 : q'.insert e.cmp (r', i) with
          | crash => exact fun h => h.elim
          | err c =>
            cases c with
            | exist z =>
              intro h
              simp only at h
              refine (h.of_sub ((o.emit e toQ budget r).flat ++ (srcs.set i rest).flatten) ?_)
              refine List.Perm.trans ?_ hperm1
              refine List.Perm.trans ?_ ((hps.symm.append_left (q'.d.map (·.1))).append_left _)
              simp only [List.map_cons, List.cons_append]
              rw [← List.append_assoc]
              refine List.Perm.trans ?_ (List.perm_middle.symm.append_left _)
              refine List.Perm.trans ?_ List.perm_middle.symm
              refine List.Perm.cons _ ?_
              rw [← List.append_assoc]
              exact List.Perm.append_right _ List.perm_append_comm
            | _ => exact fun h => h.elim
          | ok q2 =>
            simp only
            rintro ⟨hd2, hh2, ha2, hp2⟩
            have hlen2 : q2.d.length = q'.d.length + 1 := by rw [hp2.length_eq]; rfl
            have hfl : srcs.flatten.length = (srcs.set i rest).flatten.length + 1 := by rw [hps.length_eq]; rfl
            have hm2 : ∀ y ∈ q2.d, y = (r', i) ∨ y ∈ q'.d := fun y hy => List.mem_cons.1 (hp2.mem_iff.1 hy)
            have hm2' : ∀ y, y = (r', i) ∨ y ∈ q'.d → y ∈ q2.d := fun y hy => hp2.mem_iff.2 (List.mem_cons.2 hy)
            have hget : ∀ j l, (srcs.set i rest)[j]? = some l → (j = i ∧ l = rest) ∨ (j ≠ i ∧ srcs[j]? = some l) := by
              intro j l h
              rw [List.getElem?_set] at h
              by_cases hij : i = j
              · rw [if_pos hij, if_pos (by omega)] at h
                exact Or.inl ⟨hij.symm, (Option.some.inj h).symm⟩
              · rw [if_neg hij] at h
                exact Or.inr ⟨fun h => hij h.symm, h⟩
            have := ih (srcs.set i rest) q2 (o.emit e toQ budget r) (by omega) ?_ hsent
            · rw [List.length_set] at this
              exact this
            · exact {
                dup := hd2, heap := hh2, avail := by rw [List.length_set, ha2, ha1]; exact hi.avail
                size := by rw [List.length_set]; have := hi.size; omega
                sorted := by
                  intro l hl
                  obtain ⟨j, hj, hjl⟩ := List.getElem_of_mem hl
                  have : (srcs.set i rest)[j]? = some l := by rw [List.getElem?_eq_getElem hj, hjl]
                  rcases hget j l this with ⟨_, rfl⟩ | ⟨_, h⟩
                  · exact hsrt'.2
                  · exact hi.sorted l (List.mem_of_getElem? h)
                idx := by
                  intro x hx
                  rw [List.length_set]
                  rcases hm2 x hx with rfl | h
                  · exact hil
                  · exact hi.idx x (hsub x h)
                front := by
                  intro x hxm l hl y hy
                  rcases hget _ l hl with ⟨h1, rfl⟩ | ⟨h1, h2⟩
                  · rcases hm2 x hxm with rfl | h
                    · exact hsrt'.1 y hy
                    · exact hi.front x (hsub x h) (r' :: l) (by rw [h1]; exact hx) y (List.mem_cons_of_mem _ hy)
                  · rcases hm2 x hxm with rfl | h
                    · exact absurd rfl h1
                    · exact hi.front x (hsub x h) l h2 y hy
                there := by
                  intro j l hj hl
                  rcases hget j l hj with ⟨rfl, rfl⟩ | ⟨h1, h2⟩
                  · exact ⟨_, hm2' _ (Or.inl rfl), rfl⟩
                  · obtain ⟨x, hxm, hxj⟩ := hi.there j l h2 hl
                    rcases List.mem_cons.1 (hp1.mem_iff.1 hxm) with h | h
                    · subst h; exact absurd hxj.symm h1
                    · exact ⟨x, hm2' _ (Or.inr h), hxj⟩
                osort := hout
                less := by
                  intro a ha x hxm
                  rcases hm2 x hxm with rfl | h
                  · rw [emit_flat] at ha
                    have hr : e.cmp r.1 r'.1 < 0 := hfr r' List.mem_cons_self
                    rcases List.mem_append.1 ha with ha | ha
                    · exact ho.lt_trans (hi.less a ha _ hmem) hr
                    · rw [List.mem_singleton.1 ha]; exact hr
                  · exact hless a ha x h
                perm := by
                  refine List.Perm.trans ?_ hperm1
                  refine List.Perm.append_left _ ?_
                  refine ((hp2.map (fun x : Node K V => x.1)).append_right _).trans ?_
                  refine List.Perm.trans ?_ (hps.symm.append_left (q'.d.map (·.1)))
                  simp only [List.map_cons, List.cons_append]
                  exact List.perm_middle.symm }

/-- Invariant of the loading of the queue: the first `i` sources are in the queue. -/
structure FInv (cmp : K → K → Int) (done : List (List (Row K V))) (n : Nat) (q : PQ K V) : Prop where
  dup : q.dup = none
  heap : Heap cmp q.d
  avail : q.avail = n + 1
  size : q.d.length ≤ done.length
  node : ∀ x, x ∈ q.d → ∃ t, done[x.2]? = some (x.1 :: t)
  there : ∀ i r t, done[i]? = some (r :: t) → (r, i) ∈ q.d
  perm : (q.d.map (·.1) ++ (done.map List.tail).flatten).Perm done.flatten

theorem fill_spec (ho : Order cmp) : ∀ (l done : List (List (Row K V))) (q : PQ K V), FInv cmp done (done ++ l).length q →
    match fill cmp done.length l q with
    | .ok q' => FInv cmp (done ++ l) (done ++ l).length q'
    | .err (.exist r) => Twice cmp r (done ++ l).flatten
    | .err _ => False
    | .crash => False := by
  intro l
  induction l with
  | nil => intro done q h; simpa [fill] using h
  | cons a l ih =>
    intro done q h
    have happ : done ++ a :: l = (done ++ [a]) ++ l := by simp
    cases a with
    | nil =>
      simp only [fill]
      have h' : FInv cmp (done ++ [[]]) (done ++ [[]] ++ l).length q := {
        dup := h.dup, heap := h.heap, avail := by have := h.avail; simp at *; exact this
        size := by have := h.size; simp; omega
        node := by
          intro x hx
          obtain ⟨t, ht⟩ := h.node x hx
          exact ⟨t, by rw [List.getElem?_append_left (List.getElem?_eq_some_iff.1 ht).1]; exact ht⟩
        there := by
          intro i r t ht
          by_cases hi : i < done.length
          · rw [List.getElem?_append_left hi] at ht; exact h.there i r t ht
          · rw [List.getElem?_append_right (by omega)] at ht
            cases hz : i - done.length with
            | zero => rw [hz] at ht; simp at ht
            | succ k => rw [hz] at ht; simp at ht
        perm := by simpa using h.perm }
      have := ih (done ++ [[]]) q h'
      rw [happ]
      simpa using this
    | cons r t =>
      simp only [fill]
      have hav : q.d.length + 1 < q.avail := by have h1 := h.size; have h2 := h.avail; simp at h2; omega
      have hins := insert_spec ho q (r, done.length) h.dup h.heap hav
      revert hins
      cases hres : q.insert cmp (r, done.length) with
      | crash => exact fun h => h.elim
      | err c =>
        cases c with
        | exist z =>
          intro hz
          simp only at hz
          refine hz.of_sub ((done.map List.tail).flatten ++ (t ++ l.flatten)) ?_
          simp only [List.flatten_append, List.flatten_cons, List.map_cons, List.cons_append]
          refine List.Perm.trans ?_ List.perm_middle.symm
          refine List.Perm.cons _ ?_
          rw [← List.append_assoc]
          exact h.perm.append_right _
        | _ => exact fun h => h.elim
      | ok q2 =>
        simp only
        rintro ⟨hd2, hh2, ha2, hp2⟩
        have h' : FInv cmp (done ++ [r :: t]) (done ++ [r :: t] ++ l).length q2 := {
          dup := hd2, heap := hh2, avail := by have := h.avail; simp at *; omega
          size := by have := h.size; have := hp2.length_eq; simp at *; omega
          node := by
            intro x hx
            rcases List.mem_cons.1 (hp2.mem_iff.1 hx) with rfl | hx
            · exact ⟨t, by simp⟩
            · obtain ⟨t, ht⟩ := h.node x hx
              exact ⟨t, by rw [List.getElem?_append_left (List.getElem?_eq_some_iff.1 ht).1]; exact ht⟩
          there := by
            intro i r' t' ht
            refine hp2.mem_iff.2 ?_
            by_cases hi : i < done.length
            · rw [List.getElem?_append_left hi] at ht
              exact List.mem_cons_of_mem _ (h.there i r' t' ht)
            · rw [List.getElem?_append_right (by omega)] at ht
              cases hz : i - done.length with
              | zero =>
                rw [hz] at ht
                simp at ht
                have : i = done.length := by omega
                rw [this, ← ht.1]
                exact List.mem_cons_self
              | succ k => rw [hz] at ht; simp at ht
          perm := by
            simp only [List.map_append, List.map_cons, List.map_nil, List.flatten_append, List.flatten_cons, List.flatten_nil, List.append_nil, List.tail_cons]
            refine ((hp2.map (fun x : Node K V => x.1)).append_right _).trans ?_
            simp only [List.map_cons, List.cons_append]
            refine List.Perm.trans ?_ List.perm_middle.symm
            refine List.Perm.cons _ ?_
            rw [← List.append_assoc]
            exact h.perm.append_right _ }
        have := ih (done ++ [r :: t]) q2 h'
        rw [happ]
        simpa using this

theorem total_flatten (l : List (List (Row K V))) : total l = l.flatten.length := by
  simp [total, List.length_flatten]

theorem mergeSome_spec {e : Env K V} (ho : Order e.cmp) (toQ : Bool) (srcs : List (List (Row K V))) (hs : ∀ l ∈ srcs, Sorted e.cmp l) :
    Merged e.cmp srcs.flatten srcs.length toQ (mergeSome e toQ srcs) := by
  unfold mergeSome
  have h0 : FInv e.cmp [] ([] ++ srcs).length (⟨[], srcs.length + 1, none⟩ : PQ K V) := {
    dup := rfl, heap := heap_nil, avail := by simp, size := by simp
    node := by intro x hx; cases hx
    there := by intro i r t h; simp at h
    perm := by simp }
  have hf := fill_spec ho srcs [] _ h0
  simp only [List.length_nil, List.nil_append] at hf
  revert hf
  cases hres : fill e.cmp 0 srcs (⟨[], srcs.length + 1, none⟩ : PQ K V) with
  | crash => exact fun h => h.elim
  | err c =>
    cases c with
    | exist r => exact id
    | _ => exact fun h => h.elim
  | ok q =>
    simp only
    intro h
    have hm : MInv e.cmp srcs.flatten (srcs.map List.tail) q (⟨[], []⟩ : Out K V).flat := {
      dup := h.dup, heap := h.heap, avail := by rw [List.length_map]; exact h.avail
      size := by rw [List.length_map]; exact h.size
      sorted := by
        intro l hl
        obtain ⟨l', hl', rfl⟩ := List.mem_map.1 hl
        have := hs l' hl'
        cases l' with
        | nil => exact this
        | cons a l' => exact (List.pairwise_cons.1 this).2
      idx := by
        intro x hx
        obtain ⟨t, ht⟩ := h.node x hx
        rw [List.length_map]
        exact (List.getElem?_eq_some_iff.1 ht).1
      front := by
        intro x hx l hl y hy
        obtain ⟨t, ht⟩ := h.node x hx
        rw [List.getElem?_map, ht] at hl
        simp at hl
        subst hl
        exact (List.pairwise_cons.1 (hs _ (List.mem_of_getElem? ht))).1 y hy
      there := by
        intro i l hl hne
        rw [List.getElem?_map] at hl
        cases hz : srcs[i]? with
        | none => rw [hz] at hl; cases hl
        | some z =>
          rw [hz] at hl
          simp at hl
          cases z with
          | nil => exact absurd hl.symm hne
          | cons r t => exact ⟨_, h.there i r t hz, rfl⟩
      osort := by simp [Out.flat]; exact List.Pairwise.nil
      less := by intro a ha; simp [Out.flat] at ha
      perm := by simpa [Out.flat] using h.perm }
    have hlen : q.d.length + (srcs.map List.tail).flatten.length < total srcs + 1 := by
      rw [total_flatten]
      have := h.perm.length_eq
      rw [List.length_append, List.length_map] at this
      omega
    have := merge_loop ho toQ (e.mbudget srcs.length) srcs.flatten (total srcs + 1) (srcs.map List.tail) q ⟨[], []⟩ hlen hm (fun _ => rfl)
    rw [List.length_map] at this
    exact this

/-- Rows of all the files of a pass. -/
def Pass (cmp : K → K → Int) (all : List (Row K V)) (n : Nat) : R K V (List (List (Row K V)) × List (List (Row K V))) → Prop
  | .ok (next, q) => (∀ l ∈ next, Sorted cmp l) ∧ (next.flatten ++ q.flatten).Perm all
  | .err (.exist r) => Twice cmp r all
  | .err _ => False
  | .crash => 3 ≤ n ∧ ∃ r, Twice cmp r all

theorem flatten_reverse_perm (l : List (List (Row K V))) : l.reverse.flatten.Perm l.flatten := by
  induction l with
  | nil => simp
  | cons a l ih =>
    simp only [List.reverse_cons, List.flatten_append, List.flatten_cons, List.flatten_nil, List.append_nil]
    exact List.perm_append_comm.trans (ih.append_left a)

/-- A pass that writes files. -/
theorem mergePass_file {e : Env K V} (he : EnvOk e) (all : List (Row K V)) (N : Nat) :
    ∀ (n : Nat) (fs next q : List (List (Row K V))), fs.length < n → fs.length ≤ N → (∀ l ∈ fs, Sorted e.cmp l) → (∀ l ∈ next, Sorted e.cmp l) →
    (next.flatten ++ q.flatten ++ fs.flatten).Perm all →
    Pass e.cmp all N (mergePass e false n fs next q) ∧
      ∀ next' q', mergePass e false n fs next q = .ok (next', q') →
        q' = q ∧ next'.length = next.length + (fs.length + e.early - 1) / e.early := by
  intro n
  induction n with
  | zero => intro fs next q h; omega
  | succ n ih =>
    intro fs next q hn hN hs hs' hp
    have hea := he.early
    simp only [mergePass]
    split
    · rename_i h0
      have : fs = [] := List.eq_nil_of_length_eq_zero h0
      subst this
      refine ⟨⟨hs', by simpa using hp⟩, ?_⟩
      intro next' q' h
      injection h with h
      injection h with h1 h2
      refine ⟨h2.symm, ?_⟩
      rw [← h1]
      simp only [List.length_nil, Nat.zero_add]
      rw [Nat.div_eq_of_lt (by omega)]; rfl
    · rename_i h0
      simp only [Bool.false_eq_true, ite_false, if_false]
      generalize hk : min e.early fs.length = k
      have hk1 : 1 ≤ k := by omega
      have hk2 : k ≤ fs.length := by omega
      have hm := mergeSome_spec he.order false (fs.drop (fs.length - k)).reverse (by
        intro l hl
        exact hs l (List.mem_of_mem_drop (List.mem_reverse.1 hl)))
      have hfl := flatten_reverse_perm (fs.drop (fs.length - k))
      have hsplit : (fs.take (fs.length - k)).flatten ++ (fs.drop (fs.length - k)).flatten = fs.flatten := by
        rw [← List.flatten_append, List.take_append_drop]
      have hsub : ∀ x, Twice e.cmp x (fs.drop (fs.length - k)).reverse.flatten → Twice e.cmp x all := by
        intro x hx
        have h1 := hx.perm hfl
        have h2 := h1.right (fs.take (fs.length - k)).flatten
        rw [hsplit] at h2
        exact (h2.right _).perm hp
      revert hm
      cases hres : mergeSome e false (fs.drop (fs.length - k)).reverse with
      | crash =>
        rintro ⟨h1, r, h2⟩
        refine ⟨⟨?_, r, hsub r h2⟩, by intro _ _ h; cases h⟩
        simp at h1
        omega
      | err c =>
        cases c with
        | exist r => intro h; exact ⟨hsub r h, by intro _ _ h; cases h⟩
        | _ => exact fun h => h.elim
      | ok o =>
        rintro ⟨h1, h2, h3⟩
        simp only
        have hcur : o.flat = o.cur := by simp [Out.flat, h3 rfl]
        rw [hcur] at h1 h2
        have hih := ih (fs.take (fs.length - k)) (next ++ [o.cur]) q (by simp; omega) (by simp; omega)
          (fun l hl => hs l (List.mem_of_mem_take hl))
          (by
            intro l hl
            rcases List.mem_append.1 hl with hl | hl
            · exact hs' l hl
            · rw [List.mem_singleton.1 hl]; exact h1)
          (by
            refine List.Perm.trans ?_ hp
            simp only [List.flatten_append, List.flatten_cons, List.flatten_nil, List.append_nil, List.append_assoc]
            refine List.Perm.append_left _ ?_
            rw [← hsplit]
            refine List.Perm.trans ?_ (List.Perm.append_left q.flatten (List.perm_append_comm))
            rw [← List.append_assoc, ← List.append_assoc]
            refine List.Perm.append_right _ ?_
            exact List.perm_append_comm.trans ((h2.trans hfl).append_left _))
        refine ⟨hih.1, ?_⟩
        intro next' q' h
        obtain ⟨g1, g2⟩ := hih.2 next' q' h
        refine ⟨g1, ?_⟩
        rw [g2]
        simp only [List.length_append, List.length_cons, List.length_nil, List.length_take]
        have hmn : min (fs.length - k) fs.length = fs.length - k := by omega
        rw [hmn]
        by_cases hkk : e.early ≤ fs.length
        · have hke : k = e.early := by omega
          rw [hke]
          have : fs.length + e.early - 1 = (fs.length - e.early + e.early - 1) + e.early := by omega
          rw [this, Nat.add_div_right _ (by omega)]
          omega
        · have hke : k = fs.length := by omega
          rw [hke, Nat.sub_self, Nat.zero_add, Nat.div_eq_of_lt (by omega)]
          have h5 : (fs.length + e.early - 1) / e.early = 1 := by
            refine Nat.div_eq_of_lt_le (by omega) (by omega)
          omega

/-- A pass that sends its rows to the tree writer. -/
theorem mergePass_queue {e : Env K V} (he : EnvOk e) (n : Nat) (fs : List (List (Row K V))) (hn : 2 ≤ n) (hf : fs.length ≤ e.fin) (h0 : fs.length ≠ 0)
    (hs : ∀ l ∈ fs, Sorted e.cmp l) :
    match mergePass e true n fs [] [] with
    | .ok (next, q) => next = [] ∧ Sorted e.cmp q.flatten ∧ q.flatten.Perm fs.flatten
    | .err (.exist r) => Twice e.cmp r fs.flatten
    | .err _ => False
    | .crash => 3 ≤ fs.length ∧ ∃ r, Twice e.cmp r fs.flatten := by
  obtain ⟨n, rfl⟩ : ∃ m, n = m + 2 := ⟨n - 2, by omega⟩
  simp only [mergePass, if_neg h0, if_true, ite_true]
  have hk : min e.fin fs.length = fs.length := by omega
  simp only [hk, Nat.sub_self, List.drop_zero, List.take_zero, List.length_nil, if_true, ite_true, List.nil_append]
  have hm := mergeSome_spec he.order true fs.reverse (by
    intro l hl
    exact hs l (List.mem_reverse.1 hl))
  have hfl := flatten_reverse_perm fs
  revert hm
  cases hres : mergeSome e true fs.reverse with
  | crash =>
    rintro ⟨h1, r, h2⟩
    exact ⟨by simpa using h1, r, h2.perm hfl⟩
  | err c =>
    cases c with
    | exist r => intro h; exact Twice.perm h hfl
    | _ => exact fun h => h.elim
  | ok o =>
    rintro ⟨h1, h2, _⟩
    have : (o.sent ++ [o.cur]).flatten = o.flat := by simp [Out.flat]
    refine ⟨rfl, ?_, ?_⟩
    · rw [this]; exact h1
    · rw [this]; exact h2.trans hfl

/-- Ceilings of quotients. -/
theorem ceil_ceil (a b c : Nat) (hb : 1 ≤ b) (hc : 1 ≤ c) : ((a + b - 1) / b + c - 1) / c = ((a + c - 1) / c + b - 1) / b := by
  have h1 : ∀ x y z : Nat, 1 ≤ y → 1 ≤ z → ((x + y - 1) / y + z - 1) / z = (x + y * z - 1) / (y * z) := by
    intro x y z hy hz
    rw [← Nat.div_div_eq_div_mul]
    congr 1
    obtain ⟨z', rfl⟩ : ∃ m, z = m + 1 := ⟨z - 1, by omega⟩
    have : x + y * (z' + 1) - 1 = (x + y - 1) + y * z' := by
      rw [Nat.mul_add, Nat.mul_one]; omega
    rw [this, Nat.add_mul_div_left _ _ (by omega)]
    generalize (x + y - 1) / y = w
    omega
  rw [h1 a b c hb hc, h1 a c b hc hb, Nat.mul_comm]

/-- Rows sent to the tree writer. -/
def Sent (cmp : K → K → Int) (all : List (Row K V)) (n : Nat) : R K V (List (List (Row K V))) → Prop
  | .ok q => Sorted cmp q.flatten ∧ q.flatten.Perm all
  | .err (.exist r) => Twice cmp r all
  | .err _ => False
  | .crash => 3 ≤ n ∧ ∃ r, Twice cmp r all

theorem mergeFiles_loop {e : Env K V} (he : EnvOk e) : ∀ (n left : Nat) (fs : List (List (Row K V))),
    fs.length < n → 2 ≤ n → (∀ l ∈ fs, Sorted e.cmp l) →
    left = (if fs.length ≤ e.fin then 1 else 1 + nPasses ((fs.length + e.fin - 1) / e.fin) ((fs.length + e.fin - 1) / e.fin) e.early) →
    Sent e.cmp fs.flatten fs.length (mergeFiles.loop e n left fs []) := by
  intro n
  induction n with
  | zero => intro left fs h; omega
  | succ n ih =>
    intro left fs hn h2n hs hl
    have hef := he.fin
    have hee := he.early
    simp only [mergeFiles.loop]
    split
    · rename_i h0
      have : fs = [] := List.eq_nil_of_length_eq_zero h0
      subst this
      exact ⟨List.Pairwise.nil, by simp⟩
    · rename_i h0
      by_cases hq : fs.length ≤ e.fin
      · rw [if_pos hq] at hl
        rw [if_neg (by omega)]
        simp only [decide_eq_true hq]
        have hp := mergePass_queue he (fs.length + 1) fs (by omega) hq h0 hs
        revert hp
        cases hres : mergePass e true (fs.length + 1) fs [] [] with
        | crash => exact id
        | err c =>
          cases c with
          | exist r => exact id
          | _ => exact fun h => h.elim
        | ok p =>
          obtain ⟨next, q⟩ := p
          rintro ⟨rfl, h1, h2⟩
          simp only
          obtain ⟨n, rfl⟩ : ∃ m, n = m + 1 := ⟨n - 1, by omega⟩
          simp only [mergeFiles.loop, List.length_nil, if_true, ite_true]
          exact ⟨h1, h2⟩
      · rw [if_neg hq] at hl
        rw [if_neg (by omega)]
        simp only [decide_eq_false hq]
        obtain ⟨hp, hx⟩ := mergePass_file he fs.flatten fs.length (fs.length + 1) fs [] [] (by omega) (Nat.le_refl _) hs (by simp) (by simp)
        revert hp hx
        cases hres : mergePass e false (fs.length + 1) fs [] [] with
        | crash => exact fun h _ => h
        | err c =>
          cases c with
          | exist r => exact fun h _ => h
          | _ => exact fun h => h.elim
        | ok p =>
          obtain ⟨next, q⟩ := p
          rintro ⟨h1, h2⟩ hx
          obtain ⟨rfl, hlen⟩ := hx next q rfl
          simp only
          simp only [List.length_nil, Nat.zero_add] at hlen
          simp only [List.flatten_nil, List.append_nil] at h2
          have hlt : next.length < fs.length := by
            rw [hlen]
            rw [Nat.div_lt_iff_lt_mul (by omega)]
            have h6 : fs.length * 2 ≤ fs.length * e.early := Nat.mul_le_mul_left _ hee
            have h7 : fs.length + e.early - 1 < fs.length * e.early := by
              obtain ⟨a, ha⟩ : ∃ a, fs.length = a + 2 := ⟨fs.length - 2, by omega⟩
              obtain ⟨b, hb⟩ : ∃ b, e.early = b + 2 := ⟨e.early - 2, by omega⟩
              rw [ha, hb]
              have : (a + 2) * (b + 2) = a * b + 2 * a + 2 * b + 4 := by
                rw [Nat.add_mul, Nat.mul_add, Nat.mul_add]; omega
              rw [this]; omega
            exact h7
          have hi := ih (left - 1) next (by omega) (by omega) h1 (by
            rw [hl]
            have hM : 1 < (fs.length + e.fin - 1) / e.fin := by
              have := (Nat.le_div_iff_mul_le (k := e.fin) (x := 2) (y := fs.length + e.fin - 1) (by omega)).2 (by omega)
              omega
            have hcc := ceil_ceil fs.length e.early e.fin (by omega) (by omega)
            rw [← hlen] at hcc
            generalize hMd : (fs.length + e.fin - 1) / e.fin = M at *
            have hM' : (next.length + e.fin - 1) / e.fin < M := by
              rw [hcc, Nat.div_lt_iff_lt_mul (by omega)]
              obtain ⟨a, ha⟩ : ∃ a, M = a + 2 := ⟨M - 2, by omega⟩
              obtain ⟨b, hb⟩ : ∃ b, e.early = b + 2 := ⟨e.early - 2, by omega⟩
              rw [ha, hb]
              have : (a + 2) * (b + 2) = a * b + 2 * a + 2 * b + 4 := by
                rw [Nat.add_mul, Nat.mul_add, Nat.mul_add]; omega
              rw [this]; omega
            have fuel : ∀ (f g N B : Nat), 2 ≤ B → N ≤ f → N ≤ g → nPasses f N B = nPasses g N B := by
              intro f
              induction f with
              | zero =>
                intro g N B hB h1 h2
                have : N = 0 := by omega
                subst this
                cases g <;> simp [nPasses]
              | succ f ihf =>
                intro g N B hB h1 h2
                cases g with
                | zero =>
                  have : N = 0 := by omega
                  subst this
                  simp [nPasses]
                | succ g =>
                  simp only [nPasses]
                  split
                  · rename_i hN
                    have hlt2 : (N + B - 1) / B < N := by
                      rw [Nat.div_lt_iff_lt_mul (by omega)]
                      obtain ⟨a, ha⟩ : ∃ a, N = a + 2 := ⟨N - 2, by omega⟩
                      obtain ⟨b, hb⟩ : ∃ b, B = b + 2 := ⟨B - 2, by omega⟩
                      rw [ha, hb]
                      have : (a + 2) * (b + 2) = a * b + 2 * a + 2 * b + 4 := by
                        rw [Nat.add_mul, Nat.mul_add, Nat.mul_add]; omega
                      rw [this]; omega
                    rw [ihf g _ B hB (by omega) (by omega)]
                  · rfl
            have hstep : nPasses M M e.early = nPasses ((next.length + e.fin - 1) / e.fin) ((next.length + e.fin - 1) / e.fin) e.early + 1 := by
              obtain ⟨m, rfl⟩ : ∃ m, M = m + 1 := ⟨M - 1, by omega⟩
              simp only [nPasses]
              rw [if_pos hM]
              rw [← hcc]
              rw [fuel m _ _ e.early hee (by omega) (Nat.le_refl _)]
            rw [hstep]
            split
            · rename_i hle
              have : (next.length + e.fin - 1) / e.fin ≤ 1 := by
                have := (Nat.div_lt_iff_lt_mul (k := e.fin) (x := next.length + e.fin - 1) (y := 2) (by omega)).2 (by omega)
                omega
              have hz : nPasses ((next.length + e.fin - 1) / e.fin) ((next.length + e.fin - 1) / e.fin) e.early = 0 := by
                generalize (next.length + e.fin - 1) / e.fin = x at *
                cases x with
                | zero => rfl
                | succ x => simp only [nPasses]; rw [if_neg (by omega)]
              omega
            · omega)
          revert hi
          cases mergeFiles.loop e n (left - 1) next [] with
          | crash => rintro ⟨g1, r, g2⟩; exact ⟨by omega, r, g2.perm h2⟩
          | err c =>
            cases c with
            | exist r => intro g; exact Twice.perm g h2
            | _ => exact fun h => h.elim
          | ok q => rintro ⟨g1, g2⟩; exact ⟨g1, g2.trans h2⟩

theorem mergeFiles_spec {e : Env K V} (he : EnvOk e) (fs : List (List (Row K V))) (hs : ∀ l ∈ fs, Sorted e.cmp l) :
    Sent e.cmp fs.flatten fs.length (mergeFiles e fs) :=
  mergeFiles_loop he _ _ fs (by omega) (by omega) hs rfl

end Verif.Load
