import Verif.Lt.LockInv

/-! Every step succeeds, keeps the invariant, and changes the locks as stated. -/
namespace Verif.Lt
open Std Verif.Codec

set_option linter.unusedSectionVars false
variable {cfg : Cfg} [TransCmp cfg.cmp]

theorem Coarser.refl (L : List (Lock cfg)) : Coarser L L :=
  ⟨fun x hx => ⟨x, hx, rfl, .refl _⟩, fun x hx => ⟨x, hx, rfl, .refl _⟩, fun _ => Nat.le_refl _⟩

theorem doAcquire_inv {base : Nat} {s : Sys cfg} (h : Inv base s) {t : Txn} (ht : t ≠ 0) {l r : Pt}
    (hr : Lockable (mkRange (cfg := cfg) l r)) (sp : Bool) (hi : idle s t = true) :
    ∃ s' res, doAcquire s t l r sp = some (s', res) ∧ Inv base s' ∧
      Outcome (tableLocks s.lt) (tableLocks s'.lt) t (mkRange l r) res := by
  obtain ⟨lt', res, e1, e2, e3, e4, e5⟩ := acquireLock_spec s.lt h.table t ht l r hr sp
  obtain ⟨hi1, hi2⟩ := idle_iff.mp hi
  have hmem := h.mem
  have hstarted : ∀ r ∈ s.releasing, r.started = true → lt'.stoTxn ≠ r.txn := by
    intro r hr hs
    rcases e5 with e | e | e
    · rw [e]; exact h.started r hr hs
    · rw [e]; exact (h.relNz r hr).symm
    · rw [e]; intro he; exact hi1 (List.mem_map.mpr ⟨r, hr, he.symm⟩)
  refine ⟨_, res, by unfold doAcquire; rw [e1]; rfl, ?_, e4⟩
  rcases e4 with ⟨-, rfl, g⟩ | ⟨-, sl, cs, rfl, -⟩
  · simp only [if_true]
    have hold : ∀ x : Lock cfg, (∃ y ∈ tableLocks s.lt, y.2 = x.2 ∧ y.1.Covers x.1) → ∃ y ∈ tableLocks lt', y.2 = x.2 ∧ y.1.Covers x.1 := by
      rintro x ⟨y, hy, e, c⟩
      obtain ⟨z, hz, e', c'⟩ := g.old y hy
      exact ⟨z, hz, e'.trans e, c'.trans c⟩
    refine ⟨e2, h.readable, h.bufKeys, ?_, h.relKeys, ?_, h.bufRel, h.relNz, h.relBuf, hstarted, ?_, ?_, ?_, ?_, ?_⟩
    · simp only [List.map_cons, List.nodup_cons]; exact ⟨hi2, h.pendKeys⟩
    · intro u hu
      simp only [List.map_cons, List.mem_cons] at hu
      rcases hu with rfl | hu
      · exact hi1
      · exact h.pendRel u hu
    · intro x hx
      rcases hx with hx | hx | hx
      · exact h.lockable x (.inl hx)
      · simp only [pend, List.map_cons, List.mem_cons] at hx
        rcases hx with rfl | hx
        · exact hr
        · exact h.lockable x (.inr (.inl hx))
      · exact h.lockable x (.inr (.inr hx))
    · intro x hx
      rcases hx with hx | hx | hx
      · exact hold x (h.covered x (.inl hx))
      · simp only [pend, List.map_cons, List.mem_cons] at hx
        rcases hx with rfl | hx
        · exact g.new
        · exact hold x (h.covered x (.inr (.inl hx)))
      · exact hold x (h.covered x (.inr (.inr hx)))
    · intro y hy
      rcases g.from_ y hy with ⟨x, hx, e, c⟩ | ⟨e, c⟩
      · obtain ⟨z, hz, e', c'⟩ := h.backed x hx
        refine ⟨z, ?_, e'.trans e, c.trans c'⟩
        rcases hz with hz | hz | hz
        · exact .inl hz
        · refine .inr (.inl ?_); simp only [pend, List.map_cons, List.mem_cons]; exact .inr hz
        · exact .inr (.inr hz)
      · refine ⟨(mkRange l r, t), .inr (.inl ?_), e.symm, c⟩
        simp [pend]
    · intro u hu1 hu2
      have hc := g.count u
      by_cases hut : u = t
      · subst hut
        have : count (tableLocks s.lt) u = 0 := by
          refine Nat.eq_zero_of_not_pos fun hp => ?_
          obtain ⟨x, hx⟩ := List.exists_mem_of_length_pos hp
          obtain ⟨hx1, hx2⟩ := List.mem_filter.mp hx
          simp only [decide_eq_true_eq] at hx2
          obtain ⟨z, hz, e, _⟩ := h.backed x hx1
          rcases claimed_key hz with hk | hk | hk <;> rw [e, hx2] at hk
          · exact hu1 hk
          · exact hi2 hk
          · exact hu2 hk
        simp only [if_true] at hc
        show count (tableLocks lt') u ≤ 1
        omega
      · rw [if_neg hut] at hc
        exact Nat.le_trans hc (h.single u hu1 hu2)
    · show lt'.mem = base + tableMem lt' + memOf s.bufs + relMem s.releasing; omega
  · simp only [reduceCtorEq, if_false]
    have hold : ∀ x : Lock cfg, (∃ y ∈ tableLocks s.lt, y.2 = x.2 ∧ y.1.Covers x.1) → ∃ y ∈ tableLocks lt', y.2 = x.2 ∧ y.1.Covers x.1 := by
      rintro x ⟨y, hy, e, c⟩
      obtain ⟨z, hz, e', c'⟩ := sl.old y hy
      exact ⟨z, hz, e'.trans e, c'.trans c⟩
    refine ⟨e2, h.readable, h.bufKeys, h.pendKeys, h.relKeys, h.pendRel, h.bufRel, h.relNz, h.relBuf, hstarted, h.lockable, ?_, ?_, ?_, ?_⟩
    · intro x hx; exact hold x (h.covered x hx)
    · intro y hy
      obtain ⟨x, hx, e, c⟩ := sl.from_ y hy
      obtain ⟨z, hz, e', c'⟩ := h.backed x hx
      exact ⟨z, hz, e'.trans e, c.trans c'⟩
    · intro u hu1 hu2; exact Nat.le_trans (sl.count u) (h.single u hu1 hu2)
    · show lt'.mem = base + tableMem lt' + memOf s.bufs + relMem s.releasing; omega

theorem checkConstraints_inv {base : Nat} {s : Sys cfg} (h : Inv base s) (big : Bool) (ptr : Rng cfg → Bool) (ptr' : Pt × Pt → Bool) :
    ∃ s' refused, checkConstraints s big ptr ptr' = some (s', refused) ∧ Inv base s' ∧
      Coarser (tableLocks s.lt) (tableLocks s'.lt) ∧ s'.pending = s.pending ∧ s'.releasing = s.releasing := by
  have first : ∃ s1 refused, (if big ∧ cfg.maxMem / 2 ≤ s.lt.mem then
        (escalateSys s ptr ptr').map fun s => (s, decide (cfg.maxMem / 2 ≤ s.lt.mem))
      else some (s, false)) = some (s1, refused) ∧ Inv base s1 ∧
      Coarser (tableLocks s.lt) (tableLocks s1.lt) ∧ s1.pending = s.pending ∧ s1.releasing = s.releasing := by
    split
    · obtain ⟨s1, e1, e2, e3, e4, e5, _⟩ := escalateSys_inv h ptr ptr'
      exact ⟨s1, _, by rw [e1]; rfl, e2, e3, e4, e5⟩
    · exact ⟨s, false, rfl, h, .refl _, rfl, rfl⟩
  obtain ⟨s1, ref, f1, f2, f3, f4, f5⟩ := first
  unfold checkConstraints
  rw [f1]
  simp only [Option.bind_some]
  split
  · obtain ⟨s2, e1, e2, e3, e4, e5, _⟩ := escalateSys_inv f2 ptr ptr'
    exact ⟨s2, _, by rw [e1]; rfl, e2, f3.trans e3, e4.trans f4, e5.trans f5⟩
  · exact ⟨s1, ref, rfl, f2, f3, f4, f5⟩

theorem find_pending {l : List (Txn × (Pt × Pt))} {t : Txn} {q} (h : l.find? (fun x => decide (x.1 = t)) = some q) :
    q ∈ l ∧ q.1 = t := ⟨List.mem_of_find?_eq_some h, by simpa using List.find?_some h⟩

theorem note_inv {base : Nat} {s : Sys cfg} (h : Inv base s) {t : Txn} {p : Pt × Pt} (hp : (t, p) ∈ s.pending) (sp : Bool) :
    ∃ s', noteRowLock s t p.1 p.2 sp = some s' ∧ Inv base s' ∧ tableLocks s'.lt = tableLocks s.lt := by
  have hmem := h.mem
  have hpl : (mkRange p.1 p.2, t) ∈ pend s := List.mem_map.mpr ⟨_, hp, rfl⟩
  have hlk := h.lockable _ (.inr (.inl hpl))
  have hcov := h.covered _ (.inr (.inl hpl))
  have htrel := h.pendRel t (List.mem_map.mpr ⟨_, hp, rfl⟩)
  have hpendmem : ∀ x, x ∈ (s.pending.filter fun q => decide (q.1 ≠ t)).map (fun q => ((mkRange q.2.1 q.2.2, q.1) : Lock cfg)) → x ∈ pend s := by
    intro x hx
    obtain ⟨q, hq, rfl⟩ := List.mem_map.mp hx
    exact List.mem_map.mpr ⟨q, (List.mem_filter.mp hq).1, rfl⟩
  have hpendsplit : ∀ x, x ∈ pend s → x = (mkRange p.1 p.2, t) ∨ x ∈ (s.pending.filter fun q => decide (q.1 ≠ t)).map (fun q => ((mkRange q.2.1 q.2.2, q.1) : Lock cfg)) := by
    intro x hx
    obtain ⟨q, hq, rfl⟩ := List.mem_map.mp hx
    have hperm := perm_take_out (·.1) s.pending h.pendKeys hp
    rcases List.mem_cons.mp (hperm.mem_iff.mp hq) with rfl | hq
    · exact .inl rfl
    · exact .inr (List.mem_map.mpr ⟨q, hq, rfl⟩)
  -- the buffer before, in either case
  have hbuf : ∃ ps, BOk ((lookupBuf t s.bufs).getD .create) ps ∧ ∀ b' : RangeBuffer, ∀ ps', BOk b' ps' → ps'.Perm (p :: ps) →
      ((setBuf t b' s.bufs).map (·.1)).Nodup ∧ Readable (setBuf t b' s.bufs) ∧
      memOf (setBuf t b' s.bufs) + ((lookupBuf t s.bufs).getD .create).memory = memOf s.bufs + b'.memory ∧
      (∀ u, u ∈ (setBuf t b' s.bufs).map (·.1) ↔ u = t ∨ u ∈ s.bufs.map (·.1)) ∧
      (∀ x : Lock cfg, x ∈ bufLocks (setBuf t b' s.bufs) ↔ x = (mkRange p.1 p.2, t) ∨ x ∈ bufLocks s.bufs) := by
    cases hlook : lookupBuf t s.bufs with
    | some old =>
      have hm := lookupBuf_some hlook
      obtain ⟨ps, hb, hne⟩ := h.readable _ hm
      simp only at hb
      refine ⟨ps, hb, fun b' ps' hb' hperm => ?_⟩
      obtain ⟨k1, k2, k3⟩ := setBuf_old hlook b' h.bufKeys
      have hold : ∀ x : Lock cfg, x ∈ asLocks t ps' ↔ x = (mkRange p.1 p.2, t) ∨ x ∈ asLocks t ps := by
        intro x; rw [(asLocks_perm t hperm).mem_iff]; simp [asLocks]
      refine ⟨by rw [k1]; exact h.bufKeys, ?_, k3, ?_, ?_⟩
      · intro q hq
        rcases (k2 q).mp hq with rfl | ⟨hq, _⟩
        · exact ⟨ps', hb', by intro h0; rw [h0] at hperm; have := hperm.length_eq; simp at this⟩
        · exact h.readable q hq
      · intro u; rw [k1]
        constructor
        · exact .inr
        · rintro (rfl | h')
          · exact List.mem_map.mpr ⟨_, hm, rfl⟩
          · exact h'
      · intro x
        rw [mem_bufLocks, mem_bufLocks]
        constructor
        · rintro ⟨q, hq, hx⟩
          rcases (k2 q).mp hq with rfl | ⟨hq', hqt⟩
          · simp only [hb'.ranges, Option.getD_some] at hx
            rcases (hold x).mp hx with rfl | hx
            · exact .inl rfl
            · exact .inr ⟨_, hm, by simp only [hb.ranges, Option.getD_some]; exact hx⟩
          · exact .inr ⟨q, hq', hx⟩
        · rintro (rfl | ⟨q, hq, hx⟩)
          · exact ⟨(t, b'), (k2 _).mpr (.inl rfl), by simp only [hb'.ranges, Option.getD_some]; exact (hold _).mpr (.inl rfl)⟩
          · by_cases hqt : q.1 = t
            · have : q = (t, old) := by
                have h1 := perm_take_out (·.1) s.bufs h.bufKeys hm
                rcases List.mem_cons.mp (h1.mem_iff.mp hq) with h2 | h2
                · exact h2
                · have := (List.mem_filter.mp h2).2; simp [hqt] at this
              subst this
              simp only [hb.ranges, Option.getD_some] at hx
              exact ⟨(t, b'), (k2 _).mpr (.inl rfl), by simp only [hb'.ranges, Option.getD_some]; exact (hold _).mpr (.inr hx)⟩
            · exact ⟨q, (k2 q).mpr (.inr ⟨hq, hqt⟩), hx⟩
    | none =>
      refine ⟨[], .create, fun b' ps' hb' hperm => ?_⟩
      have hn := lookupBuf_none hlook
      rw [setBuf_new hlook]
      have hps' : ps' = [p] := List.perm_singleton.mp hperm
      refine ⟨?_, ?_, ?_, ?_, ?_⟩
      · rw [List.map_append, List.nodup_append]
        refine ⟨h.bufKeys, by simp, ?_⟩
        intro a ha b hb
        simp only [List.map_cons, List.map_nil, List.mem_singleton] at hb
        subst hb
        exact fun he => hn (he ▸ ha)
      · intro q hq
        rcases List.mem_append.mp hq with hq | hq
        · exact h.readable q hq
        · simp only [List.mem_singleton] at hq; subst hq
          exact ⟨ps', hb', by rw [hps']; simp⟩
      · unfold memOf; simp [create_memory]
      · intro u; simp only [List.map_append, List.mem_append, List.map_cons, List.map_nil, List.mem_singleton]; grind
      · intro x
        simp only [mem_bufLocks, List.mem_append, List.mem_singleton]
        constructor
        · rintro ⟨q, hq | rfl, hx⟩
          · exact .inr ⟨q, hq, hx⟩
          · simp only [hb'.ranges, Option.getD_some, hps', asLocks, List.map_cons, List.map_nil, List.mem_singleton] at hx
            exact .inl hx
        · rintro (rfl | ⟨q, hq, hx⟩)
          · exact ⟨(t, b'), .inr rfl, by simp [hb'.ranges, hps', asLocks]⟩
          · exact ⟨q, .inl hq, hx⟩
  obtain ⟨ps, hb, hall⟩ := hbuf
  obtain ⟨b', ps', a1, a2, a3, a4⟩ := hb.append hlk sp
  obtain ⟨k1, k2, k3, k4, k5⟩ := hall b' ps' a2 a3
  refine ⟨{ s with
      bufs := setBuf t b' s.bufs
      pending := s.pending.filter (fun q => decide (q.1 ≠ t))
      lt := { s.lt with mem := s.lt.mem + (b'.memory - ((lookupBuf t s.bufs).getD .create).memory) } }, ?_, ?_, rfl⟩
  · unfold noteRowLock
    have : ((lookupBuf t s.bufs).getD RangeBuffer.create).append p.1 p.2 sp = some b' := a1
    simp only [this, Option.bind_some]
    rw [if_neg (by omega)]
  · have htm : tableMem ({ s.lt with mem := s.lt.mem + (b'.memory - ((lookupBuf t s.bufs).getD .create).memory) } : LockTable cfg) = tableMem s.lt := rfl
    have hcl : ∀ x, (x ∈ bufLocks (cfg := cfg) (setBuf t b' s.bufs) ∨ x ∈ (s.pending.filter fun q => decide (q.1 ≠ t)).map (fun q => ((mkRange q.2.1 q.2.2, q.1) : Lock cfg))) ↔
        (x ∈ bufLocks s.bufs ∨ x ∈ pend s) := by
      intro x
      rw [k5]
      constructor
      · rintro ((rfl | h') | h')
        · exact .inr hpl
        · exact .inl h'
        · exact .inr (hpendmem x h')
      · rintro (h' | h')
        · exact .inl (.inr h')
        · rcases hpendsplit x h' with rfl | h'
          · exact .inl (.inl rfl)
          · exact .inr h'
    refine ⟨⟨h.table.sorted, h.table.lockable, h.table.owner, h.table.off, h.table.on, ?_⟩, k2, k1, ?_, h.relKeys, ?_, ?_, h.relNz, h.relBuf, h.started, ?_, ?_, ?_, ?_, ?_⟩
    · have := h.table.charged
      show locksMem s.lt.tree.toList + s.lt.stoBuf.memory ≤ s.lt.mem + _; omega
    · exact h.pendKeys.sublist (List.filter_sublist.map _)
    · intro u hu
      obtain ⟨q, hq, rfl⟩ := List.mem_map.mp hu
      exact h.pendRel q.1 (List.mem_map.mpr ⟨q, (List.mem_filter.mp hq).1, rfl⟩)
    · intro u hu
      rcases (k4 u).mp hu with rfl | hu
      · exact htrel
      · exact h.bufRel u hu
    · intro x hx
      rcases hx with hx | hx | hx
      · rcases (hcl x).mp (.inl hx) with h' | h'
        · exact h.lockable x (.inl h')
        · exact h.lockable x (.inr (.inl h'))
      · rcases (hcl x).mp (.inr hx) with h' | h'
        · exact h.lockable x (.inl h')
        · exact h.lockable x (.inr (.inl h'))
      · exact h.lockable x (.inr (.inr hx))
    · intro x hx
      rcases hx with hx | hx | hx
      · rcases (hcl x).mp (.inl hx) with h' | h'
        · exact h.covered x (.inl h')
        · exact h.covered x (.inr (.inl h'))
      · rcases (hcl x).mp (.inr hx) with h' | h'
        · exact h.covered x (.inl h')
        · exact h.covered x (.inr (.inl h'))
      · exact h.covered x (.inr (.inr hx))
    · intro y hy
      obtain ⟨x, hx, e, c⟩ := h.backed y hy
      refine ⟨x, ?_, e, c⟩
      rcases hx with hx | hx | hx
      · rcases (hcl x).mpr (.inl hx) with h' | h'
        · exact .inl h'
        · exact .inr (.inl h')
      · rcases (hcl x).mpr (.inr hx) with h' | h'
        · exact .inl h'
        · exact .inr (.inl h')
      · exact .inr (.inr hx)
    · intro u hu1 hu2
      exact h.single u (fun h' => hu1 ((k4 u).mpr (.inr h'))) hu2
    · show s.lt.mem + (b'.memory - _) = base + tableMem s.lt + memOf (setBuf t b' s.bufs) + relMem s.releasing
      omega

theorem retire_inv {base : Nat} {s : Sys cfg} (h : Inv base s) {t : Txn} (hi : idle s t = true) {b : RangeBuffer}
    (hb : lookupBuf t s.bufs = some b) :
    Inv base { s with bufs := s.bufs.filter (fun q => decide (q.1 ≠ t)), releasing := ⟨t, false, [], b, false⟩ :: s.releasing } := by
  obtain ⟨hi1, hi2⟩ := idle_iff.mp hi
  have hm := lookupBuf_some hb
  have hmem := h.mem
  obtain ⟨ps, hbo, hne⟩ := h.readable _ hm
  simp only at hbo
  have hperm := perm_take_out (·.1) s.bufs h.bufKeys hm
  have hrest : restOf ⟨t, false, [], b, false⟩ = ps := by simp [restOf, hbo.ranges]
  have hsplit : ∀ x : Lock cfg, x ∈ bufLocks s.bufs ↔ x ∈ asLocks t ps ∨ x ∈ bufLocks (s.bufs.filter (fun q => decide (q.1 ≠ t))) := by
    intro x
    rw [mem_bufLocks, mem_bufLocks]
    constructor
    · rintro ⟨q, hq, hx⟩
      rcases List.mem_cons.mp (hperm.mem_iff.mp hq) with rfl | hq
      · simp only [hbo.ranges, Option.getD_some] at hx; exact .inl hx
      · exact .inr ⟨q, hq, hx⟩
    · rintro (hx | ⟨q, hq, hx⟩)
      · exact ⟨_, hm, by simp only [hbo.ranges, Option.getD_some]; exact hx⟩
      · exact ⟨q, (List.mem_filter.mp hq).1, hx⟩
  have htnz : t ≠ 0 := by
    obtain ⟨p, ps', rfl⟩ := List.exists_cons_of_ne_nil hne
    obtain ⟨y, hy, e, _⟩ := h.covered (mkRange p.1 p.2, t) (.inl ((hsplit _).mpr (.inl (by simp [asLocks]))))
    have := h.table.owner y hy
    rw [e] at this; exact this
  have hcl : ∀ x : Lock cfg, x ∈ relLocks (⟨t, false, [], b, false⟩ :: s.releasing) ↔ x ∈ asLocks t ps ∨ x ∈ relLocks s.releasing := by
    intro x; simp only [mem_relLocks, List.mem_cons, exists_eq_or_imp, hrest]
  refine ⟨h.table, ?_, ?_, h.pendKeys, ?_, ?_, ?_, ?_, ?_, ?_, ?_, ?_, ?_, ?_, ?_⟩
  · intro q hq; exact h.readable q (List.mem_filter.mp hq).1
  · exact h.bufKeys.sublist (List.filter_sublist.map _)
  · simp only [List.map_cons, List.nodup_cons]; exact ⟨hi1, h.relKeys⟩
  · intro u hu
    simp only [List.map_cons, List.mem_cons, not_or]
    exact ⟨fun he => hi2 (he ▸ hu), h.pendRel u hu⟩
  · intro u hu
    obtain ⟨q, hq, rfl⟩ := List.mem_map.mp hu
    obtain ⟨hq1, hq2⟩ := List.mem_filter.mp hq
    simp only [decide_eq_true_eq] at hq2
    simp only [List.map_cons, List.mem_cons, not_or]
    exact ⟨hq2, h.bufRel q.1 (List.mem_map.mpr ⟨q, hq1, rfl⟩)⟩
  · intro r hr
    rcases List.mem_cons.mp hr with rfl | hr
    · exact htnz
    · exact h.relNz r hr
  · intro r hr
    rcases List.mem_cons.mp hr with rfl | hr
    · exact ⟨ps, hbo, hne⟩
    · exact h.relBuf r hr
  · intro r hr hst
    rcases List.mem_cons.mp hr with rfl | hr
    · simp at hst
    · exact h.started r hr hst
  · intro x hx
    rcases hx with hx | hx | hx
    · exact h.lockable x (.inl ((hsplit x).mpr (.inr hx)))
    · exact h.lockable x (.inr (.inl hx))
    · rcases (hcl x).mp hx with hx | hx
      · exact h.lockable x (.inl ((hsplit x).mpr (.inl hx)))
      · exact h.lockable x (.inr (.inr hx))
  · intro x hx
    rcases hx with hx | hx | hx
    · exact h.covered x (.inl ((hsplit x).mpr (.inr hx)))
    · exact h.covered x (.inr (.inl hx))
    · rw [List.filter_cons] at hx
      simp only [Bool.not_false, if_true] at hx
      simp only [mem_relLocks, List.mem_cons, exists_eq_or_imp, hrest] at hx
      rcases hx with hx | hx
      · exact h.covered x (.inl ((hsplit x).mpr (.inl hx)))
      · exact h.covered x (.inr (.inr (mem_relLocks.mpr hx)))
  · intro y hy
    obtain ⟨x, hx, e, c⟩ := h.backed y hy
    refine ⟨x, ?_, e, c⟩
    rcases hx with hx | hx | hx
    · rcases (hsplit x).mp hx with hx | hx
      · exact .inr (.inr ((hcl x).mpr (.inl hx)))
      · exact .inl hx
    · exact .inr (.inl hx)
    · exact .inr (.inr ((hcl x).mpr (.inr hx)))
  · intro u hu1 hu2
    simp only [List.map_cons, List.mem_cons, not_or] at hu2
    refine h.single u ?_ hu2.2
    intro hu
    obtain ⟨q, hq, rfl⟩ := List.mem_map.mp hu
    exact hu1 (List.mem_map.mpr ⟨q, List.mem_filter.mpr ⟨hq, by simpa using hu2.1⟩, rfl⟩)
  · have h1 : memOf s.bufs = b.memory + memOf (s.bufs.filter (fun q => decide (q.1 ≠ t))) := by
      unfold memOf
      rw [(hperm.map (·.2.memory)).sum_nat]; simp
    show s.lt.mem = base + tableMem s.lt + memOf (s.bufs.filter (fun q => decide (q.1 ≠ t))) + relMem (_ :: s.releasing)
    have h2 : relMem (⟨t, false, [], b, false⟩ :: s.releasing) = b.memory + relMem s.releasing := by simp [relMem]
    rw [h2]; omega

theorem findReleasing_some {t : Txn} {rs : List Releasing} {r} (h : findReleasing t rs = some r) : r ∈ rs ∧ r.txn = t := by
  induction rs with
  | nil => simp [findReleasing] at h
  | cons a l ih =>
    unfold findReleasing at h
    split at h
    · rename_i he; simp only [Option.some.injEq] at h; subst h; exact ⟨by simp, he⟩
    · obtain ⟨h1, h2⟩ := ih h; exact ⟨by simp [h1], h2⟩

/-- Replacing one releasing record (same transaction, same buffer) and the table. -/
theorem release_inv {base : Nat} {s : Sys cfg} (h : Inv base s) {r : Releasing} (hr : r ∈ s.releasing) {lt' : LockTable cfg}
    (htab : TableOk lt') (hmemt : lt'.mem + tableMem s.lt = s.lt.mem + tableMem lt') (rest : List (Pt × Pt)) (v : Bool)
    (hsub : ∀ p ∈ rest, p ∈ restOf r) (hsto : lt'.stoTxn = 0 ∨ (lt'.stoTxn = s.lt.stoTxn ∧ s.lt.stoTxn ≠ r.txn))
    (hkeep : ∀ y ∈ tableLocks s.lt, y.2 ≠ r.txn → y ∈ tableLocks lt')
    (hsubl : (tableLocks lt').Sublist (tableLocks s.lt))
    (hback : ∀ y ∈ tableLocks lt', y.2 = r.txn → ∃ p ∈ rest, y.1.Covers (mkRange p.1 p.2)) :
    Inv base { s with lt := lt', releasing := ⟨r.txn, true, rest, r.buffer, v⟩ :: s.releasing.filter (fun x => decide (x.txn ≠ r.txn)) } := by
  have hmem := h.mem
  have hperm := perm_take_out (·.txn) s.releasing h.relKeys hr
  obtain ⟨rs0, hrs0⟩ : ∃ rs0, rs0 = s.releasing.filter (fun x => decide (x.txn ≠ r.txn)) := ⟨_, rfl⟩
  rw [← hrs0] at hperm ⊢
  have hmems : ∀ x, x ∈ s.releasing ↔ x = r ∨ x ∈ rs0 := fun x => by rw [hperm.mem_iff, List.mem_cons]
  have hkeys : ∀ u, u ∈ (⟨r.txn, true, rest, r.buffer, v⟩ :: rs0 : List Releasing).map (·.txn) ↔ u ∈ s.releasing.map (·.txn) := by
    intro u; rw [(hperm.map (·.txn)).mem_iff]; rfl
  have hrest : restOf ⟨r.txn, true, rest, r.buffer, v⟩ = rest := rfl
  have hcl : ∀ x : Lock cfg, x ∈ relLocks (⟨r.txn, true, rest, r.buffer, v⟩ :: rs0 : List Releasing) ↔ x ∈ asLocks r.txn rest ∨ x ∈ relLocks rs0 := by
    intro x; simp only [mem_relLocks, List.mem_cons, exists_eq_or_imp, hrest]
  have hcl0 : ∀ x : Lock cfg, x ∈ relLocks s.releasing ↔ x ∈ asLocks r.txn (restOf r) ∨ x ∈ relLocks rs0 := by
    intro x; simp only [mem_relLocks, hmems, or_and_right, exists_or, exists_eq_left]
  have hkb : r.txn ∉ s.bufs.map (·.1) := fun hc => h.bufRel _ hc (List.mem_map.mpr ⟨r, hr, rfl⟩)
  have hkp : r.txn ∉ s.pending.map (·.1) := fun hc => h.pendRel _ hc (List.mem_map.mpr ⟨r, hr, rfl⟩)
  have hk0 : r.txn ∉ rs0.map (·.txn) := by
    intro hc
    obtain ⟨x, hx, e⟩ := List.mem_map.mp hc
    rw [hrs0] at hx
    have := (List.mem_filter.mp hx).2
    simp [e] at this
  have hcov : ∀ x : Lock cfg, x.2 ≠ r.txn → (∃ y ∈ tableLocks s.lt, y.2 = x.2 ∧ y.1.Covers x.1) → ∃ y ∈ tableLocks lt', y.2 = x.2 ∧ y.1.Covers x.1 := by
    rintro x hx ⟨y, hy, e, c⟩
    exact ⟨y, hkeep y hy (by rw [e]; exact hx), e, c⟩
  refine ⟨htab, h.readable, h.bufKeys, h.pendKeys, ?_, ?_, ?_, ?_, ?_, ?_, ?_, ?_, ?_, ?_, ?_⟩
  · exact (hperm.map (·.txn)).nodup_iff.mp h.relKeys
  · intro u hu; rw [hkeys]; exact h.pendRel u hu
  · intro u hu; rw [hkeys]; exact h.bufRel u hu
  · intro x hx
    rcases List.mem_cons.mp hx with rfl | hx
    · exact h.relNz r hr
    · exact h.relNz x ((hmems x).mpr (.inr hx))
  · intro x hx
    rcases List.mem_cons.mp hx with rfl | hx
    · exact h.relBuf r hr
    · exact h.relBuf x ((hmems x).mpr (.inr hx))
  · intro x hx hst
    have hx' : x ∈ s.releasing ∨ x.txn = r.txn := by
      rcases List.mem_cons.mp hx with rfl | hx
      · exact .inr rfl
      · exact .inl ((hmems x).mpr (.inr hx))
    rcases hsto with e | ⟨e, e'⟩
    · show lt'.stoTxn ≠ x.txn
      rw [e]
      rcases hx' with hx' | hx'
      · exact (h.relNz x hx').symm
      · rw [hx']; exact (h.relNz r hr).symm
    · show lt'.stoTxn ≠ x.txn
      rw [e]
      rcases List.mem_cons.mp hx with rfl | hx
      · exact e'
      · exact h.started x ((hmems x).mpr (.inr hx)) hst
  · intro x hx
    rcases hx with hx | hx | hx
    · exact h.lockable x (.inl hx)
    · exact h.lockable x (.inr (.inl hx))
    · rcases (hcl x).mp hx with hx | hx
      · obtain ⟨p, hp, rfl⟩ := mem_asLocks.mp hx
        exact h.lockable _ (.inr (.inr ((hcl0 _).mpr (.inl (mem_asLocks.mpr ⟨p, hsub p hp, rfl⟩)))))
      · exact h.lockable x (.inr (.inr ((hcl0 x).mpr (.inr hx))))
  · intro x hx
    rcases hx with hx | hx | hx
    · exact hcov x (fun he => hkb (he ▸ mem_bufLocks_key hx)) (h.covered x (.inl hx))
    · refine hcov x (fun he => ?_) (h.covered x (.inr (.inl hx)))
      obtain ⟨q, hq, rfl⟩ := List.mem_map.mp hx
      exact hkp (he ▸ List.mem_map.mpr ⟨q, hq, rfl⟩)
    · rw [List.filter_cons] at hx
      simp only [Bool.not_true, Bool.false_eq_true, if_false] at hx
      obtain ⟨q, hq, hxq⟩ := mem_relLocks.mp hx
      obtain ⟨hq1, hq2⟩ := List.mem_filter.mp hq
      refine hcov x (fun he => ?_) (h.covered x (.inr (.inr (mem_relLocks.mpr ⟨q, List.mem_filter.mpr ⟨(hmems q).mpr (.inr hq1), hq2⟩, hxq⟩))))
      obtain ⟨_, _, rfl⟩ := mem_asLocks.mp hxq
      exact hk0 (he ▸ List.mem_map.mpr ⟨q, hq1, rfl⟩)
  · intro y hy
    by_cases hyt : y.2 = r.txn
    · obtain ⟨p, hp, c⟩ := hback y hy hyt
      exact ⟨(mkRange p.1 p.2, r.txn), .inr (.inr ((hcl _).mpr (.inl (mem_asLocks.mpr ⟨p, hp, rfl⟩)))), hyt.symm, c⟩
    · obtain ⟨x, hx, e, c⟩ := h.backed y (hsubl.subset hy)
      refine ⟨x, ?_, e, c⟩
      rcases hx with hx | hx | hx
      · exact .inl hx
      · exact .inr (.inl hx)
      · rcases (hcl0 x).mp hx with hx | hx
        · obtain ⟨_, _, rfl⟩ := mem_asLocks.mp hx
          exact absurd e.symm hyt
        · exact .inr (.inr ((hcl x).mpr (.inr hx)))
  · intro u hu1 hu2
    rw [hkeys] at hu2
    exact Nat.le_trans (count_sublist hsubl u) (h.single u hu1 hu2)
  · have h1 : relMem s.releasing = r.buffer.memory + relMem rs0 := by
      unfold relMem
      rw [(hperm.map (·.buffer.memory)).sum_nat]; simp
    have h2 : relMem (⟨r.txn, true, rest, r.buffer, v⟩ :: rs0) = r.buffer.memory + relMem rs0 := by simp [relMem]
    show lt'.mem = base + tableMem lt' + memOf s.bufs + relMem _
    rw [h2]; omega

theorem relEnd_inv {base : Nat} {s : Sys cfg} (h : Inv base s) {r : Releasing} (hr : r ∈ s.releasing) (hst : r.started = true)
    (hrest : r.rest = []) {lt' : LockTable cfg} (hlt : lt' = s.lt ∨ lt' = bumpScore s.lt) :
    r.buffer.memory ≤ lt'.mem ∧ tableLocks lt' = tableLocks s.lt ∧ count (tableLocks s.lt) r.txn = 0 ∧
    Inv base { s with lt := { lt' with mem := lt'.mem - r.buffer.memory }, releasing := s.releasing.filter (fun x => decide (x.txn ≠ r.txn)) } := by
  have hmem := h.mem
  have hperm := perm_take_out (·.txn) s.releasing h.relKeys hr
  obtain ⟨rs0, hrs0⟩ : ∃ rs0, rs0 = s.releasing.filter (fun x => decide (x.txn ≠ r.txn)) := ⟨_, rfl⟩
  rw [← hrs0] at hperm ⊢
  have hmems : ∀ x, x ∈ s.releasing ↔ x = r ∨ x ∈ rs0 := fun x => by rw [hperm.mem_iff, List.mem_cons]
  have h1 : relMem s.releasing = r.buffer.memory + relMem rs0 := by
    unfold relMem
    rw [(hperm.map (·.buffer.memory)).sum_nat]; simp
  have hsame : lt'.tree = s.lt.tree ∧ lt'.stoTxn = s.lt.stoTxn ∧ lt'.stoBuf = s.lt.stoBuf ∧ lt'.mem = s.lt.mem := by
    rcases hlt with rfl | rfl
    · exact ⟨rfl, rfl, rfl, rfl⟩
    · unfold bumpScore; split <;> exact ⟨rfl, rfl, rfl, rfl⟩
  obtain ⟨s1, s2, s3, s4⟩ := hsame
  have hT : tableLocks lt' = tableLocks s.lt := by unfold tableLocks; rw [s1, s2, s3]
  have hTM : tableMem lt' = tableMem s.lt := by unfold tableMem; rw [s1, s3]
  have hTM' : tableMem ({ lt' with mem := lt'.mem - r.buffer.memory } : LockTable cfg) = tableMem s.lt := hTM
  have hT' : tableLocks ({ lt' with mem := lt'.mem - r.buffer.memory } : LockTable cfg) = tableLocks s.lt := hT
  have hro : restOf r = [] := by unfold restOf; rw [if_pos hst, hrest]
  have hcl : ∀ x : Lock cfg, x ∈ relLocks s.releasing ↔ x ∈ relLocks rs0 := by
    intro x; simp only [mem_relLocks, hmems, or_and_right, exists_or, exists_eq_left, hro]; simp [asLocks]
  have hkb : r.txn ∉ s.bufs.map (·.1) := fun hc => h.bufRel _ hc (List.mem_map.mpr ⟨r, hr, rfl⟩)
  have hkp : r.txn ∉ s.pending.map (·.1) := fun hc => h.pendRel _ hc (List.mem_map.mpr ⟨r, hr, rfl⟩)
  have hk0 : r.txn ∉ rs0.map (·.txn) := by
    intro hc
    obtain ⟨x, hx, e⟩ := List.mem_map.mp hc
    rw [hrs0] at hx
    have := (List.mem_filter.mp hx).2
    simp [e] at this
  have hnone : ∀ y ∈ tableLocks s.lt, y.2 ≠ r.txn := by
    intro y hy he
    obtain ⟨x, hx, e, _⟩ := h.backed y hy
    rw [he] at e
    rcases hx with hx | hx | hx
    · exact hkb (e ▸ mem_bufLocks_key hx)
    · obtain ⟨q, hq, rfl⟩ := List.mem_map.mp hx; exact hkp (e ▸ List.mem_map.mpr ⟨q, hq, rfl⟩)
    · obtain ⟨q, hq, hxq⟩ := mem_relLocks.mp ((hcl x).mp hx)
      obtain ⟨_, _, rfl⟩ := mem_asLocks.mp hxq
      exact hk0 (e ▸ List.mem_map.mpr ⟨q, hq, rfl⟩)
  have hzero : count (tableLocks s.lt) r.txn = 0 := by
    unfold count
    rw [List.filter_eq_nil_iff.mpr (fun y hy => by simpa using hnone y hy)]; rfl
  refine ⟨by rw [s4]; omega, hT, hzero, ⟨?_, h.readable, h.bufKeys, h.pendKeys, ?_, ?_, ?_, ?_, ?_, ?_, ?_, ?_, ?_, ?_, ?_⟩⟩
  · have ht := h.table
    refine ⟨by show Sorted lt'.tree.toList; rw [s1]; exact ht.sorted, by rw [hT']; exact ht.lockable, by rw [hT']; exact ht.owner, ?_, ?_, ?_⟩
    · show lt'.stoTxn = 0 → lt'.stoBuf = _; rw [s2, s3]; exact ht.off
    · show lt'.stoTxn ≠ 0 → lt'.tree = _ ∧ ∃ ps, BOk lt'.stoBuf ps ∧ ps ≠ []; rw [s1, s2, s3]; exact ht.on
    · show tableMem lt' ≤ lt'.mem - r.buffer.memory; rw [hTM]; omega
  · rw [hrs0]; exact h.relKeys.sublist (List.filter_sublist.map _)
  · intro u hu hc
    obtain ⟨x, hx, e⟩ := List.mem_map.mp hc
    exact h.pendRel u hu (List.mem_map.mpr ⟨x, (hmems x).mpr (.inr hx), e⟩)
  · intro u hu hc
    obtain ⟨x, hx, e⟩ := List.mem_map.mp hc
    exact h.bufRel u hu (List.mem_map.mpr ⟨x, (hmems x).mpr (.inr hx), e⟩)
  · intro x hx; exact h.relNz x ((hmems x).mpr (.inr hx))
  · intro x hx; exact h.relBuf x ((hmems x).mpr (.inr hx))
  · intro x hx hs
    show lt'.stoTxn ≠ _
    rw [s2]; exact h.started x ((hmems x).mpr (.inr hx)) hs
  · intro x hx
    rcases hx with hx | hx | hx
    · exact h.lockable x (.inl hx)
    · exact h.lockable x (.inr (.inl hx))
    · exact h.lockable x (.inr (.inr ((hcl x).mpr hx)))
  · intro x hx
    rw [hT']
    rcases hx with hx | hx | hx
    · exact h.covered x (.inl hx)
    · exact h.covered x (.inr (.inl hx))
    · obtain ⟨q, hq, hxq⟩ := mem_relLocks.mp hx
      obtain ⟨hq1, hq2⟩ := List.mem_filter.mp hq
      exact h.covered x (.inr (.inr (mem_relLocks.mpr ⟨q, List.mem_filter.mpr ⟨(hmems q).mpr (.inr hq1), hq2⟩, hxq⟩)))
  · rw [hT']
    intro y hy
    obtain ⟨x, hx, e, c⟩ := h.backed y hy
    refine ⟨x, ?_, e, c⟩
    rcases hx with hx | hx | hx
    · exact .inl hx
    · exact .inr (.inl hx)
    · exact .inr (.inr ((hcl x).mp hx))
  · intro u hu1 hu2
    rw [hT']
    by_cases hu : u = r.txn
    · rw [hu, hzero]; omega
    · refine h.single u hu1 ?_
      intro hc
      obtain ⟨x, hx, e⟩ := List.mem_map.mp hc
      rcases (hmems x).mp hx with rfl | hx
      · exact hu e.symm
      · exact hu2 (List.mem_map.mpr ⟨x, hx, e⟩)
  · show lt'.mem - r.buffer.memory = base + tableMem _ + memOf s.bufs + relMem rs0
    rw [hTM']; omega

/-! ### Every step -/

/-- Requests are for real transactions and ranges that can be locked. -/
def EvOk : Ev cfg → Prop
  | .acquire t l r _ => t ≠ 0 ∧ Lockable (mkRange (cfg := cfg) l r)
  | .tryAcquire t l r _ _ _ _ => t ≠ 0 ∧ Lockable (mkRange (cfg := cfg) l r)
  | _ => True

/-- The transaction an event makes release. -/
def Ev.releases : Ev cfg → Option Txn
  | .relStart t => some t
  | .relStep t => some t
  | _ => none

/-- What a step does to the locks. -/
def Effect (s : Sys cfg) (e : Ev cfg) (s' : Sys cfg) (res : Result) : Prop :=
  let L := tableLocks s.lt
  let L' := tableLocks s'.lt
  match e with
  | .acquire t l r _ => (res = .none ∧ L' = L) ∨ Outcome L L' t (mkRange l r) res
  | .tryAcquire t l r _ _ _ _ => (res = .none ∧ L' = L) ∨ (res = .outOfLocks ∧ Coarser L L') ∨
      ∃ L1, Coarser L L1 ∧ Outcome L1 L' t (mkRange l r) res
  | .escalate _ _ => Coarser L L'
  | .relStart t => L'.Sublist L ∧ ∀ y ∈ L, y.2 ≠ t → y ∈ L'
  | .relStep t => L'.Sublist L ∧ ∀ y ∈ L, y.2 ≠ t → y ∈ L'
  | .note _ _ => L' = L
  | .retire _ => L' = L
  | .relEnd _ => L' = L

theorem step_spec {base : Nat} {s : Sys cfg} (h : Inv base s) (e : Ev cfg) (he : EvOk e) :
    ∃ s' res, step s e = some (s', res) ∧ Inv base s' ∧ Effect s e s' res := by
  cases e with
  | acquire t l r sp =>
    simp only [step]
    split
    · rename_i hi
      obtain ⟨s', res, e1, e2, e3⟩ := doAcquire_inv h he.1 he.2 sp hi
      exact ⟨s', res, e1, e2, .inr e3⟩
    · exact ⟨s, .none, rfl, h, .inl ⟨rfl, rfl⟩⟩
  | tryAcquire t l r sp big ptr ptr' =>
    simp only [step]
    split
    · rename_i hi
      obtain ⟨s1, ref, e1, e2, e3, e4, e5⟩ := checkConstraints_inv h big ptr ptr'
      rw [e1]; simp only [Option.bind_some]
      split
      · exact ⟨s1, _, rfl, e2, .inr (.inl ⟨rfl, e3⟩)⟩
      · have hi1 : idle s1 t = true := by unfold idle at *; rw [e4, e5]; exact hi
        obtain ⟨s', res, f1, f2, f3⟩ := doAcquire_inv e2 he.1 he.2 sp hi1
        exact ⟨s', res, f1, f2, .inr (.inr ⟨_, e3, f3⟩)⟩
    · exact ⟨s, .none, rfl, h, .inl ⟨rfl, rfl⟩⟩
  | note t sp =>
    simp only [step]
    split
    · rename_i u p hf
      obtain ⟨h1, h2⟩ := find_pending hf
      simp only at h2
      subst h2
      obtain ⟨s', e1, e2, e3⟩ := note_inv h h1 sp
      exact ⟨s', _, by rw [e1]; rfl, e2, e3⟩
    · exact ⟨s, _, rfl, h, rfl⟩
  | escalate ptr ptr' =>
    obtain ⟨s', e1, e2, e3, _⟩ := escalateSys_inv h ptr ptr'
    exact ⟨s', .none, by simp only [step]; rw [e1]; rfl, e2, e3⟩
  | retire t =>
    simp only [step]
    split
    · rename_i b hi hb
      exact ⟨_, _, rfl, retire_inv h hi hb, rfl⟩
    · exact ⟨s, _, rfl, h, rfl⟩
  | relStart t =>
    simp only [step]
    split
    · rename_i u rest b v hf
      obtain ⟨hr, hrt⟩ := findReleasing_some hf
      simp only at hrt
      subst hrt
      obtain ⟨ps, hb, hne⟩ := h.relBuf _ hr
      simp only at hb
      have hro : restOf ⟨u, false, rest, b, v⟩ = ps := by simp [restOf, hb.ranges]
      have hst : s.lt.stoTxn ≠ 0 → s.lt.stoTxn = u := by
        intro hon
        obtain ⟨p, ps', rfl⟩ := List.exists_cons_of_ne_nil hne
        obtain ⟨y, hy, e, _⟩ := h.covered (mkRange p.1 p.2, u) (.inr (.inr (mem_relLocks.mpr
          ⟨_, List.mem_filter.mpr ⟨hr, rfl⟩, by rw [hro]; simp [asLocks]⟩)))
        rw [tableLocks, if_pos hon] at hy
        obtain ⟨_, _, rfl⟩ := mem_asLocks.mp hy
        exact e
      obtain ⟨lt', via, e1, e2, e3, e4, e5, e6⟩ := stoTryRelease_spec s.lt h.table u hst
      rw [e1]; simp only [Option.bind_some, hb.ranges, Option.map_some]
      have hkeep : ∀ y ∈ tableLocks s.lt, y.2 ≠ u → y ∈ tableLocks lt' := by
        intro y hy hyt
        cases via with
        | true => exact absurd ((e5 rfl).2 y hy) hyt
        | false => rw [e6 rfl]; exact hy
      have hsubl : (tableLocks lt').Sublist (tableLocks s.lt) := by
        cases via with
        | true => rw [(e5 rfl).1]; exact List.nil_sublist _
        | false => rw [e6 rfl]; exact List.Sublist.refl _
      refine ⟨_, _, rfl, release_inv h hr e2 e3 (if via then [] else ps) via ?_ (.inl e4) hkeep hsubl ?_, hsubl, hkeep⟩
      · intro p hp
        rw [hro]
        cases via <;> simp_all
      · intro y hy hyt
        cases via with
        | true => rw [(e5 rfl).1] at hy; simp at hy
        | false =>
          rw [e6 rfl] at hy
          obtain ⟨x, hx, e, c⟩ := h.backed y hy
          simp only at hyt
          rw [hyt] at e
          have hkr : u ∈ s.releasing.map (·.txn) := List.mem_map.mpr ⟨_, hr, rfl⟩
          rcases hx with hx | hx | hx
          · exact absurd hkr (h.bufRel u (e ▸ mem_bufLocks_key hx))
          · obtain ⟨q, hq, rfl⟩ := List.mem_map.mp hx
            exact absurd hkr (h.pendRel u (e ▸ List.mem_map.mpr ⟨q, hq, rfl⟩))
          · obtain ⟨q, hq, hxq⟩ := mem_relLocks.mp hx
            have hperm := perm_take_out (·.txn) s.releasing h.relKeys hr
            have hq' : q = ⟨u, false, rest, b, v⟩ := by
              rcases List.mem_cons.mp (hperm.mem_iff.mp hq) with h' | h'
              · exact h'
              · have h2 := (List.mem_filter.mp h').2
                obtain ⟨_, _, rfl⟩ := mem_asLocks.mp hxq
                simp only at e
                simp [e] at h2
            subst hq'
            rw [hro] at hxq
            obtain ⟨p, hp, rfl⟩ := mem_asLocks.mp hxq
            exact ⟨p, by simpa using hp, c⟩
    · exact ⟨s, _, rfl, h, List.Sublist.refl _, fun y hy _ => hy⟩
  | relStep t =>
    simp only [step]
    split
    · rename_i u p ps b v hf
      obtain ⟨hr, hrt⟩ := findReleasing_some hf
      simp only at hrt
      subst hrt
      have hro : restOf ⟨u, true, p :: ps, b, v⟩ = p :: ps := rfl
      have hplk : Lockable (mkRange (cfg := cfg) p.1 p.2) := h.lockable (mkRange p.1 p.2, u)
        (.inr (.inr (mem_relLocks.mpr ⟨_, hr, by rw [hro]; simp [asLocks]⟩)))
      have hsto := h.started _ hr rfl
      simp only at hsto
      obtain ⟨lt', e1, e2, e3, e4, e5⟩ := removeOverlapping_spec s.lt h.table u hsto (mkRange p.1 p.2) hplk.valid
      rw [e1]; simp only [Option.map_some]
      have hkeep : ∀ y ∈ tableLocks s.lt, y.2 ≠ u → y ∈ tableLocks lt' := by
        intro y hy hyt
        rw [e5]; exact List.mem_filter.mpr ⟨hy, by simp [hyt]⟩
      have hsubl : (tableLocks lt').Sublist (tableLocks s.lt) := by rw [e5]; exact List.filter_sublist
      refine ⟨_, _, rfl, release_inv h hr e2 e3 ps v ?_ (.inr ⟨e4, hsto⟩) hkeep hsubl ?_, hsubl, hkeep⟩
      · intro q hq; rw [hro]; simp [hq]
      · intro y hy hyt
        simp only at hyt
        rw [e5] at hy
        obtain ⟨hy1, hy2⟩ := List.mem_filter.mp hy
        simp only [decide_eq_true_eq, hyt, true_and] at hy2
        obtain ⟨x, hx, e, c⟩ := h.backed y hy1
        rw [hyt] at e
        have hkr : u ∈ s.releasing.map (·.txn) := List.mem_map.mpr ⟨_, hr, rfl⟩
        rcases hx with hx | hx | hx
        · exact absurd hkr (h.bufRel u (e ▸ mem_bufLocks_key hx))
        · obtain ⟨q, hq, rfl⟩ := List.mem_map.mp hx
          exact absurd hkr (h.pendRel u (e ▸ List.mem_map.mpr ⟨q, hq, rfl⟩))
        · obtain ⟨q, hq, hxq⟩ := mem_relLocks.mp hx
          have hperm := perm_take_out (·.txn) s.releasing h.relKeys hr
          have hq' : q = ⟨u, true, p :: ps, b, v⟩ := by
            rcases List.mem_cons.mp (hperm.mem_iff.mp hq) with h' | h'
            · exact h'
            · have h2 := (List.mem_filter.mp h').2
              obtain ⟨_, _, rfl⟩ := mem_asLocks.mp hxq
              simp only at e
              simp [e] at h2
          subst hq'
          rw [hro] at hxq
          obtain ⟨q, hq, rfl⟩ := mem_asLocks.mp hxq
          rcases List.mem_cons.mp hq with rfl | hq
          · exact absurd (meets_comm.mp (c.meets hplk.valid)) hy2
          · exact ⟨q, hq, c⟩
    · exact ⟨s, _, rfl, h, List.Sublist.refl _, fun y hy _ => hy⟩
  | relEnd t =>
    simp only [step]
    split
    · rename_i u b v hf
      obtain ⟨hr, hrt⟩ := findReleasing_some hf
      simp only at hrt
      subst hrt
      obtain ⟨e1, e2, e3, e4⟩ := relEnd_inv h hr rfl rfl (lt' := if v then s.lt else bumpScore s.lt) (by cases v <;> simp)
      simp only at e1 e4
      refine ⟨_, .none, ?_, e4, ?_⟩
      · simp only [released, if_pos e1, Option.map_some]
      · exact e2
    · exact ⟨s, _, rfl, h, rfl⟩

/-- A run of acceptable events never fails, and keeps the invariant. -/
theorem run_spec {base : Nat} (es : List (Ev cfg)) (s : Sys cfg) (h : Inv base s) (he : ∀ e ∈ es, EvOk e) :
    ∃ s' rs, run s es = some (s', rs) ∧ Inv base s' := by
  induction es generalizing s with
  | nil => exact ⟨s, [], rfl, h⟩
  | cons e es ih =>
    obtain ⟨s1, r, e1, e2, _⟩ := step_spec h e (he e (by simp))
    obtain ⟨s2, rs, f1, f2⟩ := ih s1 e2 (fun x hx => he x (by simp [hx]))
    exact ⟨s2, r :: rs, by rw [run, e1]; simp only [Option.bind_some]; rw [f1]; rfl, f2⟩

end Verif.Lt
