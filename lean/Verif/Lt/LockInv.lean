import Verif.Lt.Escalation

/-! The invariant of the lock table together with the transactions' records, and that every step keeps it. -/
namespace Verif.Lt
open Std Verif.Codec

set_option linter.unusedSectionVars false
variable {cfg : Cfg} [TransCmp cfg.cmp]

/-! ### Association lists -/

theorem perm_take_out {α : Type} (key : α → Txn) (l : List α) (hn : (l.map key).Nodup) {r : α} (hr : r ∈ l) :
    l.Perm (r :: l.filter fun x => decide (key x ≠ key r)) := by
  induction l with
  | nil => simp at hr
  | cons a l ih =>
    rw [List.map_cons, List.nodup_cons] at hn
    rcases List.mem_cons.mp hr with rfl | hr'
    · have : l.filter (fun x => decide (key x ≠ key r)) = l := List.filter_eq_self.mpr fun x hx => by
        simp only [decide_eq_true_eq]; intro he; exact hn.1 (List.mem_map.mpr ⟨x, hx, he⟩)
      rw [List.filter_cons]; simp only [ne_eq, not_true_eq_false, decide_false, Bool.false_eq_true, if_false]
      simp only [ne_eq] at this; rw [this]
    · have hne : key a ≠ key r := fun he => hn.1 (he ▸ List.mem_map.mpr ⟨r, hr', rfl⟩)
      rw [List.filter_cons]; simp only [hne, ne_eq, not_false_eq_true, decide_true, if_true]
      exact ((ih hn.2 hr').cons a).trans (List.Perm.swap _ _ _)

theorem lookupBuf_some {t : Txn} {bufs : List (Txn × RangeBuffer)} {b} (h : lookupBuf t bufs = some b) : (t, b) ∈ bufs := by
  induction bufs with
  | nil => simp [lookupBuf] at h
  | cons q rest ih =>
    obtain ⟨u, c⟩ := q
    unfold lookupBuf at h
    split at h
    · rename_i he; simp only [Option.some.injEq] at h; subst he; subst h; simp
    · exact List.mem_cons_of_mem _ (ih h)

theorem lookupBuf_none {t : Txn} {bufs : List (Txn × RangeBuffer)} (h : lookupBuf t bufs = none) : t ∉ bufs.map (·.1) := by
  induction bufs with
  | nil => simp
  | cons q rest ih =>
    obtain ⟨u, c⟩ := q
    unfold lookupBuf at h
    split at h
    · simp at h
    · rename_i he; simp only [List.map_cons, List.mem_cons, not_or]; exact ⟨he, ih h⟩

theorem lookupBuf_isSome {t : Txn} {bufs : List (Txn × RangeBuffer)} (h : t ∈ bufs.map (·.1)) : ∃ b, lookupBuf t bufs = some b := by
  cases hl : lookupBuf t bufs with
  | none => exact absurd h (lookupBuf_none hl)
  | some b => exact ⟨b, rfl⟩

theorem setBuf_old {t : Txn} {bufs : List (Txn × RangeBuffer)} {old} (h : lookupBuf t bufs = some old) (b : RangeBuffer)
    (hn : (bufs.map (·.1)).Nodup) :
    (setBuf t b bufs).map (·.1) = bufs.map (·.1) ∧
    (∀ q, q ∈ setBuf t b bufs ↔ q = (t, b) ∨ (q ∈ bufs ∧ q.1 ≠ t)) ∧
    ((setBuf t b bufs).map (·.2.memory)).sum + old.memory = (bufs.map (·.2.memory)).sum + b.memory := by
  induction bufs with
  | nil => simp [lookupBuf] at h
  | cons q rest ih =>
    obtain ⟨u, c⟩ := q
    rw [List.map_cons, List.nodup_cons] at hn
    unfold lookupBuf at h
    unfold setBuf
    split at h
    · rename_i he
      simp only [Option.some.injEq] at h
      subst he; subst h
      simp only [if_true]
      refine ⟨rfl, ?_, by simp; omega⟩
      intro q
      simp only [List.mem_cons]
      constructor
      · rintro (h | h)
        · exact .inl h
        · refine .inr ⟨.inr h, fun he => hn.1 (List.mem_map.mpr ⟨q, h, he⟩)⟩
      · rintro (h | ⟨h | h, h'⟩)
        · exact .inl h
        · subst h; exact absurd rfl h'
        · exact .inr h
    · rename_i he
      obtain ⟨h1, h2, h3⟩ := ih h hn.2
      rw [if_neg he]
      refine ⟨by simp [h1], ?_, by simp only [List.map_cons, List.sum_cons]; omega⟩
      intro q
      simp only [List.mem_cons, h2]
      constructor
      · rintro (h | h | h)
        · subst h; exact .inr ⟨.inl rfl, fun e => he e.symm⟩
        · exact .inl h
        · exact .inr ⟨.inr h.1, h.2⟩
      · rintro (h | ⟨h | h, h'⟩)
        · exact .inr (.inl h)
        · exact .inl h
        · exact .inr (.inr ⟨h, h'⟩)

theorem setBuf_new {t : Txn} {bufs : List (Txn × RangeBuffer)} (h : lookupBuf t bufs = none) (b : RangeBuffer) :
    setBuf t b bufs = bufs ++ [(t, b)] := by
  induction bufs with
  | nil => rfl
  | cons q rest ih =>
    obtain ⟨u, c⟩ := q
    unfold lookupBuf at h
    split at h
    · simp at h
    · rename_i he; unfold setBuf; rw [if_neg he, ih h]; rfl

theorem mem_bufLocks {bufs : List (Txn × RangeBuffer)} {x : Lock cfg} :
    x ∈ bufLocks bufs ↔ ∃ q ∈ bufs, x ∈ asLocks q.1 (q.2.ranges.getD []) := by
  unfold bufLocks; simp only [List.mem_flatMap]

theorem copyBuf_spec (ptr : Pt × Pt → Bool) (ps : List (Pt × Pt)) (hp : ∀ p ∈ ps, Lockable (mkRange (cfg := cfg) p.1 p.2))
    (b : RangeBuffer) (qs : List (Pt × Pt)) (hb : BOk b qs) :
    ∃ b' qs', copyBuf ptr ps b = some b' ∧ BOk b' qs' ∧ qs'.Perm (ps ++ qs) := by
  induction ps generalizing b qs with
  | nil => exact ⟨b, qs, rfl, hb, .refl _⟩
  | cons p ps ih =>
    obtain ⟨b1, q1, h1, h2, h3, _⟩ := hb.append (hp p (by simp)) (ptr p)
    obtain ⟨b2, q2, e1, e2, e3⟩ := ih (fun q hq => hp q (by simp [hq])) b1 q1 h2
    refine ⟨b2, q2, ?_, e2, e3.trans ((h3.append_left ps).trans List.perm_middle)⟩
    rw [copyBuf]
    have : b.append p.1 p.2 (ptr p) = some b1 := h1
    rw [this]; exact e1

/-! ### Callbacks -/

def memOf (bufs : List (Txn × RangeBuffer)) : Nat := (bufs.map (·.2.memory)).sum

theorem memory_le {bufs : List (Txn × RangeBuffer)} {q} (h : q ∈ bufs) : q.2.memory ≤ memOf bufs := by
  induction bufs with
  | nil => simp at h
  | cons a l ih =>
    unfold memOf at *
    simp only [List.map_cons, List.sum_cons]
    rcases List.mem_cons.mp h with rfl | h
    · omega
    · have := ih h; omega

theorem callbacks_spec (ptr : Pt × Pt → Bool) (eb : List (Txn × RangeBuffer)) (he : EscBufs eb)
    (hlk : ∀ x ∈ bufLocks (cfg := cfg) eb, Lockable x.1) (s : Sys cfg) (hr : Readable s.bufs) (hn : (s.bufs.map (·.1)).Nodup)
    (h1 : ∀ q ∈ eb, q.1 ∉ s.bufs.map (·.1) → s.releasing.any (·.txn = q.1) = false → q.2.numRanges = 1)
    (hm : memOf s.bufs ≤ s.lt.mem) :
    ∃ s', escalateCallbacks ptr eb s = some s' ∧ s'.lt = { s.lt with mem := s'.lt.mem } ∧ s'.pending = s.pending ∧
      s'.releasing = s.releasing ∧ s'.bufs.map (·.1) = s.bufs.map (·.1) ∧ Readable s'.bufs ∧
      s'.lt.mem + memOf s.bufs = s.lt.mem + memOf s'.bufs ∧
      (∀ x ∈ bufLocks (cfg := cfg) s'.bufs, x ∈ bufLocks (cfg := cfg) eb ∨ (x ∈ bufLocks (cfg := cfg) s.bufs ∧ x.2 ∉ eb.map (·.1))) ∧
      (∀ x ∈ bufLocks (cfg := cfg) eb, x.2 ∈ s.bufs.map (·.1) → x ∈ bufLocks (cfg := cfg) s'.bufs) ∧
      (∀ x ∈ bufLocks (cfg := cfg) s.bufs, x.2 ∉ eb.map (·.1) → x ∈ bufLocks (cfg := cfg) s'.bufs) := by
  induction eb generalizing s with
  | nil =>
    refine ⟨s, rfl, rfl, rfl, rfl, rfl, hr, rfl, ?_, ?_, ?_⟩
    · intro x hx; exact .inr ⟨hx, by simp⟩
    · intro x hx; simp [bufLocks] at hx
    · intro x hx _; exact hx
  | cons q eb ih =>
    obtain ⟨t, b⟩ := q
    obtain ⟨hk1, hk2⟩ := List.pairwise_cons.mp he.keys
    have htn : t ∉ eb.map (·.1) := by
      intro h; obtain ⟨q, hq, e⟩ := List.mem_map.mp h
      have := hk1 q hq; rw [e] at this; exact Nat.lt_irrefl _ this
    obtain ⟨ps, hb, hne⟩ := he.readable (t, b) (by simp)
    simp only at hb
    have he' : EscBufs eb := ⟨hk2, fun q hq => he.readable q (by simp [hq])⟩
    have hlk' : ∀ x ∈ bufLocks (cfg := cfg) eb, Lockable x.1 := fun x hx => hlk x (by rw [bufLocks_cons]; simp [hx])
    have hcons : ∀ x, x ∈ bufLocks (cfg := cfg) ((t, b) :: eb) ↔ x ∈ asLocks t ps ∨ x ∈ bufLocks eb := by
      intro x; rw [bufLocks_cons, hb.ranges]; simp
    have htx : ∀ x ∈ asLocks (cfg := cfg) t ps, x.2 = t := by
      intro x hx; obtain ⟨_, _, rfl⟩ := mem_asLocks.mp hx; rfl
    rw [escalateCallbacks]
    unfold escalateCallback
    cases hlook : lookupBuf t s.bufs with
    | some old =>
      have hmem := lookupBuf_some hlook
      have hle := memory_le hmem
      simp only at hle
      obtain ⟨nb, qs, c1, c2, c3⟩ := copyBuf_spec (cfg := cfg) ptr ps (fun p hp => hlk (mkRange p.1 p.2, t) ((hcons _).mpr (.inl (mem_asLocks.mpr ⟨p, hp, rfl⟩))))
        .create [] .create
      rw [List.append_nil] at c3
      obtain ⟨k1, k2, k3⟩ := setBuf_old hlook nb hn
      have hnbr : nb.ranges.getD [] = qs := by rw [c2.ranges]; rfl
      have hqs : ∀ x, x ∈ asLocks (cfg := cfg) t qs ↔ x ∈ asLocks t ps := fun x => (asLocks_perm t c3).mem_iff
      have hB1 : ∀ x, x ∈ bufLocks (cfg := cfg) (setBuf t nb s.bufs) ↔ x ∈ asLocks t ps ∨ (x ∈ bufLocks s.bufs ∧ x.2 ≠ t) := by
        intro x
        rw [mem_bufLocks, mem_bufLocks]
        constructor
        · rintro ⟨q, hq, hx⟩
          rcases (k2 q).mp hq with rfl | ⟨hq', hqt⟩
          · simp only [hnbr] at hx; exact .inl ((hqs x).mp hx)
          · refine .inr ⟨⟨q, hq', hx⟩, ?_⟩
            obtain ⟨_, _, rfl⟩ := mem_asLocks.mp hx; exact hqt
        · rintro (hx | ⟨⟨q, hq, hx⟩, hxt⟩)
          · exact ⟨(t, nb), (k2 _).mpr (.inl rfl), by simp only [hnbr]; exact (hqs x).mpr hx⟩
          · refine ⟨q, (k2 q).mpr (.inr ⟨hq, ?_⟩), hx⟩
            obtain ⟨_, _, rfl⟩ := mem_asLocks.mp hx; exact hxt
      have hread : Readable (setBuf t nb s.bufs) := by
        intro q hq
        rcases (k2 q).mp hq with rfl | ⟨hq, _⟩
        · refine ⟨qs, c2, ?_⟩
          intro h0; rw [h0] at c3; exact hne (List.nil_perm.mp c3)
        · exact hr q hq
      have hm' : memOf (setBuf t nb s.bufs) + old.memory = memOf s.bufs + nb.memory := k3
      obtain ⟨s', e1, e2, e3, e4, e5, e6, e7, e8, e9, e10⟩ := ih he' hlk'
        { s with bufs := setBuf t nb s.bufs, lt := { s.lt with mem := s.lt.mem - old.memory + nb.memory } } hread
        (by show ((setBuf t nb s.bufs).map (·.1)).Nodup; rw [k1]; exact hn)
        (by
          intro q hq hq1 hq2
          exact h1 q (by simp [hq]) (by rw [← k1]; exact hq1) hq2)
        (by show memOf (setBuf t nb s.bufs) ≤ s.lt.mem - old.memory + nb.memory; omega)
      simp only at e2 e3 e4 e5 e7
      refine ⟨s', ?_, e2, e3, e4, by rw [e5, k1], e6, by omega, ?_, ?_, ?_⟩
      · simp only [released, if_pos (Nat.le_trans hle hm), hb.ranges, Option.bind_some, c1, Option.map_some]; exact e1
      · intro x hx
        rcases e8 x hx with h | ⟨h, h'⟩
        · exact .inl ((hcons x).mpr (.inr h))
        · rcases (hB1 x).mp h with h | ⟨h, hxt⟩
          · exact .inl ((hcons x).mpr (.inl h))
          · exact .inr ⟨h, by simp only [List.map_cons, List.mem_cons, not_or]; exact ⟨hxt, h'⟩⟩
      · intro x hx hxk
        rcases (hcons x).mp hx with h | h
        · refine e10 x ((hB1 x).mpr (.inl h)) ?_
          rw [htx x h]; exact htn
        · exact e9 x h (by rw [k1]; exact hxk)
      · intro x hx hxk
        simp only [List.map_cons, List.mem_cons, not_or] at hxk
        exact e10 x ((hB1 x).mpr (.inr ⟨hx, hxk.1⟩)) hxk.2
    | none =>
      have htb := lookupBuf_none hlook
      have hstep : (if s.releasing.any (·.txn = t) then some s else if b.numRanges = 1 then some s else none) = some s := by
        by_cases hrel : s.releasing.any (·.txn = t) = true
        · rw [if_pos hrel]
        · rw [if_neg hrel, if_pos (h1 (t, b) (by simp) htb (by simpa using hrel))]
      simp only [hstep, Option.bind_some]
      obtain ⟨s', e1, e2, e3, e4, e5, e6, e7, e8, e9, e10⟩ := ih he' hlk' s hr hn (fun q hq => h1 q (by simp [hq])) hm
      refine ⟨s', e1, e2, e3, e4, e5, e6, e7, ?_, ?_, ?_⟩
      · intro x hx
        rcases e8 x hx with h | ⟨h, h'⟩
        · exact .inl ((hcons x).mpr (.inr h))
        · refine .inr ⟨h, ?_⟩
          simp only [List.map_cons, List.mem_cons, not_or]
          exact ⟨fun he => htb (he ▸ mem_bufLocks_key h), h'⟩
      · intro x hx hxk
        rcases (hcons x).mp hx with h | h
        · rw [htx x h] at hxk; exact absurd hxk htb
        · exact e9 x h hxk
      · intro x hx hxk
        simp only [List.map_cons, List.mem_cons, not_or] at hxk
        exact e10 x hx hxk.2

/-! ### The invariant -/

/-- Granted and not yet noted. -/
def pend (s : Sys cfg) : List (Lock cfg) := s.pending.map fun q => (mkRange q.2.1 q.2.2, q.1)

/-- What a releasing transaction still has to walk over. -/
def restOf (r : Releasing) : List (Pt × Pt) := if r.started then r.rest else r.buffer.ranges.getD []

/-- Ranges of the releasing transactions. -/
def relLocks (rs : List Releasing) : List (Lock cfg) := rs.flatMap fun r => asLocks r.txn (restOf r)

def relMem (rs : List Releasing) : Nat := (rs.map (·.buffer.memory)).sum

theorem mem_relLocks {rs : List Releasing} {x : Lock cfg} : x ∈ relLocks rs ↔ ∃ r ∈ rs, x ∈ asLocks r.txn (restOf r) := by
  unfold relLocks; simp only [List.mem_flatMap]

/-- Every range some transaction knows it holds or has still to release. -/
def Claimed (s : Sys cfg) (x : Lock cfg) : Prop := x ∈ bufLocks s.bufs ∨ x ∈ pend s ∨ x ∈ relLocks s.releasing

/-- Those still held in full. -/
def Claimed' (s : Sys cfg) (x : Lock cfg) : Prop :=
  x ∈ bufLocks s.bufs ∨ x ∈ pend s ∨ x ∈ relLocks (s.releasing.filter fun r => !r.started)

structure Inv (base : Nat) (s : Sys cfg) : Prop where
  table : TableOk s.lt
  readable : Readable s.bufs
  bufKeys : (s.bufs.map (·.1)).Nodup
  pendKeys : (s.pending.map (·.1)).Nodup
  relKeys : (s.releasing.map (·.txn)).Nodup
  pendRel : ∀ t ∈ s.pending.map (·.1), t ∉ s.releasing.map (·.txn)
  bufRel : ∀ t ∈ s.bufs.map (·.1), t ∉ s.releasing.map (·.txn)
  relNz : ∀ r ∈ s.releasing, r.txn ≠ 0
  relBuf : ∀ r ∈ s.releasing, ∃ ps, BOk r.buffer ps ∧ ps ≠ []
  started : ∀ r ∈ s.releasing, r.started = true → s.lt.stoTxn ≠ r.txn
  lockable : ∀ x, Claimed s x → Lockable x.1
  covered : ∀ x, Claimed' s x → ∃ y ∈ tableLocks s.lt, y.2 = x.2 ∧ y.1.Covers x.1
  backed : ∀ y ∈ tableLocks s.lt, ∃ x, Claimed s x ∧ x.2 = y.2 ∧ y.1.Covers x.1
  single : ∀ t, t ∉ s.bufs.map (·.1) → t ∉ s.releasing.map (·.txn) → count (tableLocks s.lt) t ≤ 1
  mem : s.lt.mem = base + tableMem s.lt + memOf s.bufs + relMem s.releasing

theorem inv_init (base : Nat) : Inv base (Sys.init base : Sys cfg) := by
  refine ⟨⟨?_, ?_, ?_, ?_, ?_, ?_⟩, ?_, ?_, ?_, ?_, ?_, ?_, ?_, ?_, ?_, ?_, ?_, ?_, ?_, ?_⟩
  all_goals simp [Sys.init, tableLocks, LockTable.create, Tree.toList, Readable, Claimed, Claimed', bufLocks, pend, relLocks, memOf, relMem, tableMem, create_memory]
  exact .nil

theorem Claimed'.claimed {s : Sys cfg} {x : Lock cfg} (h : Claimed' s x) : Claimed s x := by
  rcases h with h | h | h
  · exact .inl h
  · exact .inr (.inl h)
  · refine .inr (.inr ?_)
    obtain ⟨r, hr, hx⟩ := mem_relLocks.mp h
    exact mem_relLocks.mpr ⟨r, (List.mem_filter.mp hr).1, hx⟩

theorem claimed_key {s : Sys cfg} {x : Lock cfg} (h : Claimed s x) :
    x.2 ∈ s.bufs.map (·.1) ∨ x.2 ∈ s.pending.map (·.1) ∨ x.2 ∈ s.releasing.map (·.txn) := by
  rcases h with h | h | h
  · exact .inl (mem_bufLocks_key h)
  · refine .inr (.inl ?_)
    obtain ⟨q, hq, rfl⟩ := List.mem_map.mp h
    exact List.mem_map.mpr ⟨q, hq, rfl⟩
  · refine .inr (.inr ?_)
    obtain ⟨r, hr, hx⟩ := mem_relLocks.mp h
    obtain ⟨_, _, rfl⟩ := mem_asLocks.mp hx
    exact List.mem_map.mpr ⟨r, hr, rfl⟩

theorem idle_iff {s : Sys cfg} {t : Txn} :
    idle s t = true ↔ t ∉ s.releasing.map (·.txn) ∧ t ∉ s.pending.map (·.1) := by
  unfold idle
  simp only [Bool.and_eq_true, Bool.not_eq_true', List.any_eq_false, decide_eq_true_eq, List.mem_map, not_exists, not_and]

/-! ### Escalation keeps it -/

theorem escalateSys_inv {base : Nat} {s : Sys cfg} (h : Inv base s) (ptr : Rng cfg → Bool) (ptr' : Pt × Pt → Bool) :
    ∃ s', escalateSys s ptr ptr' = some s' ∧ Inv base s' ∧ Coarser (tableLocks s.lt) (tableLocks s'.lt) ∧
      s'.pending = s.pending ∧ s'.releasing = s.releasing ∧ s'.bufs.map (·.1) = s.bufs.map (·.1) := by
  obtain ⟨lt', eb, e1, e2, e3, e4, e5, e6, e7⟩ := escalate_spec s.lt h.table ptr
  have hmem := h.mem
  have hbk : ∀ x, x ∈ bufLocks (cfg := cfg) eb ↔ x ∈ tableLocks lt' := fun x => e6.mem_iff.symm
  obtain ⟨s', f1, f2, f3, f4, f5, f6, f7, f8, f9, f10⟩ := callbacks_spec ptr' eb e5
    (fun x hx => e2.lockable x ((hbk x).mp hx)) { s with lt := lt' } h.readable h.bufKeys
    (by
      intro q hq hq1 hq2
      obtain ⟨ps, hb, hne⟩ := e5.readable q hq
      rw [hb.numRanges]
      have hsub : (asLocks (cfg := cfg) q.1 ps).length ≤ count (bufLocks (cfg := cfg) eb) q.1 := by
        have hsl : (asLocks (cfg := cfg) q.1 ps).Sublist (bufLocks eb) := by
          unfold bufLocks
          have := List.sublist_flatten_of_mem (List.mem_map.mpr ⟨q, hq, rfl⟩ : asLocks (cfg := cfg) q.1 (q.2.ranges.getD []) ∈ eb.map fun q => asLocks q.1 (q.2.ranges.getD []))
          rw [List.flatMap_def]
          rw [hb.ranges] at this; exact this
        refine Nat.le_trans ?_ (count_sublist hsl q.1)
        unfold count
        rw [List.filter_eq_self.mpr]; · exact Nat.le_refl _
        intro x hx
        obtain ⟨_, _, rfl⟩ := mem_asLocks.mp hx
        simp
      rw [← count_perm e6] at hsub
      have h1 := e7.count q.1
      have h2 := h.single q.1 hq1 (by
        intro hc
        obtain ⟨r, hr, e⟩ := List.mem_map.mp hc
        have := List.any_eq_false.mp hq2 r hr
        simp [e] at this)
      have h3 : (asLocks (cfg := cfg) q.1 ps).length = ps.length := by simp [asLocks]
      have h4 := List.length_pos_iff.mpr hne
      omega)
    (by show memOf s.bufs ≤ lt'.mem; omega)
  simp only at f2 f3 f4 f5 f7
  have hT : tableLocks s'.lt = tableLocks lt' := by rw [f2]; rfl
  have hTM : tableMem s'.lt = tableMem lt' := by rw [f2]; rfl
  refine ⟨s', by unfold escalateSys; rw [e1]; exact f1, ?_, by rw [hT]; exact e7, f3, f4, f5⟩
  -- every noted transaction has a table lock
  have hnoted : ∀ x ∈ bufLocks (cfg := cfg) s.bufs, x.2 ∈ eb.map (·.1) := by
    intro x hx
    obtain ⟨y, hy, e, _⟩ := h.covered x (.inl hx)
    obtain ⟨z, hz, e', _⟩ := e7.old y hy
    rw [← e, ← e']
    exact mem_bufLocks_key ((hbk z).mpr hz)
  have hpend : pend s' = pend s := by unfold pend; rw [f3]
  have hnew : ∀ x ∈ bufLocks (cfg := cfg) s'.bufs, x ∈ tableLocks lt' := by
    intro x hx
    rcases f8 x hx with h' | ⟨h', h''⟩
    · exact (hbk x).mp h'
    · exact absurd (hnoted x h') h''
  have hcov : ∀ x : Lock cfg, (∃ y ∈ tableLocks s.lt, y.2 = x.2 ∧ y.1.Covers x.1) → ∃ y ∈ tableLocks s'.lt, y.2 = x.2 ∧ y.1.Covers x.1 := by
    rintro x ⟨y, hy, e, c⟩
    obtain ⟨z, hz, e', c'⟩ := e7.old y hy
    rw [hT]; exact ⟨z, hz, e'.trans e, c'.trans c⟩
  refine ⟨?_, f6, by rw [f5]; exact h.bufKeys, by rw [f3]; exact h.pendKeys, by rw [f4]; exact h.relKeys,
    by rw [f3, f4]; exact h.pendRel, by rw [f4, f5]; exact h.bufRel, by rw [f4]; exact h.relNz, by rw [f4]; exact h.relBuf, ?_, ?_, ?_, ?_, ?_, ?_⟩
  · rw [f2]
    exact ⟨e2.sorted, e2.lockable, e2.owner, e2.off, e2.on, by
      show tableMem lt' ≤ s'.lt.mem
      omega⟩
  · intro r hr _
    rw [f2]; simp only [e4]
    rw [f4] at hr
    exact (h.relNz r hr).symm
  · intro x hx
    rcases hx with hx | hx | hx
    · exact e2.lockable x (hnew x hx)
    · rw [hpend] at hx; exact h.lockable x (.inr (.inl hx))
    · rw [f4] at hx; exact h.lockable x (.inr (.inr hx))
  · intro x hx
    rcases hx with hx | hx | hx
    · exact ⟨x, by rw [hT]; exact hnew x hx, rfl, .refl _⟩
    · rw [hpend] at hx; exact hcov x (h.covered x (.inr (.inl hx)))
    · rw [f4] at hx; exact hcov x (h.covered x (.inr (.inr hx)))
  · intro y hy
    rw [hT] at hy
    by_cases hyb : y.2 ∈ s.bufs.map (·.1)
    · exact ⟨y, .inl (f9 y ((hbk y).mpr hy) hyb), rfl, .refl _⟩
    · obtain ⟨x, hx, e, c⟩ := e7.from_ y hy
      obtain ⟨z, hz, e', c'⟩ := h.backed x hx
      refine ⟨z, ?_, e'.trans e, c.trans c'⟩
      rcases hz with hz | hz | hz
      · exact absurd (by rw [← e, ← e']; exact mem_bufLocks_key hz) hyb
      · exact .inr (.inl (by rw [hpend]; exact hz))
      · exact .inr (.inr (by rw [f4]; exact hz))
  · intro t ht1 ht2
    rw [hT]
    rw [f5] at ht1
    rw [f4] at ht2
    exact Nat.le_trans (e7.count t) (h.single t ht1 ht2)
  · rw [f4, hTM]; omega

end Verif.Lt
