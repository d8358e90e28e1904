import Verif.Rec.GhostStep
import Verif.Rec.SysInv
/-! The end of recovery: what is left when the live transactions have been aborted. -/
namespace Verif.Rec
open Verif.Rec.Spec
open Verif.Ule (Ule Bytes Op latest)
set_option linter.unusedVariables false
set_option linter.unusedSimpArgs false

/-- What is allowed never fails. -/
theorem SysInv.client_some {files : List File} {s : Sys} {r : Rec} (h : SysInv files s) (ha : Allowed files s.log s.w.txns r) :
    ∃ s', s.client r = some s' ∧ s'.log = s.log ++ [r] ∧ SysInv files s' := by
  obtain ⟨w, h1, -⟩ := ghost_next h.valid h.valid.ghost (by rw [← h.w]; exact allowed_ok ha)
  rw [← h.w] at h1
  have : ∃ s', s.client r = some s' ∧ s'.log = s.log ++ [r] := by
    unfold Sys.client
    rw [show (fun _ => false : File → Bool) = noSkip from rfl, h1]
    exact ⟨_, rfl, rfl⟩
  obtain ⟨s', e1, e2⟩ := this
  exact ⟨s', e1, e2, h.client files ha e1⟩

/-! ### Aborting -/

theorem SysInv.abort {files : List File} {s : Sys} {p : Xid} (h : SysInv files s) (hp : s.w.txns.get p ≠ none) (hc : s.w.txns.childOf p = none) :
    ∃ s', s.client (.xabort p) = some s' ∧ s'.log = s.log ++ [.xabort p] ∧ SysInv files s' ∧ s'.w.txns = s.w.txns.erase p ∧ (Reach files s → Reach files s') := by
  obtain ⟨s', e1, e2, e3⟩ := h.client_some (r := .xabort p) ⟨hp, hc⟩
  refine ⟨s', e1, e2, e3, ?_, fun h => h.client (r := .xabort p) ⟨hp, hc⟩ e1⟩
  obtain ⟨t, ht⟩ := get_some_of_ne hp
  unfold Sys.client at e1
  cases hst : s.w.step (fun _ => false) (.xabort p) with
  | none => rw [hst] at e1; simp at e1
  | some w =>
    rw [hst] at e1
    simp only [Option.map_some, Option.some.injEq] at e1
    rw [← e1]
    obtain ⟨h1, -⟩ := World.step_some.mp hst
    simp only [txStep, ht, hc, if_true, Option.some.injEq] at h1
    exact h1.symm

/-- A transaction and what is nested in it, of the live ones. -/
def famB (p : Xid) (e : Xid × Txn) : Bool := e.1.root = p.root && p.child ≤ e.1.child

theorem abortFam_spec {files : List File} : ∀ (n : Nat) (s : Sys) (p : Xid), SysInv files s → s.w.txns.get p ≠ none → (s.w.txns.filter (famB p)).length ≤ n →
    ∃ (s' : Sys) (as : List Xid), Sys.abortFam n s p = some s' ∧ SysInv files s' ∧ s'.log = s.log ++ as.map Rec.xabort ∧
      s'.w.txns = s.w.txns.filter (fun e => !famB p e) ∧ (∀ q, q ∈ as ↔ ∃ t, (q, t) ∈ s.w.txns ∧ famB p (q, t) = true) ∧ (Reach files s → Reach files s') := by
  intro n
  induction n with
  | zero =>
    intro s p h hp hn
    obtain ⟨t, ht⟩ := get_some_of_ne hp
    have : (p, t) ∈ s.w.txns.filter (famB p) := List.mem_filter.mpr ⟨get_mem ht, by simp [famB]⟩
    have := List.length_pos_of_mem this
    omega
  | succ n ih =>
    intro s p h hp hn
    have wf : TxWf s.w.txns := by rw [h.w]; exact h.valid.txwf.1
    obtain ⟨t, ht⟩ := get_some_of_ne hp
    have hpm := get_mem ht
    unfold Sys.abortFam
    cases hc : s.w.txns.childOf p with
    | none =>
      obtain ⟨s', e1, e2, e3, e4, e5⟩ := h.abort hp hc
      have hfam : ∀ e ∈ s.w.txns, famB p e = true ↔ e.1 = p := by
        intro e he
        simp only [famB, Bool.and_eq_true, decide_eq_true_eq]
        constructor
        · rintro ⟨h1, h2⟩
          exact Xid.eq_of _ _ h1 (Nat.le_antisymm (wf.deepest hpm hc e he h1) h2)
        · rintro rfl; exact ⟨rfl, Nat.le_refl _⟩
      refine ⟨s', [p], e1, e3, e2, ?_, ?_, e5⟩
      · rw [e4]; unfold Txns.erase
        apply List.filter_congr
        intro e he
        cases hf : famB p e with
        | true => simp [(hfam e he).mp hf]
        | false =>
          have : e.1 ≠ p := fun h' => by rw [(hfam e he).mpr h'] at hf; simp at hf
          simp [this]
      · intro q
        simp only [List.mem_singleton]
        constructor
        · rintro rfl; exact ⟨t, hpm, by simp [famB]⟩
        · rintro ⟨t', h1, h2⟩; exact (hfam _ h1).mp h2
    | some c =>
      obtain ⟨tc, hcm, hcp⟩ := childOf_some hc
      obtain ⟨-, hroot, hlt, -⟩ := wf.child _ hcm p hcp
      simp only at hroot hlt
      -- everything below p is c or below c
      have hfam : ∀ e ∈ s.w.txns, famB p e = true ↔ e.1 = p ∨ famB c e = true := by
        intro e he
        simp only [famB, Bool.and_eq_true, decide_eq_true_eq]
        constructor
        · rintro ⟨h1, h2⟩
          rcases Nat.eq_or_lt_of_le h2 with h2 | h2
          · exact .inl (Xid.eq_of _ _ h1 h2.symm)
          · right
            refine ⟨by rw [h1, hroot], ?_⟩
            have := wf.adj _ hcm p hcp e he (by rw [h1, hroot])
            simp only at this; omega
        · rintro (rfl | ⟨h1, h2⟩)
          · exact ⟨rfl, Nat.le_refl _⟩
          · exact ⟨by rw [h1, hroot], by omega⟩
      have hpc : famB c (p, t) = false := by simp [famB]; omega
      have hlen : (s.w.txns.filter (famB c)).length ≤ n := by
        have hsub : ∀ l : Txns, (∀ e ∈ l, e ∈ s.w.txns) → (p, t) ∈ l → (l.filter (famB c)).length < (l.filter (famB p)).length := by
          intro l
          induction l with
          | nil => simp
          | cons e l ihl =>
            intro hsub hm
            have hle : (l.filter (famB c)).length ≤ (l.filter (famB p)).length := by
              rw [← List.countP_eq_length_filter, ← List.countP_eq_length_filter]
              exact List.countP_mono_left fun x hx hx' => (hfam x (hsub x (by simp [hx]))).mpr (.inr hx')
            by_cases hpe : e = (p, t)
            · subst hpe
              rw [List.filter_cons, List.filter_cons, if_neg (by simp [hpc]), if_pos (by simp [famB])]
              simp only [List.length_cons]; omega
            · have hm' : (p, t) ∈ l := by
                rcases List.mem_cons.mp hm with h' | h'
                · exact absurd h'.symm hpe
                · exact h'
              have := ihl (fun x hx => hsub x (by simp [hx])) hm'
              rw [List.filter_cons, List.filter_cons]
              have hmono : famB c e = true → famB p e = true := fun h' => (hfam e (hsub e (by simp))).mpr (.inr h')
              split
              · rename_i h1; rw [if_pos (hmono h1)]; simp only [List.length_cons]; omega
              · split
                · simp only [List.length_cons]; omega
                · exact this
        have := hsub s.w.txns (fun _ h => h) hpm
        omega
      obtain ⟨s1, as, a1, a2, a3, a4, a5, a6⟩ := ih s c h (by rw [get_of_mem wf.sorted hcm]; simp) hlen
      simp only [a1, Option.bind_some]
      have wf1 : TxWf s1.w.txns := by rw [a2.w]; exact a2.valid.txwf.1
      have hpm1 : (p, t) ∈ s1.w.txns := by rw [a4]; exact List.mem_filter.mpr ⟨hpm, by simp [hpc]⟩
      obtain ⟨s2, b1, b2, b3, b4, b5⟩ := a2.abort (p := p) (by rw [get_of_mem wf1.sorted hpm1]; simp) (by
        rw [childOf_none]
        intro e he hpar
        rw [a4] at he
        obtain ⟨he, hne⟩ := List.mem_filter.mp he
        obtain ⟨-, hr', hlt', -⟩ := wf.child _ he p hpar
        rcases (hfam e he).mp (by simp only [famB, Bool.and_eq_true, decide_eq_true_eq]; exact ⟨hr'.symm, by omega⟩) with h' | h'
        · rw [h'] at hlt'; omega
        · rw [h'] at hne; simp at hne)
      refine ⟨s2, as ++ [p], b1, b3, by rw [b2, a3]; simp, ?_, ?_, fun hr => b5 (a6 hr)⟩
      · rw [b4, a4]; unfold Txns.erase
        rw [List.filter_filter]
        apply List.filter_congr
        intro e he
        have := hfam e he
        cases h1 : famB p e with
        | true =>
          rcases this.mp h1 with h' | h'
          · simp [h']
          · simp [h']
        | false =>
          have h2 : ¬ (e.1 = p ∨ famB c e = true) := fun h' => by rw [this.mpr h'] at h1; simp at h1
          have h3 : e.1 ≠ p := fun h' => h2 (.inl h')
          have h4 : famB c e = false := by cases hh : famB c e <;> simp_all
          simp [h3, h4]
      · intro q
        simp only [List.mem_append, List.mem_singleton, a5]
        constructor
        · rintro (⟨t', h1, h2⟩ | rfl)
          · exact ⟨t', h1, (hfam _ h1).mpr (.inr h2)⟩
          · exact ⟨t, hpm, by simp [famB]⟩
        · rintro ⟨t', h1, h2⟩
          rcases (hfam _ h1).mp h2 with h' | h'
          · exact .inr h'
          · exact .inl ⟨t', h1, h'⟩

/-- In a family whose root is prepared there is nothing else. -/
theorem TxWf.rootUnprep {T : Txns} (wf : TxWf T) {e : Xid × Txn} (he : e ∈ T) (hp : e.2.prepared = false) :
    ∃ e' ∈ T, e'.1.root = e.1.root ∧ e'.2.parent = none ∧ e'.2.prepared = false := by
  suffices H : ∀ n, ∀ e ∈ T, e.1.child = n → e.2.prepared = false → ∃ e' ∈ T, e'.1.root = e.1.root ∧ e'.2.parent = none ∧ e'.2.prepared = false from H _ e he rfl hp
  intro n
  induction n using Nat.strongRecOn with
  | _ n ih =>
    intro e he hn hp
    cases hq : e.2.parent with
    | none => exact ⟨e, he, rfl, hq, hp⟩
    | some q =>
      obtain ⟨-, h1, h2, t, ht, h3, -⟩ := wf.child e he q hq
      obtain ⟨e', a1, a2, a3⟩ := ih q.child (by omega) (q, t) (get_mem ht) rfl h3
      exact ⟨e', a1, by rw [a2]; exact h1, a3⟩

theorem abortAll_spec {files : List File} : ∀ (n : Nat) (s : Sys), SysInv files s → s.w.txns.length < n →
    ∃ (s' : Sys) (as : List Xid), Sys.abortAll n s = some s' ∧ SysInv files s' ∧ s'.log = s.log ++ as.map Rec.xabort ∧
      s'.w.txns = s.w.txns.filter (fun e => e.2.prepared) ∧ (∀ q, q ∈ as ↔ ∃ t, (q, t) ∈ s.w.txns ∧ t.prepared = false) ∧ (Reach files s → Reach files s') := by
  intro n
  induction n with
  | zero => intro s _ h; omega
  | succ n ih =>
    intro s h hn
    have wf : TxWf s.w.txns := by rw [h.w]; exact h.valid.txwf.1
    unfold Sys.abortAll
    cases hu : s.w.txns.unprepared with
    | none =>
      have hno : ∀ e ∈ s.w.txns, e.2.prepared = true := by
        intro e he
        cases hp : e.2.prepared with
        | true => rfl
        | false =>
          obtain ⟨e', a1, -, a2, a3⟩ := wf.rootUnprep he hp
          unfold Txns.unprepared at hu
          rw [Option.map_eq_none_iff, List.find?_eq_none] at hu
          have := hu e' a1
          simp [a2, a3] at this
      refine ⟨s, [], rfl, h, by simp, ?_, ?_, id⟩
      · rw [List.filter_eq_self.mpr hno]
      · intro q; simp only [List.not_mem_nil, false_iff]
        rintro ⟨t, h1, h2⟩
        have := hno _ h1; simp only at this; rw [this] at h2; simp at h2
    | some p =>
      have : ∃ t, (p, t) ∈ s.w.txns ∧ t.parent = none ∧ t.prepared = false := by
        unfold Txns.unprepared at hu
        obtain ⟨e, h1, rfl⟩ := Option.map_eq_some_iff.mp hu
        have h2 := List.find?_some h1
        simp only [Bool.and_eq_true, decide_eq_true_eq, Bool.not_eq_true'] at h2
        exact ⟨e.2, List.mem_of_find?_eq_some h1, h2⟩
      obtain ⟨t, hpm, hpar, hprep⟩ := this
      have h0 := (wf.root _ hpm hpar).1
      simp only at h0
      obtain ⟨s1, as, a1, a2, a3, a4, a5, a6⟩ := abortFam_spec n s p h (by rw [get_of_mem wf.sorted hpm]; simp)
        (Nat.le_trans (List.length_filter_le _ _) (by omega))
      have hlen : s1.w.txns.length < n := by
        have : s1.w.txns.length < s.w.txns.length := by
          rw [a4]
          apply List.length_filter_lt_length_iff_exists.mpr
          exact ⟨(p, t), hpm, by simp [famB]⟩
        omega
      obtain ⟨s2, bs, b1, b2, b3, b4, b5, b6⟩ := ih s1 a2 hlen
      have hfam : ∀ e ∈ s.w.txns, famB p e = true → e.2.prepared = false := by
        intro e he hf
        simp only [famB, Bool.and_eq_true, decide_eq_true_eq] at hf
        cases hq : e.2.parent with
        | none =>
          have := (wf.root e he hq).1
          have := wf.same he hpm (Xid.eq_of _ _ hf.1 (by rw [this, h0]))
          rw [this]; exact hprep
        | some q => exact (wf.child e he q hq).1
      simp only [a1, Option.bind_some]
      refine ⟨s2, as ++ bs, b1, b2, by rw [b3, a3]; simp, ?_, ?_, fun hr => b6 (a6 hr)⟩
      · rw [b4, a4, List.filter_filter]
        apply List.filter_congr
        intro e he
        cases hf : famB p e with
        | true => simp [hfam e he hf]
        | false => simp
      · intro q
        simp only [List.mem_append, a5, b5, a4, List.mem_filter]
        constructor
        · rintro (⟨t', h1, h2⟩ | ⟨t', ⟨h1, -⟩, h2⟩)
          · exact ⟨t', h1, hfam _ h1 h2⟩
          · exact ⟨t', h1, h2⟩
        · rintro ⟨t', h1, h2⟩
          cases hf : famB p (q, t') with
          | true => exact .inl ⟨t', h1, hf⟩
          | false => exact .inr ⟨t', ⟨h1, by simp [hf]⟩, h2⟩

theorem abortFam_mono : ∀ (n : Nat) (s s' : Sys) (p : Xid), Sys.abortFam n s p = some s' → Sys.abortFam (n + 1) s p = some s' := by
  intro n
  induction n with
  | zero => intro s s' p h; simp [Sys.abortFam] at h
  | succ n ih =>
    intro s s' p h
    rw [Sys.abortFam] at h ⊢
    split at h
    · rename_i c hc
      obtain ⟨s1, h1, h2⟩ := Option.bind_eq_some_iff.mp h
      simp only [ih _ _ _ h1, Option.bind_some, h2]
    · exact h

theorem abortAll_mono : ∀ (n : Nat) (s s' : Sys), Sys.abortAll n s = some s' → Sys.abortAll (n + 1) s = some s' := by
  intro n
  induction n with
  | zero => intro s s' h; simp [Sys.abortAll] at h
  | succ n ih =>
    intro s s' h
    rw [Sys.abortAll] at h ⊢
    split at h
    · rename_i p hp
      obtain ⟨s1, h1, h2⟩ := Option.bind_eq_some_iff.mp h
      simp only [abortFam_mono _ _ _ _ h1, Option.bind_some]
      exact ih _ _ h2
    · exact h

theorem abortAll_add (n : Nat) (s s' : Sys) (h : Sys.abortAll n s = some s') : ∀ d, Sys.abortAll (n + d) s = some s'
  | 0 => h
  | d + 1 => abortAll_mono _ _ _ (abortAll_add n s s' h d)

theorem abortAll_any {files : List File} (n : Nat) (s : Sys) {s' : Sys} (hi : SysInv files s) (h : Sys.abortAll n s = some s') :
    ∃ as : List Xid, SysInv files s' ∧ s'.log = s.log ++ as.map Rec.xabort ∧
      s'.w.txns = s.w.txns.filter (fun e => e.2.prepared) ∧ ∀ q, q ∈ as ↔ ∃ t, (q, t) ∈ s.w.txns ∧ t.prepared = false := by
  obtain ⟨s2, as, h1, h2, h3, h4, h5, -⟩ := abortAll_spec (n + (s.w.txns.length + 1)) s hi (by omega)
  rw [abortAll_add n s s' h] at h1; injection h1 with h1; subst h1
  exact ⟨as, h2, h3, h4, h5⟩

theorem crash_synced {s s' : Sys} {n : Nat} (h : s.crash n = some s') : s'.synced = n := by
  unfold Sys.crash at h
  split at h
  · simp at h
  · injection h with h; subst h; rfl

/-! ### What survives -/

/-- A live transaction is nested in live ones only. -/
theorem Life.lineLive {log T} (h : Life log T) (wf : TxWf T) (ids : Ids log T) {e : Xid × Txn} (he : e ∈ T) : ∀ q ∈ lineage log e.1, ∃ t, (q, t) ∈ T := by
  intro q hq
  have hb := ids.begun e he
  obtain ⟨⟨q', hq'⟩, hpre⟩ := h.mem _ _ hb q hq
  have hpre' : (lineage log q).map idOf <+: e.2.chain := by rw [h.live e he]; exact hpre.map idOf
  obtain ⟨e', he', hch⟩ := wf.prefixLive he hpre' (h.chain_ne hq')
  have : e'.1 = q := by rw [← h.code_eq (ids.begun e' he'), ← h.live e' he', hch, h.code_eq hq']
  exact ⟨e'.2, by rw [← this]; exact he'⟩

theorem mem_write {p : Xid} {ws : List Write} {o : Wr} {w : Write} (h : w ∈ Spec.write p ws o) : w ∈ ws ∨ w.1 = p := by
  cases o with
  | put v => rcases List.mem_cons.mp h with rfl | h; exact .inr rfl; exact .inl h
  | del => rcases List.mem_cons.mp h with rfl | h; exact .inr rfl; exact .inl h
  | putNew v =>
    simp only [Spec.write] at h
    split at h
    · exact .inl h
    · rcases List.mem_cons.mp h with rfl | h; exact .inr rfl; exact .inl h

theorem mem_writeAll {f : File} {k : Key} {p : Xid} {ops : List RowWr} {ws : List Write} {w : Write}
    (h : w ∈ ops.foldl (fun ws o => if o.file = f ∧ o.key = k then Spec.write p ws o.wr else ws) ws) : w ∈ ws ∨ w.1 = p := by
  induction ops generalizing ws with
  | nil => exact .inl h
  | cons o ops ih =>
    rcases ih h with h' | h'
    · simp only at h'
      split at h'
      · exact mem_write h'
      · exact .inl h'
    · exact .inr h'

theorem Valid.wbegun {files log} (h : Valid files log) (f : File) (k : Key) : ∀ w ∈ Spec.writes f k log, ∃ q, Rec.xbegin w.1 q ∈ log := by
  obtain ⟨s, hs⟩ := h.ghost f k; exact hs.wbegun

/-- Lineages do not change once there. -/
theorem Valid.lineage_old {files log r} (h : Valid files (log ++ [r])) {p : Xid} {q : Option Xid} (hp : Rec.xbegin p q ∈ log) : lineage (log ++ [r]) p = lineage log p := by
  have he := h.eff
  have ids := h.inv.1.txwf.2
  generalize (W (log ++ [r])).txns = T' at he
  generalize (W log).txns = T at he ids
  cases he with
  | @root p' h0 hlt hn =>
    rw [lineage_snoc]; simp only [lin, upd]
    rw [if_neg]; rintro rfl; have := ids.root _ _ hp; omega
  | @child p' q' t hr hc0 hcr ht htp htl hch hnew hn =>
    rw [lineage_snoc]; simp only [lin, upd]
    rw [if_neg]; rintro rfl; have := hnew _ _ hp rfl; omega
  | keep h1 => rw [lineage_rest h1]
  | enq => rw [lineage_rest (by simp)]
  | commitRoot => rw [lineage_rest (by simp)]
  | commitChild => rw [lineage_rest (by simp)]
  | abort => rw [lineage_rest (by simp)]
  | prepare => rw [lineage_rest (by simp)]

theorem Valid.noAborted {files log} (h : Valid files log) (f : File) (k : Key) : ∀ w ∈ Spec.writes f k log, ∀ q ∈ lineage log w.1, Rec.xabort q ∉ log := by
  induction h with
  | nil => simp [Spec.writes]
  | @snoc log r w hv hok hst ih =>
    have hv' : Valid files (log ++ [r]) := .snoc hv hok hst
    obtain ⟨wf, ids⟩ := hv.txwf
    have life := hv.life
    have old : ∀ w ∈ Spec.writes f k log, (∀ q ∈ lineage log w.1, r ≠ .xabort q) → ∀ q ∈ lineage (log ++ [r]) w.1, Rec.xabort q ∉ log ++ [r] := by
      intro w hw hr q hq hm
      obtain ⟨b, hb⟩ := hv.wbegun f k w hw
      rw [hv'.lineage_old hb] at hq
      rcases mem_snoc.mp hm with hm | hm
      · exact ih w hw q hq hm
      · exact hr q hq hm.symm
    intro w hw
    rw [writes_snoc] at hw
    cases r with
    | enq p ops =>
      rcases mem_writeAll hw with hw | hw
      · exact old w hw (by simp)
      · obtain ⟨⟨t, ht, -⟩, -⟩ := hok
        have hpm := get_mem ht
        intro q hq hm
        rw [hw, hv'.lineage_old (ids.begun _ hpm)] at hq
        obtain ⟨t', ht'⟩ := life.lineLive wf ids hpm q hq
        have := life.st3 q t' (get_of_mem wf.sorted ht')
        rcases mem_snoc.mp hm with hm | hm
        · exact this.2.1 hm
        · simp at hm
    | xabort p =>
      obtain ⟨hw, hp⟩ := List.mem_filter.mp hw
      simp only [decide_eq_true_eq] at hp
      refine old w hw ?_
      rintro q hq heq
      injection heq with heq; subst heq; exact hp hq
    | _ => exact old w hw (by simp)

/-- Each transaction a surviving write is nested in is live or has committed. -/
theorem Valid.survivors {files log} (h : Valid files log) {f : File} {k : Key} {w : Write} (hw : w ∈ Spec.writes f k log) :
    ∀ q ∈ lineage log w.1, (∃ t, (q, t) ∈ (W log).txns) ∨ Rec.xcommit q ∈ log := by
  intro q hq
  obtain ⟨b, hb⟩ := h.wbegun f k w hw
  obtain ⟨⟨q', hq'⟩, -⟩ := h.life.mem _ _ hb q hq
  rcases h.life.st1 q q' hq' with ⟨t, ht⟩ | h' | h'
  · exact .inl ⟨t, get_mem ht⟩
  · exact .inr h'
  · exact absurd h' (h.noAborted f k w hw q hq)

theorem Valid.keeps {files log} (h : Valid files log) {f : File} {k : Key} {w : Write} (hw : w ∈ Spec.writes f k log) :
    (∀ q ∈ lineage log w.1, ∀ t, (q, t) ∈ (W log).txns → t.prepared = true) ↔ Committed log w.1 ∨ InPrepared log w.1 := by
  obtain ⟨wf, ids⟩ := h.txwf
  have life := h.life
  obtain ⟨b, hb⟩ := h.wbegun f k w hw
  obtain ⟨l, hl, hlc, -⟩ := life.linl _ _ hb
  have hroot : ⟨w.1.root, 0⟩ ∈ lineage log w.1 := by rw [hl]; simp
  have hsurv := h.survivors hw
  constructor
  · intro hall
    have hchild : ∀ q ∈ lineage log w.1, q ≠ ⟨w.1.root, 0⟩ → Rec.xcommit q ∈ log := by
      intro q hq hne
      rcases hsurv q hq with ⟨t, ht⟩ | h'
      · exfalso
        have hp := hall q hq t ht
        rw [hl] at hq
        rcases List.mem_cons.mp hq with h' | h'
        · exact hne h'
        · have hc := (hlc q h').1
          cases hpar : t.parent with
          | none => exact hc (wf.root _ ht hpar).1
          | some q' => have := (wf.child _ ht q' hpar).1; simp only at this; rw [this] at hp; simp at hp
      · exact h'
    rcases hsurv _ hroot with ⟨t, ht⟩ | h'
    · right
      have hp := hall _ hroot t ht
      obtain ⟨h1, h2, h3⟩ := life.st3 _ t (get_of_mem wf.sorted ht)
      exact ⟨h3.mpr hp, h1, h2, hchild⟩
    · left
      intro q hq
      by_cases hne : q = ⟨w.1.root, 0⟩
      · rw [hne]; exact h'
      · exact hchild q hq hne
  · intro hor q hq t ht
    have hst := life.st3 _ t (get_of_mem wf.sorted ht)
    rcases hor with h' | ⟨h1, h2, h3, h4⟩
    · exact absurd (h' q hq) hst.1
    · by_cases hne : q = ⟨w.1.root, 0⟩
      · subst hne; exact hst.2.2.mp h1
      · exact absurd (h4 q hq hne) hst.1

theorem lineage_aborts (log : List Rec) (as : List Xid) : lineage (log ++ as.map Rec.xabort) = lineage log := by
  induction as using List.reverseRecOn with
  | nil => simp
  | append_singleton as a ih => rw [List.map_append, ← List.append_assoc, List.map_singleton, lineage_snoc, ih]; rfl

theorem writes_aborts (f : File) (k : Key) (log : List Rec) (as : List Xid) :
    Spec.writes f k (log ++ as.map Rec.xabort) = (Spec.writes f k log).filter fun w => ∀ a ∈ as, a ∉ lineage log w.1 := by
  induction as using List.reverseRecOn with
  | nil => simp only [List.map_nil, List.append_nil, List.not_mem_nil, false_implies, implies_true, decide_true]; exact (List.filter_eq_self.mpr fun _ _ => rfl).symm
  | append_singleton as a ih =>
    rw [List.map_append, ← List.append_assoc, List.map_singleton, writes_snoc, ih, lineage_aborts]
    simp only [stepWrites, List.filter_filter]
    apply List.filter_congr
    intro w _
    rw [Bool.eq_iff_iff]
    simp only [Bool.and_eq_true, decide_eq_true_eq, List.mem_append, List.mem_singleton]
    constructor
    · rintro ⟨h1, h2⟩ b (hb | rfl)
      · exact h2 b hb
      · exact h1
    · intro h; exact ⟨h a (.inr rfl), fun b hb => h b (.inl hb)⟩

/-- All the live transactions that are not prepared are aborted: what is left is what recovery promises. -/
theorem Valid.recovered {files log} (h : Valid files log) (as : List Xid) (has : ∀ q, q ∈ as ↔ ∃ t, (q, t) ∈ (W log).txns ∧ t.prepared = false) (f : File) (k : Key) :
    Spec.valueOf (Spec.writes f k (log ++ as.map Rec.xabort)) = Spec.recovered f k log := by
  rw [writes_aborts]
  unfold Spec.recovered
  congr 1
  apply List.filter_congr
  intro w hw
  rw [Bool.eq_iff_iff]
  simp only [decide_eq_true_eq]
  rw [← h.keeps hw]
  constructor
  · intro h1 q hq t ht
    cases hp : t.prepared with
    | true => rfl
    | false => exact absurd hq (h1 q ((has q).mpr ⟨t, ht, hp⟩))
  · intro h1 a ha hq
    obtain ⟨t, ht, hp⟩ := (has a).mp ha
    have := h1 a hq t ht
    rw [this] at hp; simp at hp

theorem mem_aborts {log : List Rec} {as : List Xid} {r : Rec} (hr : ∀ p, r ≠ .xabort p) : r ∈ log ++ as.map Rec.xabort ↔ r ∈ log := by
  rw [List.mem_append]
  constructor
  · rintro (h | h)
    · exact h
    · obtain ⟨a, -, rfl⟩ := List.mem_map.mp h; exact absurd rfl (hr a)
  · exact .inl

/-- Some of them are aborted: recovery from there promises the same. -/
theorem Valid.recovered_some {files log} (h : Valid files log) (as : List Xid) (has : ∀ q ∈ as, ∃ t, (q, t) ∈ (W log).txns ∧ t.prepared = false) (f : File) (k : Key) :
    Spec.recovered f k (log ++ as.map Rec.xabort) = Spec.recovered f k log := by
  obtain ⟨wf, ids⟩ := h.txwf
  have hc : ∀ p, Committed (log ++ as.map Rec.xabort) p ↔ Committed log p := by
    intro p; unfold Committed; rw [lineage_aborts]
    exact forall₂_congr fun q _ => mem_aborts (by simp)
  have hp : ∀ p, InPrepared (log ++ as.map Rec.xabort) p ↔ InPrepared log p := by
    intro p; unfold InPrepared
    rw [lineage_aborts, mem_aborts (by simp), mem_aborts (by simp)]
    constructor
    · rintro ⟨h1, h2, h3, h4⟩
      exact ⟨h1, h2, fun h' => h3 (List.mem_append_left _ h'), fun q hq hne => (mem_aborts (by simp)).mp (h4 q hq hne)⟩
    · rintro ⟨h1, h2, h3, h4⟩
      refine ⟨h1, h2, ?_, fun q hq hne => (mem_aborts (by simp)).mpr (h4 q hq hne)⟩
      intro hm
      rcases List.mem_append.mp hm with hm | hm
      · exact h3 hm
      · obtain ⟨a, ha, he⟩ := List.mem_map.mp hm
        injection he with he; subst he
        obtain ⟨t, ht, htp⟩ := has _ ha
        have := (h.life.st3 _ t (get_of_mem wf.sorted ht)).2.2.mp h1
        rw [this] at htp; simp at htp
  unfold Spec.recovered
  congr 1
  rw [writes_aborts, List.filter_filter]
  apply List.filter_congr
  intro w hw
  rw [Bool.eq_iff_iff]
  simp only [Bool.and_eq_true, decide_eq_true_eq, hc, hp]
  constructor
  · exact fun h => h.1
  · intro hor
    refine ⟨hor, ?_⟩
    have := (h.keeps hw).mpr hor
    intro a ha hq
    obtain ⟨t, ht, htp⟩ := has a ha
    rw [this a hq t ht] at htp; simp at htp

/-- What is live after some aborts was live before. -/
theorem live_before {files log} (h : Valid files log) {as : List Xid} (h' : Valid files (log ++ as.map Rec.xabort)) {p : Xid} {t : Txn}
    (hp : (W (log ++ as.map Rec.xabort)).txns.get p = some t) (htp : t.prepared = false) : ∃ t, (p, t) ∈ (W log).txns ∧ t.prepared = false := by
  suffices H : ∀ bs : List Xid, Valid files (log ++ bs.map Rec.xabort) → ∀ p t, (W (log ++ bs.map Rec.xabort)).txns.get p = some t → (W log).txns.get p = some t from
    ⟨t, get_mem (H as h' p t hp), htp⟩
  intro bs
  induction bs using List.reverseRecOn with
  | nil => intro _ p t; simp
  | append_singleton bs b ih =>
    intro hv p t hg
    rw [List.map_append, ← List.append_assoc, List.map_singleton] at hv hg
    obtain ⟨hv1, -, hst⟩ := hv.inv
    obtain ⟨h1, -⟩ := World.step_some.mp hst
    apply ih hv1
    simp only [txStep] at h1
    split at h1
    · split at h1
      · injection h1 with h1
        rw [← h1, get_erase] at hg
        split at hg
        · simp at hg
        · exact hg
      · simp at h1
    · simp at h1

theorem lineage_prefix {files : List File} {a L : List Rec} (h : Valid files L) (hp : a <+: L) {p : Xid} {q : Option Xid} (hq : Rec.xbegin p q ∈ a) : lineage L p = lineage a p := by
  obtain ⟨b, rfl⟩ := hp
  induction b using List.reverseRecOn with
  | nil => simp
  | append_singleton b r ih =>
    rw [← List.append_assoc] at h ⊢
    rw [h.lineage_old (List.mem_append_left _ hq)]
    exact ih h.inv.1

/-- A transaction does not both commit and abort. -/
theorem Valid.notBoth {files log} (h : Valid files log) : ∀ q, Rec.xcommit q ∈ log → Rec.xabort q ∉ log := by
  induction h with
  | nil => simp
  | @snoc log r w hv hok hst ih =>
    intro q h1 h2
    have life := hv.life
    rcases mem_snoc.mp h1 with h3 | h3 <;> rcases mem_snoc.mp h2 with h4 | h4
    · exact ih q h3 h4
    · subst h4
      obtain ⟨t, ht⟩ := get_some_of_ne hok.1
      exact (life.st3 q t ht).1 h3
    · subst h3
      obtain ⟨t, ht⟩ := get_some_of_ne hok.1
      exact (life.st3 q t ht).2.1 h4
    · rw [← h3] at h4; simp at h4

theorem allWrites_snoc (f : File) (k : Key) (log : List Rec) (r : Rec) : allWrites f k (log ++ [r]) = allWrites f k log ++ allWrites f k [r] := by
  simp [allWrites]

theorem writeAll_last {f : File} {k : Key} {p : Xid} (ops : List RowWr) (ws : List Write) :
    (ops.filterMap (fun o => if o.file = f ∧ o.key = k then some (p, o.wr) else none) = [] →
      ops.foldl (fun ws o => if o.file = f ∧ o.key = k then Spec.write p ws o.wr else ws) ws = ws) ∧
    ∀ q wr, (ops.filterMap (fun o => if o.file = f ∧ o.key = k then some (p, o.wr) else none)).getLast? = some (q, wr) → q = p ∧
      ∃ ws', ops.foldl (fun ws o => if o.file = f ∧ o.key = k then Spec.write p ws o.wr else ws) ws = Spec.write p ws' wr := by
  induction ops using List.reverseRecOn with
  | nil => simp
  | append_singleton ops o ih =>
    rw [List.filterMap_append, List.foldl_append]
    simp only [List.filterMap_cons, List.filterMap_nil, List.foldl_cons, List.foldl_nil]
    by_cases ho : o.file = f ∧ o.key = k
    · rw [if_pos ho, if_pos ho]
      constructor
      · intro h; simp at h
      · intro q wr h
        simp only [List.getLast?_append, List.getLast?_singleton, Option.some_or, Option.some.injEq, Prod.mk.injEq] at h
        obtain ⟨rfl, rfl⟩ := h
        exact ⟨rfl, _, rfl⟩
    · rw [if_neg ho, if_neg ho]
      simp only [List.append_nil]
      exact ih

/-- The last write record of a row that is not undone is on top. -/
theorem lastWrite {files log} (h : Valid files log) {f : File} {k : Key} {p : Xid} {wr : Wr} {v : Option Bytes} (hl : (allWrites f k log).getLast? = some (p, wr))
    (hv : (∃ x, wr = .put x ∧ v = some x) ∨ (wr = .del ∧ v = none)) (hno : ∀ q ∈ lineage log p, Rec.xabort q ∉ log) :
    (Spec.writes f k log).head? = some (p, v) := by
  suffices H : Valid files log → (allWrites f k log).getLast? = some (p, wr) → (∃ q, Rec.xbegin p q ∈ log) ∧ ((∀ q ∈ lineage log p, Rec.xabort q ∉ log) → (Spec.writes f k log).head? = some (p, v)) from
    (H h hl).2 hno
  clear hno hl h
  intro h
  induction h with
  | nil => intro hl; simp [allWrites] at hl
  | @snoc log r w hval hok hst ih =>
    intro hl
    have hval' : Valid files (log ++ [r]) := .snoc hval hok hst
    rw [allWrites_snoc] at hl
    have old : allWrites f k [r] = [] → (∀ ws, (∀ q, r = .xabort q → q ∉ lineage log p) → ws.head? = some (p, v) → (stepWrites f k (lineage log) ws r).head? = some (p, v)) →
        (∃ q, Rec.xbegin p q ∈ log ++ [r]) ∧ ((∀ q ∈ lineage (log ++ [r]) p, Rec.xabort q ∉ log ++ [r]) → (Spec.writes f k (log ++ [r])).head? = some (p, v)) := by
      intro h0 hw
      rw [h0, List.append_nil] at hl
      obtain ⟨⟨q, hq⟩, i2⟩ := ih hl
      refine ⟨⟨q, List.mem_append_left _ hq⟩, fun hno => ?_⟩
      rw [hval'.lineage_old hq] at hno
      rw [writes_snoc]
      apply hw
      · rintro q' rfl hq'; exact hno q' hq' (by simp)
      · exact i2 fun q' hq' hm => hno q' hq' (List.mem_append_left _ hm)
    cases r with
    | enq p' ops =>
      have hone : allWrites f k [.enq p' ops] = ops.filterMap (fun o => if o.file = f ∧ o.key = k then some (p', o.wr) else none) := by simp [allWrites]
      obtain ⟨w1, w2⟩ := writeAll_last (f := f) (k := k) (p := p') ops (Spec.writes f k log)
      by_cases h0 : allWrites f k [.enq p' ops] = []
      · refine old h0 ?_
        intro ws _ hws
        have := (writeAll_last (f := f) (k := k) (p := p') ops ws).1 (by rw [← hone]; exact h0)
        simp only [stepWrites]; rw [this]; exact hws
      · rw [List.getLast?_append, Option.or_of_isSome (by rw [List.getLast?_isSome]; exact h0), hone] at hl
        obtain ⟨rfl, ws', e⟩ := w2 p wr hl
        obtain ⟨⟨t, ht, -⟩, -⟩ := hok
        refine ⟨⟨_, List.mem_append_left _ (hval.txwf.2.begun _ (get_mem ht))⟩, fun _ => ?_⟩
        rw [writes_snoc]; simp only [stepWrites]; rw [e]
        rcases hv with ⟨x, rfl, rfl⟩ | ⟨rfl, rfl⟩ <;> rfl
    | xabort q =>
      refine old (by simp [allWrites]) ?_
      intro ws hq hws
      cases ws with
      | nil => simp at hws
      | cons w ws =>
        simp only [List.head?_cons, Option.some.injEq] at hws
        subst hws
        simp only [stepWrites]
        rw [List.filter_cons, if_pos (by simpa using hq q rfl)]; rfl
    | _ => exact old (by simp [allWrites]) (fun ws _ hws => hws)

end Verif.Rec
