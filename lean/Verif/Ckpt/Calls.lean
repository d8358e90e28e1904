import Verif.Ckpt.Steps
/-! What callers do keeps the invariant. -/
set_option linter.unusedVariables false
set_option linter.unusedSimpArgs false
namespace Verif.Ckpt
variable {V : Type} {cl : Nat → Bool} {s s' : St V} {sp sp' : Spec.S V} {es : List (Ev V)}
open Spec (Held)

@[local simp] theorem makeClone_lock' (p : Pair V) : p.makeClone.lock = p.lock := rfl
@[local simp] theorem written_lock' (p : Pair V) : p.written.lock = p.lock := rfl

theorem find_deps {deps : List (Nat × Bool)} (hn : (deps.map (·.1)).Nodup) {d : Nat × Bool} (hd : d ∈ deps) : deps.find? (·.1 = d.1) = some d := by
  induction deps with
  | nil => cases hd
  | cons a l ih =>
    simp only [List.map_cons, List.nodup_cons] at hn
    rw [List.find?_cons]
    rcases List.mem_cons.mp hd with rfl | hd
    · simp
    · have : a.1 ≠ d.1 := fun e => hn.1 (e ▸ List.mem_map_of_mem hd)
      simp only [this, decide_false]
      exact ih hn.2 hd

theorem itemRole_bits (s : St V) {ds : List (Nat × Bool)} (hn : (ds.map (·.1)).Nodup) {d : Nat × Bool} (hd : d ∈ ds) : itemRole (s.bits ds) d.1 = .item (s.pending d.1) d.2 := by
  unfold itemRole St.bits
  rw [List.find?_map]
  have := find_deps hn hd
  simp only [Function.comp_def, this, Option.map_some]

theorem bits_nodes (s : St V) (ds : List (Nat × Bool)) : (s.bits ds).map (·.node) = ds.map (·.1) := by
  simp [St.bits]

theorem clear_pair (s : St V) (ns : List Nat) (m : Nat) : (s.clear ns).pair m = if m ∈ ns then (s.pair m).map (fun p => { p with pending := false }) else s.pair m := rfl

theorem i_lock (h : Inv s sp) {t n : Nat} {deps : List (Nat × Bool)} {p : Pair V} (hc : s.pc t = .idle) (hp : s.pair n = some p) (hl : p.lock = none) (hr : p.readers = 0)
    (hd : Spec.Deps s t deps) : Inv ((s.setPair n (some { p with lock := some (.thr t) })).setPc t (.locked n deps)) sp := by
  have hnd : n ∉ deps.map (·.1) := by
    intro hm
    obtain ⟨d, hd1, hd2⟩ := List.mem_map.mp hm
    obtain ⟨q, hq, hl', _⟩ := hd.2 d hd1
    rw [hd2, hp] at hq; cases hq; rw [hl] at hl'; cases hl'
  refine inv_of (N := n :: deps.map (·.1)) (t := t) h ?_ ?_ ?_ ?_ ?_ ?_ ?_ ?_ ?_ ?_ ?_
  · constructor <;> (try intro m hm) <;> simp_all [St.setPair, St.setPc]
  · intro m hm
    rcases List.mem_cons.mp hm with rfl | hm
    · refine good_some ?_ (g_lock (t := t) (h.some hp) hl hr (c := .locked) (.inl rfl)) rfl
      simp [view, St.setPair, St.setPc, St.roleAt, lockRole, roleOf]
      exact ⟨rfl, rfl, rfl⟩
    · obtain ⟨d, hd1, rfl⟩ := List.mem_map.mp hm
      obtain ⟨q, hq, hl', hch⟩ := hd.2 d hd1
      have hne : d.1 ≠ n := fun e => hnd (e ▸ hm)
      refine good_some ?_ (g_dep (h.some hq) (by rw [role_thr hq hl', hc]; rfl) hch) rfl
      simp [view, St.setPair, St.setPc, St.roleAt, lockRole, roleOf, hq, hl', hne, find_deps hd.1 hd1]
      exact ⟨rfl, rfl, rfl⟩
  · intro u hu; simp [St.setPair, St.setPc, hu]
  · intro m hm _
    simp only [List.mem_cons, not_or] at hm
    rw [hc]
    simp only [St.setPc, if_true, roleOf, if_neg hm.1]
    rw [List.find?_eq_none.mpr]
    intro d hd1; simp only [decide_eq_true_eq]; rintro rfl; exact hm.2 (List.mem_map_of_mem hd1)
  · rintro u hu m hm ⟨q, hq, hq2⟩
    have : m ≠ n := by rintro rfl; rw [hp] at hq; cases hq; rw [hl] at hq2; cases hq2
    exact ⟨q, by simp [St.setPair, St.setPc, this, hq], hq2⟩
  · simp only [St.setPc, if_true, nodesOf]; exact List.nodup_cons.mpr ⟨hnd, hd.1⟩
  · intro m hm hm2
    simp only [St.setPc, if_true, nodesOf] at hm
    exact absurd hm hm2
  · intro m hm _
    rcases List.mem_cons.mp hm with rfl | hm
    · exact ⟨{ p with lock := some (.thr t) }, by simp [St.setPair, St.setPc], rfl⟩
    · obtain ⟨d, hd1, rfl⟩ := List.mem_map.mp hm
      obtain ⟨q, hq, hl', hch⟩ := hd.2 d hd1
      have hne : d.1 ≠ n := fun e => hnd (e ▸ hm)
      exact ⟨q, by simp [St.setPair, St.setPc, hne, hq], hl'⟩
  · simp [St.setPc, inExp]
  · intro u _ hu; exact hu
  · intro m
    show m ∈ s.tab ↔ _
    rw [h.tab m]
    by_cases hm : m = n <;> simp [St.setPair, St.setPc, hm, hp]

theorem i_bits (h : Inv s sp) {t n : Nat} {deps : List (Nat × Bool)} (hc : s.pc t = .locked n deps) :
    Inv ((s.clear (n :: deps.map (·.1))).setPc t (.work (s.bits ((n, false) :: deps)) .ret)) (Spec.ev sp (.start (n :: deps.map (·.1)))) := by
  have hnd := h.nodup t
  have hhd := h.held t
  rw [hc] at hnd hhd
  simp only [nodesOf] at hnd hhd
  have hnd' : (((n, false) :: deps).map (·.1)).Nodup := hnd
  have hnd2 : n ∉ deps.map (·.1) ∧ (deps.map (·.1)).Nodup := List.nodup_cons.mp hnd
  refine inv_of (N := n :: deps.map (·.1)) (t := t) h ?_ ?_ ?_ ?_ ?_ ?_ ?_ ?_ ?_ ?_ ?_
  · constructor <;> (try intro m hm) <;> (try simp only [St.setPc, clear_pair, Spec.ev, if_neg hm]) <;> first | rfl | exact Iff.rfl
  · intro m hm
    obtain ⟨q, hq, hl⟩ := hhd m hm
    rcases List.mem_cons.mp hm with rfl | hm'
    · refine good_some ?_ (g_bits (h.some hq) (by rw [role_thr hq hl, hc]; simp [roleOf])) rfl
      have := itemRole_bits s hnd' (d := (m, false)) (by simp)
      simp only at this
      simp [view, St.setPc, clear_pair, St.roleAt, lockRole, roleOf, hq, hl, workRole, this, St.pending, Spec.ev, St.clear]
    · obtain ⟨d, hd1, rfl⟩ := List.mem_map.mp hm'
      have hne : d.1 ≠ n := fun e => hnd2.1 (e ▸ hm')
      refine good_some ?_ (g_bitsDep (dd := d.2) (h.some hq) (by rw [role_thr hq hl, hc]; simp [roleOf, hne, find_deps hnd2.2 hd1])) rfl
      have := itemRole_bits s hnd' (d := d) (by simp [hd1])
      have h3 : (s.clear (n :: deps.map (·.1))).pair d.1 = some { q with pending := false } := by rw [clear_pair, if_pos hm, hq]; rfl
      have h4 : d.1 ∈ n :: deps.map (·.1) := hm
      simp only [view, St.setPc, St.roleAt, lockRole, roleOf, h3, hl, if_true, workRole, this, St.pending, hq, Spec.ev, if_pos h4]
      simp [St.clear]
  · intro u hu; simp [St.setPc, St.clear, hu]
  · intro m hm _
    rw [hc]
    simp only [St.setPc, if_true, roleOf]
    rw [workRole_none (by rw [bits_nodes]; simpa [Then.nodes] using hm)]
    simp only [List.mem_cons, not_or] at hm
    rw [if_neg hm.1, List.find?_eq_none.mpr]
    intro d hd1; simp only [decide_eq_true_eq]; rintro rfl; exact hm.2 (List.mem_map_of_mem hd1)
  · rintro u hu m hm ⟨q, hq, hq2⟩
    exact ⟨{ q with pending := false }, by simp only [St.setPc, clear_pair, if_pos hm, hq, Option.map_some], hq2⟩
  · simp only [St.setPc, if_true, nodesOf, bits_nodes, Then.nodes, List.nil_append]; exact hnd
  · intro m hm hm2
    simp only [St.setPc, if_true, nodesOf, bits_nodes, Then.nodes, List.nil_append] at hm
    exact absurd hm hm2
  · intro m hm _
    obtain ⟨q, hq, hl⟩ := hhd m hm
    exact ⟨{ q with pending := false }, by simp only [St.setPc, clear_pair, if_pos hm, hq, Option.map_some], hl⟩
  · simp [St.setPc, inExp]
  · intro u _ hu; exact hu
  · intro m
    show m ∈ s.tab ↔ _
    rw [h.tab m]
    simp only [St.setPc, clear_pair]
    split <;> simp

/-- A node that gets into the cache, with the bits of the nodes given along. -/
theorem i_insert (h : Inv s sp) {t n : Nat} {deps : List (Nat × Bool)} {v : Option V} {dirty : Bool} {k : Then} (hc : s.pc t = .idle) (hp : s.pair n = none)
    (hd : Spec.Deps s t deps) (hk : k = .ret ∨ k = .fetch n)
    (hl : ∀ m, m ≠ n → sp'.latest m = sp.latest m) (hi : ∀ m, m ≠ n → sp'.image m = sp.image m)
    (ho : ∀ m, sp'.old m = if m ∈ n :: deps.map (·.1) then false else sp.old m)
    (hg : Good (view (((s.clear (deps.map (·.1))).insert n t v dirty).setPc t (.work (s.bits deps) k)) sp' n)) :
    Inv (((s.clear (deps.map (·.1))).insert n t v dirty).setPc t (.work (s.bits deps) k)) sp' := by
  have hnd : n ∉ deps.map (·.1) := by
    intro hm
    obtain ⟨d, hd1, hd2⟩ := List.mem_map.mp hm
    obtain ⟨q, hq, hl', _⟩ := hd.2 d hd1
    rw [hd2, hp] at hq; cases hq
  have hpair : ∀ m, (((s.clear (deps.map (·.1))).insert n t v dirty).setPc t (.work (s.bits deps) k)).pair m =
      if m = n then some ⟨v, dirty, dirty, false, none, some (.thr t), 0, none⟩ else if m ∈ deps.map (·.1) then (s.pair m).map (fun p => { p with pending := false }) else s.pair m := fun m => rfl
  have hkn : k.nodes = [] ∨ k.nodes = [n] := by rcases hk with rfl | rfl <;> simp [Then.nodes]
  have hkm : ∀ m, m ≠ n → m ∉ k.nodes := by intro m hm; rcases hkn with e | e <;> simp [e, hm]
  refine inv_of (N := n :: deps.map (·.1)) (t := t) h ?_ ?_ ?_ ?_ ?_ ?_ ?_ ?_ ?_ ?_ ?_
  · constructor <;> (try intro m hm)
    · have hmn : ¬ m = n := fun e => hm (e ▸ List.mem_cons_self)
      rw [hpair, if_neg hmn, if_neg (fun e => hm (List.mem_cons_of_mem _ e))]
    · rfl
    · rfl
    · exact hl m (fun e => hm (e ▸ List.mem_cons_self))
    · exact hi m (fun e => hm (e ▸ List.mem_cons_self))
    · rw [ho, if_neg hm]
    · rfl
    · exact Iff.rfl
    · rfl
    · exact Iff.rfl
    · exact Iff.rfl
    · rfl
  · intro m hm
    rcases List.mem_cons.mp hm with rfl | hm'
    · exact hg
    · obtain ⟨d, hd1, rfl⟩ := List.mem_map.mp hm'
      obtain ⟨q, hq, hl', hch⟩ := hd.2 d hd1
      have hne : d.1 ≠ n := fun e => hnd (e ▸ hm')
      refine good_some ?_ (g_bitsHeld (dd := d.2) (h.some hq) (by rw [role_thr hq hl', hc]; rfl) hch) rfl
      have := itemRole_bits s hd.1 (d := d) hd1
      have h3 := hpair d.1
      rw [if_neg hne, if_pos hm', hq] at h3
      have h5 : k ≠ .fetch d.1 := by rcases hk with rfl | rfl <;> simp [Ne.symm hne]
      simp only [view, St.roleAt, h3, lockRole, hl', Option.map_some]
      simp only [St.setPc, if_true, roleOf, workRole, if_neg h5, this, St.pending, hq, ho, if_pos hm, hl d.1 hne, hi d.1 hne]
      simp [St.insert, St.setPair, St.clear]
  · intro u hu; simp [St.setPc, St.clear, St.insert, St.setPair, hu]
  · intro m hm _
    rw [hc]
    simp only [St.setPc, if_true, roleOf]
    simp only [List.mem_cons, not_or] at hm
    rw [workRole_none (by rw [bits_nodes, List.mem_append, not_or]; exact ⟨hkm m hm.1, hm.2⟩)]
  · rintro u hu m hm ⟨q, hq, hq2⟩
    have hne : m ≠ n := by rintro rfl; rw [hp] at hq; cases hq
    rcases List.mem_cons.mp hm with rfl | hm'
    · exact absurd rfl hne
    · exact ⟨{ q with pending := false }, by rw [hpair, if_neg hne, if_pos hm', hq]; rfl, hq2⟩
  · simp only [St.setPc, if_true, nodesOf, bits_nodes]
    rcases hkn with e | e <;> rw [e]
    · exact hd.1
    · exact List.nodup_cons.mpr ⟨hnd, hd.1⟩
  · intro m hm hm2
    simp only [St.setPc, if_true, nodesOf, bits_nodes] at hm
    rcases hkn with e | e <;> rw [e] at hm
    · exact absurd (List.mem_cons_of_mem _ hm) hm2
    · exact absurd hm hm2
  · intro m hm _
    rcases List.mem_cons.mp hm with rfl | hm'
    · exact ⟨_, by rw [hpair, if_pos rfl], rfl⟩
    · obtain ⟨d, hd1, rfl⟩ := List.mem_map.mp hm'
      obtain ⟨q, hq, hl', hch⟩ := hd.2 d hd1
      have hne : d.1 ≠ n := fun e => hnd (e ▸ hm')
      exact ⟨{ q with pending := false }, by rw [hpair, if_neg hne, if_pos hm', hq]; rfl, hl'⟩
  · simp [St.setPc, inExp]
  · intro u _ hu; exact hu
  · intro m
    show m ∈ n :: s.tab ↔ _
    rw [hpair, List.mem_cons, h.tab m]
    by_cases hm : m = n
    · simp [hm]
    · simp only [hm, if_false, false_or]
      split <;> simp

theorem i_begin (h : Inv s sp) {incl : Nat → Bool} (hs : s.begin incl = .ok s' es) : Inv s' (Spec.evs sp es) := by
  unfold St.begin at hs
  split at hs
  · next hg =>
    simp only [Bool.and_eq_true, decide_eq_true_eq, List.isEmpty_iff] at hg
    split at hs
    · cases hs
    · obtain ⟨rfl, rfl⟩ := R.ok_inj hs
      refine ⟨fun n => ?_, h.nodup, fun t n hm => ?_, h.exp, fun n => ?_⟩
      · cases hp : s.pair n with
        | none =>
          have g := h.none hp
          have hnt : n ∉ s.tab := fun hm => (h.tab n).mp hm hp
          refine good_none rfl ?_ (by simp [view, hnt, hp])
          refine ⟨g.cur, fun _ hi => ?_, by simp [view, hnt], by simp [view, cpAt], g.job⟩
          simp only [view] at hi ⊢
          simp only [hi, if_true]
          exact g.cur
        | some p =>
          have g := h.some hp
          have hnt : n ∈ s.tab := (h.tab n).mpr (by rw [hp]; simp)
          have hrun : (view s sp n).run = false := by simp [view, hg.1.1, Cp.running]
          have hhdr : (view s sp n).hdr = false := by simp [view, hg.1.1]
          have hat : (view s sp n).at_ = .no := by simp [view, hg.1.1, cpAt]
          have hex : ∀ t, inExp (s.pc t) = false := by
            intro t
            cases e : inExp (s.pc t) with
            | false => rfl
            | true => have := h.exp t e; rw [hg.1.2] at this; cases this
          cases hi : incl n with
          | true =>
            refine good_some ?_ (g_beginIncl g hrun hhdr ?_) rfl
            · simp [view, hnt, hi, hp, Cp.running, Spec.evs, Spec.ev, cpAt, St.roleAt, hg.1.1]
            · intro f
              have hrl : (view s sp n).role = lockRole s.pc n p.lock := by simp [view, St.roleAt, hp]
              rw [hrl]
              cases p.lock with
              | none => simp [lockRole]
              | some o =>
                cases o with
                | cp => simp [lockRole]
                | job => simp [lockRole]
                | thr t =>
                  have := hex t
                  simp only [lockRole, ne_eq]
                  cases hpc : s.pc t <;> simp only [hpc, inExp, roleOf, workRole, itemRole] at this ⊢ <;> grind
          | false =>
            refine good_some ?_ (g_begin (b := n ∈ s.tab.filter incl) g hrun hhdr) rfl
            simp [view, hnt, hi, hp, Cp.running, Spec.evs, Spec.ev, cpAt, St.roleAt, hg.1.1]
      · obtain ⟨p, hp, hl⟩ := h.held t n hm
        by_cases hi : n ∈ s.tab ∧ incl n = true
        · exact ⟨{ p with pending := true }, by simp [hi, hp], hl⟩
        · exact ⟨p, by simp only [hi, if_false]; exact hp, hl⟩
      · show n ∈ s.tab ↔ _
        rw [h.tab n]
        by_cases hi : n ∈ s.tab ∧ incl n = true
        · simp [hi]
        · simp only [hi, if_false]
  · cases hs

theorem i_cpPhase (h : Inv s sp) {c : Cp} (hc : (s.cp = .run ∧ c = .header ∧ s.plist = [] ∧ s.jobs = []) ∨ (s.cp = .header ∧ c = .idle)) : Inv { s with cp := c } sp := by
  refine ⟨fun n => ?_, h.nodup, h.held, h.exp, h.tab⟩
  cases hp : s.pair n with
  | none =>
    have g := h.none hp
    refine good_none rfl ?_ hp
    rcases hc with ⟨h1, rfl, h2, h3⟩ | ⟨h1, rfl⟩
    · exact ⟨g.cur, fun _ hi => g.inp (.inl (by simp [view, h1, Cp.running])) hi, g.pl, rfl, g.job⟩
    · exact ⟨g.cur, fun hh hi => by simp [view, Cp.running] at hh, g.pl, rfl, g.job⟩
  | some p =>
    have g := h.some hp
    rcases hc with ⟨h1, rfl, h2, h3⟩ | ⟨h1, rfl⟩
    · refine good_some ?_ (g_finish g (by simp [view, h1, Cp.running]) (by simp [view, h1, cpAt]) (by simp [view, h2]) (by simp [view, h3])) rfl
      simp [view, h1, h2, h3, hp, cpAt, Cp.running, St.roleAt]
    · refine good_some ?_ (g_end g (by simp [view, h1])) rfl
      simp [view, h1, hp, cpAt, Cp.running, St.roleAt]

/-- A step in which one node changes and no thread moves. -/
theorem i_still (h : Inv s sp) {n : Nat} {p p' : Pair V} {v : NV V} (hp : s.pair n = some p) (hpc : s'.pc = s.pc) (hex : s'.exp = s.exp) (htab : s'.tab = s.tab)
    (f : Same s s' sp sp' [n]) (hp' : s'.pair n = some p') (hl : ∀ u, p.lock = some (.thr u) → p'.lock = some (.thr u) ∨ n ∉ nodesOf (s.pc u))
    (e : view s' sp' n = v) (g : GoodP v p') : Inv s' sp' := by
  have hsame : ∀ u m, m ≠ n → Held s u m → Held s' u m := fun u m hm ⟨q, h1, h2⟩ => ⟨q, by rw [f.pair m (by simpa using hm)]; exact h1, h2⟩
  refine ⟨fun m => ?_, fun u => by rw [hpc]; exact h.nodup u, fun u m hm => ?_, fun u hu => ?_, fun m => ?_⟩
  · by_cases hm : m = n
    · subst hm; exact good_some e g (by rw [← e]; exact hp')
    · have hm' : m ∉ [n] := by simpa using hm
      have e : view s' sp' m = view s sp m :=
        view_same (f.pair m hm') (f.cur m hm') (f.inp m hm') (f.latest m hm') (f.image m hm') (f.old m hm') (fun u _ => by rw [hpc]) f.run f.hdr (by rw [f.incl]) (f.pl m hm') (f.jobs m hm') (f.at_ m hm')
      rw [e]; exact h.node m
  · rw [hpc] at hm
    by_cases hmn : m = n
    · subst hmn
      obtain ⟨q, hq, hq2⟩ := h.held u m hm
      rw [hp] at hq; cases hq
      rcases hl u hq2 with h1 | h1
      · exact ⟨p', hp', h1⟩
      · exact absurd hm h1
    · exact hsame u m hmn (h.held u m hm)
  · rw [hpc] at hu; rw [hex]; exact h.exp u hu
  · rw [htab, h.tab m]
    by_cases hmn : m = n
    · subst hmn; simp [hp, hp']
    · rw [f.pair m (by simpa using hmn)]

theorem hdr_run {n : Nat} : (view s sp n).hdr = true → (view s sp n).run = false := by
  intro e
  simp only [view, decide_eq_true_eq] at e ⊢
  rw [e]; rfl

/-- Every step keeps the invariant. -/
theorem inv_step (h : Inv s sp) {a : Act V} (hlg : Spec.Legal s sp a) (hs : step cl s a = .ok s' es) : Inv s' (Spec.evs sp es) := by
  cases a with
  | lock t n deps =>
    simp only [step] at hs
    split at hs
    · next hc hp =>
      split at hs
      · next hg => obtain ⟨rfl, rfl⟩ := R.ok_inj hs; exact i_lock h hc hp hg.1 hg.2 hlg
      · cases hs
    · cases hs
  | miss t n deps =>
    simp only [step] at hs
    split at hs
    · next hc hp =>
      obtain ⟨rfl, rfl⟩ := R.ok_inj hs
      refine i_insert h hc hp hlg.1 (.inr rfl) (fun _ _ => rfl) (fun _ _ => rfl) (fun m => rfl) ?_
      refine good_some ?_ (g_insert (t := t) (k := true) (h.none hp) (by simp [view, hp]) hlg.2 ?_) rfl
      · simp [view, St.insert, St.setPair, St.setPc, St.clear, St.roleAt, lockRole, roleOf, workRole, Spec.evs, Spec.ev] <;> (try (repeat' constructor))
      · exact hdr_run
    · cases hs
  | bits t =>
    simp only [step] at hs
    split at hs
    · next hc => obtain ⟨rfl, rfl⟩ := R.ok_inj hs; exact i_bits h hc
    · cases hs
  | tryDirty t n =>
    simp only [step] at hs
    split at hs
    · next p hc hp =>
      split at hs
      · next hg =>
        obtain ⟨rfl, rfl⟩ := R.ok_inj hs
        refine i_still h hp rfl rfl rfl (by same_tac) (if_pos rfl) (fun u hu => by rw [hg.1] at hu; cases hu) ?_ (g_tryDirty (t := t) (h.some hp) hg.1 hg.2.1 hg.2.2.1 (by simpa using hg.2.2.2))
        simp [view, St.setPair, St.roleAt, lockRole, hc, roleOf, Spec.evs, Spec.ev] <;> (try (repeat' constructor))
      · cases hs
    · cases hs
  | work t =>
    simp only [step] at hs
    split at hs
    · next hc => exact i_work h hc hs
    · next hc => exact i_hold h hc hs
    · next hc =>
      split at hs
      · cases hs
      · next hp => obtain ⟨rfl, rfl⟩ := R.ok_inj hs; exact i_wrote h hc hp
    · cases hs
  | fetch t d => exact i_fetch h hs
  | put t n v deps =>
    simp only [step] at hs
    split at hs
    · next hc hp =>
      obtain ⟨rfl, rfl⟩ := R.ok_inj hs
      refine i_insert h hc hp hlg.1 (.inl rfl) (fun m hm => by simp [Spec.evs, Spec.ev, hm]) (fun m hm => by simp [Spec.evs, Spec.ev]) (fun m => rfl) ?_
      refine good_some ?_ (g_put (t := t) (x := v) (h.none hp) (by simp [view, hp]) hlg.2 ?_) rfl
      · have hr : workRole (s.bits deps) .ret n = .held := workRole_none (by
          rw [bits_nodes]
          simp only [Then.nodes, List.nil_append]
          intro hm
          obtain ⟨d, hd1, hd2⟩ := List.mem_map.mp hm
          obtain ⟨q, hq, _⟩ := hlg.1.2 d hd1
          rw [hd2, hp] at hq; cases hq)
        simp [view, St.insert, St.setPair, St.setPc, St.clear, St.roleAt, lockRole, roleOf, hr, Spec.evs, Spec.ev]
      · exact hdr_run
    · cases hs
  | modify t n v =>
    simp only [step] at hs
    split at hs
    · next p hc hp =>
      split at hs
      · next hl =>
        obtain ⟨rfl, rfl⟩ := R.ok_inj hs
        refine i_still h hp rfl rfl rfl (by same_tac) (if_pos rfl) (fun u hu => .inl hu) ?_ (g_modify (x := v) (h.some hp) (by rw [role_thr hp hl, hc]; rfl))
        simp [view, St.setPair, St.roleAt, lockRole, hc, hp, hl, roleOf, Spec.evs, Spec.ev] <;> (try (repeat' constructor))
      · cases hs
    · cases hs
  | unpin t n d =>
    simp only [step] at hs
    split at hs
    · next p hc hp =>
      split at hs
      · next hl =>
        obtain ⟨rfl, rfl⟩ := R.ok_inj hs
        refine i_still h hp rfl rfl rfl (by same_tac) (if_pos rfl) (fun u hu => .inr ?_) ?_ (g_unpin (d := d) (h.some hp) (by rw [role_thr hp hl, hc]; rfl) (hlg p hp))
        · rw [hl] at hu; cases hu; rw [hc]; simp [nodesOf]
        · simp [view, St.setPair, St.roleAt, lockRole, hc, hp, hl, roleOf, Spec.evs, Spec.ev] <;> (try (repeat' constructor))
      · cases hs
    · cases hs
  | remove t n =>
    simp only [step] at hs
    split at hs
    · next p hc hp =>
      split at hs
      · next hl =>
        obtain ⟨rfl, rfl⟩ := R.ok_inj hs
        refine inv_one (t := t) h (by same_tac) hp ?_ (by simp [St.setPair, St.setPc]) ?_ (g_remove (h.some hp) (by rw [role_thr hp hl, hc]; rfl)) ?_ ?_ ?_ ?_ ?_ ?_ ?_ ?_
        one_tac
      · cases hs
    · cases hs
  | removeStep t => exact i_remove h hs
  | rlock n =>
    simp only [step] at hs
    split at hs
    · next p hp =>
      split at hs
      · next hl =>
        obtain ⟨rfl, rfl⟩ := R.ok_inj hs
        refine i_still h hp rfl rfl rfl (by same_tac) (if_pos rfl) (fun u hu => .inl hu) ?_ (g_readers (r := p.readers + 1) (h.some hp) hl)
        simp [view, St.setPair, St.roleAt, hp, Spec.evs] <;> (try (repeat' constructor))
      · cases hs
    · cases hs
  | runlock n =>
    simp only [step] at hs
    split at hs
    · next p hp =>
      split at hs
      · next hl =>
        obtain ⟨rfl, rfl⟩ := R.ok_inj hs
        have hl' : p.lock = none := by
          cases e : p.lock with
          | none => rfl
          | some o => have := (h.some hp).readers (by rw [e]; simp); omega
        refine i_still h hp rfl rfl rfl (by same_tac) (if_pos rfl) (fun u hu => .inl hu) ?_ (g_readers (r := p.readers - 1) (h.some hp) hl')
        simp [view, St.setPair, St.roleAt, hp, Spec.evs] <;> (try (repeat' constructor))
      · cases hs
    · cases hs
  | prefetch t n =>
    simp only [step] at hs
    split at hs
    · next hc hp =>
      obtain ⟨rfl, rfl⟩ := R.ok_inj hs
      refine inv_of (N := [n]) (t := t) h ?_ ?_ ?_ ?_ ?_ ?_ ?_ ?_ ?_ ?_ ?_
      · constructor <;> (try intro m hm) <;> simp_all [St.setPair, St.setPc, St.insert, Spec.evs]
      · intro m hm
        rw [List.mem_singleton] at hm; subst hm
        refine good_some ?_ (g_insert (t := t) (k := false) (h.none hp) (by simp [view, hp]) hlg hdr_run) rfl
        simp [view, St.insert, St.setPair, St.setPc, St.roleAt, lockRole, roleOf, Spec.evs] <;> (try (repeat' constructor))
      · intro u hu; simp [St.setPc, St.insert, St.setPair, hu]
      · intro m hm _; simp at hm; simp [St.setPc, roleOf, hm, hc]
      · rintro u hu m hm ⟨q, hq, _⟩
        rw [List.mem_singleton] at hm; subst hm; rw [hp] at hq; cases hq
      · simp [St.setPc, nodesOf]
      · intro m hm hm2; simp [St.setPc, nodesOf] at hm; simp [hm] at hm2
      · intro m hm _
        rw [List.mem_singleton] at hm; subst hm
        exact ⟨_, by simp [St.setPc, St.insert, St.setPair]; rfl, rfl⟩
      · simp [St.setPc, inExp]
      · intro u _ hu; exact hu
      · intro m
        show m ∈ n :: s.tab ↔ _
        rw [List.mem_cons, h.tab m]
        by_cases hm : m = n <;> simp [St.setPc, St.insert, St.setPair, hm]
    · cases hs
  | evict t n =>
    simp only [step] at hs
    split at hs
    · next p hc hp =>
      split at hs
      · next hl =>
        obtain ⟨rfl, rfl⟩ := R.ok_inj hs
        cases hd : (!p.dirty && decide (p.disk = none)) with
        | true =>
          simp only [Bool.and_eq_true, Bool.not_eq_true', decide_eq_true_eq] at hd
          refine inv_one (t := t) h (by same_tac) hp ?_ (by simp [St.setPair, St.setPc]) ?_ (g_evLast (t := t) (h.some hp) hl.1 hl.2 hd.1) ?_ ?_ ?_ ?_ ?_ ?_ ?_ ?_
          one_tac
        | false =>
          refine inv_one (t := t) h (by same_tac) hp ?_ (by simp [St.setPair, St.setPc]) ?_ (g_lock (t := t) (c := .evQ) (h.some hp) hl.1 hl.2 (.inr rfl)) ?_ ?_ ?_ ?_ ?_ ?_ ?_ ?_
          one_tac
      · cases hs
    · cases hs
  | evictStep t keep => exact i_evict h hs
  | job n =>
    simp only [step] at hs
    split at hs
    · next p hp =>
      split at hs
      · next hd =>
        split at hs
        · next v hv =>
          obtain ⟨rfl, rfl⟩ := R.ok_inj hs
          refine i_still h hp rfl rfl rfl (by same_tac) (if_pos rfl) (fun u hu => .inl hu) ?_ (g_job (h.some hp) hd hv)
          simp [view, St.setPair, St.roleAt, hp, Spec.evs, St.write] <;> (try (repeat' constructor))
        · next hv =>
          obtain ⟨rfl, rfl⟩ := R.ok_inj hs
          refine i_still h hp rfl rfl rfl (by same_tac) (if_pos rfl) (fun u hu => .inl hu) ?_ (g_jobDone (h.some hp) hd hv)
          simp [view, St.setPair, St.roleAt, hp, Spec.evs] <;> (try (repeat' constructor))
      · cases hs
    · cases hs
  | moLock t =>
    obtain ⟨rfl, rfl⟩ := R.ok_inj hs
    exact ⟨fun n => h.node n, h.nodup, h.held, h.exp, h.tab⟩
  | moUnlock t =>
    obtain ⟨rfl, rfl⟩ := R.ok_inj hs
    exact ⟨fun n => h.node n, h.nodup, h.held, h.exp, h.tab⟩
  | begin incl => exact i_begin h hs
  | take =>
    simp only [step] at hs
    split at hs
    · next n l hc hpl =>
      split at hs
      · next p hp =>
        split at hs
        · next hl =>
          obtain ⟨rfl, rfl⟩ := R.ok_inj hs
          refine i_still h hp rfl rfl rfl (by same_tac) (if_pos rfl) (fun u hu => by rw [hl.1] at hu; cases hu) ?_ (g_cpTake (b := n ∈ l) (h.some hp) hl.1 hl.2 (by simp [view, hc, Cp.running]))
          simp [view, St.setPair, St.roleAt, hp, Spec.evs, lockRole, hc, Cp.running, cpAt] <;> (try (repeat' constructor))
        · cases hs
      · cases hs
    · cases hs
  | cpStep => exact i_cp h hs
  | finish =>
    simp only [step] at hs
    split at hs
    · next hg =>
      simp only [Bool.and_eq_true, decide_eq_true_eq, List.isEmpty_iff] at hg
      obtain ⟨rfl, rfl⟩ := R.ok_inj hs
      exact i_cpPhase h (.inl ⟨hg.1.1, rfl, hg.1.2, hg.2⟩)
    · cases hs
  | endCp =>
    simp only [step] at hs
    split at hs
    · next hg =>
      obtain ⟨rfl, rfl⟩ := R.ok_inj hs
      exact i_cpPhase h (.inr ⟨hg, rfl⟩)
    · cases hs

end Verif.Ckpt
