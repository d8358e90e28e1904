import Verif.Ckpt.Local
/-! Steps touch few nodes. -/
set_option linter.unusedVariables false
set_option linter.unusedSimpArgs false
namespace Verif.Ckpt
variable {V : Type}
open Spec (Held)

/-- Only the nodes of `N` differ. -/
structure Same (s s' : St V) (sp sp' : Spec.S V) (N : List Nat) : Prop where
  pair : ∀ m, m ∉ N → s'.pair m = s.pair m
  cur : ∀ m, m ∉ N → s'.cur m = s.cur m
  inp : ∀ m, m ∉ N → s'.inp m = s.inp m
  latest : ∀ m, m ∉ N → sp'.latest m = sp.latest m
  image : ∀ m, m ∉ N → sp'.image m = sp.image m
  old : ∀ m, m ∉ N → sp'.old m = sp.old m
  run : s'.cp.running = s.cp.running
  hdr : s'.cp = .header ↔ s.cp = .header
  incl : s'.incl = s.incl
  pl : ∀ m, m ∉ N → (m ∈ s'.plist ↔ m ∈ s.plist)
  jobs : ∀ m, m ∉ N → (m ∈ s'.jobs ↔ m ∈ s.jobs)
  at_ : ∀ m, m ∉ N → cpAt s'.cp m = cpAt s.cp m

theorem inv_of {s s' : St V} {sp sp' : Spec.S V} {N : List Nat} {t : Nat} (h : Inv s sp) (f : Same s s' sp sp' N)
    (hn : ∀ n ∈ N, Good (view s' sp' n)) (hpc : ∀ u, u ≠ t → s'.pc u = s.pc u)
    (hrole : ∀ m, m ∉ N → Held s t m → roleOf (s'.pc t) m = roleOf (s.pc t) m)
    (hother : ∀ u, u ≠ t → ∀ m ∈ N, Held s u m → Held s' u m)
    (hnodup : (nodesOf (s'.pc t)).Nodup)
    (hh1 : ∀ m ∈ nodesOf (s'.pc t), m ∉ N → m ∈ nodesOf (s.pc t))
    (hh2 : ∀ m ∈ N, m ∈ nodesOf (s'.pc t) → Held s' t m)
    (he1 : inExp (s'.pc t) = true → t ∈ s'.exp) (he2 : ∀ u, u ≠ t → u ∈ s.exp → u ∈ s'.exp)
    (htab : ∀ m, m ∈ s'.tab ↔ s'.pair m ≠ none) : Inv s' sp' := by
  have hsame : ∀ u m, m ∉ N → Held s u m → Held s' u m := fun u m hm ⟨p, h1, h2⟩ => ⟨p, by rw [f.pair m hm]; exact h1, h2⟩
  refine ⟨fun m => ?_, fun u => ?_, fun u m hm => ?_, fun u hu => ?_, htab⟩
  · by_cases hm : m ∈ N
    · exact hn m hm
    · have e : view s' sp' m = view s sp m := by
        refine view_same (f.pair m hm) (f.cur m hm) (f.inp m hm) (f.latest m hm) (f.image m hm) (f.old m hm) ?_ f.run f.hdr (by rw [f.incl]) (f.pl m hm) (f.jobs m hm) (f.at_ m hm)
        rintro u hu
        by_cases hut : u = t
        · subst hut; exact hrole m hm hu
        · rw [hpc u hut]
      rw [e]; exact h.node m
  · by_cases hut : u = t
    · subst hut; exact hnodup
    · rw [hpc u hut]; exact h.nodup u
  · by_cases hut : u = t
    · subst hut
      by_cases hmn : m ∈ N
      · exact hh2 m hmn hm
      · exact hsame u m hmn (h.held u m (hh1 m hm hmn))
    · rw [hpc u hut] at hm
      by_cases hmn : m ∈ N
      · exact hother u hut m hmn (h.held u m hm)
      · exact hsame u m hmn (h.held u m hm)
  · by_cases hut : u = t
    · subst hut; exact he1 hu
    · rw [hpc u hut] at hu; exact he2 u hut (h.exp u hu)

theorem good_some {s : St V} {sp : Spec.S V} {n : Nat} {v : NV V} {p : Pair V} (e : view s sp n = v) (g : GoodP v p) (hp : v.p = some p) : Good (view s sp n) := by
  rw [e, Good]; split
  · next q hq => rw [hp] at hq; cases hq; exact g
  · next hq => rw [hp] at hq; cases hq

theorem good_none {s : St V} {sp : Spec.S V} {n : Nat} {v : NV V} (e : view s sp n = v) (g : GoodN v) (hp : v.p = none) : Good (view s sp n) := by
  rw [e, Good]; split
  · next q hq => rw [hp] at hq; cases hq
  · next hq => exact g

theorem Inv.some {s : St V} {sp : Spec.S V} (h : Inv s sp) {n : Nat} {p : Pair V} (hp : s.pair n = .some p) : GoodP (view s sp n) p := by
  have := h.node n
  have e : (view s sp n).p = .some p := hp
  rw [Good] at this; split at this
  · next q hq => rw [hq] at e; cases e; exact this
  · next hq => rw [hq] at e; cases e

theorem Inv.none {s : St V} {sp : Spec.S V} (h : Inv s sp) {n : Nat} (hp : s.pair n = .none) : GoodN (view s sp n) := by
  have := h.node n
  have e : (view s sp n).p = .none := hp
  rw [Good] at this; split at this
  · next q hq => rw [hq] at e; cases e
  · exact this

theorem role_thr {s : St V} {sp : Spec.S V} {n t : Nat} {p : Pair V} (hp : s.pair n = some p) (hl : p.lock = some (.thr t)) : (view s sp n).role = roleOf (s.pc t) n := by
  simp only [view, St.roleAt, hp, hl, lockRole]

/-- The same for one node, which stays in the cache. -/
theorem inv_one {s s' : St V} {sp sp' : Spec.S V} {n t : Nat} {p p' : Pair V} {v : NV V} (h : Inv s sp) (f : Same s s' sp sp' [n]) (hp : s.pair n = some p)
    (hl : ∀ u, u ≠ t → p.lock = some (.thr u) → p'.lock = some (.thr u)) (hp' : s'.pair n = some p')
    (e : view s' sp' n = v) (g : GoodP v p') (hpc : ∀ u, u ≠ t → s'.pc u = s.pc u)
    (hrole : ∀ m, m ≠ n → Held s t m → roleOf (s'.pc t) m = roleOf (s.pc t) m)
    (hnodup : (nodesOf (s'.pc t)).Nodup)
    (hh1 : ∀ m ∈ nodesOf (s'.pc t), m ≠ n → m ∈ nodesOf (s.pc t))
    (hh2 : n ∈ nodesOf (s'.pc t) → p'.lock = some (.thr t))
    (he1 : inExp (s'.pc t) = true → t ∈ s'.exp) (he2 : ∀ u, u ≠ t → u ∈ s.exp → u ∈ s'.exp)
    (htab : s'.tab = s.tab) : Inv s' sp' := by
  refine inv_of h f ?_ hpc (fun m hm => hrole m (by simpa using hm)) ?_ hnodup (fun m hm hmn => hh1 m hm (by simpa using hmn)) ?_ he1 he2 ?_
  · intro m hm; rw [List.mem_singleton] at hm; subst hm
    exact good_some e g (by rw [← e]; exact hp')
  · rintro u hu m hm ⟨q, h1, h2⟩
    rw [List.mem_singleton] at hm; subst hm
    rw [hp] at h1; cases h1; exact ⟨p', hp', hl u hu h2⟩
  · intro m hm hm2
    rw [List.mem_singleton] at hm; subst hm
    exact ⟨p', hp', hh2 hm2⟩
  · intro m
    rw [htab, h.tab m]
    by_cases hmn : m = n
    · subst hmn; simp [hp, hp']
    · rw [f.pair m (by simpa using hmn)]

/-- The same for one node, which leaves the cache. -/
theorem inv_drop {s s' : St V} {sp sp' : Spec.S V} {n t : Nat} {p : Pair V} {v : NV V} (h : Inv s sp) (f : Same s s' sp sp' [n]) (hp : s.pair n = some p)
    (hl : p.lock = some (.thr t)) (hp' : s'.pair n = none)
    (e : view s' sp' n = v) (g : GoodN v) (hpc : ∀ u, u ≠ t → s'.pc u = s.pc u)
    (hrole : ∀ m, m ≠ n → Held s t m → roleOf (s'.pc t) m = roleOf (s.pc t) m)
    (hnodes : nodesOf (s'.pc t) = [])
    (he1 : inExp (s'.pc t) = true → t ∈ s'.exp) (he2 : ∀ u, u ≠ t → u ∈ s.exp → u ∈ s'.exp)
    (htab : s'.tab = s.tab.filter (· ≠ n)) : Inv s' sp' := by
  refine inv_of h f ?_ hpc (fun m hm => hrole m (by simpa using hm)) ?_ (by rw [hnodes]; exact List.nodup_nil) (fun m hm => by rw [hnodes] at hm; cases hm)
    (fun m _ hm => by rw [hnodes] at hm; cases hm) he1 he2 ?_
  · intro m hm; rw [List.mem_singleton] at hm; subst hm
    exact good_none e g (by rw [← e]; exact hp')
  · rintro u hu m hm ⟨q, h1, h2⟩
    rw [List.mem_singleton] at hm; subst hm
    rw [hp] at h1; cases h1; rw [hl] at h2; cases h2; exact absurd rfl hu
  · intro m
    rw [htab, List.mem_filter, h.tab m]
    by_cases hmn : m = n
    · subst hmn; simp [hp']
    · rw [f.pair m (by simpa using hmn)]; simp [hmn]

theorem itemRole_none {w : List Item} {m : Nat} (h : m ∉ w.map (·.node)) : itemRole w m = .held := by
  unfold itemRole
  rw [List.find?_eq_none.mpr (fun i hi => by simp only [decide_eq_true_eq]; rintro rfl; exact h (List.mem_map_of_mem hi))]

theorem itemRole_cons (i : Item) (w : List Item) (m : Nat) : itemRole (i :: w) m = if i.node = m then .item i.flag i.dd else itemRole w m := by
  unfold itemRole
  rw [List.find?_cons]
  by_cases h : i.node = m <;> simp [h]

theorem workRole_none {w : List Item} {k : Then} {m : Nat} (h : m ∉ k.nodes ++ w.map (·.node)) : workRole w k m = .held := by
  unfold workRole
  simp only [List.mem_append, not_or] at h
  rw [itemRole_none h.2, if_neg]
  rintro rfl; exact h.1 (by simp [Then.nodes])

theorem workRole_cons {i : Item} {w : List Item} {k : Then} {m : Nat} (h : m ≠ i.node) : workRole (i :: w) k m = workRole w k m := by
  unfold workRole
  rw [itemRole_cons, if_neg (show ¬ i.node = m from fun e => h e.symm)]

theorem workRole_head {i : Item} {w : List Item} {k : Then} (h : i.node ∉ k.nodes) : workRole (i :: w) k i.node = .item i.flag i.dd := by
  unfold workRole
  rw [itemRole_cons, if_pos (show i.node = i.node from rfl), if_neg]
  rintro rfl; exact h (by simp [Then.nodes])

end Verif.Ckpt
