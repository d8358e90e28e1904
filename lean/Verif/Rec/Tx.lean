import Verif.Rec.Spec
/-! The table of live transactions: families are chains from parent to child. -/
namespace Verif.Rec
open Verif.Rec.Spec
set_option linter.unusedVariables false
set_option linter.unusedSimpArgs false

theorem Xid.lt_iff (a b : Xid) : a.lt b = true ↔ a.root < b.root ∨ (a.root = b.root ∧ a.child < b.child) := by
  simp [Xid.lt]

theorem Xid.lt_trans {a b c : Xid} (h : a.lt b = true) (h' : b.lt c = true) : a.lt c = true := by
  rw [Xid.lt_iff] at *; omega

theorem Xid.lt_irrefl (a : Xid) : a.lt a = false := by
  have := Xid.lt_iff a a; cases h : a.lt a
  · rfl
  · rw [h] at this; simp at this

theorem Xid.lt_asymm {a b : Xid} (h : a.lt b = true) : b.lt a = false := by
  cases h' : b.lt a
  · rfl
  · have := Xid.lt_trans h h'; rw [Xid.lt_irrefl] at this; simp at this

theorem Xid.eq_of (a b : Xid) (h : a.root = b.root) (h' : a.child = b.child) : a = b := by
  cases a; cases b; simp_all

theorem Xid.tri {a b : Xid} (h : a.lt b = false) (hn : a ≠ b) : b.lt a = true := by
  rw [Xid.lt_iff]
  have h1 : ¬ (a.lt b = true) := by simp [h]
  rw [Xid.lt_iff] at h1
  by_cases hr : a.root = b.root
  · have : a.child ≠ b.child := fun hc => hn (Xid.eq_of _ _ hr hc)
    omega
  · omega

def Sorted (l : Txns) : Prop := l.Pairwise fun a b => a.1.lt b.1 = true

theorem get_mem {l : Txns} {p : Xid} {t : Txn} (h : l.get p = some t) : (p, t) ∈ l := by
  induction l with
  | nil => simp [Txns.get] at h
  | cons a l ih =>
    obtain ⟨q, u⟩ := a
    simp only [Txns.get] at h
    split at h
    · rename_i hq; subst hq; injection h with h; subst h; simp
    · exact List.mem_cons_of_mem _ (ih h)

theorem get_of_mem {l : Txns} (hs : Sorted l) {p : Xid} {t : Txn} (h : (p, t) ∈ l) : l.get p = some t := by
  induction l with
  | nil => simp at h
  | cons a l ih =>
    obtain ⟨q, u⟩ := a
    simp only [Txns.get]
    obtain ⟨h1, h2⟩ := List.pairwise_cons.mp hs
    rcases List.mem_cons.mp h with h | h
    · injection h with h h'; subst h; subst h'; simp
    · have := h1 _ h
      have hne : q ≠ p := by intro he; subst he; simp [Xid.lt_irrefl] at this
      rw [if_neg hne]; exact ih h2 h

theorem get_none_iff {l : Txns} {p : Xid} : l.get p = none ↔ ∀ e ∈ l, e.1 ≠ p := by
  induction l with
  | nil => simp [Txns.get]
  | cons a l ih =>
    obtain ⟨q, u⟩ := a
    simp only [Txns.get]
    by_cases h : q = p
    · simp [h]
    · rw [if_neg h, ih]; simp [h]

theorem mem_ins {l : Txns} {p : Xid} {t : Txn} {e : Xid × Txn} : e ∈ Txns.ins p t l ↔ e = (p, t) ∨ e ∈ l := by
  induction l with
  | nil => simp [Txns.ins]
  | cons a l ih =>
    obtain ⟨q, u⟩ := a
    simp only [Txns.ins]
    split
    · simp
    · simp only [List.mem_cons, ih]; constructor <;> (rintro (h | h | h) <;> simp [h])

theorem ins_sorted {l : Txns} {p : Xid} {t : Txn} (hs : Sorted l) (hn : l.get p = none) : Sorted (Txns.ins p t l) := by
  induction l with
  | nil => simp [Txns.ins, Sorted]
  | cons a l ih =>
    obtain ⟨q, u⟩ := a
    obtain ⟨h1, h2⟩ := List.pairwise_cons.mp hs
    have hne : q ≠ p := get_none_iff.mp hn (q, u) (by simp)
    have hn' : Txns.get l p = none := by simp only [Txns.get] at hn; rw [if_neg hne] at hn; exact hn
    simp only [Txns.ins]
    split
    · rename_i hlt
      refine List.pairwise_cons.mpr ⟨?_, hs⟩
      intro e he
      rcases List.mem_cons.mp he with rfl | he
      · exact hlt
      · exact Xid.lt_trans hlt (h1 _ he)
    · rename_i hlt
      refine List.pairwise_cons.mpr ⟨?_, ih h2 hn'⟩
      intro e he
      rcases mem_ins.mp he with rfl | he
      · exact Xid.tri (by simpa using hlt) (Ne.symm hne)
      · exact h1 _ he

theorem ins_last {l : Txns} {p : Xid} {t : Txn} (h : ∀ e ∈ l, e.1.lt p = true) : Txns.ins p t l = l ++ [(p, t)] := by
  induction l with
  | nil => simp [Txns.ins]
  | cons a l ih =>
    obtain ⟨q, u⟩ := a
    have := h (q, u) (by simp)
    simp only [Txns.ins, Xid.lt_asymm this]
    simp [ih (fun e he => h e (List.mem_cons_of_mem _ he))]

theorem get_ins {l : Txns} {p q : Xid} {t : Txn} (hs : Sorted l) (hn : l.get p = none) :
    (Txns.ins p t l).get q = if q = p then some t else l.get q := by
  have hs' := ins_sorted (t := t) hs hn
  split
  · rename_i h; subst h; exact get_of_mem hs' (mem_ins.mpr (Or.inl rfl))
  · rename_i h
    cases hg : l.get q with
    | none =>
      rw [get_none_iff] at hg ⊢
      intro e he
      rcases mem_ins.mp he with rfl | he
      · exact fun h' => h h'.symm
      · exact hg e he
    | some u => exact get_of_mem hs' (mem_ins.mpr (Or.inr (get_mem hg)))

theorem set_keys {l : Txns} {p : Xid} {t : Txn} : (l.set p t).map (·.1) = l.map (·.1) := by
  unfold Txns.set
  rw [List.map_map]
  apply List.map_congr_left
  intro e _
  simp only [Function.comp]
  split
  · rename_i h; exact h.symm
  · rfl

theorem sorted_iff {l : Txns} : Sorted l ↔ (l.map (·.1)).Pairwise fun a b => a.lt b = true := by
  rw [List.pairwise_map]; rfl

theorem set_sorted {l : Txns} {p : Xid} {t : Txn} (hs : Sorted l) : Sorted (l.set p t) := by
  rw [sorted_iff, set_keys, ← sorted_iff]; exact hs

theorem mem_set {l : Txns} {p : Xid} {t : Txn} {e : Xid × Txn} (h : e ∈ l.set p t) : (e = (p, t) ∧ ∃ u, (p, u) ∈ l) ∨ (e ∈ l ∧ e.1 ≠ p) := by
  obtain ⟨a, ha, he⟩ := List.mem_map.mp h
  split at he
  · rename_i hp; subst he; exact Or.inl ⟨rfl, a.2, by rw [← hp]; exact ha⟩
  · rename_i hp; subst he; exact Or.inr ⟨ha, hp⟩

theorem get_set {l : Txns} {p q : Xid} {t : Txn} : (l.set p t).get q = if q = p then (l.get p).map (fun _ => t) else l.get q := by
  induction l with
  | nil => simp [Txns.set, Txns.get]
  | cons a l ih =>
    obtain ⟨r, u⟩ := a
    simp only [Txns.set, List.map_cons] at ih ⊢
    by_cases hr : r = p
    · subst hr
      simp only [if_true, Txns.get]
      by_cases hq : q = r
      · subst hq; simp
      · rw [if_neg (Ne.symm hq), if_neg hq, if_neg (Ne.symm hq), ih, if_neg hq]
    · simp only [if_neg hr, Txns.get]
      by_cases hq : r = q
      · subst hq; simp [hr]
      · rw [if_neg hq, if_neg hq, ih]

theorem erase_sorted {l : Txns} {p : Xid} (hs : Sorted l) : Sorted (l.erase p) := List.Pairwise.filter _ hs

theorem mem_erase {l : Txns} {p : Xid} {e : Xid × Txn} : e ∈ l.erase p ↔ e ∈ l ∧ e.1 ≠ p := by
  simp [Txns.erase, List.mem_filter]

theorem get_erase {l : Txns} {p q : Xid} : (l.erase p).get q = if q = p then none else l.get q := by
  induction l with
  | nil => simp [Txns.erase, Txns.get]
  | cons a l ih =>
    obtain ⟨r, u⟩ := a
    simp only [Txns.erase, List.filter_cons] at ih ⊢
    by_cases hr : r = p
    · subst hr
      simp only [ne_eq, not_true, decide_false, Bool.false_eq_true, if_false]
      rw [ih]
      by_cases hq : q = r
      · subst hq; simp
      · simp only [if_neg hq, Txns.get, if_neg (Ne.symm hq)]
    · simp only [ne_eq, hr, not_false_eq_true, decide_true, if_true, Txns.get]
      by_cases hq : r = q
      · subst hq; simp [hr]
      · rw [if_neg hq, if_neg hq, ih]

theorem childOf_none {l : Txns} {p : Xid} : l.childOf p = none ↔ ∀ e ∈ l, e.2.parent ≠ some p := by
  unfold Txns.childOf
  rw [Option.map_eq_none_iff, List.find?_eq_none]
  simp

theorem childOf_some {l : Txns} {p c : Xid} (h : l.childOf p = some c) : ∃ t, (c, t) ∈ l ∧ t.parent = some p := by
  unfold Txns.childOf at h
  obtain ⟨e, he, hc⟩ := Option.map_eq_some_iff.mp h
  have h1 := List.mem_of_find?_eq_some he
  have h2 := List.find?_some he
  exact ⟨e.2, by rw [← hc]; exact h1, by simpa using h2⟩

/-- Families are chains. -/
structure TxWf (l : Txns) : Prop where
  sorted : Sorted l
  root : ∀ e ∈ l, e.2.parent = none → e.1.child = 0 ∧ e.2.chain = [e.1.root]
  child : ∀ e ∈ l, ∀ q, e.2.parent = some q → e.2.prepared = false ∧ q.root = e.1.root ∧ q.child < e.1.child ∧
    ∃ t, l.get q = some t ∧ t.prepared = false ∧ e.2.chain = t.chain ++ [e.1.child]
  adj : ∀ e ∈ l, ∀ q, e.2.parent = some q → ∀ e' ∈ l, e'.1.root = e.1.root → ¬ (q.child < e'.1.child ∧ e'.1.child < e.1.child)

theorem TxWf.same {l : Txns} (h : TxWf l) {e e' : Xid × Txn} (he : e ∈ l) (he' : e' ∈ l) (hk : e.1 = e'.1) : e = e' := by
  have h1 := get_of_mem h.sorted (p := e.1) (t := e.2) he
  have h2 := get_of_mem h.sorted (p := e'.1) (t := e'.2) he'
  rw [hk] at h1; rw [h1] at h2; injection h2 with h2
  exact Prod.ext hk h2

/-- A transaction without child is the innermost of its family. -/
theorem TxWf.deepest {l : Txns} (h : TxWf l) {p : Xid} {t : Txn} (hp : (p, t) ∈ l) (hc : l.childOf p = none) :
    ∀ e ∈ l, e.1.root = p.root → e.1.child ≤ p.child := by
  rw [childOf_none] at hc
  suffices H : ∀ n, ∀ e ∈ l, e.1.root = p.root → e.1.child = n → n ≤ p.child from fun e he hr => H _ e he hr rfl
  intro n
  induction n using Nat.strongRecOn with
  | _ n ih =>
    intro e he hr hn
    rcases Nat.lt_or_ge p.child n with hlt | hge
    · exfalso
      cases hq : e.2.parent with
      | none => have := (h.root e he hq).1; omega
      | some q =>
        obtain ⟨-, hqr, hqc, u, hu, -, -⟩ := h.child e he q hq
        have hum := get_mem hu
        rcases Nat.lt_trichotomy q.child p.child with h1 | h1 | h1
        · exact h.adj e he q hq (p, t) hp hr.symm ⟨h1, by show p.child < e.1.child; omega⟩
        · have : q = p := Xid.eq_of _ _ (by rw [hqr, hr]) h1
          subst this; exact hc e he hq
        · have := ih q.child (by omega) (q, u) hum (by rw [← hr]; exact hqr) rfl
          omega
    · exact hge

/-- Within a family the ids of a transaction begin with those of its ancestors. -/
theorem TxWf.fam {l : Txns} (h : TxWf l) {e e' : Xid × Txn} (he : e ∈ l) (he' : e' ∈ l) (hr : e.1.root = e'.1.root) (hc : e.1.child ≤ e'.1.child) :
    e.2.chain <+: e'.2.chain := by
  suffices H : ∀ n, ∀ e' ∈ l, e.1.root = e'.1.root → e'.1.child = n → e.1.child ≤ n → e.2.chain <+: e'.2.chain from H _ e' he' hr rfl hc
  intro n
  induction n using Nat.strongRecOn with
  | _ n ih =>
    intro e' he' hr hn hc
    rcases Nat.eq_or_lt_of_le hc with heq | hlt
    · have := h.same he he' (Xid.eq_of _ _ hr (by omega)); subst this; exact List.prefix_refl _
    · cases hq : e'.2.parent with
      | none => have := (h.root e' he' hq).1; omega
      | some q =>
        obtain ⟨-, hqr, hqc, u, hu, -, hch⟩ := h.child e' he' q hq
        have hum := get_mem hu
        rw [hch]
        have : e.1.child ≤ q.child := by
          rcases Nat.lt_or_ge q.child e.1.child with h1 | h1
          · exact absurd ⟨h1, by omega⟩ (h.adj e' he' q hq e he hr)
          · exact h1
        exact (ih q.child (by omega) (q, u) hum (by rw [hr]; exact hqr.symm) rfl this).trans (List.prefix_append _ _)

theorem TxWf.chain_ne {l : Txns} (h : TxWf l) {e : Xid × Txn} (he : e ∈ l) : e.2.chain ≠ [] := by
  cases hq : e.2.parent with
  | none => rw [(h.root e he hq).2]; simp
  | some q => obtain ⟨-, -, -, u, -, -, hch⟩ := h.child e he q hq; rw [hch]; simp

/-- The first id is that of the root. -/
theorem TxWf.head {l : Txns} (h : TxWf l) {e : Xid × Txn} (he : e ∈ l) : e.2.chain.head? = some e.1.root := by
  suffices H : ∀ n, ∀ e ∈ l, e.1.child = n → e.2.chain.head? = some e.1.root from H _ e he rfl
  intro n
  induction n using Nat.strongRecOn with
  | _ n ih =>
    intro e he hn
    cases hq : e.2.parent with
    | none => rw [(h.root e he hq).2]; rfl
    | some q =>
      obtain ⟨-, hqr, hqc, u, hu, -, hch⟩ := h.child e he q hq
      have := ih q.child (by omega) (q, u) (get_mem hu) rfl
      rw [hch]
      simp only at this
      rw [List.head?_append, this, hqr]; rfl

theorem TxWf.last {l : Txns} (h : TxWf l) {e : Xid × Txn} (he : e ∈ l) (hc : e.1.child ≠ 0) : ∃ t, e.2.chain = t ++ [e.1.child] ∧ t ≠ [] := by
  cases hq : e.2.parent with
  | none => exact absurd (h.root e he hq).1 hc
  | some q =>
    obtain ⟨-, hqr, hqc, u, hu, -, hch⟩ := h.child e he q hq
    exact ⟨_, hch, h.chain_ne (get_mem hu)⟩

/-- Equal ids: the same transaction. -/
theorem TxWf.inj {l : Txns} (h : TxWf l) {e e' : Xid × Txn} (he : e ∈ l) (he' : e' ∈ l) (hc : e.2.chain = e'.2.chain) : e = e' := by
  have hr : e.1.root = e'.1.root := by
    have h1 := h.head he; have h2 := h.head he'; rw [hc, h2] at h1; injection h1 with h1; exact h1.symm
  refine h.same he he' (Xid.eq_of _ _ hr ?_)
  by_cases h0 : e.1.child = 0
  · by_cases h1 : e'.1.child = 0
    · omega
    · obtain ⟨t, ht, hne⟩ := h.last he' h1
      have h3 : e.2.chain = [e.1.root] := by
        cases hq : e.2.parent with
        | none => exact (h.root e he hq).2
        | some q => have := (h.child e he q hq).2.2.1; omega
      rw [h3, ht] at hc
      cases t with
      | nil => exact absurd rfl hne
      | cons a t => simp at hc
  · by_cases h1 : e'.1.child = 0
    · obtain ⟨t, ht, hne⟩ := h.last he h0
      have h3 : e'.2.chain = [e'.1.root] := by
        cases hq : e'.2.parent with
        | none => exact (h.root e' he' hq).2
        | some q => have := (h.child e' he' q hq).2.2.1; omega
      rw [h3, ht] at hc
      cases t with
      | nil => exact absurd rfl hne
      | cons a t => simp at hc
    · obtain ⟨t, ht, -⟩ := h.last he h0
      obtain ⟨t', ht', -⟩ := h.last he' h1
      rw [ht, ht'] at hc
      have := List.append_inj_right' hc rfl
      simpa using this

theorem TxWf.nil : TxWf [] := ⟨by simp [Sorted], by simp, by simp, by simp⟩

/-- Only the rollback entries and the prepared bit of one transaction change. -/
theorem TxWf.set {l : Txns} (h : TxWf l) {p : Xid} {t t' : Txn} (ht : l.get p = some t) (hp : t'.parent = t.parent) (hc : t'.chain = t.chain)
    (hpr : t'.prepared = t.prepared ∨ (t.parent = none ∧ l.childOf p = none)) : TxWf (l.set p t') := by
  have hpm := get_mem ht
  have key : ∀ e ∈ l.set p t', ∃ u, (e.1, u) ∈ l ∧ e.2.parent = u.parent ∧ e.2.chain = u.chain ∧
      (e.2.prepared = u.prepared ∨ (e.1 = p ∧ u.parent = none ∧ l.childOf p = none)) := by
    intro e he
    rcases mem_set he with ⟨rfl, -⟩ | ⟨he, -⟩
    · refine ⟨t, hpm, hp, hc, ?_⟩
      rcases hpr with h1 | ⟨h1, h2⟩
      · exact Or.inl h1
      · exact Or.inr ⟨rfl, h1, h2⟩
    · exact ⟨e.2, he, rfl, rfl, Or.inl rfl⟩
  refine ⟨set_sorted h.sorted, ?_, ?_, ?_⟩
  · intro e he hn
    obtain ⟨u, hu, h1, h2, -⟩ := key e he
    rw [h1] at hn; rw [h2]; exact h.root _ hu hn
  · intro e he q hq
    obtain ⟨u, hu, h1, h2, h3⟩ := key e he
    rw [h1] at hq
    obtain ⟨a, b, c, v, hv, d, f⟩ := h.child _ hu q hq
    refine ⟨?_, b, c, ?_⟩
    · rcases h3 with h3 | ⟨-, h3, -⟩
      · rw [h3]; exact a
      · rw [h3] at hq; exact absurd hq (by simp)
    · rw [h2]
      by_cases hqp : q = p
      · subst hqp
        rw [hv] at ht; injection ht with ht; subst ht
        refine ⟨t', ?_, ?_, ?_⟩
        · rw [get_set, if_pos rfl, hv]; rfl
        · rcases hpr with h4 | ⟨-, h4⟩
          · rw [h4]; exact d
          · exact absurd hq (childOf_none.mp h4 _ hu)
        · rw [hc]; exact f
      · exact ⟨v, by rw [get_set, if_neg hqp]; exact hv, d, f⟩
  · intro e he q hq e' he' hr
    obtain ⟨u, hu, h1, -, -⟩ := key e he
    obtain ⟨u', hu', -, -, -⟩ := key e' he'
    rw [h1] at hq
    exact h.adj _ hu q hq (e'.1, u') hu' hr

theorem TxWf.erase {l : Txns} (h : TxWf l) {p : Xid} (hc : l.childOf p = none) : TxWf (l.erase p) := by
  refine ⟨erase_sorted h.sorted, ?_, ?_, ?_⟩
  · intro e he hn; exact h.root e (mem_erase.mp he).1 hn
  · intro e he q hq
    obtain ⟨a, b, c, v, hv, d⟩ := h.child e (mem_erase.mp he).1 q hq
    refine ⟨a, b, c, v, ?_, d⟩
    rw [get_erase, if_neg]
    · exact hv
    · intro hqp; subst hqp; exact childOf_none.mp hc e (mem_erase.mp he).1 hq
  · intro e he q hq e' he' hr
    exact h.adj e (mem_erase.mp he).1 q hq e' (mem_erase.mp he').1 hr

theorem TxWf.insRoot {l : Txns} (h : TxWf l) {p : Xid} (h0 : p.child = 0) (hn : ∀ e ∈ l, e.1.root ≠ p.root) :
    TxWf (l.ins p ⟨none, [p.root], [], false⟩) := by
  have hg : l.get p = none := get_none_iff.mpr fun e he hep => hn e he (by rw [hep])
  refine ⟨ins_sorted h.sorted hg, ?_, ?_, ?_⟩
  · intro e he hpn
    rcases mem_ins.mp he with rfl | he
    · exact ⟨h0, rfl⟩
    · exact h.root e he hpn
  · intro e he q hq
    rcases mem_ins.mp he with rfl | he
    · simp at hq
    · obtain ⟨a, b, c, v, hv, d⟩ := h.child e he q hq
      refine ⟨a, b, c, v, ?_, d⟩
      rw [get_ins h.sorted hg, if_neg]
      · exact hv
      · intro hqp; subst hqp; exact hn _ (get_mem hv) rfl
  · intro e he q hq e' he' hr
    rcases mem_ins.mp he with rfl | he
    · simp at hq
    · rcases mem_ins.mp he' with rfl | he'
      · exact absurd hr.symm (hn e he)
      · exact h.adj e he q hq e' he' hr

theorem TxWf.insChild {l : Txns} (h : TxWf l) {p q : Xid} {t : Txn} (hr : p.root = q.root) (hq : l.get q = some t) (hp : t.prepared = false)
    (hc : l.childOf q = none) (hnew : ∀ e ∈ l, e.1.root = p.root → e.1.child < p.child) :
    TxWf (l.ins p ⟨some q, t.chain ++ [p.child], [], false⟩) := by
  have hg : l.get p = none := get_none_iff.mpr fun e he hep => by have := hnew e he (by rw [hep]); rw [hep] at this; omega
  have hqm := get_mem hq
  have hqp : q.child < p.child := hnew _ hqm hr.symm
  have hqne : q ≠ p := by intro h; subst h; omega
  refine ⟨ins_sorted h.sorted hg, ?_, ?_, ?_⟩
  · intro e he hpn
    rcases mem_ins.mp he with rfl | he
    · simp at hpn
    · exact h.root e he hpn
  · intro e he q' hq'
    rcases mem_ins.mp he with rfl | he
    · simp only [Option.some.injEq] at hq'; subst hq'
      exact ⟨rfl, hr.symm, hqp, t, by rw [get_ins h.sorted hg, if_neg hqne]; exact hq, hp, rfl⟩
    · obtain ⟨a, b, c, v, hv, d⟩ := h.child e he q' hq'
      refine ⟨a, b, c, v, ?_, d⟩
      rw [get_ins h.sorted hg, if_neg]
      · exact hv
      · intro hqp; subst hqp; exact absurd (hnew _ (get_mem hv) rfl) (Nat.lt_irrefl _)
  · intro e he q' hq' e' he' hre
    rcases mem_ins.mp he with rfl | he
    · simp only [Option.some.injEq] at hq'; subst hq'
      rcases mem_ins.mp he' with rfl | he'
      · rintro ⟨-, h2⟩; exact absurd h2 (Nat.lt_irrefl _)
      · rintro ⟨h1, -⟩
        have := h.deepest hqm hc e' he' (by rw [hre]; exact hr)
        omega
    · rcases mem_ins.mp he' with rfl | he'
      · rintro ⟨-, h2⟩
        have := hnew e he hre.symm
        simp only at h2; omega
      · exact h.adj e he q' hq' e' he' hre

end Verif.Rec
