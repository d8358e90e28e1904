import Verif.Txn.Model

/-! Garbage collection of committed versions: what it may drop, for which readers. -/
namespace Verif.Mvcc
open Verif.Ule (Uxr Ule)
open Verif.Txn

/-! ### Searching the snapshot ids -/

theorem filter_getLast_spec (l : List Nat) (x : Nat) (h : l.Pairwise (· < ·)) (m : Nat)
    (hm : findLT l x = some m) : m ∈ l ∧ m < x ∧ ∀ s ∈ l, s < x → s ≤ m := by
  unfold findLT at hm
  have hmem : m ∈ l.filter (· < x) := List.mem_of_getLast? hm
  have hm' := List.mem_filter.mp hmem
  refine ⟨hm'.1, by simpa using hm'.2, ?_⟩
  intro s hs hsx
  have hsf : s ∈ l.filter (· < x) := List.mem_filter.mpr ⟨hs, by simpa using hsx⟩
  have hp : (l.filter (· < x)).Pairwise (· < ·) := h.filter _
  obtain ⟨ys, hys⟩ := List.getLast?_eq_some_iff.mp hm
  rw [hys] at hsf hp
  rcases List.mem_append.mp hsf with h1 | h1
  · have := (List.pairwise_append.mp hp).2.2 s h1 m (by simp); omega
  · simp only [List.mem_singleton] at h1; omega

theorem findLT_none (l : List Nat) (x : Nat) (h : findLT l x = none) : ∀ s ∈ l, ¬ s < x := by
  intro s hs hlt
  unfold findLT at h
  have : s ∈ l.filter (· < x) := List.mem_filter.mpr ⟨hs, by simpa using hlt⟩
  rw [List.getLast?_eq_none_iff.mp h] at this
  simp at this

theorem findLT_congr (l : List Nat) (x y : Nat) (h : ∀ s ∈ l, s < x ↔ s < y) : findLT l x = findLT l y := by
  unfold findLT
  congr 1
  apply List.filter_congr
  intro s hs
  simp [h s hs]

/-! ### Facts about the clone -/

/-- What the clone must know about a committed version's transaction `x`: it was live in the clone, or
it had finished with stamp `f`, and every cloned snapshot taken between its begin and its end is covered
by a reference tuple carrying `f + 1`. -/
def Known (g : GcState) (last : Txnid) (fin : Txnid → Option Txnid) (x : Txnid) : Prop :=
  x ∈ g.live ∨
  (x ∉ g.live ∧ x ∉ g.snapIds ∧ ∃ f, fin x = some f ∧ x ≤ f ∧ f ≤ last ∧
    (∀ t ∈ g.refs, t.beginId = x → t.endId = f + 1) ∧
    ((∃ t ∈ g.refs, t.beginId = x) ∨ ∀ s ∈ g.snapIds, ¬ (x < s ∧ s ≤ f)))

/-- A reader, as a decision on ids: one of the cloned snapshots, or anyone who sees everything that had
finished when the clone was taken. -/
def Reader (g : GcState) (last : Txnid) (fin : Txnid → Option Txnid) (acc : Txnid → Bool) : Prop :=
  (∃ t ∈ g.snapIds, ∀ x f, x ∉ g.live → fin x = some f → f ≤ last → acc x = decide (f < t)) ∨
  (∀ x f, x ∉ g.live → fin x = some f → f ≤ last → acc x = true)

theorem nextOlder_eq (g : GcState) (hs : g.snapIds.Pairwise (· < ·)) (x f : Txnid)
    (hx : x ∉ g.snapIds) (hf : x ≤ f)
    (ht : ∀ t ∈ g.refs, t.beginId = x → t.endId = f + 1)
    (hc : (∃ t ∈ g.refs, t.beginId = x) ∨ ∀ s ∈ g.snapIds, ¬ (x < s ∧ s ≤ f)) :
    (g.youngest x <|> findLT g.snapIds x) = findLT g.snapIds (f + 1) := by
  unfold GcState.youngest
  cases hfind : g.refs.find? (fun t => decide (t.beginId = x)) with
  | none =>
    have hno : ∀ t ∈ g.refs, t.beginId ≠ x := by
      intro t ht' he
      have := List.find?_eq_none.mp hfind t ht'
      simp [he] at this
    have hc' := hc.resolve_left (fun ⟨t, h1, h2⟩ => hno t h1 h2)
    show findLT g.snapIds x = _
    apply findLT_congr
    intro s hs'
    have := hc' s hs'
    have : s ≠ x := fun h => hx (h ▸ hs')
    omega
  | some t =>
    have hmem := List.mem_of_find?_eq_some hfind
    have hbx : t.beginId = x := by simpa using List.find?_some hfind
    simp only
    rw [ht t hmem hbx, hbx]
    cases hl : findLT g.snapIds (f + 1) with
    | none =>
      have := findLT_none _ _ hl
      show findLT g.snapIds x = _
      unfold findLT
      rw [List.getLast?_eq_none_iff, List.filter_eq_nil_iff]
      intro s hs' hlt
      have := this s hs'
      simp at hlt
      omega
    | some l =>
      obtain ⟨h1, h2, h3⟩ := filter_getLast_spec _ _ hs _ hl
      by_cases hgt : l > x
      · simp [hgt]
      · simp only [hgt, if_false]
        show findLT g.snapIds x = _
        rw [← hl]
        apply findLT_congr
        intro s hs'
        have hne : s ≠ x := fun h => hx (h ▸ hs')
        constructor
        · intro h; omega
        · intro h; have := h3 s hs' h; omega

theorem readsCommitted_eq (g : GcState) (hs : g.snapIds.Pairwise (· < ·)) (x f tl : Txnid)
    (htl : tl ∈ g.snapIds) (hx : x ∉ g.snapIds) (hf : x ≤ f)
    (ht : ∀ t ∈ g.refs, t.beginId = x → t.endId = f + 1)
    (hc : (∃ t ∈ g.refs, t.beginId = x) ∨ ∀ s ∈ g.snapIds, ¬ (x < s ∧ s ≤ f)) :
    g.readsCommitted tl x = decide (f < tl) := by
  unfold GcState.readsCommitted GcState.youngest
  have hne : tl ≠ x := fun h => hx (h ▸ htl)
  by_cases hlt : tl < x
  · rw [if_pos hlt]; symm; simp; omega
  · rw [if_neg hlt]
    cases hfind : g.refs.find? (fun t => decide (t.beginId = x)) with
    | none =>
      have hno : ∀ t ∈ g.refs, t.beginId ≠ x := by
        intro t ht' he
        have := List.find?_eq_none.mp hfind t ht'
        simp [he] at this
      have := (hc.resolve_left (fun ⟨t, h1, h2⟩ => hno t h1 h2)) tl htl
      symm; simp; omega
    | some t =>
      have hmem := List.mem_of_find?_eq_some hfind
      have hbx : t.beginId = x := by simpa using List.find?_some hfind
      simp only
      rw [ht t hmem hbx, hbx]
      cases hl : findLT g.snapIds (f + 1) with
      | none =>
        have := findLT_none _ _ hl tl htl
        symm; simp; omega
      | some l =>
        obtain ⟨h1, h2, h3⟩ := filter_getLast_spec _ _ hs _ hl
        have h4 := h3 tl htl
        by_cases hgt : l > x
        · simp only [hgt, if_true]
          by_cases hd : f < tl
          · simp [hd]; omega
          · simp [hd]; omega
        · simp only [hgt, if_false]
          symm; simp; omega

/-! ### The walk -/

/-- `a` (newer) over `b` (older) on a committed stack, as the clone sees it: if the older one was still
live in the clone so was the newer one, and otherwise the older one finished no later. -/
def Over (g : GcState) (fin : Txnid → Option Txnid) (a b : Txnid) : Prop :=
  (b ∈ g.live → a ∈ g.live) ∧
  ∀ fa fb, a ∉ g.live → b ∉ g.live → fin a = some fa → fin b = some fb → fb ≤ fa

/-- The ids above the bottom record, newest first. -/
def upper (l : List Uxr) : List Txnid := l.dropLast.map (·.xid)

theorem upper_cons (c d : Uxr) (l : List Uxr) : upper (c :: d :: l) = c.xid :: upper (d :: l) := rfl

theorem readCommitted_cons (acc : Txnid → Bool) (c : Uxr) (l : List Uxr) (hl : l ≠ []) :
    readCommitted acc (c :: l) = if acc c.xid then some c else readCommitted acc l := by
  cases l with
  | nil => exact absurd rfl hl
  | cons d l => rfl

theorem gcWalk_spec (g : GcState) (last : Txnid) (fin : Txnid → Option Txnid)
    (hs : g.snapIds.Pairwise (· < ·)) :
    ∀ (l : List Uxr), l ≠ [] → (∀ x ∈ upper l, Known g last fin x) → (upper l).Pairwise (Over g fin) →
    ∀ mode : Option Txnid, (∀ tl, mode = some tl → tl ∈ g.snapIds ∧ ∀ x ∈ upper l, x ∉ g.live) →
    ∃ l', gcWalk g mode l = some l' ∧ l' ≠ [] ∧ l'.Sublist l ∧
      (mode = none → l'.head? = l.head?) ∧
      ∀ acc, Reader g last fin acc →
        (∀ tl, mode = some tl → ∀ x f, x ∉ g.live → fin x = some f → f ≤ last → tl ≤ f → acc x = false) →
        readCommitted acc l' = readCommitted acc l := by
  intro l
  induction l with
  | nil => intro h; exact absurd rfl h
  | cons c rest ih =>
    intro _ hK hO mode hmode
    cases rest with
    | nil =>
      exact ⟨[c], by simp [gcWalk], by simp, List.Sublist.refl _, fun _ => rfl, fun _ _ _ => rfl⟩
    | cons d rest =>
      rw [upper_cons] at hK hO
      have hKc := hK c.xid (List.mem_cons_self ..)
      have hKr : ∀ x ∈ upper (d :: rest), Known g last fin x := fun x hx => hK x (List.mem_cons_of_mem _ hx)
      obtain ⟨hOc, hOr⟩ := List.pairwise_cons.mp hO
      -- the case where `c` is kept
      have hnec : ∃ l', (if g.live.contains c.xid then (gcWalk g none (d :: rest)).map (c :: ·)
            else if g.youngest c.xid = some c.xid then none
            else match (g.youngest c.xid <|> findLT g.snapIds c.xid) with
              | none => some [c]
              | some tl1 => (gcWalk g (some tl1) (d :: rest)).map (c :: ·)) = some l' ∧
          l' ≠ [] ∧ l'.Sublist (c :: d :: rest) ∧ l'.head? = some c ∧
          ∀ acc, Reader g last fin acc → readCommitted acc l' = readCommitted acc (c :: d :: rest) := by
        by_cases hlive : c.xid ∈ g.live
        · rw [if_pos (by simpa using hlive)]
          obtain ⟨l', h1, h2, h3, _, h5⟩ := ih (by simp) hKr hOr none (by simp)
          rw [h1]
          refine ⟨c :: l', rfl, by simp, h3.cons_cons c, rfl, ?_⟩
          intro acc hacc
          rw [readCommitted_cons _ _ _ h2, readCommitted_cons _ _ _ (by simp)]
          rw [h5 acc hacc (by simp)]
        · rw [if_neg (by simpa using hlive)]
          rcases hKc with h | ⟨_, hsn, f, hfin, hxf, hfl, htup, hcov⟩
          · exact absurd h hlive
          · have hy : ¬ g.youngest c.xid = some c.xid := by
              unfold GcState.youngest
              split
              · simp
              · split
                · simp
                · rename_i t ht _ l _
                  have hb : t.beginId = c.xid := by simpa using List.find?_some ht
                  split
                  · rename_i hgt; simp; omega
                  · simp
            rw [if_neg hy, nextOlder_eq g hs c.xid f hsn hxf htup hcov]
            cases htl : findLT g.snapIds (f + 1) with
            | none =>
              refine ⟨[c], rfl, by simp, by simp, rfl, ?_⟩
              intro acc hacc
              have hno := findLT_none _ _ htl
              have : acc c.xid = true := by
                rcases hacc with ⟨t, ht, ha⟩ | ha
                · rw [ha _ _ hlive hfin hfl]
                  have := hno t ht
                  simp; omega
                · exact ha _ _ hlive hfin hfl
              rw [readCommitted_cons _ _ (d :: rest) (by simp), this]
              rfl
            | some tl1 =>
              obtain ⟨g1, g2, g3⟩ := filter_getLast_spec _ _ hs _ htl
              have hdown : ∀ x ∈ upper (d :: rest), x ∉ g.live := by
                intro x hx hxl
                exact hlive ((hOc x hx).1 hxl)
              obtain ⟨l', h1, h2, h3, _, h5⟩ := ih (by simp) hKr hOr (some tl1) (by
                intro tl h; cases h; exact ⟨g1, hdown⟩)
              simp only [h1, Option.map_some]
              refine ⟨c :: l', rfl, by simp, h3.cons_cons c, rfl, ?_⟩
              intro acc hacc
              rw [readCommitted_cons _ _ _ h2, readCommitted_cons _ _ _ (by simp)]
              by_cases hca : acc c.xid = true
              · simp [hca]
              · simp only [hca, if_false]
                apply h5 acc hacc
                intro tl h; cases h
                rcases hacc with ⟨t, ht, ha⟩ | ha
                · intro x f' hxl hfx hf'l hle
                  rw [ha x f' hxl hfx hf'l]
                  have h6 := ha _ _ hlive hfin hfl
                  have h7 : ¬ f < t := by
                    intro hlt; rw [h6] at hca; simp [hlt] at hca
                  have := g3 t ht (by omega)
                  simp; omega
                · exact absurd (ha _ _ hlive hfin hfl) hca
      cases mode with
      | none =>
        obtain ⟨l', h1, h2, h3, h4, h5⟩ := hnec
        refine ⟨l', by rw [gcWalk]; exact h1, h2, h3, fun _ => h4, fun acc hacc _ => h5 acc hacc⟩
      | some tl =>
        obtain ⟨htl, hdown⟩ := hmode tl rfl
        have hlive : c.xid ∉ g.live := hdown c.xid (by rw [upper_cons]; exact List.mem_cons_self ..)
        by_cases hr : g.readsCommitted tl c.xid = true
        · obtain ⟨l', h1, h2, h3, h4, h5⟩ := hnec
          refine ⟨l', ?_, h2, h3, by simp, fun acc hacc _ => h5 acc hacc⟩
          simp only [gcWalk, hr, if_true]
          exact h1
        · obtain ⟨l', h1, h2, h3, _, h5⟩ := ih (by simp) hKr hOr (some tl) (by
            intro t h; cases h
            exact ⟨htl, fun x hx => hdown x (by rw [upper_cons]; exact List.mem_cons_of_mem _ hx)⟩)
          refine ⟨l', ?_, h2, h3.cons c, by simp, ?_⟩
          · simp only [gcWalk, hr]
            exact h1
          · intro acc hacc hrej
            rw [h5 acc hacc hrej, readCommitted_cons _ c _ (by simp)]
            rcases hKc with h | ⟨_, hsn, f, hfin, hxf, hfl, htup, hcov⟩
            · exact absurd h hlive
            · rw [readsCommitted_eq g hs c.xid f tl htl hsn hxf htup hcov] at hr
              have : acc c.xid = false := hrej tl rfl c.xid f hlive hfin hfl (by simp at hr; omega)
              simp [this]

/-! ### Zeroing the bottom, simple collection -/

theorem readCommitted_zeroBottom (acc : Txnid → Bool) (l : List Uxr) :
    (readCommitted acc (zeroBottom l)).map (·.val) = (readCommitted acc l).map (·.val) := by
  induction l with
  | nil => rfl
  | cons c rest ih =>
    cases rest with
    | nil => rfl
    | cons d rest =>
      have hz : zeroBottom (d :: rest) ≠ [] := by cases rest <;> simp [zeroBottom]
      rw [show zeroBottom (c :: d :: rest) = c :: zeroBottom (d :: rest) from rfl,
        readCommitted_cons _ _ _ hz, readCommitted_cons _ _ _ (by simp)]
      split
      · rfl
      · exact ih

theorem upper_zeroBottom (l : List Uxr) : upper (zeroBottom l) = upper l := by
  induction l with
  | nil => rfl
  | cons c rest ih =>
    cases rest with
    | nil => rfl
    | cons d rest =>
      rw [show zeroBottom (c :: d :: rest) = c :: zeroBottom (d :: rest) from rfl]
      have hz : ∃ a as, zeroBottom (d :: rest) = a :: as := by cases rest <;> simp [zeroBottom]
      obtain ⟨a, as, ha⟩ := hz
      rw [ha] at ih ⊢
      rw [upper_cons, upper_cons, ih]

theorem zeroBottom_ne (l : List Uxr) (h : l ≠ []) : zeroBottom l ≠ [] := by
  cases l with
  | nil => exact absurd rfl h
  | cons c rest => cases rest <;> simp [zeroBottom]

theorem map_val_zeroBottom (l : List Uxr) : (zeroBottom l).map (·.val) = l.map (·.val) := by
  induction l with
  | nil => rfl
  | cons c rest ih =>
    cases rest with
    | nil => rfl
    | cons d rest =>
      rw [show zeroBottom (c :: d :: rest) = c :: zeroBottom (d :: rest) from rfl]
      simp only [List.map_cons] at ih ⊢
      rw [ih]

theorem keepToOldest_spec (oldest : Txnid) (l : List Uxr) (hl : l ≠ []) :
    keepToOldest oldest l ≠ [] ∧ (keepToOldest oldest l).Sublist l ∧
    (keepToOldest oldest l).head? = l.head? ∧
    ∀ acc : Txnid → Bool, (∀ x ∈ upper l, x < oldest → acc x = true) →
      readCommitted acc (keepToOldest oldest l) = readCommitted acc l := by
  induction l with
  | nil => exact absurd rfl hl
  | cons c rest ih =>
    cases rest with
    | nil => simp [keepToOldest]
    | cons d rest =>
      obtain ⟨h1, h2, h3, h4⟩ := ih (by simp)
      rw [show keepToOldest oldest (c :: d :: rest) =
        if c.xid < oldest then [c] else c :: keepToOldest oldest (d :: rest) from rfl]
      by_cases hc : c.xid < oldest
      · rw [if_pos hc]
        refine ⟨by simp, by simp, rfl, ?_⟩
        intro acc hacc
        have := hacc c.xid (by rw [upper_cons]; exact List.mem_cons_self ..) hc
        rw [readCommitted_cons _ _ (d :: rest) (by simp), this]; rfl
      · rw [if_neg hc]
        refine ⟨by simp, h2.cons_cons c, rfl, ?_⟩
        intro acc hacc
        rw [readCommitted_cons _ _ _ h1, readCommitted_cons _ _ _ (by simp)]
        rw [h4 acc (fun x hx => hacc x (by rw [upper_cons]; exact List.mem_cons_of_mem _ hx))]

theorem dropLast_sublist' {α : Type} {l l' : List α} (h : l'.Sublist l) : l'.dropLast.Sublist l.dropLast := by
  induction h with
  | slnil => exact List.Sublist.refl _
  | @cons l1 l2 a h ih =>
    cases l2 with
    | nil => rw [List.sublist_nil.mp h]; exact List.nil_sublist _
    | cons b l2 => rw [List.dropLast_cons₂]; exact ih.cons a
  | @cons_cons l1 l2 a h ih =>
    cases l1 with
    | nil => exact List.nil_sublist _
    | cons c l1 =>
      cases l2 with
      | nil => cases h
      | cons b l2 => rw [List.dropLast_cons₂, List.dropLast_cons₂]; exact ih.cons_cons a

theorem upper_sublist {l l' : List Uxr} (h : l'.Sublist l) : (upper l').Sublist (upper l) := by
  unfold upper
  exact (dropLast_sublist' h).map _

end Verif.Mvcc
