import Verif.Omt.Rest
/-!
Searching.
-/
namespace Verif.Omt
open Spec (S vals Mono)

set_option linter.unusedVariables false
set_option linter.unusedSimpArgs false

variable {α β σ : Type}

/-- The signs do not go down. -/
def Up (h : α → Int) (L : List α) : Prop := L.Pairwise (fun a b => (h b < 0 → h a < 0) ∧ (h b ≤ 0 → h a ≤ 0))

theorem Up.at {h : α → Int} {L : List α} (H : Up h L) {i j : Nat} {a b : α} (hij : i < j) (ha : L[i]? = some a) (hb : L[j]? = some b) : (h b < 0 → h a < 0) ∧ (h b ≤ 0 → h a ≤ 0) := by
  obtain ⟨hi, ea⟩ := List.getElem?_eq_some_iff.mp ha
  obtain ⟨hj, eb⟩ := List.getElem?_eq_some_iff.mp hb
  subst ea eb
  exact List.pairwise_iff_getElem.mp H i j hi hj hij

theorem Up.parts {h : α → Int} {A B : List α} {x : α} (H : Up h (A ++ x :: B)) : Up h A ∧ Up h B ∧ (∀ a ∈ A, (h x < 0 → h a < 0) ∧ (h x ≤ 0 → h a ≤ 0)) ∧ (∀ b ∈ B, (h b < 0 → h x < 0) ∧ (h b ≤ 0 → h x ≤ 0)) := by
  obtain ⟨h1, h2, h3⟩ := List.pairwise_append.mp H
  obtain ⟨h4, h5⟩ := List.pairwise_cons.mp h2
  exact ⟨h1, h5, fun a ha => h3 a ha x (by simp), h4⟩

/-- The values picked by `p`, with their indexes. -/
def at_ (p : α → Bool) (L : List α) (k : Nat) : List (α × Nat) := (L.zipIdx k).filter (fun x => p x.1)

theorem at_append (p : α → Bool) (A B : List α) (k : Nat) : at_ p (A ++ B) k = at_ p A k ++ at_ p B (k + A.length) := by
  simp [at_, List.zipIdx_append]

theorem at_cons (p : α → Bool) (x : α) (B : List α) (k : Nat) : at_ p (x :: B) k = if p x then (x, k) :: at_ p B (k + 1) else at_ p B (k + 1) := by
  simp only [at_, List.zipIdx_cons, List.filter_cons]

theorem at_none {p : α → Bool} {A : List α} (h : ∀ a ∈ A, p a = false) (k : Nat) : at_ p A k = [] := by
  simp only [at_, List.filter_eq_nil_iff]
  rintro ⟨v, i⟩ hx
  have := List.fst_mem_of_mem_zipIdx hx
  simp [h v this]

theorem at_head {p : α → Bool} {A : List α} {k : Nat} {v : α} {i : Nat} (h : (at_ p A k).head? = some (v, i)) : v ∈ A ∧ p v = true := by
  have : (v, i) ∈ at_ p A k := List.mem_of_mem_head? (by rw [h]; rfl)
  simp only [at_, List.mem_filter] at this
  exact ⟨List.fst_mem_of_mem_zipIdx this.1, this.2⟩

/-- What a search for a zero should return, on a list of values. -/
def zeroSpec (h : α → Int) (L : List α) (k : Nat) : Option α × Nat :=
  match (at_ (fun v => h v = 0) L k).head? with
  | some (v, i) => (some v, i)
  | none => (none, k + (L.filter (fun v => h v < 0)).length)

theorem filter_len_all {p : α → Bool} {A : List α} (h : ∀ a ∈ A, p a = true) : (A.filter p).length = A.length := by
  rw [List.filter_eq_self.mpr h]

theorem filter_len_none {p : α → Bool} {A : List α} (h : ∀ a ∈ A, p a = false) : (A.filter p).length = 0 := by
  rw [List.filter_eq_nil_iff.mpr (by intro a ha; simp [h a ha])]; rfl

theorem zeroSpec_neg {h : α → Int} {A B : List α} (hA : ∀ a ∈ A, h a < 0) (k : Nat) : zeroSpec h (A ++ B) k = zeroSpec h B (k + A.length) := by
  simp only [zeroSpec, at_append]
  rw [at_none (A := A) (by intro a ha; have := hA a ha; simp; omega), List.nil_append, List.filter_append, List.length_append, filter_len_all (A := A) (by intro a ha; simpa using hA a ha), ← Nat.add_assoc]

theorem zeroSpec_pos {h : α → Int} {A B : List α} (hB : ∀ b ∈ B, h b > 0) (k : Nat) : zeroSpec h (A ++ B) k = zeroSpec h A k := by
  simp only [zeroSpec, at_append]
  rw [at_none (A := B) (by intro a ha; have := hB a ha; simp; omega), List.append_nil, List.filter_append, List.length_append, filter_len_none (A := B) (by intro a ha; have := hB a ha; simp; omega), Nat.add_zero]

theorem zeroI_ok {h : α → Int} {t : T α} (ho : t.OK) (hu : Up h (vals t.toL)) (k : Nat) : ((zeroI h t).1, (zeroI h t).2 + k) = zeroSpec h (vals t.toL) k := by
  induction t generalizing k with
  | nil => simp [zeroI, zeroSpec, at_, toL_nil, vals]
  | node w m b l x r ihl ihr =>
    obtain ⟨hw, hb, hl, hr⟩ := ho
    have hv : vals (T.node w m b l x r).toL = vals l.toL ++ x :: vals r.toL := by rw [toL_node]; simp [vals]
    have hlen : (vals l.toL).length = l.toL.length := by simp [vals]
    rw [hv] at hu ⊢
    obtain ⟨u1, u2, a1, a2⟩ := hu.parts
    simp only [zeroI, weight_eq hl]
    by_cases h1 : h x < 0
    · simp only [if_pos h1]
      have := zeroSpec_neg (h := h) (A := vals l.toL ++ [x]) (B := vals r.toL) (by
        intro a ha
        simp at ha
        rcases ha with ha | ha
        · exact (a1 a ha).1 h1
        · rw [ha]; exact h1) k
      simp only [List.append_assoc, List.cons_append, List.nil_append] at this
      rw [this, ← ihr hr u2]
      simp only [List.length_append, hlen, List.length_singleton, Prod.mk.injEq, true_and]
      omega
    · by_cases h2 : h x > 0
      · simp only [if_neg h1, if_pos h2]
        rw [zeroSpec_pos (h := h) (A := vals l.toL) (B := x :: vals r.toL) (by
          intro a ha
          simp at ha
          rcases ha with ha | ha
          · rw [ha]; exact h2
          · have := (a2 a ha).2; omega) k]
        exact ihl hl u1 k
      · simp only [if_neg h1, if_neg h2]
        have h0 : h x = 0 := by omega
        have := ihl hl u1 k
        simp only [zeroSpec, at_append, at_cons, h0, decide_true, if_true, List.head?_append]
        simp only [zeroSpec] at this
        cases hz : zeroI h l with
        | mk o i =>
          rw [hz] at this
          cases hh : (at_ (fun v => decide (h v = 0)) (vals l.toL) k).head? with
          | none =>
            rw [hh] at this
            simp only [Prod.mk.injEq] at this
            rw [this.1]
            simp [hlen]; omega
          | some y =>
            obtain ⟨v, j⟩ := y
            rw [hh] at this
            simp only [Prod.mk.injEq] at this
            rw [this.1]
            simp [this.2]

theorem plusI_ok {h : α → Int} {t : T α} (ho : t.OK) (hu : Up h (vals t.toL)) (k : Nat) : (plusI h t).map (fun y => (y.1, y.2 + k)) = (at_ (fun v => h v > 0) (vals t.toL) k).head? := by
  induction t generalizing k with
  | nil => simp [plusI, at_, toL_nil, vals]
  | node w m b l x r ihl ihr =>
    obtain ⟨hw, hb, hl, hr⟩ := ho
    have hv : vals (T.node w m b l x r).toL = vals l.toL ++ x :: vals r.toL := by rw [toL_node]; simp [vals]
    have hlen : (vals l.toL).length = l.toL.length := by simp [vals]
    rw [hv] at hu ⊢
    obtain ⟨u1, u2, a1, a2⟩ := hu.parts
    simp only [plusI, weight_eq hl, at_append, at_cons, List.head?_append, ← ihl hl u1, hlen]
    by_cases h1 : h x > 0
    · simp only [if_pos h1, decide_eq_true h1, if_true]
      cases plusI h l with
      | none => simp [Nat.add_comm]
      | some y => simp
    · have : plusI h l = none := by
        have := ihl hl u1 k
        rw [at_none (by intro a ha; have := (a1 a ha).2 (by omega); simp; omega)] at this
        cases hp : plusI h l with
        | none => rfl
        | some y => rw [hp] at this; simp at this
      simp only [if_neg h1, decide_eq_true_eq, this, ← ihr hr u2]
      cases plusI h r with
      | none => simp
      | some y => simp; omega

theorem minusI_ok {h : α → Int} {t : T α} (ho : t.OK) (hu : Up h (vals t.toL)) (k : Nat) : (minusI h t).map (fun y => (y.1, y.2 + k)) = (at_ (fun v => h v < 0) (vals t.toL) k).getLast? := by
  induction t generalizing k with
  | nil => simp [minusI, at_, toL_nil, vals]
  | node w m b l x r ihl ihr =>
    obtain ⟨hw, hb, hl, hr⟩ := ho
    have hv : vals (T.node w m b l x r).toL = vals l.toL ++ x :: vals r.toL := by rw [toL_node]; simp [vals]
    have hlen : (vals l.toL).length = l.toL.length := by simp [vals]
    rw [hv] at hu ⊢
    obtain ⟨u1, u2, a1, a2⟩ := hu.parts
    simp only [minusI, weight_eq hl, at_append, at_cons, hlen]
    by_cases h1 : h x < 0
    · simp only [if_pos h1, decide_eq_true h1, if_true, List.getLast?_append, List.getLast?_cons, ← ihr hr u2]
      cases minusI h r with
      | none => simp [Nat.add_comm]
      | some y => simp [Nat.add_comm, Nat.add_left_comm]
    · simp only [if_neg h1, decide_eq_true_eq]
      rw [at_none (A := vals r.toL) (by intro a ha; have := (a2 a ha).1; simp; omega), List.append_nil]
      exact ihl hl u1 k

theorem split_at {L : List α} {a : Nat} {v : α} (h : L[a]? = some v) : L = L.take a ++ v :: L.drop (a + 1) := by
  obtain ⟨hi, e⟩ := List.getElem?_eq_some_iff.mp h
  subst e
  rw [← List.drop_eq_getElem_cons hi, List.take_append_drop]

theorem take_all {L : List α} {a : Nat} {P : α → Prop} (h : ∀ j v, j < a → L[j]? = some v → P v) : ∀ x ∈ L.take a, P x := by
  intro x hx
  obtain ⟨j, hj⟩ := List.getElem?_of_mem hx
  rw [List.getElem?_take] at hj
  split at hj
  · exact h j x (by assumption) hj
  · cases hj

theorem drop_all {L : List α} {a : Nat} {P : α → Prop} (h : ∀ j v, a ≤ j → L[j]? = some v → P v) : ∀ x ∈ L.drop a, P x := by
  intro x hx
  obtain ⟨j, hj⟩ := List.getElem?_of_mem hx
  rw [List.getElem?_drop] at hj
  exact h (a + j) x (by omega) hj

/-- What the loop knows of the place `b` where the search ends on the right. -/
def ZB (h : α → Int) (L : List α) (start b : Nat) (bp bz : Option Nat) : Prop :=
  (b = L.length ∧ bp = none ∧ bz = none) ∨ (∃ v, L[b]? = some v ∧ h v = 0 ∧ bz = some (start + b)) ∨ (∃ v, L[b]? = some v ∧ h v > 0 ∧ bp = some (start + b) ∧ bz = none)

theorem zeroLoop_ok {rd : Nat → Option α} {h : α → Int} {start : Nat} {L : List α} (H : Holds rd start L) (hu : Up h L) (fuel : Nat) {a b : Nat} {bp bz : Option Nat} (hf : b - a ≤ fuel) (hab : a ≤ b) (hb : b ≤ L.length)
    (ha : ∀ j v, j < a → L[j]? = some v → h v < 0) (hz : ZB h L start b bp bz) :
    ∃ c bp' bz', zeroLoop rd h fuel (start + a) (start + b) bp bz = some (bp', bz') ∧ c ≤ L.length ∧ (∀ j v, j < c → L[j]? = some v → h v < 0) ∧ ZB h L start c bp' bz' := by
  induction fuel generalizing a b bp bz with
  | zero =>
    have : a = b := by omega
    subst this
    exact ⟨a, bp, bz, by simp [zeroLoop], hb, ha, hz⟩
  | succ fuel ih =>
    by_cases he : a = b
    · subst he
      exact ⟨a, bp, bz, by simp [zeroLoop], hb, ha, hz⟩
    · have hm : (start + a + (start + b)) / 2 = start + (a + b) / 2 := by omega
      have hml : (a + b) / 2 < L.length := by omega
      have hg : L[(a + b) / 2]? = some L[(a + b) / 2] := by simp [hml]
      have hr := H _ hml
      rw [hg] at hr
      generalize L[(a + b) / 2] = v at hg hr
      unfold zeroLoop
      simp only [if_neg (show ¬ start + a = start + b by omega), hm, hr, bind, Option.bind]
      have key : ∀ j u, j < (a + b) / 2 → L[j]? = some u → _ := fun j u hj hu' => hu.at hj hu' hg
      have key' : ∀ j u, (a + b) / 2 < j → L[j]? = some u → _ := fun j u hj hu' => hu.at hj hg hu'
      by_cases h1 : h v < 0
      · rw [if_pos h1, Nat.add_assoc]
        apply ih (by omega) (by omega) hb _ hz
        intro j u hj hju
        by_cases e : j = (a + b) / 2
        · subst e; rw [hg] at hju; cases hju; exact h1
        · exact (key j u (by omega) hju).1 h1
      · rw [if_neg h1]
        by_cases h2 : h v > 0
        · rw [if_pos h2]
          apply ih (by omega) (by omega) (by omega) ha
          right; right
          refine ⟨v, hg, h2, rfl, ?_⟩
          rcases hz with ⟨_, _, e⟩ | ⟨u, e, e0, _⟩ | ⟨_, _, _, _, e⟩
          · exact e
          · have := (key' b u (by omega) e).2 (by omega); omega
          · exact e
        · rw [if_neg h2]
          apply ih (by omega) (by omega) (by omega) ha
          right; left
          exact ⟨v, hg, by omega, rfl⟩

theorem findZero_ok {sm : Bool} {l : S α} {o : O α} (hr : Rep sm l o) {h : α → Int} (hu : Mono h l) : findZero o h = some (Spec.findZero h l) := by
  have hs : Spec.findZero h l = zeroSpec h (vals l) 0 := by
    simp only [Spec.findZero, zeroSpec, at_, Nat.zero_add]
    rfl
  rw [hs]
  cases o with
  | tree t =>
    have := zeroI_ok (h := h) hr.1 (by rw [hr.2.1]; exact hu) 0
    rw [hr.2.1] at this
    simp only [findZero, ← this]
    rfl
  | arr a =>
    have hn : a.num = (vals l).length := by simpa [vals] using hr.2.2.1
    obtain ⟨c, bp, bz, e, hc, hlt, hz⟩ := zeroLoop_ok (h := h) (show Holds a.read a.start (vals l) from hr.2.2.2.2) hu a.num (a := 0) (b := a.num) (bp := none) (bz := none) (by omega) (by omega) (by rw [hn]; exact Nat.le_refl _) (by intro j v hj; omega) (Or.inl ⟨hn, rfl, rfl⟩)
    rw [Nat.add_zero] at e
    have hA := take_all hlt
    simp only [findZero, e, bind, Option.bind]
    have hH : Holds a.read a.start (vals l) := hr.2.2.2.2
    rcases hz with ⟨ec, e1, e2⟩ | ⟨v, hv, h0, e2⟩ | ⟨v, hv, h0, e1, e2⟩
    · subst e1 e2
      simp only
      have : vals l = (vals l).take c := by rw [List.take_of_length_le]; exact Nat.le_of_eq ec.symm
      have h2 := zeroSpec_neg (h := h) (A := vals l) (B := []) (by rw [this]; exact hA) 0
      rw [List.append_nil] at h2
      rw [h2]
      simp [zeroSpec, at_, hn]
    · subst e2
      have hcl : c < (vals l).length := (List.getElem?_eq_some_iff.mp hv).1
      have h2 := zeroSpec_neg (h := h) (A := (vals l).take c) (B := v :: (vals l).drop (c + 1)) hA 0
      rw [← split_at hv] at h2
      rw [h2]
      have hlen : ((vals l).take c).length = c := by rw [List.length_take]; omega
      have := hH c hcl
      rw [hv] at this
      simp only [this, zeroSpec, at_cons, h0, decide_true, if_true, List.head?_cons, hlen, Nat.zero_add]
      congr 2
      omega
    · subst e1 e2
      have h2 := zeroSpec_neg (h := h) (A := (vals l).take c) (B := v :: (vals l).drop (c + 1)) hA 0
      rw [← split_at hv] at h2
      rw [h2]
      have hcl : c < (vals l).length := (List.getElem?_eq_some_iff.mp hv).1
      have hlen : ((vals l).take c).length = c := by rw [List.length_take]; omega
      have h3 := zeroSpec_pos (h := h) (A := []) (B := v :: (vals l).drop (c + 1)) (by
        intro b hb
        simp at hb
        rcases hb with hb | hb
        · rw [hb]; exact h0
        · refine drop_all (P := fun b => h b > 0) (a := c + 1) ?_ b hb
          intro j u hj hju
          have := (Up.at hu (show c < j by omega) hv hju).2
          omega) (0 + ((vals l).take c).length)
      rw [List.nil_append] at h3
      rw [h3, hlen]
      simp [zeroSpec, at_]

theorem plusLoop_ok {rd : Nat → Option α} {h : α → Int} {start : Nat} {L : List α} (H : Holds rd start L) (hu : Up h L) (fuel : Nat) {a b : Nat} {best : Option Nat} (hf : b - a ≤ fuel) (hab : a ≤ b) (hb : b ≤ L.length)
    (ha : ∀ j v, j < a → L[j]? = some v → h v ≤ 0) (hz : (b = L.length ∧ best = none) ∨ (∃ v, L[b]? = some v ∧ h v > 0 ∧ best = some (start + b))) :
    ∃ c best', plusLoop rd h fuel (start + a) (start + b) best = some best' ∧ c ≤ L.length ∧ (∀ j v, j < c → L[j]? = some v → h v ≤ 0) ∧ ((c = L.length ∧ best' = none) ∨ (∃ v, L[c]? = some v ∧ h v > 0 ∧ best' = some (start + c))) := by
  induction fuel generalizing a b best with
  | zero =>
    have : a = b := by omega
    subst this
    exact ⟨a, best, by simp [plusLoop], hb, ha, hz⟩
  | succ fuel ih =>
    by_cases he : a = b
    · subst he
      exact ⟨a, best, by simp [plusLoop], hb, ha, hz⟩
    · have hm : (start + a + (start + b)) / 2 = start + (a + b) / 2 := by omega
      have hml : (a + b) / 2 < L.length := by omega
      have hg : L[(a + b) / 2]? = some L[(a + b) / 2] := by simp [hml]
      have hr := H _ hml
      rw [hg] at hr
      generalize L[(a + b) / 2] = v at hg hr
      unfold plusLoop
      simp only [if_neg (show ¬ start + a = start + b by omega), hm, hr, bind, Option.bind]
      by_cases h1 : h v > 0
      · rw [if_pos h1]
        exact ih (by omega) (by omega) (by omega) ha (Or.inr ⟨v, hg, h1, rfl⟩)
      · rw [if_neg h1, Nat.add_assoc]
        apply ih (by omega) (by omega) hb _ hz
        intro j u hj hju
        by_cases e : j = (a + b) / 2
        · subst e; rw [hg] at hju; cases hju; omega
        · exact (hu.at (by omega) hju hg).2 (by omega)

theorem minusLoop_ok {rd : Nat → Option α} {h : α → Int} {start : Nat} {L : List α} (H : Holds rd start L) (hu : Up h L) (fuel : Nat) {a b : Nat} {best : Option Nat} (hf : b - a ≤ fuel) (hab : a ≤ b) (hb : b ≤ L.length)
    (hB : ∀ j v, b ≤ j → L[j]? = some v → ¬ h v < 0) (hz : (a = 0 ∧ best = none) ∨ (∃ c v, a = c + 1 ∧ L[c]? = some v ∧ h v < 0 ∧ best = some (start + c))) :
    ∃ d best', minusLoop rd h fuel (start + a) (start + b) best = some best' ∧ (∀ j v, d ≤ j → L[j]? = some v → ¬ h v < 0) ∧ ((d = 0 ∧ best' = none) ∨ (∃ c v, d = c + 1 ∧ L[c]? = some v ∧ h v < 0 ∧ best' = some (start + c))) := by
  induction fuel generalizing a b best with
  | zero =>
    have : a = b := by omega
    subst this
    exact ⟨a, best, by simp [minusLoop], hB, hz⟩
  | succ fuel ih =>
    by_cases he : a = b
    · subst he
      exact ⟨a, best, by simp [minusLoop], hB, hz⟩
    · have hm : (start + a + (start + b)) / 2 = start + (a + b) / 2 := by omega
      have hml : (a + b) / 2 < L.length := by omega
      have hg : L[(a + b) / 2]? = some L[(a + b) / 2] := by simp [hml]
      have hr := H _ hml
      rw [hg] at hr
      generalize L[(a + b) / 2] = v at hg hr
      unfold minusLoop
      simp only [if_neg (show ¬ start + a = start + b by omega), hm, hr, bind, Option.bind]
      by_cases h1 : h v < 0
      · rw [if_pos h1, Nat.add_assoc]
        exact ih (by omega) (by omega) hb hB (Or.inr ⟨_, v, rfl, hg, h1, rfl⟩)
      · rw [if_neg h1]
        apply ih (by omega) (by omega) (by omega) _ hz
        intro j u hj hju hn
        by_cases e : j = (a + b) / 2
        · subst e; rw [hg] at hju; cases hju; omega
        · exact h1 ((hu.at (by omega) hg hju).1 hn)

theorem find_ok {sm : Bool} {l : S α} {o : O α} (hr : Rep sm l o) {h : α → Int} (hu : Mono h l) (plus : Bool) : find o h plus = some (Spec.find h plus l) := by
  cases o with
  | tree t =>
    have hp := plusI_ok (h := h) hr.1 (by rw [hr.2.1]; exact hu) 0
    have hm := minusI_ok (h := h) hr.1 (by rw [hr.2.1]; exact hu) 0
    rw [hr.2.1] at hp hm
    have hid : ∀ x : Option (α × Nat), x.map (fun y => (y.1, y.2 + 0)) = x := by intro x; cases x <;> rfl
    rw [hid] at hp hm
    simp only [find, Spec.find, hp, hm]
    rfl
  | arr a =>
    have hn : a.num = (vals l).length := by simpa [vals] using hr.2.2.1
    have hH : Holds a.read a.start (vals l) := hr.2.2.2.2
    cases plus with
    | true =>
      obtain ⟨c, best, e, hc, hle, hz⟩ := plusLoop_ok (h := h) hH hu a.num (a := 0) (b := a.num) (best := none) (by omega) (by omega) (by omega) (by intro j v hj; omega) (Or.inl ⟨hn, rfl⟩)
      rw [Nat.add_zero] at e
      have hA := take_all hle
      simp only [find, if_true, e, bind, Option.bind, Spec.find]
      have hs : (vals l).zipIdx.filter (fun x => decide (h x.1 > 0)) = at_ (fun v => decide (h v > 0)) (vals l) 0 := rfl
      rw [hs]
      rcases hz with ⟨ec, e1⟩ | ⟨v, hv, h0, e1⟩
      · subst e1
        have : vals l = (vals l).take c := by rw [List.take_of_length_le]; exact Nat.le_of_eq ec.symm
        rw [this, at_none (by intro a ha; have := hA a ha; simp; omega)]
        rfl
      · subst e1
        have hcl : c < (vals l).length := (List.getElem?_eq_some_iff.mp hv).1
        have hlen : ((vals l).take c).length = c := by rw [List.length_take]; omega
        have hrd := hH c hcl
        rw [hv] at hrd
        simp only [Arr.found, hrd, Option.map_some]
        have h2 : at_ (fun v => decide (h v > 0)) (vals l) 0 = (v, 0 + c) :: at_ (fun v => decide (h v > 0)) ((vals l).drop (c + 1)) (0 + c + 1) := by
          conv => lhs; rw [split_at hv]
          rw [at_append, at_none (by intro a ha; have := hA a ha; simp; omega), List.nil_append, at_cons, hlen]
          simp [h0]
        rw [h2]
        simp
    | false =>
      obtain ⟨d, best, e, hB, hz⟩ := minusLoop_ok (h := h) hH hu a.num (a := 0) (b := a.num) (best := none) (by omega) (by omega) (by omega) (by
        intro j v hj hv
        have := (List.getElem?_eq_some_iff.mp hv).1
        omega) (Or.inl ⟨rfl, rfl⟩)
      rw [Nat.add_zero] at e
      have hD := drop_all hB
      simp only [find, Bool.false_eq_true, if_false, e, bind, Option.bind, Spec.find]
      have hs : (vals l).zipIdx.filter (fun x => decide (h x.1 < 0)) = at_ (fun v => decide (h v < 0)) (vals l) 0 := rfl
      rw [hs]
      rcases hz with ⟨ec, e1⟩ | ⟨c, v, ec, hv, h0, e1⟩
      · subst e1 ec
        rw [List.drop_zero] at hD
        rw [at_none (by intro a ha; simpa using hD a ha)]
        rfl
      · subst e1 ec
        have hcl : c < (vals l).length := (List.getElem?_eq_some_iff.mp hv).1
        have hlen : ((vals l).take c).length = c := by rw [List.length_take]; omega
        have hrd := hH c hcl
        rw [hv] at hrd
        simp only [Arr.found, hrd, Option.map_some]
        have h2 : at_ (fun v => decide (h v < 0)) (vals l) 0 = at_ (fun v => decide (h v < 0)) ((vals l).take c) 0 ++ [(v, 0 + c)] := by
          conv => lhs; rw [split_at hv]
          rw [at_append, at_cons, hlen, at_none (A := (vals l).drop (c + 1)) (by intro a ha; simpa using hD a ha)]
          simp [h0]
        rw [h2]
        simp

theorem insert_ok {sm : Bool} {l : S α} {o : O α} (hr : Rep sm l o) {h : α → Int} (hu : Mono h l) (v : α) :
    insert sm o v h = (match Spec.findZero h l with
      | (some _, i) => some ((.error .exists, i), o)
      | (none, i) => (insertAt sm o v i).map (fun x => ((x.1, i), x.2))) := by
  simp only [insert, findZero_ok hr hu, bind, Option.bind]
  cases Spec.findZero h l with
  | mk w i =>
    cases w with
    | none => simp only; cases insertAt sm o v i <;> rfl
    | some w => rfl

theorem findZero_le {h : α → Int} {l : S α} : (Spec.findZero h l).1 = none → (Spec.findZero h l).2 ≤ l.length := by
  simp only [Spec.findZero]
  split
  · intro e; cases e
  · intro _
    have := List.length_filter_le (fun v => decide (h v < 0)) (vals l)
    simpa [vals] using this

end Verif.Omt
