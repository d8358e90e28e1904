import Verif.Omt.Steps
/-!
The trees stay balanced.
-/
namespace Verif.Omt
open Spec (S vals Op Res note)

set_option linter.unusedVariables false
set_option linter.unusedSimpArgs false

variable {α β σ : Type}

/-- No node needs a rebalance. -/
def T.Bal : T α → Prop
  | .nil => True
  | .node _ _ _ l _ r => unbal l.weight r.weight = false ∧ l.Bal ∧ r.Bal

def O.Bal : O α → Prop
  | .arr _ => True
  | .tree t => t.root.Bal

theorem unbal_half (n : Nat) (h : n ≠ 0) : unbal (n / 2) (n - (n / 2 + 1)) = false := by
  simp [unbal]; omega

theorem build_bal {cap : Nat} {rd : Nat → Option α} (fuel : Nat) {free off n free' : Nat} {t : T α} (h : build cap rd fuel free off n = some (t, free')) : t.weight = n ∧ t.Bal := by
  induction fuel generalizing free off n free' t with
  | zero =>
    simp only [build] at h
    split at h
    · cases h; exact ⟨by simp [T.weight, *], trivial⟩
    · cases h
  | succ fuel ih =>
    simp only [build] at h
    split at h
    · cases h; exact ⟨by simp [T.weight, *], trivial⟩
    · rename_i hn
      split at h
      · cases h1 : rd (off + n / 2) with
        | none => simp [h1] at h
        | some v =>
          cases h2 : build cap rd fuel (free + 1) off (n / 2) with
          | none => simp [h1, h2] at h
          | some x =>
            cases h3 : build cap rd fuel x.2 (off + n / 2 + 1) (n - (n / 2 + 1)) with
            | none => simp [h1, h2, h3] at h
            | some y =>
              simp [h1, h2, h3] at h
              obtain ⟨h, _⟩ := h
              subst h
              obtain ⟨w1, b1⟩ := ih (t := x.1) (free' := x.2) h2
              obtain ⟨w2, b2⟩ := ih (t := y.1) (free' := y.2) h3
              exact ⟨rfl, by rw [w1, w2]; exact unbal_half n hn, b1, b2⟩
      · cases h

theorem rebuild_bal {rd : Nat → Option (Bool × Bool × α)} (fuel : Nat) {off n : Nat} {t : T α} (h : rebuild rd fuel off n = some t) : t.weight = n ∧ t.Bal := by
  induction fuel generalizing off n t with
  | zero =>
    simp only [rebuild] at h
    split at h
    · cases h; exact ⟨by simp [T.weight, *], trivial⟩
    · cases h
  | succ fuel ih =>
    simp only [rebuild] at h
    split at h
    · cases h; exact ⟨by simp [T.weight, *], trivial⟩
    · rename_i hn
      cases h1 : rd (off + n / 2) with
      | none => simp [h1] at h
      | some v =>
        cases h2 : rebuild rd fuel off (n / 2) with
        | none => simp [h1, h2] at h
        | some x =>
          cases h3 : rebuild rd fuel (off + n / 2 + 1) (n - (n / 2 + 1)) with
          | none => simp [h1, h2, h3] at h
          | some y =>
            simp [h1, h2, h3] at h
            subst h
            obtain ⟨w1, b1⟩ := ih h2
            obtain ⟨w2, b2⟩ := ih h3
            exact ⟨rfl, by rw [w1, w2]; exact unbal_half n hn, b1, b2⟩

theorem balance_bal {t t' : T α} (h : t.balance = some t') : t'.weight = t.weight ∧ t'.Bal := by
  simp only [T.balance] at h
  cases h1 : fill (fun m b v => (m, b, v)) t.weight (fun _ => none) 0 t with
  | none => simp [h1] at h
  | some x =>
    simp only [h1, bind, Option.bind] at h
    exact rebuild_bal _ h

theorem change_weight {t t' : T α} {p : Path} (h : t.change T.balance p = some t') : t'.weight = t.weight := by
  cases p with
  | nil =>
    have : t.change T.balance [] = t.balance := by cases t <;> rfl
    rw [this] at h
    exact (balance_bal h).1
  | cons d p =>
    cases t with
    | nil => cases d <;> simp [T.change] at h
    | node w m b l x r =>
      cases d with
      | false =>
        simp only [T.change, Option.map_eq_some_iff] at h
        obtain ⟨l', _, e⟩ := h
        subst e; rfl
      | true =>
        simp only [T.change, Option.map_eq_some_iff] at h
        obtain ⟨l', _, e⟩ := h
        subst e; rfl

/-- Balanced as it is or after the rebalance asked for. -/
def Mended (t : T α) (p : Option Path) : Prop :=
  match p with
  | none => t.Bal
  | some q => ∀ t', t.change T.balance q = some t' → t'.Bal

theorem mended_here (t : T α) : Mended t (some []) := by
  intro t' h
  have : t.change T.balance [] = t.balance := by cases t <;> rfl
  rw [this] at h
  exact (balance_bal h).2

theorem mended_left {w : Nat} {m b : Bool} {l r : T α} {x : α} {p : Option Path} (h : Mended l p) (hu : unbal l.weight r.weight = false) (hr : r.Bal) : Mended (.node w m b l x r) (p.map (false :: ·)) := by
  cases p with
  | none => exact ⟨hu, h, hr⟩
  | some q =>
    intro t' e
    simp only [T.change, Option.map_eq_some_iff] at e
    obtain ⟨l', e1, e2⟩ := e
    subst e2
    exact ⟨by rw [change_weight e1]; exact hu, h l' e1, hr⟩

theorem mended_right {w : Nat} {m b : Bool} {l r : T α} {x : α} {p : Option Path} (h : Mended r p) (hu : unbal l.weight r.weight = false) (hl : l.Bal) : Mended (.node w m b l x r) (p.map (true :: ·)) := by
  cases p with
  | none => exact ⟨hu, hl, h⟩
  | some q =>
    intro t' e
    simp only [T.change, Option.map_eq_some_iff] at e
    obtain ⟨r', e1, e2⟩ := e
    subst e2
    exact ⟨by rw [change_weight e1]; exact hu, hl, h r' e1⟩

theorem insertI_weight {cap : Nat} {v : α} {t : T α} {i free : Nat} {found : Bool} {t' : T α} {free' : Nat} {p : Option Path} (h : insertI cap v t i free found = some (t', free', p)) : t'.weight = t.weight + 1 := by
  cases t with
  | nil =>
    simp only [insertI] at h
    split at h
    · cases h; rfl
    · cases h
  | node w m b l x r =>
    simp only [insertI] at h
    split at h
    · cases h1 : insertI cap v l i free (found || unbal (l.weight + 1) r.weight) with
      | none => simp [h1] at h
      | some y => simp [h1] at h; rw [← h.1]; rfl
    · cases h1 : insertI cap v r (i - l.weight - 1) free (found || unbal l.weight (r.weight + 1)) with
      | none => simp [h1] at h
      | some y => simp [h1] at h; rw [← h.1]; rfl

theorem insertI_bal {cap : Nat} {v : α} {t : T α} (hb : t.Bal) {i free : Nat} {t' : T α} {free' : Nat} {p : Option Path} (h : insertI cap v t i free false = some (t', free', p)) : Mended t' p := by
  induction t generalizing i free t' free' p with
  | nil =>
    simp only [insertI] at h
    split at h
    · cases h; exact ⟨by simp [unbal, T.weight], trivial, trivial⟩
    · cases h
  | node w m b l x r ihl ihr =>
    obtain ⟨hu, hl, hr⟩ := hb
    simp only [insertI, Bool.false_or] at h
    split at h
    · cases hh : unbal (l.weight + 1) r.weight with
      | true =>
        cases h1 : insertI cap v l i free true with
        | none => simp [hh, h1] at h
        | some y =>
          simp [hh, h1, pick] at h
          rw [← h.2.2]; exact mended_here _
      | false =>
        cases h1 : insertI cap v l i free false with
        | none => simp [hh, h1] at h
        | some y =>
          obtain ⟨l', f', p'⟩ := y
          simp [hh, h1, pick] at h
          obtain ⟨e1, _, e3⟩ := h
          subst e1 e3
          exact mended_left (ihl hl h1) (by rw [insertI_weight h1]; exact hh) hr
    · cases hh : unbal l.weight (r.weight + 1) with
      | true =>
        cases h1 : insertI cap v r (i - l.weight - 1) free true with
        | none => simp [hh, h1] at h
        | some y =>
          simp [hh, h1, pick] at h
          rw [← h.2.2]; exact mended_here _
      | false =>
        cases h1 : insertI cap v r (i - l.weight - 1) free false with
        | none => simp [hh, h1] at h
        | some y =>
          obtain ⟨r', f', p'⟩ := y
          simp [hh, h1, pick] at h
          obtain ⟨e1, _, e3⟩ := h
          subst e1 e3
          exact mended_right (ihr hr h1) (by rw [insertI_weight h1]; exact hh) hl

theorem deleteI_weight {t : T α} (ho : t.OK) (hm : marked t.toL = false) {i : Nat} {found : Bool} (hi : i < t.toL.length) {t' : T α} {y : α} {p : Option Path} (h : deleteI t i found = some (t', y, p)) : t'.weight = t.weight - 1 := by
  obtain ⟨t1, y1, p1, e, o, _, c, _⟩ := deleteI_ok (found := found) ho hm hi
  rw [h] at e
  cases e
  rw [weight_eq o, weight_eq ho, c, List.length_eraseIdx_of_lt hi]

theorem deleteI_bal {t : T α} (ho : t.OK) (hm : marked t.toL = false) (hb : t.Bal) {i : Nat} (hi : i < t.toL.length) {t' : T α} {y : α} {p : Option Path} (h : deleteI t i false = some (t', y, p)) : Mended t' p := by
  induction t generalizing i t' y p with
  | nil => simp [toL_nil] at hi
  | node w m b l x r ihl ihr =>
    obtain ⟨ml, mm, mr⟩ := parts hm
    obtain ⟨hw, _, ol, or⟩ := ho
    obtain ⟨hu, hl, hr⟩ := hb
    have wl := weight_eq ol
    have wr := weight_eq or
    rw [toL_node] at hi
    simp only [List.length_append, List.length_cons] at hi
    unfold deleteI at h
    simp only [Bool.false_or] at h
    by_cases hi1 : i < l.weight
    · rw [if_pos hi1] at h
      cases hh : unbal (l.weight - 1) r.weight with
      | true =>
        cases h1 : deleteI l i true with
        | none => simp [hh, h1] at h
        | some z =>
          simp [hh, h1, pick] at h
          rw [← h.2.2]; exact mended_here _
      | false =>
        cases h1 : deleteI l i false with
        | none => simp [hh, h1] at h
        | some z =>
          obtain ⟨l', y', p'⟩ := z
          simp [hh, h1, pick] at h
          obtain ⟨e1, _, e3⟩ := h
          subst e1 e3
          exact mended_left (ihl ol ml hl (by omega) h1) (by rw [deleteI_weight ol ml (by omega) h1]; exact hh) hr
    · rw [if_neg hi1] at h
      by_cases hi2 : i = l.weight
      · rw [if_pos hi2] at h
        cases l with
        | nil => cases h; exact hr
        | node w1 m1 b1 l1 x1 r1 =>
          cases r with
          | nil => cases h; exact hl
          | node w2 m2 b2 l2 x2 r2 =>
            have hpos : 0 < (T.node w2 m2 b2 l2 x2 r2).toL.length := by rw [toL_node]; simp only [List.length_append, List.length_cons]; omega
            simp only at h
            cases hh : unbal (T.node w1 m1 b1 l1 x1 r1).weight ((T.node w2 m2 b2 l2 x2 r2).weight - 1) with
            | true =>
              cases h1 : deleteI (T.node w2 m2 b2 l2 x2 r2) 0 true with
              | none => simp [hh, h1] at h
              | some z =>
                simp [hh, h1, pick] at h
                rw [← h.2.2]; exact mended_here _
            | false =>
              cases h1 : deleteI (T.node w2 m2 b2 l2 x2 r2) 0 false with
              | none => simp [hh, h1] at h
              | some z =>
                obtain ⟨r', y', p'⟩ := z
                simp [hh, h1, pick] at h
                obtain ⟨e1, _, e3⟩ := h
                subst e1 e3
                exact mended_right (ihr or mr hr hpos h1) (by rw [deleteI_weight or mr hpos h1]; exact hh) hl
      · rw [if_neg hi2] at h
        cases hh : unbal l.weight (r.weight - 1) with
        | true =>
          cases h1 : deleteI r (i - l.weight - 1) true with
          | none => simp [hh, h1] at h
          | some z =>
            simp [hh, h1, pick] at h
            rw [← h.2.2]; exact mended_here _
        | false =>
          cases h1 : deleteI r (i - l.weight - 1) false with
          | none => simp [hh, h1] at h
          | some z =>
            obtain ⟨r', y', p'⟩ := z
            simp [hh, h1, pick] at h
            obtain ⟨e1, _, e3⟩ := h
            subst e1 e3
            exact mended_right (ihr or mr hr (by omega) h1) (by rw [deleteI_weight or mr (by omega) h1]; exact hh) hl

theorem some_bind {a b : Type} {x : Option a} {f : a → Option b} {y : b} (h : x.bind f = some y) : ∃ z, x = some z ∧ f z = some y := Option.bind_eq_some_iff.mp h

theorem toTree_bal {o : O α} {t : Tr α} (h : o.toTree = some t) (hb : o.Bal) : t.root.Bal := by
  cases o with
  | tree t' => cases h; exact hb
  | arr a =>
    simp only [O.toTree, bind, pure] at h
    obtain ⟨x, e, h⟩ := some_bind h
    cases h
    exact (build_bal _ (t := x.1) (free' := x.2) e).2

theorem finish_bal {sm : Bool} {a : Arr α} {o : O α} (h : finish sm a = some o) : o.Bal := by
  cases sm with
  | false => cases h; trivial
  | true =>
    simp only [finish, if_true, Option.map_eq_some_iff] at h
    obtain ⟨t, e, h⟩ := h
    subst h
    exact toTree_bal e trivial

theorem rebalance_bal {sm : Bool} {t : Tr α} {p : Option Path} {o : O α} (h : rebalance sm t p = some o) (hm : Mended t.root p) : o.Bal := by
  cases p with
  | none => cases h; exact hm
  | some p =>
    cases p with
    | nil =>
      simp only [rebalance, bind] at h
      obtain ⟨a, _, h⟩ := some_bind h
      exact finish_bal h
    | cons d p =>
      simp only [rebalance, Option.map_eq_some_iff] at h
      obtain ⟨t', e, h⟩ := h
      subst h
      exact hm t' e

theorem resize_bal {sm : Bool} {n : Nat} {o o' : O α} (h : o.resize sm n = some o') (hb : o.Bal) : o'.Bal := by
  cases o with
  | arr a =>
    simp only [O.resize, Option.map_eq_some_iff] at h
    obtain ⟨t, _, h⟩ := h
    subst h; trivial
  | tree t =>
    simp only [O.resize] at h
    generalize (if n ≤ 2 then 4 else 2 * n) = size at h
    split at h
    · simp only [bind] at h
      obtain ⟨a, _, h⟩ := some_bind h
      exact finish_bal h
    · cases h; exact hb

theorem treeIf_bal {b : Bool} {o o' : O α} (h : o.treeIf b = some o') (hb : o.Bal) : o'.Bal := by
  cases b with
  | false => cases h; exact hb
  | true =>
    simp only [O.treeIf, if_true, Option.map_eq_some_iff] at h
    obtain ⟨t, e, h⟩ := h
    subst h
    exact toTree_bal e hb

theorem insertAt_bal {sm : Bool} {s : S α} {o o' : O α} (hr : Rep sm s o) (hb : o.Bal) {v : α} {i : Nat} {r : Except Err Unit} (h : insertAt sm o v i = some (r, o')) : o'.Bal := by
  simp only [insertAt, bind, pure] at h
  obtain ⟨_, _, h⟩ := some_bind h
  split at h
  · cases h; exact hb
  · obtain ⟨o1, e1, h⟩ := some_bind h
    obtain ⟨o2, e2, h⟩ := some_bind h
    have b2 := treeIf_bal e2 (resize_bal e1 hb)
    cases o2 with
    | arr a =>
      simp only at h
      split at h
      · obtain ⟨_, _, h⟩ := some_bind h
        cases h; trivial
      · obtain ⟨_, _, h⟩ := some_bind h
        cases h; trivial
    | tree t =>
      obtain ⟨⟨t', f', p⟩, e3, h⟩ := some_bind h
      obtain ⟨o3, e4, h⟩ := some_bind h
      cases h
      exact rebalance_bal e4 (insertI_bal b2 e3)

theorem deleteAt_bal {sm : Bool} {s : S α} {o o' : O α} (hr : Rep sm s o) (hb : o.Bal) {i : Nat} {r : Except Err Unit} (h : deleteAt sm o i = some (r, o')) : o'.Bal := by
  have hm : marked s = false := by
    cases hm : marked s with
    | false => rfl
    | true => rw [deleteAt_marked hr hm] at h; cases h
  simp only [deleteAt, bind, pure] at h
  obtain ⟨_, _, h⟩ := some_bind h
  split at h
  · cases h; exact hb
  · rename_i hi
    rw [rep_size hr] at h hi
    obtain ⟨o1, e1, h⟩ := some_bind h
    obtain ⟨o2, e2, h⟩ := some_bind h
    have b2 := treeIf_bal e2 (resize_bal e1 hb)
    obtain ⟨_, e1', r1, f1⟩ := resize_ok hr hm (s.length - 1) (by omega) (by omega)
    rw [e1] at e1'
    cases e1'
    obtain ⟨_, e2', r2, _⟩ := treeIf_ok r1 f1 (o1.midDelete i)
    rw [e2] at e2'
    cases e2'
    cases o2 with
    | arr a => cases h; trivial
    | tree t =>
      obtain ⟨⟨t', y, p⟩, e3, h⟩ := some_bind h
      obtain ⟨o3, e4, h⟩ := some_bind h
      cases h
      exact rebalance_bal e4 (deleteI_bal r2.1 (by rw [r2.2.1]; exact hm) b2 (by rw [r2.2.1]; omega) e3)

theorem setI_bal {v : α} {t t' : T α} {i : Nat} (h : setI v t i = some t') (hb : t.Bal) : t'.weight = t.weight ∧ t'.Bal := by
  induction t generalizing i t' with
  | nil => cases h
  | node w m b l x r ihl ihr =>
    obtain ⟨hu, hl, hr⟩ := hb
    simp only [setI] at h
    split at h
    · simp only [Option.map_eq_some_iff] at h
      obtain ⟨l', e, h⟩ := h
      subst h
      obtain ⟨w1, b1⟩ := ihl e hl
      exact ⟨rfl, by rw [w1]; exact hu, b1, hr⟩
    · split at h
      · cases h; exact ⟨rfl, hu, hl, hr⟩
      · simp only [Option.map_eq_some_iff] at h
        obtain ⟨r', e, h⟩ := h
        subst h
        obtain ⟨w1, b1⟩ := ihr e hr
        exact ⟨rfl, by rw [w1]; exact hu, hl, b1⟩

theorem setAt_bal {sm : Bool} {o o' : O α} (hb : o.Bal) {v : α} {i : Nat} {r : Except Err Unit} (h : setAt sm o v i = some (r, o')) : o'.Bal := by
  simp only [setAt, bind, pure] at h
  obtain ⟨_, _, h⟩ := some_bind h
  split at h
  · cases h; exact hb
  · cases o with
    | arr a =>
      obtain ⟨_, _, h⟩ := some_bind h
      cases h; trivial
    | tree t =>
      obtain ⟨t', e, h⟩ := some_bind h
      cases h
      exact (setI_bal e hb).2

theorem iterPtrI_bal {f : α → Nat → σ → α × σ} {left right : Nat} {t : T α} (hb : t.Bal) (idx : Nat) (s : σ) : (iterPtrI f left right t idx s).1.weight = t.weight ∧ (iterPtrI f left right t idx s).1.Bal := by
  induction t generalizing idx s with
  | nil => exact ⟨rfl, trivial⟩
  | node w m b l x r ihl ihr =>
    obtain ⟨hu, hl, hr⟩ := hb
    simp only [iterPtrI]
    have a : ∀ c : Prop, [Decidable c] → ∀ idx s, (if c then iterPtrI f left right l idx s else (l, s)).1.weight = l.weight ∧ (if c then iterPtrI f left right l idx s else (l, s)).1.Bal := by
      intro c _ idx s; split
      · exact ihl hl _ _
      · exact ⟨rfl, hl⟩
    have a' : ∀ c : Prop, [Decidable c] → ∀ idx s, (if c then iterPtrI f left right r idx s else (r, s)).1.weight = r.weight ∧ (if c then iterPtrI f left right r idx s else (r, s)).1.Bal := by
      intro c _ idx s; split
      · exact ihr hr _ _
      · exact ⟨rfl, hr⟩
    refine ⟨rfl, ?_, (a _ _ _).2, (a' _ _ _).2⟩
    rw [(a _ _ _).1, (a' _ _ _).1]; exact hu

theorem markI_bal {f : α → Nat → σ → σ × Int} {left right : Nat} {t : T α} (hb : t.Bal) (idx : Nat) (s : σ) : (markI f left right t idx s).1.weight = t.weight ∧ (markI f left right t idx s).1.Bal := by
  induction t generalizing idx s with
  | nil => exact ⟨rfl, trivial⟩
  | node w m b l x r ihl ihr =>
    obtain ⟨hu, hl, hr⟩ := hb
    have a : ∀ c : Prop, [Decidable c] → ∀ idx s, (if c then markI f left right l idx s else (l, s, 0)).1.weight = l.weight ∧ (if c then markI f left right l idx s else (l, s, 0)).1.Bal := by
      intro c _ idx s; split
      · exact ihl hl _ _
      · exact ⟨rfl, hl⟩
    simp only [markI]
    generalize (left < idx + l.weight && !l.isNil) = goL
    generalize (idx + l.weight + 1 < right && !r.isNil) = goR
    generalize (left ≤ idx + l.weight && idx + l.weight < right) = here
    have a1 := a (goL = true) idx s
    generalize (if goL = true then markI f left right l idx s else (l, s, 0)) = X at a1 ⊢
    obtain ⟨l', s', e'⟩ := X
    simp only at a1 ⊢
    have hu' : unbal l'.weight r.weight = false := by rw [a1.1]; exact hu
    split
    · exact ⟨rfl, hu', a1.2, hr⟩
    · generalize (if here = true then f x (idx + l.weight) s' else (s', 0)) = Y
      obtain ⟨s2, e2⟩ := Y
      simp only
      split
      · exact ⟨rfl, hu', a1.2, hr⟩
      · split
        · have a2 := ihr hr (idx + l.weight + 1) s2
          exact ⟨rfl, by rw [a1.1, a2.1]; exact hu, a1.2, a2.2⟩
        · exact ⟨rfl, hu', a1.2, hr⟩

theorem unmarkI_bal {t : T α} (hb : t.Bal) (idx : Nat) : (unmarkI t idx).1.weight = t.weight ∧ (unmarkI t idx).1.Bal := by
  induction t generalizing idx with
  | nil => exact ⟨rfl, trivial⟩
  | node w m b l x r ihl ihr =>
    obtain ⟨hu, hl, hr⟩ := hb
    cases b with
    | true =>
      have a1 := ihl hl idx
      have a2 := ihr hr (idx + l.weight + 1)
      exact ⟨rfl, by show unbal (unmarkI l idx).1.weight (unmarkI r (idx + l.weight + 1)).1.weight = false; rw [a1.1, a2.1]; exact hu, a1.2, a2.2⟩
    | false => exact ⟨rfl, hu, hl, hr⟩

theorem deleteAll_bal {l2 : S α} {k : Nat} {l1 : List α} {o o' : O α} (hr : Rep true (Spec.fresh (l1 ++ vals l2)) o) (hb : o.Bal) (h : deleteAll true (marksOf l2 (l1.length + k)) k o = some o') : o'.Bal := by
  induction l2 generalizing k l1 o with
  | nil => cases h; exact hb
  | cons x l2 ih =>
    obtain ⟨v, m⟩ := x
    cases m with
    | false =>
      have h' : Rep true (Spec.fresh ((l1 ++ [v]) ++ vals l2)) o := by simpa [vals] using hr
      refine ih (k := k) h' hb ?_
      rw [← h]
      simp only [marksOf, Bool.false_eq_true, if_false]
      congr 2
      simp; omega
    | true =>
      simp only [marksOf, if_true, deleteAll] at h
      have hi : l1.length + k - k = l1.length := by omega
      obtain ⟨o1, e1, r1⟩ := deleteAt_ok hr (marked_fresh _) (i := l1.length) (by simp [Spec.fresh, vals])
      have hl : (Spec.fresh (l1 ++ vals ((v, true) :: l2))).eraseIdx l1.length = Spec.fresh (l1 ++ vals l2) := by
        have : vals ((v, true) :: l2) = v :: vals l2 := rfl
        rw [this, fresh_append, fresh_append]
        have e : Spec.fresh (v :: vals l2) = (v, false) :: Spec.fresh (vals l2) := rfl
        have e' : l1.length = (Spec.fresh l1).length := by simp [Spec.fresh]
        rw [e, e', erase_at]
      rw [hl] at r1
      rw [hi, e1] at h
      exact ih (k := k + 1) r1 (deleteAt_bal hr hb e1) h

theorem deleteMarked_bal {s : S α} {o o' : O α} (hr : Rep true s o) (hb : o.Bal) (h : deleteMarked o = some o') : o'.Bal := by
  cases o with
  | arr a => cases hr.1
  | tree t =>
    simp only [deleteMarked] at h
    split at h
    · cases h; exact hb
    · obtain ⟨t', e, ok, c⟩ := unmarkI_ok hr.1 0
      rw [hr.2.1] at e c
      simp only [e, bind, pure] at h
      obtain ⟨o1, e1, h⟩ := some_bind h
      obtain ⟨_, _, h⟩ := some_bind h
      cases h
      have hb' := (unmarkI_bal hb 0).2
      rw [e] at hb'
      refine deleteAll_bal (l1 := []) (l2 := s) (k := 0) (o := .tree { t with root := t' }) ?_ hb' (by simpa using e1)
      exact ⟨ok, c, by intro h; cases h⟩

theorem createFrom_bal {sm : Bool} {vs : List α} {o : O α} (h : createFrom sm vs = some o) : o.Bal := by
  simp only [createFrom, bind] at h
  obtain ⟨_, _, h⟩ := some_bind h
  exact finish_bal h

theorem merge_bal {sm : Bool} {l r o : O α} (h : merge sm l r = some o) : o.Bal := by
  simp only [merge, bind] at h
  obtain ⟨_, _, h⟩ := some_bind h
  obtain ⟨_, _, h⟩ := some_bind h
  exact finish_bal h

theorem splitAt_bal {sm : Bool} {o o' : O α} {i : Nat} {x : Except Err (O α)} (hb : o.Bal) (h : splitAt sm o i = some (x, o')) : o'.Bal ∧ ∀ n, x = .ok n → n.Bal := by
  simp only [splitAt, bind, pure] at h
  obtain ⟨_, _, h⟩ := some_bind h
  split at h
  · cases h; exact ⟨hb, by intro n e; cases e⟩
  · obtain ⟨_, _, h⟩ := some_bind h
    obtain ⟨_, _, h⟩ := some_bind h
    obtain ⟨n, en, h⟩ := some_bind h
    obtain ⟨_, _, h⟩ := some_bind h
    obtain ⟨o1, eo, h⟩ := some_bind h
    cases h
    exact ⟨finish_bal eo, by intro n' e; cases e; exact finish_bal en⟩

theorem step_bal {sm : Bool} {s : S α} {o o' : O α} (hr : Rep sm s o) (hb : o.Bal) {op : Op α} (hl : Spec.Legal sm s op) {r : Res α} (h : step sm o op = some (r, o')) : o'.Bal := by
  have same : ∀ {x : Option (Res α)}, x.map (fun r => (r, o)) = some (r, o') → o'.Bal := by
    intro x h
    cases x with
    | none => cases h
    | some x => cases h; exact hb
  cases op with
  | size => cases h; exact hb
  | insertAt v i =>
    simp only [step, Option.map_eq_some_iff] at h
    obtain ⟨⟨x, o1⟩, e, h⟩ := h
    cases h
    exact insertAt_bal hr hb e
  | setAt v i =>
    simp only [step, Option.map_eq_some_iff] at h
    obtain ⟨⟨x, o1⟩, e, h⟩ := h
    cases h
    exact setAt_bal hb e
  | deleteAt i =>
    simp only [step, Option.map_eq_some_iff] at h
    obtain ⟨⟨x, o1⟩, e, h⟩ := h
    cases h
    exact deleteAt_bal hr hb e
  | fetch i =>
    simp only [step, Option.map_eq_some_iff] at h
    obtain ⟨x, e, h⟩ := h
    cases h; exact hb
  | findZero f =>
    simp only [step, Option.map_eq_some_iff] at h
    obtain ⟨x, e, h⟩ := h
    cases h; exact hb
  | find f plus =>
    simp only [step, Option.map_eq_some_iff] at h
    obtain ⟨x, e, h⟩ := h
    cases h; exact hb
  | insert v f =>
    simp only [step, Option.map_eq_some_iff] at h
    obtain ⟨⟨x, o1⟩, e, h⟩ := h
    cases h
    rw [insert_ok hr hl] at e
    split at e
    · cases e; exact hb
    · simp only [Option.map_eq_some_iff] at e
      obtain ⟨⟨y, o2⟩, e, h⟩ := e
      cases h
      exact insertAt_bal hr hb e
  | iterate ret left right =>
    simp only [step, Option.map_eq_some_iff] at h
    obtain ⟨x, e, h⟩ := h
    cases h; exact hb
  | iteratePtr new =>
    simp only [step, Option.map_eq_some_iff] at h
    obtain ⟨⟨o1, u⟩, e, h⟩ := h
    cases h
    cases o with
    | arr a =>
      simp only [iteratePtr, Option.map_eq_some_iff] at e
      obtain ⟨x, _, e⟩ := e
      cases e; trivial
    | tree t =>
      simp only [iteratePtr] at e
      cases e
      exact (iterPtrI_bal hb 0 ()).2
  | iterateMark ret left right =>
    simp only [step, Option.map_eq_some_iff] at h
    obtain ⟨⟨x, o1⟩, e, h⟩ := h
    cases h
    simp only [iterateMark] at e
    split at e
    · cases e; exact hb
    · split at e
      · cases e; exact hb
      · cases o with
        | arr a => cases e
        | tree t =>
          simp only at e
          split at e
          · cases e
          · cases e
            exact (markI_bal hb 0 []).2
  | iterateMarked ret =>
    simp only [step, Option.map_eq_some_iff] at h
    obtain ⟨x, e, h⟩ := h
    cases h; exact hb
  | deleteMarked =>
    cases hl
    simp only [step, Option.map_eq_some_iff] at h
    obtain ⟨x, e, h⟩ := h
    cases h
    exact deleteMarked_bal hr hb e
  | clear => cases h; cases o <;> trivial
  | split i right =>
    simp only [step, splitStep] at h
    split at h
    · cases h
    · rename_i e1
      cases h
      exact (splitAt_bal hb e1).1
    · rename_i e1
      split at h
      · simp only [Option.map_eq_some_iff] at h
        obtain ⟨_, _, h⟩ := h
        cases h
        exact (splitAt_bal hb e1).2 _ rfl
      · simp only [Option.map_eq_some_iff] at h
        obtain ⟨_, _, h⟩ := h
        cases h
        exact (splitAt_bal hb e1).1
  | merge vs right =>
    simp only [step, Option.map_eq_some_iff, mergeStep] at h
    obtain ⟨x, e, h⟩ := h
    cases h
    split at e
    · cases e
    · split at e <;> exact merge_bal e
  | clone =>
    simp only [step, Option.map_eq_some_iff, clone, bind] at h
    obtain ⟨x, e, h⟩ := h
    cases h
    obtain ⟨_, _, e⟩ := some_bind e
    exact finish_bal e

/-- How deep a tree is. -/
def T.depth : T α → Nat
  | .nil => 0
  | .node _ _ _ l _ r => 1 + max l.depth r.depth

theorem depth_ok {t : T α} (ho : t.OK) (hb : t.Bal) (hd : t.depth ≠ 0) : 3 ^ (t.depth - 1) ≤ 2 ^ (t.depth - 1) * t.toL.length := by
  induction t with
  | nil => simp [T.depth] at hd
  | node w m b l x r ihl ihr =>
    obtain ⟨hw, _, ol, or⟩ := ho
    obtain ⟨hu, hl, hr⟩ := hb
    have hlen : (T.node w m b l x r).toL.length = l.toL.length + 1 + r.toL.length := by rw [toL_node]; simp; omega
    rw [weight_eq ol, weight_eq or] at hu
    simp [unbal] at hu
    rw [hlen]
    simp only [T.depth, Nat.add_sub_cancel_left]
    have key : ∀ d n : Nat, (d ≠ 0 → 3 ^ (d - 1) ≤ 2 ^ (d - 1) * n) → 3 * n ≤ 2 * (l.toL.length + 1 + r.toL.length) → 3 ^ d ≤ 2 ^ d * (l.toL.length + 1 + r.toL.length) := by
      intro d n h1 h2
      cases d with
      | zero => simp; omega
      | succ d =>
        have h1 := h1 (by omega)
        simp only [Nat.add_sub_cancel] at h1
        rw [Nat.pow_succ, Nat.pow_succ]
        calc 3 ^ d * 3 ≤ 2 ^ d * n * 3 := Nat.mul_le_mul_right 3 h1
          _ = 2 ^ d * (3 * n) := by rw [Nat.mul_assoc, Nat.mul_comm n 3]
          _ ≤ 2 ^ d * (2 * (l.toL.length + 1 + r.toL.length)) := Nat.mul_le_mul_left _ h2
          _ = 2 ^ d * 2 * (l.toL.length + 1 + r.toL.length) := by rw [Nat.mul_assoc]
    rcases Nat.le_total l.depth r.depth with h | h
    · rw [Nat.max_eq_right h]
      exact key _ _ (ihr or hr) (by omega)
    · rw [Nat.max_eq_left h]
      exact key _ _ (ihl ol hl) (by omega)

theorem reached_rep {sm : Bool} {s : S α} {o : O α} (h : Reached sm s o) : Rep sm s o ∧ o.Bal := by
  induction h with
  | new e =>
    obtain ⟨o', e', r⟩ := create_ok (α := α) sm
    rw [e] at e'
    cases e'
    exact ⟨r, finish_bal e⟩
  | step _ hl hs he ih =>
    have := step_ok ih.1 _ hl
    rw [hs, he] at this
    obtain ⟨o1, e1, r1⟩ := this
    cases e1
    exact ⟨r1, step_bal ih.1 ih.2 hl he⟩

theorem not_found_splits {h : α → Int} {L : List α} (hu : Up h L) (hn : ∀ x ∈ L, h x ≠ 0) : (∀ x ∈ L.take (L.filter (fun v => h v < 0)).length, h x < 0) ∧ (∀ x ∈ L.drop (L.filter (fun v => h v < 0)).length, h x > 0) := by
  induction L with
  | nil => simp
  | cons y L ih =>
    obtain ⟨h1, h2⟩ := List.pairwise_cons.mp hu
    have ih := ih h2 (fun x hx => hn x (by simp [hx]))
    by_cases hy : h y < 0
    · rw [List.filter_cons_of_pos (by simpa using hy), List.length_cons, List.take_succ_cons, List.drop_succ_cons]
      refine ⟨?_, ih.2⟩
      intro x hx
      simp at hx
      rcases hx with hx | hx
      · rw [hx]; exact hy
      · exact ih.1 x hx
    · have hpos : ∀ x ∈ y :: L, h x > 0 := by
        intro x hx
        simp at hx
        have hy0 := hn y (by simp)
        rcases hx with hx | hx
        · rw [hx]; omega
        · have := (h1 x hx).2
          omega
      have : (y :: L).filter (fun v => decide (h v < 0)) = [] := by
        rw [List.filter_eq_nil_iff]
        intro x hx
        have := hpos x hx
        simp; omega
      rw [this]
      exact ⟨by simp, hpos⟩

end Verif.Omt
