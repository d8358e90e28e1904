import Verif.Sort.Quick

/-! Merging, and the sort as a whole. -/
namespace Verif.Sort
variable {α : Type} {cmp : α → α → Int}

theorem copyAt_eq {dest src : List α} {i : Nat} (h : i + src.length ≤ dest.length) :
    copyAt dest i src = some (dest.take i ++ src ++ dest.drop (i + src.length)) := if_pos h

/-- What `merge_c` does after its loop. -/
def finish (a b : List α) : List α × Nat × Nat × Nat → Option (List α)
  | (dest, ai, bi, i) => if ai < a.length then copyAt dest i (a.drop ai) else if bi < b.length then copyAt dest i (b.drop bi) else some dest

theorem mergeC_eq (dest a b : List α) : mergeC cmp dest a b = (mergeLoop cmp a b (a.length + b.length + 1) dest 0 0 0).bind (finish a b) := rfl

theorem take_set_succ {dest : List α} {i : Nat} {x : α} (h : i < dest.length) : (dest.set i x).take (i + 1) = dest.take i ++ [x] := by
  rw [List.take_succ, List.take_set_of_le (Nat.le_refl _), List.getElem?_set_self h]
  rfl

theorem loop_ok (hc : Comparator cmp) (a b : List α) : ∀ (fuel : Nat) (dest : List α) (ai bi i : Nat), ai ≤ a.length → bi ≤ b.length →
    i + (a.length - ai) + (b.length - bi) ≤ dest.length → (a.length - ai) + (b.length - bi) < fuel →
    InOrder cmp (a.drop ai) → InOrder cmp (b.drop bi) →
    ∃ s, (mergeLoop cmp a b fuel dest ai bi i).bind (finish a b) = some (dest.take i ++ s ++ dest.drop (i + (a.length - ai) + (b.length - bi))) ∧
      s.Perm (a.drop ai ++ b.drop bi) ∧ InOrder cmp s
  | 0, _, _, _, _, _, _, _, hf, _, _ => absurd hf (Nat.not_lt_zero _)
  | fuel + 1, dest, ai, bi, i, ha, hb, hd, hf, oa, ob => by
    unfold mergeLoop
    by_cases h : ai < a.length ∧ bi < b.length
    · rw [if_pos h]
      have e1 := List.drop_eq_getElem_cons h.1
      have e2 := List.drop_eq_getElem_cons h.2
      have g1 := List.getElem?_eq_getElem h.1
      have g2 := List.getElem?_eq_getElem h.2
      have hi : i < dest.length := by omega
      generalize hx : a[ai] = x at e1 g1
      generalize hy : b[bi] = y at e2 g2
      simp only [g1, g2, Option.bind_eq_bind, Option.bind_some]
      have oa' : InOrder cmp (x :: a.drop (ai + 1)) := e1 ▸ oa
      have ob' : InOrder cmp (y :: b.drop (bi + 1)) := e2 ▸ ob
      by_cases hlt : cmp x y < 0
      · rw [if_pos hlt]
        unfold write
        rw [if_pos hi, Option.bind_some]
        obtain ⟨s, s1, s2, s3⟩ := loop_ok hc a b fuel (dest.set i x) (ai + 1) bi (i + 1) (by omega) hb
          (by rw [List.length_set]; omega) (by omega) (List.pairwise_cons.1 oa').2 ob
        refine ⟨x :: s, ?_, ?_, ?_⟩
        · rw [s1, take_set_succ hi, List.drop_set_of_lt (by omega), List.append_assoc (dest.take i)]
          congr 3
          omega
        · rw [e1]
          exact s2.cons x
        · refine List.pairwise_cons.2 ⟨?_, s3⟩
          intro z hz
          rcases List.mem_append.1 (s2.mem_iff.1 hz) with hz | hz
          · exact (List.pairwise_cons.1 oa').1 z hz
          · rw [e2] at hz
            rcases List.mem_cons.1 hz with rfl | hz
            · omega
            · exact hc.trans x y z (by omega) ((List.pairwise_cons.1 ob').1 z hz)
      · rw [if_neg hlt]
        unfold write
        rw [if_pos hi, Option.bind_some]
        obtain ⟨s, s1, s2, s3⟩ := loop_ok hc a b fuel (dest.set i y) ai (bi + 1) (i + 1) ha (by omega)
          (by rw [List.length_set]; omega) (by omega) oa (List.pairwise_cons.1 ob').2
        refine ⟨y :: s, ?_, ?_, ?_⟩
        · rw [s1, take_set_succ hi, List.drop_set_of_lt (by omega), List.append_assoc (dest.take i)]
          congr 3
          omega
        · rw [e2]
          exact (s2.cons y).trans List.perm_middle.symm
        · refine List.pairwise_cons.2 ⟨?_, s3⟩
          intro z hz
          rcases List.mem_append.1 (s2.mem_iff.1 hz) with hz | hz
          · rw [e1] at hz
            rcases List.mem_cons.1 hz with rfl | hz
            · exact hc.flip hlt
            · exact hc.trans y x z (hc.flip hlt) ((List.pairwise_cons.1 oa').1 z hz)
          · exact (List.pairwise_cons.1 ob').1 z hz
    · rw [if_neg h, Option.bind_some]
      unfold finish
      by_cases h1 : ai < a.length
      · have hbn : b.drop bi = [] := List.drop_eq_nil_of_le (by omega)
        refine ⟨a.drop ai, ?_, by rw [hbn, List.append_nil], oa⟩
        simp only [if_pos h1]
        rw [copyAt_eq (by rw [List.length_drop]; omega), List.length_drop]
        congr 3
        omega
      · have han : a.drop ai = [] := List.drop_eq_nil_of_le (by omega)
        by_cases h2 : bi < b.length
        · refine ⟨b.drop bi, ?_, by rw [han, List.nil_append], ob⟩
          simp only [if_neg h1, if_pos h2]
          rw [copyAt_eq (by rw [List.length_drop]; omega), List.length_drop]
          congr 3
          omega
        · refine ⟨[], ?_, by rw [han, List.drop_eq_nil_of_le (by omega)]; exact List.Perm.refl _, List.Pairwise.nil⟩
          simp only [if_neg h1, if_neg h2, List.append_nil]
          rw [show i + (a.length - ai) + (b.length - bi) = i by omega, List.take_append_drop]

theorem mergeC_ok (hc : Comparator cmp) {dest a b : List α} (hd : a.length + b.length ≤ dest.length) (oa : InOrder cmp a) (ob : InOrder cmp b) :
    ∃ s, mergeC cmp dest a b = some (s ++ dest.drop (a.length + b.length)) ∧ s.Perm (a ++ b) ∧ InOrder cmp s := by
  obtain ⟨s, s1, s2, s3⟩ := loop_ok hc a b (a.length + b.length + 1) dest 0 0 0 (Nat.zero_le _) (Nat.zero_le _) (by omega) (by omega) oa ob
  refine ⟨s, ?_, s2, s3⟩
  rw [mergeC_eq, s1, List.take_zero, List.nil_append]
  congr 3
  omega

theorem order_get {a : List α} (h : InOrder cmp a) {i j : Nat} {x y : α} (hij : i < j) (hx : a[i]? = some x) (hy : a[j]? = some y) : cmp x y ≤ 0 := by
  obtain ⟨h1, rfl⟩ := List.getElem?_eq_some_iff.1 hx
  obtain ⟨h2, rfl⟩ := List.getElem?_eq_some_iff.1 hy
  exact List.pairwise_iff_getElem.1 h i j h1 h2 hij

/-- The place found: nothing before it is above the key, nothing from it on is below. -/
theorem binsearch_ok (hc : Comparator cmp) (key : α) : ∀ (fuel : Nat) (a : List α) (before : Nat), a.length < fuel → InOrder cmp a →
    ∃ k, binsearch cmp key fuel a before = some (before + k) ∧ k ≤ a.length ∧ (∀ x ∈ a.take k, cmp x key ≤ 0) ∧ (∀ x ∈ a.drop k, cmp key x ≤ 0)
  | 0, _, _, hf, _ => absurd hf (Nat.not_lt_zero _)
  | fuel + 1, a, before, hf, oa => by
    unfold binsearch
    by_cases h0 : a.length = 0
    · rw [if_pos h0]
      have : a = [] := List.length_eq_zero_iff.1 h0
      subst this
      exact ⟨0, rfl, Nat.le_refl _, by simp, by simp⟩
    · rw [if_neg h0]
      have hm : a.length / 2 < a.length := by omega
      have g := List.getElem?_eq_getElem hm
      have e := List.drop_eq_getElem_cons hm
      generalize a[a.length / 2] = m at g e
      have full : a = a.take (a.length / 2) ++ m :: a.drop (a.length / 2 + 1) := by rw [← e, List.take_append_drop]
      have ob : InOrder cmp (a.take (a.length / 2) ++ m :: a.drop (a.length / 2 + 1)) := full ▸ oa
      obtain ⟨o1, o2, o3⟩ := List.pairwise_append.1 ob
      have o4 := (List.pairwise_cons.1 o2).1
      simp only [g, Option.bind_eq_bind, Option.bind_some]
      by_cases hlt : cmp key m < 0
      · rw [if_pos hlt]
        have up : ∀ x ∈ a.drop (a.length / 2), cmp key x ≤ 0 := by
          intro x hx
          rw [e] at hx
          rcases List.mem_cons.1 hx with rfl | hx
          · omega
          · exact hc.trans key m x (by omega) (o4 x hx)
        by_cases h1 : a.length = 1
        · rw [if_pos h1]
          refine ⟨0, rfl, Nat.zero_le _, by simp, ?_⟩
          have hz : a.length / 2 = 0 := by omega
          rw [hz] at up
          exact up
        · rw [if_neg h1]
          obtain ⟨k, k1, k2, k3, k4⟩ := binsearch_ok hc key fuel (a.take (a.length / 2)) before (by rw [List.length_take]; omega) o1
          rw [List.length_take] at k2
          refine ⟨k, k1, by omega, ?_, ?_⟩
          · intro x hx
            refine k3 x ?_
            rw [List.take_take, Nat.min_eq_left (by omega)]
            exact hx
          · intro x hx
            have hsp : a.drop k = (a.take (a.length / 2)).drop k ++ a.drop (a.length / 2) := by
              conv => lhs; rw [← List.take_append_drop (a.length / 2) a]
              rw [List.drop_append_of_le_length (by rw [List.length_take]; omega)]
            rw [hsp] at hx
            rcases List.mem_append.1 hx with hx | hx
            · exact k4 x hx
            · exact up x hx
      · rw [if_neg hlt]
        have dn : ∀ x ∈ a.take (a.length / 2), cmp x key ≤ 0 := by
          intro x hx
          exact hc.trans x m key (o3 x hx m List.mem_cons_self) (hc.flip hlt)
        by_cases hgt : 0 < cmp key m
        · rw [if_pos hgt]
          by_cases h1 : a.length = 1
          · rw [if_pos h1]
            have hz : a.length / 2 = 0 := by omega
            rw [hz] at full
            refine ⟨1, rfl, by omega, ?_, ?_⟩
            · intro x hx
              rw [full, List.take_zero, List.nil_append, List.take_succ_cons, List.take_zero] at hx
              rcases List.mem_singleton.1 hx with rfl
              exact hc.flip hlt
            · intro x hx
              rw [List.drop_eq_nil_of_le (by omega)] at hx
              cases hx
          · rw [if_neg h1]
            obtain ⟨k, k1, k2, k3, k4⟩ := binsearch_ok hc key fuel (a.drop (a.length / 2)) (before + a.length / 2)
              (by rw [List.length_drop]; omega) (by rw [e]; exact o2)
            rw [List.length_drop] at k2
            refine ⟨a.length / 2 + k, by rw [k1, Nat.add_assoc], by omega, ?_, ?_⟩
            · intro x hx
              rw [List.take_add] at hx
              rcases List.mem_append.1 hx with hx | hx
              · exact dn x hx
              · exact k3 x hx
            · intro x hx
              refine k4 x ?_
              rw [List.drop_drop]
              exact hx
        · rw [if_neg hgt]
          refine ⟨a.length / 2, rfl, by omega, dn, ?_⟩
          intro x hx
          rw [e] at hx
          rcases List.mem_cons.1 hx with rfl | hx
          · omega
          · exact hc.trans key m x (by omega) (o4 x hx)

theorem append_sorted {l r : List α} {v : α} (hc : Comparator cmp) (hl : InOrder cmp l) (hr : InOrder cmp r) (l1 : ∀ x ∈ l, cmp x v ≤ 0)
    (r1 : ∀ x ∈ r, cmp v x ≤ 0) : InOrder cmp (l ++ r) :=
  List.pairwise_append.2 ⟨hl, hr, fun x hx y hy => hc.trans x v y (l1 x hx) (r1 y hy)⟩

theorem merge_ok (hc : Comparator cmp) {thr : Nat} (ht : 3 ≤ thr) : ∀ (fuel : Nat) (dest a b : List α), a.length + b.length < fuel →
    a.length + b.length ≤ dest.length → InOrder cmp a → InOrder cmp b →
    ∃ s, merge cmp thr fuel dest a b = some (s ++ dest.drop (a.length + b.length)) ∧ s.Perm (a ++ b) ∧ InOrder cmp s
  | 0, _, _, _, hf, _, _, _ => absurd hf (Nat.not_lt_zero _)
  | fuel + 1, dest, a_, b_, hf, hd, oa_, ob_ => by
    unfold merge
    by_cases hsm : a_.length + b_.length < thr
    · rw [if_pos hsm]
      exact mergeC_ok hc hd oa_ ob_
    · rw [if_neg hsm]
      obtain ⟨a, b, ea, eb, hle, oa, ob, hpm, hlen⟩ : ∃ a b, (if a_.length < b_.length then b_ else a_) = a ∧ (if a_.length < b_.length then a_ else b_) = b ∧
          b.length ≤ a.length ∧ InOrder cmp a ∧ InOrder cmp b ∧ (a ++ b).Perm (a_ ++ b_) ∧ a.length + b.length = a_.length + b_.length := by
        by_cases h : a_.length < b_.length
        · exact ⟨b_, a_, if_pos h, if_pos h, by omega, ob_, oa_, List.perm_append_comm, by omega⟩
        · exact ⟨a_, b_, if_neg h, if_neg h, by omega, oa_, ob_, List.Perm.refl _, rfl⟩
      simp only [ea, eb]
      rw [← hlen] at hd hf ⊢
      have hm : a.length / 2 < a.length := by omega
      have hm0 : 0 < a.length / 2 := by omega
      have g := List.getElem?_eq_getElem hm
      have e := List.drop_eq_getElem_cons hm
      generalize a[a.length / 2] = m at g e
      have full : a = a.take (a.length / 2) ++ m :: a.drop (a.length / 2 + 1) := by rw [← e, List.take_append_drop]
      have oa' : InOrder cmp (a.take (a.length / 2) ++ m :: a.drop (a.length / 2 + 1)) := full ▸ oa
      obtain ⟨o1, o2, o3⟩ := List.pairwise_append.1 oa'
      have o4 := (List.pairwise_cons.1 o2).1
      obtain ⟨k, k1, k2, k3, k4⟩ := binsearch_ok hc m (b.length + 1) b 0 (by omega) ob
      rw [Nat.zero_add] at k1
      have obf : InOrder cmp (b.take k ++ b.drop k) := by rw [List.take_append_drop]; exact ob
      obtain ⟨p1, p2, _⟩ := List.pairwise_append.1 obf
      have lt1 : (a.take (a.length / 2)).length = a.length / 2 := by rw [List.length_take]; omega
      have lt2 : (b.take k).length = k := by rw [List.length_take]; omega
      obtain ⟨s1, u1, u2, u3⟩ := merge_ok hc ht fuel dest (a.take (a.length / 2)) (b.take k) (by omega) (by omega) o1 p1
      rw [lt1, lt2] at u1
      have hs1 : s1.length = a.length / 2 + k := by rw [u2.length_eq, List.length_append, lt1, lt2]
      have hdrop : (s1 ++ dest.drop (a.length / 2 + k)).drop (a.length / 2 + k) = dest.drop (a.length / 2 + k) := by
        rw [← hs1, List.drop_left]
      have htake : (s1 ++ dest.drop (a.length / 2 + k)).take (a.length / 2 + k) = s1 := by
        rw [← hs1, List.take_left]
      have ld1 : (a.drop (a.length / 2)).length = a.length - a.length / 2 := List.length_drop
      have ld2 : (b.drop k).length = b.length - k := List.length_drop
      obtain ⟨s2, w1, w2, w3⟩ := merge_ok hc ht fuel (dest.drop (a.length / 2 + k)) (a.drop (a.length / 2)) (b.drop k) (by omega)
        (by rw [ld1, ld2, List.length_drop]; omega) (by rw [e]; exact o2) p2
      rw [ld1, ld2, List.drop_drop] at w1
      refine ⟨s1 ++ s2, ?_, ?_, ?_⟩
      · simp only [g, k1, u1, hdrop, w1, htake, Option.bind_eq_bind, Option.bind_some, List.append_assoc]
        congr 3
        congr 1
        omega
      · refine List.Perm.trans ?_ hpm
        refine (u2.append w2).trans ?_
        have : (a.take (a.length / 2) ++ a.drop (a.length / 2) ++ (b.take k ++ b.drop k)).Perm (a ++ b) := by
          rw [List.take_append_drop, List.take_append_drop]
        refine List.Perm.trans ?_ this
        rw [List.append_assoc, List.append_assoc]
        refine List.Perm.append_left _ ?_
        rw [← List.append_assoc, ← List.append_assoc]
        exact List.perm_append_comm.append_right _
      · refine append_sorted hc u3 w3 (v := m) ?_ ?_
        · intro x hx
          rcases List.mem_append.1 (u2.mem_iff.1 hx) with hx | hx
          · exact o3 x hx m List.mem_cons_self
          · exact k3 x hx
        · intro x hx
          rcases List.mem_append.1 (w2.mem_iff.1 hx) with hx | hx
          · rw [e] at hx
            rcases List.mem_cons.1 hx with rfl | hx
            · exact hc.refl _
            · exact o4 x hx
          · exact k4 x hx

theorem Two.get_set (t : Two α) (w : Bool) (a : List α) : (t.set w a).get w = a := by cases w <;> rfl
theorem Two.get_set_not (t : Two α) (w : Bool) (a : List α) : (t.set w a).get (!w) = t.get (!w) := by cases w <;> rfl
theorem Two.get_append (l r : Two α) (w : Bool) : (Two.mk (l.zero ++ r.zero) (l.one ++ r.one)).get w = l.get w ++ r.get w := by cases w <;> rfl
theorem Two.get_take (t : Two α) (w : Bool) (k : Nat) : (Two.mk (t.zero.take k) (t.one.take k)).get w = (t.get w).take k := by cases w <;> rfl
theorem Two.get_drop (t : Two α) (w : Bool) (k : Nat) : (Two.mk (t.zero.drop k) (t.one.drop k)).get w = (t.get w).drop k := by cases w <;> rfl

theorem internal_ok (hc : Comparator cmp) {thr : Nat} (ht : 3 ≤ thr) : ∀ (fuel : Nat) (as : Two α) (which : Bool) (n : Nat), n < fuel →
    (∀ w, (as.get w).length = n) →
    ∃ w as', mergesortInternal cmp thr fuel as which = some (w, as') ∧ (∀ w, (as'.get w).length = n) ∧
      (as'.get w).Perm (as.get which) ∧ InOrder cmp (as'.get w)
  | 0, _, _, _, hf, _ => absurd hf (Nat.not_lt_zero _)
  | fuel + 1, as, which, n, hf, hn => by
    unfold mergesortInternal
    have hz : as.zero.length = n := hn false
    rw [hz]
    dsimp only
    by_cases h1 : n ≤ 1
    · rw [if_pos h1]
      refine ⟨which, as, rfl, hn, List.Perm.refl _, ?_⟩
      have := hn which
      generalize as.get which = l at this
      match l, this with
      | [], _ => exact List.Pairwise.nil
      | [x], _ => exact List.pairwise_singleton _ _
      | _ :: _ :: _, h => simp at h; omega
    · rw [if_neg h1]
      by_cases h2 : n < thr
      · rw [if_pos h2]
        obtain ⟨s, s1, s2, s3⟩ := quicksort_ok hc (n + 1) (as.get which) (by rw [hn]; omega)
        refine ⟨which, as.set which s, by simp only [s1, Option.bind_eq_bind, Option.bind_some], ?_, ?_, ?_⟩
        · intro w
          have hl : s.length = n := by rw [s2.length_eq, hn]
          have := hn w
          cases w <;> cases which <;> first | exact hl | exact this
        · rw [Two.get_set]
          exact s2
        · rw [Two.get_set]
          exact s3
      · rw [if_neg h2]
        obtain ⟨r1, l, l1, l2, l3, l4⟩ := internal_ok hc ht fuel ⟨as.zero.take (n / 2), as.one.take (n / 2)⟩ which (n / 2) (by omega)
          (by intro w; rw [Two.get_take, List.length_take, hn]; omega)
        obtain ⟨r2, r, q1, q2, q3, q4⟩ := internal_ok hc ht fuel ⟨as.zero.drop (n / 2), as.one.drop (n / 2)⟩ which (n - n / 2) (by omega)
          (by intro w; rw [Two.get_drop, List.length_drop, hn])
        rw [Two.get_take] at l3
        rw [Two.get_drop] at q3
        simp only [l1, q1, Option.bind_eq_bind, Option.bind_some, Bool.not_not]
        -- after both halves are in the same array
        obtain ⟨as2, ha2, g1, g2⟩ : ∃ as2, (if r1 ≠ r2 then (Two.mk (l.zero ++ r.zero) (l.one ++ r.one)).set r2
            (((Two.mk (l.zero ++ r.zero) (l.one ++ r.one)).get r1).take (n / 2) ++ ((Two.mk (l.zero ++ r.zero) (l.one ++ r.one)).get r2).drop (n / 2))
            else Two.mk (l.zero ++ r.zero) (l.one ++ r.one)) = as2 ∧ as2.get r2 = l.get r1 ++ r.get r2 ∧ (as2.get (!r2)).length = n := by
          refine ⟨_, rfl, ?_, ?_⟩
          · by_cases hr : r1 = r2
            · rw [if_neg (not_not_intro hr), Two.get_append, hr]
            · rw [if_pos hr, Two.get_set, Two.get_append, Two.get_append, ← l2 r1, List.take_left, l2 r1, ← l2 r2, List.drop_left]
          · by_cases hr : r1 = r2
            · rw [if_neg (not_not_intro hr), Two.get_append, List.length_append, l2, q2]
              omega
            · rw [if_pos hr, Two.get_set_not, Two.get_append, List.length_append, l2, q2]
              omega
        rw [ha2]
        have t1 : (as2.get r2).take (n / 2) = l.get r1 := by rw [g1, ← l2 r1, List.take_left]
        have t2 : (as2.get r2).drop (n / 2) = r.get r2 := by rw [g1, ← l2 r1, List.drop_left]
        rw [t1, t2]
        obtain ⟨s, s1, s2, s3⟩ := merge_ok hc ht (n + 1) (as2.get (!r2)) (l.get r1) (r.get r2) (by rw [l2, q2]; omega) (by rw [l2, q2, g2]; omega) l4 q4
        rw [l2, q2, List.drop_eq_nil_of_le (by rw [g2]; omega), List.append_nil] at s1
        have hsl : s.length = n := by rw [s2.length_eq, List.length_append, l2, q2]; omega
        refine ⟨!r2, as2.set (!r2) s, by rw [s1]; rfl, ?_, ?_, ?_⟩
        · intro w
          by_cases hw : w = !r2
          · rw [hw, Two.get_set]
            exact hsl
          · have hw' : w = !(!r2) := by cases w <;> cases r2 <;> simp_all
            rw [hw', Two.get_set_not, Bool.not_not, g1, List.length_append, l2, q2]
            omega
        · rw [Two.get_set]
          refine s2.trans ?_
          conv => rhs; rw [← List.take_append_drop (n / 2) (as.get which)]
          exact l3.append q3
        · rw [Two.get_set]
          exact s3

theorem small_internal (hc : Comparator cmp) {thr : Nat} {a : List α} (h : a.length < thr) (hf : 0 < thr) :
    ∃ s o, mergesortInternal cmp thr (a.length + 1) ⟨a, []⟩ false = some (false, ⟨s, o⟩) ∧ s.Perm a ∧ InOrder cmp s := by
  unfold mergesortInternal
  dsimp only
  by_cases h1 : a.length ≤ 1
  · rw [if_pos h1]
    refine ⟨a, [], rfl, List.Perm.refl _, ?_⟩
    match a, h1 with
    | [], _ => exact List.Pairwise.nil
    | [x], _ => exact List.pairwise_singleton _ _
    | _ :: _ :: _, h => simp at h
  · rw [if_neg h1, if_pos h]
    obtain ⟨s, s1, s2, s3⟩ := quicksort_ok hc (a.length + 1) a (by omega)
    have e : (Two.mk a []).get false = a := rfl
    refine ⟨s, [], ?_, s2, s3⟩
    rw [e]
    simp only [s1, Option.bind_eq_bind, Option.bind_some]
    rfl

theorem mergesortThr_ok (hc : Comparator cmp) {thr : Nat} (ht : 3 ≤ thr) (a scratch : List α) (hs : scratch.length = a.length) :
    ∃ s, mergesortThr cmp thr a scratch = some s ∧ s.Perm a ∧ InOrder cmp s := by
  unfold mergesortThr
  by_cases h : thr ≤ a.length
  · rw [if_pos h]
    obtain ⟨w, as', h1, h2, h3, h4⟩ := internal_ok hc ht (a.length + 1) ⟨a, scratch⟩ false a.length (Nat.lt_succ_self _)
      (by intro w; cases w; rfl; exact hs)
    refine ⟨as'.get w, ?_, h3, h4⟩
    simp only [h1, Option.bind_eq_bind, Option.bind_some]
    cases w <;> rfl
  · rw [if_neg h]
    obtain ⟨s, o, h1, h2, h3⟩ := small_internal hc (a := a) (thr := thr) (by omega) (by omega)
    refine ⟨s, ?_, h2, h3⟩
    simp only [h1, Option.bind_eq_bind, Option.bind_some]
    rfl

end Verif.Sort
