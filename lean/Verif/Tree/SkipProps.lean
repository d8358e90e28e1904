import Verif.Tree.SkipRun
import Verif.Tree.RangeProps

/-! C73: the key after a number of bytes. -/
namespace Verif.Tree
set_option linter.unusedSectionVars false
variable {K R B : Type} [LinearOrder K]

theorem waiting_here {h : Nat} {k : K} {i : Nat} {n : Inner K B (Node K R B h)} {s : Slot K B} {ch : Node K R B h}
    (hwc : whichChild n.kids.length n.pivots k = some i) (hk : n.kids[i]? = some (s, ch)) :
    waiting k (h + 1) n = (s.map (·.msg)).filter (·.about k) ++ waiting k h ch := by
  show (match whichChild (Inner.kids n).length (Inner.pivots n) k with | none => _ | some i => _) = _
  rw [hwc]
  show (match (Inner.kids n)[i]? with | none => _ | some (s, c) => _) = _
  rw [hk]

/-- If all is in memory and nothing waits for a key, its row is there. -/
theorem treeRows_value {c : Ctx K R B} : ∀ {h : Nat} {lo hi : Option K} {U : List (Ent K B)} {n : Node K R B h}, Good c h lo hi U n →
    InMemory h n → ∀ k, InB lo hi k → waiting k h n = [] → (∀ u ∈ U, Conc k u.msg = false) → lookup (treeRows h n) k = c.spec k
  | 0, lo, hi, U, l, hg, hm, k, hk, _, hu => by
    obtain ⟨i, p, w1, w2, w3, w4⟩ := chain_which (ext := []) hg.1.chain hk
    have hp := chain_get hg.1.chain w2
    obtain ⟨b, hb⟩ := hm p (List.mem_of_getElem? w2)
    have e := (rows_concat partRows hg.1.chain fun lo hi q _ hq => part_rows_ok hq).2.2 i p w2 k w4
    refine Eq.trans e ?_
    rw [partRows_some hb]
    exact (rows_ok (single := false) hp (by unfold rowsToCount; rw [hb])).2.2 k w4 hu
  | h + 1, lo, hi, U, n, hg, hm, k, hk, hw, hu => by
    obtain ⟨g1, g2, g3⟩ := hg
    obtain ⟨i, ⟨s, ch⟩, w1, w2, w3, w4⟩ := chain_which (ext := []) g3 hk
    rw [List.append_nil] at w1
    rw [waiting_here w1 w2] at hw
    obtain ⟨e1, e2⟩ := List.append_eq_nil_iff.1 hw
    have e := (rows_concat (fun p : Slot K B × Node K R B h => treeRows h p.2) g3 fun lo hi q _ hq => treeRows_ok hq.2).2.2 i _ w2 k w4
    refine Eq.trans e ?_
    refine treeRows_value (chain_get g3 w2).2 (hm _ (List.mem_of_getElem? w2)) k w4 e2 ?_
    intro u hu'
    rcases List.mem_append.1 hu' with hu' | hu'
    · rw [List.filter_eq_nil_iff] at e1
      have := e1 u.msg (List.mem_map_of_mem hu')
      rw [about_conc] at this
      simpa using this
    · exact hu u hu'

theorem lookup_row {rows : Rows K R} (hs : Sorted rows) {k : K} {r : R} : lookup rows k = some r ↔ (k, r) ∈ rows := by
  induction rows with
  | nil => simp [lookup]
  | cons x rows ih =>
    obtain ⟨h1, h2⟩ := sorted_cons.1 hs
    obtain ⟨a, b⟩ := x
    by_cases h : a = k
    · subst h
      have : (a, r) ∈ rows ↔ False := ⟨fun hx => lt_irrefl a (h1 (a, r) hx), False.elim⟩
      simp [lookup, this, eq_comm]
    · have e : lookup ((a, b) :: rows) k = lookup rows k := by simp [lookup, Ne.symm h]
      rw [e, ih h2, List.mem_cons, Prod.mk.injEq]
      constructor
      · exact Or.inr
      · rintro (⟨e, _⟩ | e)
        · exact absurd e.symm h
        · exact e

theorem startGoal_here (start : Option K) : GoalHere (startGoal start) start none none := by
  cases start with
  | none => exact ⟨rfl, fun _ _ => rfl⟩
  | some k => exact ⟨rfl, fun _ _ => rfl⟩

/-- What the key and the bytes come from. -/
theorem after_answer {sem : Sem K R B} {hist : List (Kind K × B)} {t : Tree K R B} (ht : TreeOk sem hist t) (size : K → R → Nat) (bytes : Int)
    (start : Option K) (skip : Nat) :
    ∃ r, keyAfterBytes size t bytes start skip = some (match r with | .found e s => (some e, s) | .beyond s => (none, s)) ∧
      Answer size skip start none none (InMemory t.h t.root) (LargeShares skip t.h bytes.toNat t.root) (treeRows t.h t.root) 0 r := by
  obtain ⟨r, h1, h2⟩ := walk_answer (size := size) (skip := skip) (bytes := bytes.toNat) (s := 0) ht (startGoal_here start)
  refine ⟨r, ?_, h2⟩
  unfold keyAfterBytes
  rw [h1]
  rfl

/-- There is always one answer, and it is not before the start. -/
theorem C73_one_answer_not_before_start (sem : Sem K R B) (ops : List (Op K B)) {t : Tree K R B} (ht : run sem Tree.empty ops = some t)
    (size : K → R → Nat) (bytes : Int) (start : Option K) (skip : Nat) :
    ∃ stop skipped, keyAfterBytes size t bytes start skip = some (stop, skipped) ∧
      ∀ a e, start = some a → stop = some e → a ≤ e := by
  obtain ⟨r, h1, h2⟩ := after_answer (reached ht) size bytes start skip
  cases r with
  | found e s =>
    refine ⟨some e, s, h1, ?_⟩
    intro a e' ha he
    cases he
    have := h2.after e s rfl
    rw [ha] at this
    simpa [past] using this
  | beyond s => exact ⟨none, s, h1, fun a e _ he => (by cases he)⟩

/-- With all basements in memory no more is skipped than was asked for, and the key is that of a row with which it would be more. -/
theorem C73_stops_at_the_row_too_many (sem : Sem K R B) (ops : List (Op K B)) {t : Tree K R B} (ht : run sem Tree.empty ops = some t)
    (hm : InMemory t.h t.root) (size : K → R → Nat) (bytes : Int) (start : Option K) (skip : Nat) {stop : Option K} {skipped : Nat}
    (h : keyAfterBytes size t bytes start skip = some (stop, skipped)) :
    skipped ≤ skip ∧ ∀ e, stop = some e → waiting e t.h t.root = [] →
      ∃ r, rowAfter sem (sent ops) e = some r ∧ skip < skipped + size e r := by
  have ok := reached ht
  obtain ⟨r, h1, h2⟩ := after_answer ok size bytes start skip
  have lim := h2.limit hm (Nat.zero_le _)
  rw [h1] at h
  cases r with
  | beyond s =>
    cases h
    exact ⟨lim, fun e he => (by cases he)⟩
  | found e s =>
    cases h
    refine ⟨lim, ?_⟩
    intro e' he hw
    cases he
    obtain ⟨x, x1, x2⟩ := h2.row hm e _ rfl
    refine ⟨x, ?_, x2⟩
    have := treeRows_value ok hm e (inB_none e) hw (fun u hu => (by cases hu))
    rw [(lookup_row (treeRows_ok ok).1).2 x1] at this
    exact this.symm

/-- With all basements in memory a caller who asks for at least the size of every row gets ahead: starting again from the key
it was given, it comes to a later one. -/
theorem C73_gets_ahead (sem : Sem K R B) (ops : List (Op K B)) {t : Tree K R B} (ht : run sem Tree.empty ops = some t)
    (hm : InMemory t.h t.root) (size : K → R → Nat) (bytes : Int) (a : K) (skip : Nat) (hs : ∀ r, size a r ≤ skip)
    {e : K} {skipped : Nat} (h : keyAfterBytes size t bytes (some a) skip = some (some e, skipped)) : a < e := by
  obtain ⟨r, h1, h2⟩ := after_answer (reached ht) size bytes (some a) skip
  rw [h1] at h
  cases r with
  | beyond s => cases h
  | found e' s =>
    cases h
    have ha : a ≤ e := by simpa [past] using h2.after e _ rfl
    refine lt_of_le_of_ne ha ?_
    rintro rfl
    obtain ⟨x, _, x2⟩ := h2.row hm a _ rfl
    have := h2.first hm a _ rfl rfl
    have := hs x
    omega

theorem walk_exact (size : K → R → Nat) (skip : Nat) : ∀ (rows : Rows K R) (s : Nat), s ≤ skip → ∃ pre rest, rows = pre ++ rest ∧
    s + total size pre ≤ skip ∧
    ((walkRows size skip rows s = .beyond (s + total size pre) ∧ rest = []) ∨
     ∃ e r rest', walkRows size skip rows s = .found e (s + total size pre) ∧ rest = (e, r) :: rest' ∧ skip < s + total size pre + size e r)
  | [], s, hs => ⟨[], [], rfl, hs, Or.inl ⟨rfl, rfl⟩⟩
  | (k, r) :: rows, s, hs => by
    rw [walkRows_cons]
    by_cases h : skip < s + size k r
    · rw [if_pos h]
      exact ⟨[], (k, r) :: rows, rfl, hs, Or.inr ⟨k, r, rows, rfl, rfl, h⟩⟩
    · rw [if_neg h]
      obtain ⟨pre, rest, e1, e2, e3⟩ := walk_exact size skip rows (s + size k r) (by omega)
      have ht : s + size k r + total size pre = s + total size ((k, r) :: pre) := by
        show s + size k r + total size pre = s + (size k r + total size pre)
        omega
      rw [ht] at e2 e3
      exact ⟨(k, r) :: pre, rest, by rw [e1]; rfl, e2, e3⟩

/-- With all basements in memory, no message waiting and no child that is skipped as a whole (in particular in a dictionary of one leaf),
the answer is what the comment in the code says. -/
theorem C73_exact_skip_partial (sem : Sem K R B) (ops : List (Op K B)) {t : Tree K R B} (ht : run sem Tree.empty ops = some t)
    (hm : InMemory t.h t.root) (size : K → R → Nat) (bytes : Int) (start : Option K) (skip : Nat)
    (hl : LargeShares skip t.h bytes.toNat t.root) (hw : ∀ k, (∀ a, start = some a → a ≤ k) → waiting k t.h t.root = [])
    {stop : Option K} {skipped : Nat} (h : keyAfterBytes size t bytes start skip = some (stop, skipped)) :
    ExactSkip size (rowAfter sem (sent ops)) start skip stop skipped := by
  have ok := reached ht
  obtain ⟨r, h1, h2⟩ := after_answer ok size bytes start skip
  rw [h1] at h
  have hx := h2.exact hm hl
  have srt := (treeRows_ok ok).1
  obtain ⟨pre, rest, e1, e2, e3⟩ := walk_exact size skip ((treeRows t.h t.root).filter fun r => past start r.1) 0 (Nat.zero_le _)
  rw [Nat.zero_add] at e2 e3
  have iff : ∀ k, past start k = true ↔ ∀ a, start = some a → a ≤ k := by
    intro k
    cases start with
    | none => exact ⟨fun _ a ha => (by cases ha), fun _ => rfl⟩
    | some x => simp [past]
  have hfrom : RowsFrom (rowAfter sem (sent ops)) start (pre ++ rest) := by
    rw [← e1]
    refine ⟨List.Pairwise.filter _ srt, ?_⟩
    intro k r
    rw [List.mem_filter, ← lookup_row srt]
    constructor
    · rintro ⟨a1, a2⟩
      have a2 := (iff k).1 a2
      have := treeRows_value ok hm k (inB_none k) (hw k a2) (fun u hu => (by cases hu))
      rw [this] at a1
      exact ⟨a1, a2⟩
    · rintro ⟨a1, a2⟩
      have := treeRows_value ok hm k (inB_none k) (hw k a2) (fun u hu => (by cases hu))
      exact ⟨by rw [this]; exact a1, (iff k).2 a2⟩
  rw [← hx] at e3
  refine ⟨pre, rest, hfrom, ?_⟩
  rcases e3 with ⟨q1, q2⟩ | ⟨e, r', rest', q1, q2, q3⟩
  · rw [q1] at h
    cases h
    exact ⟨rfl, e2, Or.inl ⟨rfl, q2⟩⟩
  · rw [q1] at h
    cases h
    exact ⟨rfl, e2, Or.inr ⟨e, r', rest', rfl, q2, q3⟩⟩

/-- The exact answer is one answer. -/
theorem C73_exact_skip_is_one (size : K → R → Nat) (row : K → Option R) (start : Option K) (skip : Nat) {e e' : Option K} {s s' : Nat}
    (h : ExactSkip size row start skip e s) (h' : ExactSkip size row start skip e' s') : e = e' ∧ s = s' := by
  obtain ⟨pre, rest, a1, a2, a3, a4⟩ := h
  obtain ⟨pre', rest', b1, b2, b3, b4⟩ := h'
  have nd : ∀ {l : Rows K R}, Sorted l → l.Nodup := fun h => h.imp fun hxy e => by rw [e] at hxy; exact lt_irrefl _ hxy
  have perm : (pre ++ rest).Perm (pre' ++ rest') := (List.perm_ext_iff_of_nodup (nd a1.1) (nd b1.1)).2 fun x => (a1.2 x.1 x.2).trans (b1.2 x.1 x.2).symm
  have same : pre ++ rest = pre' ++ rest' := List.Perm.eq_of_pairwise (fun x y _ _ h1 h2 => absurd h1 (lt_asymm h2)) a1.1 b1.1 perm
  have tot : ∀ (u v : Rows K R), total size (u ++ v) = total size u + total size v := by
    intro u v
    unfold total
    rw [List.map_append, List.sum_append]
  have cons : ∀ (x : K × R) (v : Rows K R), total size (x :: v) = size x.1 x.2 + total size v := by
    intro x v
    unfold total
    rw [List.map_cons, List.sum_cons]
  have key : ∀ (pre rest pre' rest' : Rows K R) (e : Option K) (s : Nat), pre ++ rest = pre' ++ rest' → total size pre = s →
      total size pre' ≤ skip → ((e = none ∧ rest = []) ∨ ∃ k r rest2, e = some k ∧ rest = (k, r) :: rest2 ∧ skip < s + size k r) →
      pre'.length ≤ pre.length := by
    intro pre rest pre' rest' e s hs ht hle hc
    rcases hc with ⟨_, hr⟩ | ⟨k, r, rest2, _, hr, hlt⟩
    · have := congrArg List.length hs
      rw [hr, List.length_append, List.length_append, List.length_nil] at this
      omega
    · by_cases hlen : pre'.length ≤ pre.length
      · exact hlen
      · exfalso
        rcases List.append_eq_append_iff.1 hs with ⟨m, m1, m2⟩ | ⟨m, m1, m2⟩
        · cases m with
          | nil => rw [m1, List.append_nil] at hlen; exact hlen (Nat.le_refl _)
          | cons x m =>
            rw [hr, List.cons_append] at m2
            injection m2 with m3 m4
            rw [m1, tot, cons, ← m3] at hle
            simp only at hle
            omega
        · rw [m1, List.length_append] at hlen
          omega
  have l1 := key pre rest pre' rest' e s same a2 (by omega) a4
  have l2 := key pre' rest' pre rest e' s' same.symm b2 (by omega) b4
  obtain ⟨p1, p2⟩ := List.append_inj same (by omega)
  subst p1 p2
  refine ⟨?_, by omega⟩
  rcases a4 with ⟨q1, q2⟩ | ⟨k, r, rest2, q1, q2, _⟩ <;> rcases b4 with ⟨u1, u2⟩ | ⟨k', r', rest3, u1, u2, _⟩
  · rw [q1, u1]
  · rw [q2] at u2; cases u2
  · rw [q2] at u2; cases u2
  · rw [q2] at u2
    cases u2
    rw [q1, u1]

/-! ### Cases -/

/-- Ten bytes a row. -/
def ten : Nat → Nat → Nat := fun _ _ => 10

/-- The answer after a history. -/
def afterBytes (ops : List (Op Nat (Option Nat × Nat))) (bytes : Int) (start : Option Nat) (skip : Nat) : Option (Option Nat × Nat) :=
  (run numbers Tree.empty ops).bind fun t => keyAfterBytes ten t bytes start skip

/-- From 2, 25 bytes: 2 and 3 are skipped. -/
example : afterBytes eight 80 (some 2) 25 = some (some 4, 20) := by decide +kernel
/-- Into the second leaf. -/
example : afterBytes eight 80 (some 3) 40 = some (some 7, 40) := by decide +kernel
/-- To the end. -/
example : afterBytes eight 80 (some 7) 40 = some (none, 20) := by decide +kernel
/-- Guessing about a leaf that is not in memory. -/
example : afterBytes (eight ++ [.write [0] 1000, .evict [0] (fun _ => true)]) 80 (some 2) 25 = some (some 5, 40) := by decide +kernel

/-- `InMemory` and `LargeShares`, computed. -/
def fineHere (skip : Nat) : (h : Nat) → (bytes : Nat) → Node K R B h → Bool
  | 0, _, l => (Leaf.parts l).all fun p => p.mem.isSome
  | h + 1, bytes, n => decide (skip ≤ bytes / (Inner.kids n).length) &&
    (Inner.kids n).all fun p => fineHere skip h (bytes / (Inner.kids n).length) p.2

theorem fineHere_ok {skip : Nat} : ∀ {h bytes : Nat} {n : Node K R B h}, fineHere skip h bytes n = true →
    InMemory h n ∧ LargeShares skip h bytes n
  | 0, _, l, e => ⟨fun p hp => Option.isSome_iff_exists.1 (List.all_eq_true.1 e p hp), trivial⟩
  | h + 1, bytes, n, e => by
    have e : (decide (skip ≤ bytes / (Inner.kids n).length) &&
      (Inner.kids n).all fun p => fineHere skip h (bytes / (Inner.kids n).length) p.2) = true := e
    rw [Bool.and_eq_true, decide_eq_true_eq, List.all_eq_true] at e
    exact ⟨fun p hp => (fineHere_ok (e.2 p hp)).1, e.1, fun p hp => (fineHere_ok (e.2 p hp)).2⟩

/-- The theorem on exact answers applies to the first two: both leaves are in memory, and the shares are 40. -/
example : ∃ t, run numbers Tree.empty eight = some t ∧ InMemory t.h t.root ∧ LargeShares 40 t.h 80 t.root :=
  ⟨_, rfl, fineHere_ok (by decide +kernel)⟩

/-- The keys 1 to 8 in two leaves, none of which is in memory; `cut` is the size of the basements. -/
def cold (cut : Nat) : List (Op Nat (Option Nat × Nat)) :=
  eight ++ [.write [0] cut, .evict [0] (fun _ => true), .write [1] cut, .evict [1] (fun _ => true)]

/-- Not in memory: from 2 on it has skipped 20 bytes, and is at 2.  A caller that goes on from there stays there. -/
theorem C73_stays_where_it_was : afterBytes (cold 20) 80 (some 2) 1 = some (some 2, 20) ∧
    afterBytes (cold 20) 80 (some 2) 20 = some (some 2, 20) := by decide +kernel

/-- Leaves of one basement that are not in memory are passed over, however few bytes are to be skipped: asked to skip one byte, it
says there is no row left. -/
theorem C73_one_byte_skips_everything : afterBytes (cold 1000) 80 (some 2) 1 = some (none, 80) := by decide +kernel

/-- A child is passed over by its share, in memory or not: of five rows with 50 bytes in all it skips 35 and says that was the last; the
key where to stop is 8. -/
theorem C73_share_is_a_guess : afterBytes lopsided 50 none 40 = some (none, 35) ∧
    ((List.range 10).filterMap fun k => (rowAfter numbers (sent lopsided) k).map fun r => (k, r)) =
      [(4, 40), (5, 50), (6, 60), (7, 70), (8, 80)] := by decide +kernel

/-- Messages that wait above are not seen: it stops at a key that has been deleted. -/
theorem C73_stops_at_a_deleted_key : afterBytes (eight ++ [.put (.once 2) (none, 0) 0]) 80 none 15 = some (some 2, 10) ∧
    rowAfter numbers (sent (eight ++ [.put (.once 2) (none, 0) 0])) 2 = none := by decide +kernel

end Verif.Tree
