import Verif.Lt.LockOps

/-! Escalation: what it does to the locks and to the memory charge. -/
namespace Verif.Lt
open Std Verif.Codec

set_option linter.unusedSectionVars false
variable {cfg : Cfg} [TransCmp cfg.cmp]

/-- `M` is an escalation of `L`. -/
structure Esc (L M : List (Lock cfg)) : Prop where
  sorted : Sorted M
  lockable : ∀ m ∈ M, Lockable m.1
  old : ∀ x ∈ L, ∃ m ∈ M, m.2 = x.2 ∧ m.1.Covers x.1
  from_ : ∀ m ∈ M, ∃ x ∈ L, x.2 = m.2 ∧ m.1.Covers x.1
  left : ∀ m ∈ M, ∃ x ∈ L, x.1.left = m.1.left
  right : ∀ m ∈ M, ∃ x ∈ L, x.1.right = m.1.right
  count : ∀ u, count M u ≤ count L u

theorem Sorted.nil : Sorted ([] : List (Lock cfg)) := ⟨by simp, List.Pairwise.nil⟩

theorem Esc.nil : Esc ([] : List (Lock cfg)) [] := ⟨.nil, by simp, by simp, by simp, by simp, by simp, by simp⟩

theorem Esc.append {A B MA MB : List (Lock cfg)} (hs : Sorted (A ++ B)) (ha : Esc A MA) (hb : Esc B MB) :
    Esc (A ++ B) (MA ++ MB) := by
  refine ⟨Sorted.append ha.sorted hb.sorted ?_, ?_, ?_, ?_, ?_, ?_, ?_⟩
  · intro x hx y hy
    obtain ⟨a, ha', e⟩ := ha.right x hx
    obtain ⟨b, hb', e'⟩ := hb.left y hy
    have := hs.cross a ha' b hb'
    unfold Range.Before at *; rw [← e, ← e']; exact this
  · intro m hm; exact (List.mem_append.mp hm).elim (ha.lockable m) (hb.lockable m)
  · intro x hx
    rcases List.mem_append.mp hx with h | h
    · obtain ⟨m, hm, h⟩ := ha.old x h; exact ⟨m, by simp [hm], h⟩
    · obtain ⟨m, hm, h⟩ := hb.old x h; exact ⟨m, by simp [hm], h⟩
  · intro x hx
    rcases List.mem_append.mp hx with h | h
    · obtain ⟨m, hm, h⟩ := ha.from_ x h; exact ⟨m, by simp [hm], h⟩
    · obtain ⟨m, hm, h⟩ := hb.from_ x h; exact ⟨m, by simp [hm], h⟩
  · intro x hx
    rcases List.mem_append.mp hx with h | h
    · obtain ⟨m, hm, h⟩ := ha.left x h; exact ⟨m, by simp [hm], h⟩
    · obtain ⟨m, hm, h⟩ := hb.left x h; exact ⟨m, by simp [hm], h⟩
  · intro x hx
    rcases List.mem_append.mp hx with h | h
    · obtain ⟨m, hm, h⟩ := ha.right x h; exact ⟨m, by simp [hm], h⟩
    · obtain ⟨m, hm, h⟩ := hb.right x h; exact ⟨m, by simp [hm], h⟩
  · intro u; have := ha.count u; have := hb.count u; simp only [count_append]; omega

theorem mergeRuns_spec (L : List (Lock cfg)) (hs : Sorted L) (hl : ∀ x ∈ L, Lockable x.1) : Esc L (mergeRuns L) := by
  induction L with
  | nil => exact .nil
  | cons x xs ih =>
    have ih := ih hs.tail (fun y hy => hl y (by simp [hy]))
    have hsingle : Esc [x] [x] :=
      ⟨Sorted.cons (hs.1 x (by simp)) .nil (by simp), by simpa using hl x (by simp), fun y hy => ⟨y, hy, rfl, .refl _⟩,
        fun y hy => ⟨y, hy, rfl, .refl _⟩, fun y hy => ⟨y, hy, rfl⟩, fun y hy => ⟨y, hy, rfl⟩, fun _ => Nat.le_refl _⟩
    rw [mergeRuns]
    generalize hM : mergeRuns xs = M at *
    cases M with
    | nil =>
      cases xs with
      | nil => exact hsingle
      | cons y ys => obtain ⟨m, hm, _⟩ := ih.old y (by simp); simp at hm
    | cons y ys =>
      simp only
      split
      case isFalse => exact Esc.append (A := [x]) (B := xs) (MA := [x]) (MB := y :: ys) hs hsingle ih
      case isTrue he =>
        have hxy : x.1.Before y.1 := by
          obtain ⟨z, hz, e⟩ := ih.left y (by simp)
          have := hs.head z hz
          unfold Range.Before at *; rw [← e]; exact this
        have hxv := hs.1 x (by simp)
        have hyv := ih.sorted.1 y (by simp)
        have hcx : (Range.mk x.1.left y.1.right).Covers x.1 := by
          unfold Range.Covers Range.Before Range.Valid at *; simp only; grind
        have hcy : (Range.mk x.1.left y.1.right).Covers y.1 := by
          unfold Range.Covers Range.Before Range.Valid at *; simp only; grind
        have hlk : Lockable (cfg := cfg) ⟨x.1.left, y.1.right⟩ :=
          (hl x (by simp)).join (ih.lockable y (by simp)) rfl rfl hcx hcy
        refine ⟨Sorted.cons hlk.valid ih.sorted.tail ?_, ?_, ?_, ?_, ?_, ?_, ?_⟩
        · exact ih.sorted.head
        · intro m hm
          rcases List.mem_cons.mp hm with rfl | hm
          · exact hlk
          · exact ih.lockable m (by simp [hm])
        · intro z hz
          rcases List.mem_cons.mp hz with rfl | hz
          · exact ⟨_, List.mem_cons_self, rfl, hcx⟩
          · obtain ⟨m, hm, e, c⟩ := ih.old z hz
            rcases List.mem_cons.mp hm with rfl | hm
            · exact ⟨_, List.mem_cons_self, by rw [← e, ← he], hcy.trans c⟩
            · exact ⟨m, by simp [hm], e, c⟩
        · intro m hm
          rcases List.mem_cons.mp hm with rfl | hm
          · exact ⟨x, by simp, rfl, hcx⟩
          · obtain ⟨z, hz, h⟩ := ih.from_ m (by simp [hm]); exact ⟨z, by simp [hz], h⟩
        · intro m hm
          rcases List.mem_cons.mp hm with rfl | hm
          · exact ⟨x, by simp, rfl⟩
          · obtain ⟨z, hz, h⟩ := ih.left m (by simp [hm]); exact ⟨z, by simp [hz], h⟩
        · intro m hm
          rcases List.mem_cons.mp hm with rfl | hm
          · obtain ⟨z, hz, h⟩ := ih.right y (by simp); exact ⟨z, by simp [hz], h⟩
          · obtain ⟨z, hz, h⟩ := ih.right m (by simp [hm]); exact ⟨z, by simp [hz], h⟩
        · intro u
          have := ih.count u
          simp only [count_cons] at this ⊢
          omega

/-! ### Buffers of several transactions -/

/-- The locks recorded in a list of buffers. -/
def bufLocks (bufs : List (Txn × RangeBuffer)) : List (Lock cfg) :=
  bufs.flatMap fun q => asLocks q.1 (q.2.ranges.getD [])

/-- Every buffer reads back, and as at least one range. -/
def Readable (bufs : List (Txn × RangeBuffer)) : Prop := ∀ q ∈ bufs, ∃ ps, BOk q.2 ps ∧ ps ≠ []

theorem bufLocks_cons (q : Txn × RangeBuffer) (bufs) :
    bufLocks (cfg := cfg) (q :: bufs) = asLocks q.1 (q.2.ranges.getD []) ++ bufLocks bufs := rfl

theorem mem_bufLocks_key {bufs : List (Txn × RangeBuffer)} {x : Lock cfg} (h : x ∈ bufLocks bufs) :
    x.2 ∈ bufs.map (·.1) := by
  unfold bufLocks at h
  obtain ⟨q, hq, hx⟩ := List.mem_flatMap.mp h
  obtain ⟨p, _, rfl⟩ := mem_asLocks.mp hx
  exact List.mem_map.mpr ⟨q, hq, rfl⟩

/-- The escalation buffers: largest transaction first. -/
structure EscBufs (bufs : List (Txn × RangeBuffer)) : Prop where
  keys : bufs.Pairwise fun a b => b.1 < a.1
  readable : Readable bufs

theorem addEscalated_spec (ptr : Rng cfg → Bool) (x : Lock cfg) (hx : Lockable x.1) (bufs : List (Txn × RangeBuffer))
    (h : EscBufs bufs) :
    ∃ bufs', addEscalated ptr x bufs = some bufs' ∧ EscBufs bufs' ∧ (bufLocks bufs').Perm (x :: bufLocks bufs) ∧
      (∀ q ∈ bufs', q.1 = x.2 ∨ ∃ q' ∈ bufs, q'.1 = q.1) := by
  have hnew : ∃ b ps, RangeBuffer.create.append x.1.left x.1.right (ptr x.1) = some b ∧ BOk b ps ∧
      ps.Perm [((x.1.left : Pt), (x.1.right : Pt))] := by
    obtain ⟨b, ps, h1, h2, h3, _⟩ := BOk.create.append hx (ptr x.1); exact ⟨b, ps, h1, h2, h3⟩
  obtain ⟨b0, ps0, n1, n2, n3⟩ := hnew
  have hne0 : ps0 ≠ [] := by intro he; rw [he] at n3; have := n3.length_eq; simp at this
  have hlk0 : (asLocks (cfg := cfg) x.2 ps0).Perm [x] := asLocks_perm x.2 n3
  induction bufs with
  | nil =>
    refine ⟨[(x.2, b0)], by simp [addEscalated, n1], ⟨by simp, ?_⟩, ?_, by simp⟩
    · intro q hq; simp only [List.mem_singleton] at hq; subst hq; exact ⟨ps0, n2, hne0⟩
    · rw [bufLocks_cons, n2.ranges]; exact hlk0.append_right _
  | cons q rest ih =>
    obtain ⟨t, b⟩ := q
    have hk := List.pairwise_cons.mp h.keys
    have hrd := h.readable
    unfold addEscalated
    split
    · rename_i hlt
      refine ⟨(x.2, b0) :: (t, b) :: rest, by rw [n1]; rfl, ⟨?_, ?_⟩, ?_, ?_⟩
      · refine List.pairwise_cons.mpr ⟨?_, h.keys⟩
        intro q hq
        rcases List.mem_cons.mp hq with rfl | hq
        · exact hlt
        · exact Nat.lt_trans (hk.1 q hq) hlt
      · intro q hq
        rcases List.mem_cons.mp hq with rfl | hq
        · exact ⟨ps0, n2, hne0⟩
        · exact hrd q hq
      · rw [bufLocks_cons, n2.ranges]; exact hlk0.append_right _
      · intro q hq
        rcases List.mem_cons.mp hq with rfl | hq
        · exact .inl rfl
        · exact .inr ⟨q, hq, rfl⟩
    · split
      · rename_i _ he
        obtain ⟨ps, hb, hne⟩ := hrd (t, b) (by simp)
        obtain ⟨b', ps', a1, a2, a3, _⟩ := hb.append hx (ptr x.1)
        refine ⟨(t, b') :: rest, by rw [a1]; rfl, ⟨?_, ?_⟩, ?_, ?_⟩
        · exact List.pairwise_cons.mpr ⟨hk.1, hk.2⟩
        · intro q hq
          rcases List.mem_cons.mp hq with rfl | hq
          · exact ⟨ps', a2, by intro h0; rw [h0] at a3; have := a3.length_eq; simp at this⟩
          · exact hrd q (by simp [hq])
        · rw [bufLocks_cons, bufLocks_cons, a2.ranges, hb.ranges]
          have : (asLocks (cfg := cfg) t ps').Perm (x :: asLocks t ps) := by
            rw [← he]; exact asLocks_perm x.2 a3
          exact this.append_right _
        · intro q hq
          rcases List.mem_cons.mp hq with rfl | hq
          · exact .inl he.symm
          · exact .inr ⟨q, by simp [hq], rfl⟩
      · rename_i hn1 hn2
        obtain ⟨r', e1, e2, e3, e4⟩ := ih ⟨hk.2, fun q hq => hrd q (by simp [hq])⟩
        refine ⟨(t, b) :: r', by rw [e1]; rfl, ⟨?_, ?_⟩, ?_, ?_⟩
        · refine List.pairwise_cons.mpr ⟨?_, e2.keys⟩
          intro q hq
          rcases e4 q hq with h | ⟨q', hq', h⟩
          · show q.1 < t
            rw [h]; exact Nat.lt_of_le_of_ne (Nat.le_of_not_lt hn1) hn2
          · have := hk.1 q' hq'; rw [h] at this; exact this
        · intro q hq
          rcases List.mem_cons.mp hq with rfl | hq
          · exact hrd _ (by simp)
          · exact e2.readable q hq
        · rw [bufLocks_cons, bufLocks_cons]
          exact (e3.append_left _).trans List.perm_middle
        · intro q hq
          rcases List.mem_cons.mp hq with rfl | hq
          · exact .inr ⟨_, List.mem_cons_self, rfl⟩
          · rcases e4 q hq with h | ⟨q', hq', h⟩
            · exact .inl h
            · exact .inr ⟨q', by simp [hq'], h⟩

theorem addAllEscalated_spec (ptr : Rng cfg → Bool) (xs : List (Lock cfg)) (hx : ∀ x ∈ xs, Lockable x.1)
    (bufs : List (Txn × RangeBuffer)) (h : EscBufs bufs) :
    ∃ bufs', addAllEscalated ptr xs bufs = some bufs' ∧ EscBufs bufs' ∧ (bufLocks bufs').Perm (xs ++ bufLocks bufs) := by
  induction xs generalizing bufs with
  | nil => exact ⟨bufs, rfl, h, .refl _⟩
  | cons x xs ih =>
    obtain ⟨b1, e1, e2, e3, _⟩ := addEscalated_spec ptr x (hx x (by simp)) bufs h
    obtain ⟨b2, f1, f2, f3⟩ := ih (fun y hy => hx y (by simp [hy])) b1 e2
    refine ⟨b2, by rw [addAllEscalated, e1]; exact f1, f2, ?_⟩
    exact f3.trans ((e3.append_left xs).trans List.perm_middle)

/-! ### Taking the locks out -/

theorem extractFn_stops : Tree.Stops (extractFn (cfg := cfg)) := by
  intro s x t h
  unfold extractFn at h ⊢
  split at h
  · simp at h
  · rename_i hn; exact ⟨by rw [if_neg hn], fun _ _ => by rw [if_neg hn]⟩

theorem foldl_extract (l acc : List (Lock cfg)) :
    l.foldl (fun s (x : Lock cfg) => (extractFn s x.1 x.2).1) acc = acc ++ l.take (batch - acc.length) := by
  induction l generalizing acc with
  | nil => simp
  | cons a l ih =>
    simp only [List.foldl_cons, ih]
    unfold extractFn
    split
    · rename_i h
      obtain ⟨k, hk⟩ : ∃ k, batch - acc.length = k + 1 := ⟨batch - acc.length - 1, by omega⟩
      have : batch - (acc ++ [a]).length = k := by simp; omega
      rw [hk, List.take_succ_cons, this]; simp
    · have : batch - acc.length = 0 := by omega
      simp [this]

theorem filter_not_take {l : List (Lock cfg)} (h : l.Nodup) (n : Nat) :
    l.filter (fun x => decide (¬ x ∈ l.take n)) = l.drop n := by
  have hsplit : l = l.take n ++ l.drop n := (List.take_append_drop n l).symm
  generalize hA : l.take n = A at *
  generalize hB : l.drop n = B at *
  rw [hsplit] at h ⊢
  rw [List.filter_append]
  have h1 : A.filter (fun x => decide (¬ x ∈ A)) = [] := List.filter_eq_nil_iff.mpr fun x hx => by simp [hx]
  have h2 : B.filter (fun x => decide (¬ x ∈ A)) = B := List.filter_eq_self.mpr fun x hx => by
    simp only [decide_eq_true_eq]
    intro ha; exact (List.nodup_append.mp h).2.2 x ha x hx rfl
  rw [h1, h2]; rfl

theorem extractLoop_spec (ptr : Rng cfg → Bool) (fuel : Nat) (tree : LTree cfg) (mem : Nat) (bufs : List (Txn × RangeBuffer))
    (hs : Sorted tree.toList) (hl : ∀ x ∈ tree.toList, Lockable x.1) (hb : EscBufs bufs)
    (hf : tree.toList.length < fuel) (hm : locksMem tree.toList ≤ mem) :
    ∃ tree' mem' bufs' M, extractLoop ptr fuel tree mem bufs = some (tree', mem', bufs') ∧ tree'.toList = [] ∧
      mem' + locksMem tree.toList = mem ∧ EscBufs bufs' ∧ (bufLocks bufs').Perm (M ++ bufLocks bufs) ∧
      Esc tree.toList M := by
  induction fuel generalizing tree mem bufs with
  | zero => omega
  | succ fuel ih =>
    obtain ⟨t1, sub, i1, -, -, -, i5⟩ := lkrIterate_spec (tree := tree) (path := []) (sub := tree) (range := infinite)
      extractFn extractFn_stops [] hs infinite_valid (by simp [Tree.at?])
    have hall : tree.toList.filter (fun x => decide ((infinite : Rng cfg).Meets x.1)) = tree.toList :=
      List.filter_eq_self.mpr fun x _ => by simpa using infinite_meets x.1
    rw [hall, foldl_extract] at i1
    simp only [List.nil_append, List.length_nil, Nat.sub_zero] at i1
    have hnd := hs.nodup
    obtain ⟨t2, sub2, m2, e1, e2, e0, e3, e4, e5⟩ := removeMany_spec [] (tree.toList.take batch) t1 t1 mem (by simp [Tree.at?])
      (by rw [i5]; exact hs) (by rw [i5]; intro x hx; exact List.mem_of_mem_take hx) (hnd.sublist (List.take_sublist _ _))
      (.inl rfl) (by rw [i5]; exact hm)
    rw [i5] at e3 e5
    rw [filter_not_take hnd] at e3
    have hsplit : tree.toList = tree.toList.take batch ++ t2.toList := by rw [e3, List.take_append_drop]
    unfold extractLoop
    rw [i1]; simp only [Option.bind_some]
    rw [removeEach_eq, e1]; simp only [Option.bind_some]
    have hml : locksMem t2.toList ≤ locksMem tree.toList := by
      have := congrArg locksMem hsplit
      rw [locksMem_append] at this; omega
    by_cases hnil : tree.toList.take batch = []
    · rw [if_pos hnil]
      have ht : tree.toList = [] := by
        cases hL : tree.toList with
        | nil => rfl
        | cons a l => rw [hL] at hnil; simp [batch] at hnil
      have ht2 : t2.toList = [] := by rw [e3, ht]; rfl
      refine ⟨t2, m2, bufs, [], rfl, ht2, ?_, hb, .refl _, by rw [ht]; exact .nil⟩
      rw [ht, ht2] at e5; rw [ht]; simpa using e5
    · rw [if_neg hnil]
      have hs' := hs
      have hl' := hl
      rw [hsplit] at hs' hl'
      have hesc := mergeRuns_spec (tree.toList.take batch) hs'.left (fun x hx => hl' x (by simp [hx]))
      obtain ⟨b1, f1, f2, f3⟩ := addAllEscalated_spec ptr (mergeRuns (tree.toList.take batch)) hesc.lockable bufs hb
      rw [f1]; simp only [Option.bind_some]
      have hlen : t2.toList.length < tree.toList.length := by
        have := congrArg List.length hsplit
        rw [List.length_append] at this
        have := List.length_pos_iff.mpr hnil
        omega
      obtain ⟨t3, m3, b3, M, g1, g2, g3, g4, g5, g6⟩ := ih t2 m2 b1 hs'.right (fun x hx => hl' x (by simp [hx])) f2
        (by omega) (by omega)
      refine ⟨t3, m3, b3, mergeRuns (tree.toList.take batch) ++ M, g1, g2, by omega, g4, ?_, ?_⟩
      · refine g5.trans ((f3.append_left M).trans ?_)
        rw [← List.append_assoc, List.append_assoc (mergeRuns _)]
        rw [← List.append_assoc]
        exact List.perm_append_comm.append_right _
      · have := hesc.append hs' g6
        rw [← hsplit] at this; exact this

/-! ### Putting them back -/

/-- Insert a list of locks. -/
def insertFold (xs : List (Lock cfg)) (tree : Option (LTree cfg)) : Option (LTree cfg) :=
  xs.foldl (fun (s : Option (LTree cfg)) (x : Lock cfg) => (migrateFn s x.1 x.2).1) tree

theorem insertFold_none (xs : List (Lock cfg)) : insertFold xs none = none := by
  induction xs with
  | nil => rfl
  | cons x xs ih => exact ih

theorem rebuildOne_eq (t : Txn) (ps : List (Pt × Pt)) (tree : LTree cfg) (mem : Nat) :
    rebuildOne t ps tree mem = (insertFold (asLocks t ps) (some tree)).map fun r => (r, mem + locksMem (asLocks (cfg := cfg) t ps)) := by
  induction ps generalizing tree mem with
  | nil => rfl
  | cons p ps ih =>
    have hc : asLocks (cfg := cfg) t (p :: ps) = (mkRange p.1 p.2, t) :: asLocks t ps := rfl
    rw [hc, rebuildOne]
    have : insertFold ((mkRange p.1 p.2, t) :: asLocks t ps) (some tree) =
        insertFold (asLocks t ps) (lkrInsert tree [] (mkRange p.1 p.2) t) := rfl
    rw [this]
    cases lkrInsert tree [] (mkRange p.1 p.2) t with
    | none => rw [insertFold_none]; rfl
    | some t1 => simp only [Option.bind_some]; rw [ih]; simp only [locksMem_cons, Nat.add_assoc]

theorem insertFold_append (a b : List (Lock cfg)) (t : Option (LTree cfg)) :
    insertFold (a ++ b) t = insertFold b (insertFold a t) := by simp [insertFold]

theorem rebuild_eq (bufs : List (Txn × RangeBuffer)) (h : Readable bufs) (tree : LTree cfg) (mem : Nat) :
    rebuild bufs tree mem = (insertFold (bufLocks bufs) (some tree)).map fun r => (r, mem + locksMem (bufLocks (cfg := cfg) bufs)) := by
  induction bufs generalizing tree mem with
  | nil => rfl
  | cons q rest ih =>
    obtain ⟨t, b⟩ := q
    obtain ⟨ps, hb, _⟩ := h (t, b) (by simp)
    rw [rebuild, bufLocks_cons, insertFold_append]
    simp only at hb
    rw [hb.ranges]
    simp only [Option.bind_some, Option.getD_some]
    rw [rebuildOne_eq]
    cases insertFold (asLocks t ps) (some tree) with
    | none => rw [insertFold_none]; rfl
    | some t1 =>
      simp only [Option.map_some, Option.bind_some]
      rw [ih (fun q hq => h q (by simp [hq]))]
      simp only [locksMem_append, Nat.add_assoc]

/-! ### Escalation of a table -/

theorem size_toList (t : LTree cfg) : t.toList.length = t.size := by
  induction t with
  | nil => rfl
  | node l ld x t r rd ihl ihr => simp [Tree.toList, Tree.size, ihl, ihr]; omega

/-- Relation between the locks before and after escalation. -/
structure Coarser (L L' : List (Lock cfg)) : Prop where
  old : ∀ x ∈ L, ∃ y ∈ L', y.2 = x.2 ∧ y.1.Covers x.1
  from_ : ∀ y ∈ L', ∃ x ∈ L, x.2 = y.2 ∧ y.1.Covers x.1
  count : ∀ u, count L' u ≤ count L u

theorem Coarser.trans {L L1 L' : List (Lock cfg)} (h : Coarser L L1) (h' : Coarser L1 L') : Coarser L L' := by
  refine ⟨?_, ?_, fun u => Nat.le_trans (h'.count u) (h.count u)⟩
  · intro x hx
    obtain ⟨y, hy, e, c⟩ := h.old x hx
    obtain ⟨z, hz, e', c'⟩ := h'.old y hy
    exact ⟨z, hz, e'.trans e, c'.trans c⟩
  · intro y hy
    obtain ⟨x, hx, e, c⟩ := h'.from_ y hy
    obtain ⟨z, hz, e', c'⟩ := h.from_ x hx
    exact ⟨z, hz, e'.trans e, c.trans c'⟩

theorem escalate_spec (lt : LockTable cfg) (h : TableOk lt) (ptr : Rng cfg → Bool) :
    ∃ lt' bufs, escalate lt ptr = some (lt', bufs) ∧ TableOk lt' ∧ lt'.mem + tableMem lt = lt.mem + tableMem lt' ∧
      lt'.stoTxn = 0 ∧ EscBufs bufs ∧ (tableLocks lt').Perm (bufLocks bufs) ∧ Coarser (tableLocks lt) (tableLocks lt') := by
  have key : ∀ lt1, TableOk lt1 → lt1.stoTxn = 0 → ∃ lt' bufs,
      ((extractLoop ptr (lt1.tree.size + 1) lt1.tree lt1.mem []).bind fun (q : LTree cfg × Nat × List (Txn × RangeBuffer)) =>
        if !q.1.isNil then none
        else (rebuild q.2.2 q.1 q.2.1).map fun (w : LTree cfg × Nat) =>
          (({ lt1 with tree := w.1, mem := w.2 } : LockTable cfg), q.2.2)) = some (lt', bufs) ∧
      TableOk lt' ∧ lt'.mem + tableMem lt1 = lt1.mem + tableMem lt' ∧
      lt'.stoTxn = 0 ∧ EscBufs bufs ∧ (tableLocks lt').Perm (bufLocks bufs) ∧ Coarser (tableLocks lt1) (tableLocks lt') := by
    intro lt1 h1 hoff
    have hL : tableLocks lt1 = lt1.tree.toList := by simp [tableLocks, hoff]
    have hlk := h1.lockable; rw [hL] at hlk
    have how := h1.owner; rw [hL] at how
    have hch := h1.charged
    obtain ⟨t1, m1, bufs, M, e1, e2, e3, e4, e5, e6⟩ := extractLoop_spec ptr (lt1.tree.size + 1) lt1.tree lt1.mem []
      h1.sorted hlk ⟨.nil, by simp [Readable]⟩ (by rw [size_toList]; omega) (by omega)
    have ht1 : t1 = .nil := Tree.toList_eq_nil.mp e2
    have e5' : (bufLocks (cfg := cfg) bufs).Perm M := by simpa [bufLocks] using e5
    have hval : ∀ x ∈ bufLocks (cfg := cfg) bufs, x.1.Valid := fun x hx => e6.sorted.1 x (e5'.mem_iff.mp hx)
    have hd : (bufLocks (cfg := cfg) bufs ++ t1.toList).Pairwise fun a b => ¬ a.1.Meets b.1 := by
      rw [e2, List.append_nil]
      exact (e5'.pairwise_iff (fun {a b} h h' => h (meets_comm.mp h'))).mpr e6.sorted.apart
    obtain ⟨t2, j1, j2, j3⟩ := insertAll (bufLocks bufs) t1 (by rw [e2]; exact .nil) hval hd
    rw [e2, List.append_nil] at j3
    have hp : t2.toList.Perm M := j3.trans e5'
    have hT : tableLocks (cfg := cfg) { lt1 with tree := t2, mem := m1 + locksMem (bufLocks (cfg := cfg) bufs) } = t2.toList := by
      simp [tableLocks, hoff]
    have hmem : locksMem t2.toList = locksMem (bufLocks (cfg := cfg) bufs) := locksMem_perm j3
    refine ⟨{ lt1 with tree := t2, mem := m1 + locksMem (bufLocks (cfg := cfg) bufs) }, bufs, ?_, ⟨j2, ?_, ?_, h1.off, fun h' => absurd hoff h', ?_⟩, ?_, hoff, e4, ?_, ?_⟩
    · rw [e1]; simp only [Option.bind_some]
      rw [if_neg (by rw [ht1]; simp [Tree.isNil]), rebuild_eq _ e4.readable]
      have : insertFold (bufLocks bufs) (some t1) = some t2 := j1
      rw [this]; rfl
    · rw [hT]; intro x hx; exact e6.lockable x (hp.mem_iff.mp hx)
    · rw [hT]; intro x hx
      obtain ⟨y, hy, e, _⟩ := e6.from_ x (hp.mem_iff.mp hx)
      rw [← e]; exact how y hy
    · show locksMem t2.toList + lt1.stoBuf.memory ≤ m1 + _; omega
    · show m1 + locksMem (bufLocks (cfg := cfg) bufs) + (locksMem lt1.tree.toList + lt1.stoBuf.memory) = lt1.mem + (locksMem t2.toList + lt1.stoBuf.memory)
      omega
    · rw [hT]; exact j3
    · rw [hT, hL]
      refine ⟨?_, ?_, ?_⟩
      · intro x hx; obtain ⟨y, hy, h⟩ := e6.old x hx; exact ⟨y, hp.mem_iff.mpr hy, h⟩
      · intro y hy; exact e6.from_ y (hp.mem_iff.mp hy)
      · intro u; rw [count_perm hp]; exact e6.count u
  unfold escalate
  by_cases hon : lt.stoTxn = 0
  · rw [if_neg (by simp [hon])]
    simp only [Option.bind_some]
    exact key lt h hon
  · rw [if_pos hon]
    obtain ⟨lt1, f1, f2, f3, f4, f5⟩ := stoEndEarly_spec lt h hon
    rw [f1]; simp only [Option.bind_some]
    obtain ⟨lt', bufs, e1, e2, e3, e4, e5, e6, e7⟩ := key lt1 f2 f3
    exact ⟨lt', bufs, e1, e2, by omega, e4, e5, e6, Coarser.trans ⟨f4.old, f4.from_, f4.count⟩ e7⟩

end Verif.Lt
