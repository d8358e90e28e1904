import Verif.Node.Pivot
import Verif.Ser.MsgBufDisk
/-!
Each operation on pivot keys, in either format, acts as the same operation on the list of keys.
-/
set_option linter.unusedVariables false
set_option linter.unusedSimpArgs false
namespace Verif.Node
open Verif.Ser

theorem align4_le (n : Nat) : n ≤ align4 n := by unfold align4; omega
theorem align4_pos {n : Nat} (h : 0 < n) : 0 < align4 n := by unfold align4; omega

theorem slotOf_length (k : List Nat) : (slotOf k).length = align4 k.length := by
  have := align4_le k.length
  simp [slotOf]; omega

/-- The object holds exactly the keys `ks`, in order. -/
inductive Pk.Rep : Pk → List (List Nat) → Prop
  | fixed {mem : List Nat} {k n t : Nat} {ks : List (List Nat)} (h1 : mem = ks.flatMap slotOf) (h2 : ∀ x ∈ ks, x.length = k) (h3 : n = ks.length)
      (h4 : t = align4 k * n) : Pk.Rep (.fixed mem k n t) ks
  | dbts {keys : List (List Nat)} {t : Nat} {ks : List (List Nat)} (h1 : keys = ks) (h2 : t = (ks.map List.length).sum) : Pk.Rep (.dbts keys t) ks

theorem slots_length {ks : List (List Nat)} {k : Nat} (h : ∀ x ∈ ks, x.length = k) : (ks.flatMap slotOf).length = ks.length * align4 k := by
  induction ks with
  | nil => simp
  | cons a ks ih =>
    have ha := h a (List.mem_cons_self ..)
    have := ih fun x hx => h x (List.mem_cons_of_mem _ hx)
    simp only [List.flatMap_cons, List.length_append, slotOf_length, List.length_cons, this, ha, Nat.add_mul, Nat.one_mul]
    omega

theorem slots_drop {ks : List (List Nat)} {k : Nat} (h : ∀ x ∈ ks, x.length = k) (i : Nat) : (ks.flatMap slotOf).drop (i * align4 k) = (ks.drop i).flatMap slotOf := by
  induction ks generalizing i with
  | nil => simp
  | cons a ks ih =>
    cases i with
    | zero => simp
    | succ i =>
      have ha := h a (List.mem_cons_self ..)
      have := ih (fun x hx => h x (List.mem_cons_of_mem _ hx)) i
      have hl : (slotOf a).length = align4 k := by rw [slotOf_length, ha]
      rw [List.flatMap_cons, show (i + 1) * align4 k = (slotOf a).length + i * align4 k by rw [hl, Nat.add_mul]; omega, List.drop_length_add_append, this]
      simp

theorem slots_take {ks : List (List Nat)} {k : Nat} (h : ∀ x ∈ ks, x.length = k) (i : Nat) : (ks.flatMap slotOf).take (i * align4 k) = (ks.take i).flatMap slotOf := by
  induction ks generalizing i with
  | nil => simp
  | cons a ks ih =>
    cases i with
    | zero => simp
    | succ i =>
      have ha := h a (List.mem_cons_self ..)
      have := ih (fun x hx => h x (List.mem_cons_of_mem _ hx)) i
      have hl : (slotOf a).length = align4 k := by rw [slotOf_length, ha]
      rw [List.flatMap_cons, show (i + 1) * align4 k = (slotOf a).length + i * align4 k by rw [hl, Nat.add_mul]; omega, List.take_length_add_append, this]
      simp

theorem slot_at {ks : List (List Nat)} {k i : Nat} (h : ∀ x ∈ ks, x.length = k) {x : List Nat} (hx : ks[i]? = some x) :
    fixedKey (ks.flatMap slotOf) k i = .ok x := by
  obtain ⟨hi, rfl⟩ := List.getElem?_eq_some_iff.mp hx
  have hl := h _ (List.getElem_mem hi)
  unfold fixedKey
  rw [slots_length h, if_pos, slots_drop h, List.drop_eq_getElem_cons hi, List.flatMap_cons, slotOf, ← hl]
  · simp
  · have := align4_le k
    have := Nat.mul_le_mul_right (align4 k) (Nat.succ_le_of_lt hi)
    rw [Nat.succ_mul] at this
    omega

theorem fixedKeys_ok {ks : List (List Nat)} {k : Nat} (h : ∀ x ∈ ks, x.length = k) :
    ∀ n i, i + n = ks.length → fixedKeys (ks.flatMap slotOf) k i n = .ok (ks.drop i) := by
  intro n
  induction n with
  | zero => intro i hi; rw [fixedKeys, List.drop_eq_nil_of_le (by omega)]
  | succ n ih =>
    intro i hi
    have hlt : i < ks.length := by omega
    rw [fixedKeys, slot_at h (List.getElem?_eq_getElem hlt), R.bind_ok, ih (i + 1) (by omega), R.bind_ok, R.pure_ok, List.drop_eq_getElem_cons hlt]

theorem packKeys_ok {ks : List (List Nat)} {k : Nat} (h : ∀ x ∈ ks, x.length = k) : packKeys k ks = .ok (ks.flatMap slotOf) := by
  induction ks with
  | nil => rfl
  | cons a ks ih =>
    rw [packKeys, if_pos (h a (List.mem_cons_self ..)), ih fun x hx => h x (List.mem_cons_of_mem _ hx), R.bind_ok, R.pure_ok, List.flatMap_cons]

theorem sameSize_spec {ks : List (List Nat)} {a : List Nat} : sameSize (a :: ks) = true ↔ ∀ x ∈ ks, x.length = a.length := by
  induction ks generalizing a with
  | nil => simp [sameSize]
  | cons b ks ih =>
    simp only [sameSize, Bool.and_eq_true, beq_iff_eq, ih, List.mem_cons, forall_eq_or_imp]
    constructor
    · rintro ⟨h, h2⟩; exact ⟨h, fun x hx => (h2 x hx).trans h⟩
    · rintro ⟨h, h2⟩; exact ⟨h, fun x hx => (h2 x hx).trans h.symm⟩

theorem sum_const {ks : List (List Nat)} {k : Nat} (h : ∀ x ∈ ks, x.length = k) : (ks.map List.length).sum = ks.length * k := by
  induction ks with
  | nil => simp
  | cons a ks ih =>
    rw [List.map_cons, List.sum_cons, ih fun x hx => h x (List.mem_cons_of_mem _ hx), h a (List.mem_cons_self ..), List.length_cons, Nat.add_mul]
    omega

theorem Pk.Rep.sanity {p : Pk} {ks : List (List Nat)} (h : p.Rep ks) : p.sanity = .ok p := by
  cases p with
  | fixed mem k n t =>
    obtain ⟨h1, h2, h3, h4⟩ := h
    rw [Pk.sanity]
    try simp only
    rw [if_pos]
    refine ⟨?_, by rw [h4, Nat.mul_comm]⟩
    rw [h4, Nat.mul_comm (align4 k)]
    exact Nat.mul_le_mul_left _ (align4_le k)
  | dbts keys t =>
    obtain _ | ⟨h1, h2⟩ := h
    subst h1
    simp [Pk.sanity, h2]

theorem Pk.Rep.num {p : Pk} {ks : List (List Nat)} (h : p.Rep ks) : p.num = ks.length := by
  cases p with
  | fixed mem k n t => exact by cases h; assumption
  | dbts keys t => obtain _ | ⟨h1, h2⟩ := h; subst h1; rfl

theorem Pk.Rep.serializedSize {p : Pk} {ks : List (List Nat)} (h : p.Rep ks) : p.serializedSize = (ks.map List.length).sum := by
  cases p with
  | fixed mem k n t => obtain ⟨h1, h2, h3, h4⟩ := h; rw [sum_const h2, ← h3]; rfl
  | dbts keys t => obtain _ | ⟨h1, h2⟩ := h; exact h2

theorem sum_mem {ks : List (List Nat)} {x : List Nat} (h : x ∈ ks) : x.length ≤ (ks.map List.length).sum := by
  induction ks with
  | nil => simp at h
  | cons a ks ih =>
    rw [List.map_cons, List.sum_cons]
    rcases List.mem_cons.mp h with rfl | h
    · omega
    · have := ih h; omega

theorem Pk.Rep.total_pos {p : Pk} {ks : List (List Nat)} (h : p.Rep ks) {x : List Nat} (hx : x ∈ ks) (hn : x ≠ []) : 0 < p.totalSize := by
  have hl : 0 < x.length := List.length_pos_iff.mpr hn
  cases p with
  | fixed mem k n t =>
    obtain ⟨h1, h2, h3, h4⟩ := h
    have := h2 x hx
    have h5 : 0 < n := by rw [h3]; exact List.length_pos_iff.mpr (List.ne_nil_of_mem hx)
    show 0 < t
    rw [h4]
    exact Nat.mul_pos (align4_pos (by omega)) h5
  | dbts keys t =>
    obtain _ | ⟨h1, h2⟩ := h
    show 0 < t
    rw [h2]
    have := sum_mem hx
    omega

theorem Pk.Rep.toFixed {ks : List (List Nat)} {a : List Nat} (h : ∀ x ∈ ks, x.length = a.length) :
    ∃ p, Verif.Node.toFixed (a :: ks) = .ok p ∧ p.Rep (a :: ks) := by
  have h' : ∀ x ∈ a :: ks, x.length = a.length := by simpa using h
  refine ⟨_, ?_, .fixed rfl h' rfl rfl⟩
  rw [Verif.Node.toFixed]
  try simp only
  rw [packKeys_ok h', R.bind_ok]
  exact Pk.Rep.sanity <| .fixed rfl h' rfl rfl

theorem Pk.Rep.fromDbts (ks : List (List Nat)) : ∃ p, Pk.fromDbts ks = .ok p ∧ p.Rep ks := by
  unfold Pk.fromDbts
  split
  · rename_i h
    cases ks with
    | nil => simp at h
    | cons a ks => exact Pk.Rep.toFixed (sameSize_spec.mp h.1)
  · exact ⟨_, Pk.Rep.sanity (.dbts rfl rfl), .dbts rfl rfl⟩

theorem Pk.Rep.toDbts {mem : List Nat} {k n t : Nat} {ks : List (List Nat)} (h : (Pk.fixed mem k n t).Rep ks) :
    (Pk.fixed mem k n t).toDbts = .ok (.dbts ks (ks.map List.length).sum) := by
  obtain ⟨h1, h2, h3, h4⟩ := h
  subst h1
  rw [Pk.toDbts]
  try simp only
  rw [fixedKeys_ok h2 n 0 (by omega), R.bind_ok, List.drop_zero, show n * k = (ks.map List.length).sum by rw [sum_const h2, h3]]
  exact Pk.Rep.sanity (.dbts rfl rfl)

theorem Pk.Rep.all {p : Pk} {ks : List (List Nat)} (h : p.Rep ks) : p.all = .ok ks := by
  cases p with
  | fixed mem k n t =>
    obtain ⟨h1, h2, h3, h4⟩ := h
    subst h1
    rw [Pk.all]; simpa using fixedKeys_ok h2 n 0 (by omega)
  | dbts keys t => obtain _ | ⟨h1, h2⟩ := h; subst h1; rfl

theorem Pk.Rep.get {p : Pk} {ks : List (List Nat)} (h : p.Rep ks) {i : Nat} {x : List Nat} (hx : ks[i]? = some x) : p.get i = .ok x := by
  cases p with
  | fixed mem k n t =>
    obtain ⟨h1, h2, h3, h4⟩ := h
    subst h1
    exact slot_at h2 hx
  | dbts keys t => obtain _ | ⟨h1, h2⟩ := h; subst h1; simp [Pk.get, hx]

theorem Pk.Rep.clone {p : Pk} {ks : List (List Nat)} (h : p.Rep ks) : ∃ q, p.clone = .ok q ∧ q.Rep ks := by
  cases p with
  | fixed mem k n t =>
    obtain ⟨h1, h2, h3, h4⟩ := h
    have hl : mem.length = align4 k * n := by rw [h1, slots_length h2, h3, Nat.mul_comm]
    have hr : (Pk.fixed mem k n (align4 k * n)).Rep ks := .fixed h1 h2 h3 rfl
    refine ⟨_, ?_, hr⟩
    rw [Pk.clone]
    try simp only
    rw [if_pos (by omega), ← hl, List.take_length, hl]
    exact hr.sanity
  | dbts keys t =>
    obtain _ | ⟨h1, h2⟩ := h
    subst h1
    obtain ⟨q, hq, hr⟩ := Pk.Rep.fromDbts keys
    exact ⟨q, by rw [Pk.clone]; (try simp only); rw [hq, R.bind_ok]; exact hr.sanity, hr⟩

theorem insert_dbts_ok {ks : List (List Nat)} {i : Nat} {key : List Nat} (hi : i ≤ ks.length) :
    (Pk.dbts (ks.take i ++ key :: ks.drop i) ((ks.map List.length).sum + key.length)).Rep (ks.take i ++ key :: ks.drop i) := by
  refine .dbts rfl ?_
  have : (ks.map List.length).sum = ((ks.take i).map List.length).sum + ((ks.drop i).map List.length).sum := by
    rw [← List.sum_append_nat, ← List.map_append, List.take_append_drop]
  simp only [List.map_append, List.map_cons, List.sum_append_nat, List.sum_cons]
  omega

theorem Pk.Rep.insertIn {p : Pk} {ks : List (List Nat)} (h : p.Rep ks) {i : Nat} {key : List Nat} (hi : i ≤ ks.length)
    (hk : ∀ mem k n t, p = .fixed mem k n t → key.length = k) : ∃ q, p.insertIn key i = .ok q ∧ q.Rep (ks.take i ++ key :: ks.drop i) := by
  cases p with
  | fixed mem k n t =>
    obtain ⟨h1, h2, h3, h4⟩ := h
    have hk' := hk _ _ _ _ rfl
    have hl : mem.length = n * align4 k := by rw [h1, slots_length h2, h3]
    refine ⟨_, by rw [Pk.insertIn]; (try simp only); rw [if_pos (by omega)], .fixed ?_ ?_ ?_ ?_⟩
    · have hd : ((ks.drop i).flatMap slotOf).length = (n - i) * align4 k := by
        rw [slots_length fun x hx => h2 x (List.mem_of_mem_drop hx), List.length_drop, h3]
      rw [h1, slots_take h2, slots_drop h2, ← hd, List.take_length]
      simp
    · intro x hx
      rw [List.mem_append, List.mem_cons] at hx
      rcases hx with hx | rfl | hx
      · exact h2 x (List.mem_of_mem_take hx)
      · exact hk'
      · exact h2 x (List.mem_of_mem_drop hx)
    · simp; omega
    · rw [h4, Nat.mul_add, Nat.mul_one]
  | dbts keys t =>
    obtain _ | ⟨h1, h2⟩ := h
    subst h1
    subst h2
    exact ⟨_, rfl, insert_dbts_ok hi⟩

theorem Pk.Rep.insertAt {p : Pk} {ks : List (List Nat)} (h : p.Rep ks) {i : Nat} {key : List Nat} (hi : i ≤ ks.length) (hne : key ≠ []) :
    ∃ q, p.insertAt key i = .ok q ∧ q.Rep (ks.take i ++ key :: ks.drop i) := by
  have fin : ∀ p' : Pk, p'.Rep ks → (∀ mem k n t, p' = .fixed mem k n t → key.length = k) →
      ∃ q, ((p'.insertIn key i) >>= fun p => if p.totalSize > 0 then pure p else R.abort) = .ok q ∧ q.Rep (ks.take i ++ key :: ks.drop i) := by
    intro p' hp hk
    obtain ⟨q, hq, hr⟩ := hp.insertIn hi hk
    refine ⟨q, ?_, hr⟩
    rw [hq, R.bind_ok, if_pos (hr.total_pos (x := key) (by simp) hne)]
    rfl
  rw [Pk.insertAt, if_pos (by rw [h.num]; exact hi)]
  cases p with
  | fixed mem k n t =>
    try simp only
    by_cases hk : key.length = k
    · rw [if_neg (by simpa using hk), R.pure_ok, R.bind_ok]
      exact fin _ h (by intro _ _ _ _ e; cases e; exact hk)
    · rw [if_pos hk, h.toDbts, R.bind_ok]
      exact fin _ (.dbts rfl rfl) (by intro _ _ _ _ e; cases e)
  | dbts keys t =>
    simp only [R.pure_ok, R.bind_ok]
    exact fin _ h (by intro _ _ _ _ e; cases e)

theorem sum_split (ks ks' : List (List Nat)) : ((ks ++ ks').map List.length).sum = (ks.map List.length).sum + (ks'.map List.length).sum := by
  rw [List.map_append, List.sum_append_nat]

theorem Pk.Rep.appendDbt {ks : List (List Nat)} {q : Pk} {ks' : List (List Nat)} (h' : q.Rep ks') :
    (Pk.dbts ks (ks.map List.length).sum).appendDbt q = .ok (.dbts (ks ++ ks') ((ks ++ ks').map List.length).sum) := by
  rw [Pk.appendDbt]
  try simp only
  rw [h'.all, R.bind_ok, sum_split]
  rfl

theorem Pk.Rep.resized {mem : List Nat} {k n t : Nat} {ks : List (List Nat)} (h : (Pk.fixed mem k n t).Rep ks) (hne : ∀ x ∈ ks, x ≠ []) :
    ∃ q, Pk.resized mem k n t = .ok q ∧ q.Rep ks := by
  unfold Pk.resized
  obtain ⟨h1, h2, h3, h4⟩ := id h
  have hl : mem.length = n * align4 k := by rw [h1, slots_length h2, h3]
  split
  · rename_i h0
    cases ks with
    | nil =>
      refine ⟨.dbts [] t, ?_, .dbts rfl (by rw [h4, h3]; rfl)⟩
      rw [if_pos (by simpa using h3)]
      exact Pk.Rep.sanity (ks := []) (.dbts rfl (by rw [h4, h3]; rfl))
    | cons a ks =>
      exfalso
      have ha := h2 a (List.mem_cons_self ..)
      have := List.length_pos_iff.mpr (hne a (List.mem_cons_self ..))
      have h5 := align4_pos (n := k) (by omega)
      have h6 : 0 < n * align4 k := Nat.mul_pos (by rw [h3]; simp) h5
      omega
  · exact ⟨_, h.sanity, h⟩

theorem Pk.Rep.append {p q : Pk} {ks ks' : List (List Nat)} (h : p.Rep ks) (h' : q.Rep ks') (hne : ∀ x ∈ ks ++ ks', x ≠ []) :
    ∃ r, p.append q = .ok r ∧ r.Rep (ks ++ ks') := by
  have hd : (Pk.dbts (ks ++ ks') ((ks ++ ks').map List.length).sum).Rep (ks ++ ks') := .dbts rfl rfl
  cases p with
  | dbts keys t =>
    obtain _ | ⟨h1, h2⟩ := h
    subst h1; subst h2
    refine ⟨_, ?_, hd⟩
    rw [Pk.append, h'.appendDbt, R.bind_ok]
    · exact hd.sanity
    · intros; simp_all
    · intros; simp_all
  | fixed mem k n t =>
    cases q with
    | dbts keys' t' =>
      refine ⟨_, ?_, hd⟩
      rw [Pk.append, h.toDbts, R.bind_ok, h'.appendDbt, R.bind_ok]
      · exact hd.sanity
      · simp
    | fixed mem' k' n' t' =>
      rw [Pk.append]
      by_cases hk : k' = k
      · rw [if_pos hk]
        subst hk
        obtain ⟨h1, h2, h3, h4⟩ := h
        obtain ⟨g1, g2, g3, g4⟩ := h'
        have hl : mem.length = n * align4 k' := by rw [h1, slots_length h2, h3]
        have gl : mem'.length = t' := by rw [g1, slots_length g2, g4, g3, Nat.mul_comm]
        rw [if_pos ⟨by omega, by omega⟩, ← hl, ← gl, List.take_length, List.take_length]
        refine Pk.Rep.resized (.fixed ?_ ?_ ?_ ?_) hne
        · rw [h1, g1, List.flatMap_append]
        · intro x hx
          rcases List.mem_append.mp hx with hx | hx
          · exact h2 x hx
          · exact g2 x hx
        · simp [h3, g3]
        · rw [gl, h4, g4, Nat.mul_add]
      · rw [if_neg hk]
        refine ⟨_, ?_, hd⟩
        rw [h.toDbts, R.bind_ok, h'.appendDbt, R.bind_ok]
        exact hd.sanity

theorem sum_get {ks : List (List Nat)} {i : Nat} {x : List Nat} (hx : ks[i]? = some x) :
    (ks.map List.length).sum = ((ks.take i).map List.length).sum + (x.length + ((ks.drop (i + 1)).map List.length).sum) := by
  obtain ⟨hi, rfl⟩ := List.getElem?_eq_some_iff.mp hx
  rw [← List.sum_cons, ← List.map_cons (f := List.length), ← List.drop_eq_getElem_cons hi, ← List.sum_append_nat, ← List.map_append, List.take_append_drop]

theorem replaceDbt_ok {ks : List (List Nat)} {i : Nat} (hi : i < ks.length) (key : List Nat) :
    ∃ q, (Pk.dbts ks (ks.map List.length).sum).replaceDbt key i = .ok q ∧ q.Rep (ks.set i key) := by
  rw [Pk.replaceDbt]
  try simp only
  have hx := List.getElem?_eq_getElem hi
  have hs := sum_get hx
  rw [hx]
  try simp only
  rw [if_pos (by omega)]
  refine ⟨_, rfl, .dbts rfl ?_⟩
  rw [List.set_eq_take_append_cons_drop, if_pos hi, sum_split, List.map_cons, List.sum_cons, hs]
  omega

theorem Pk.Rep.replaceAt {p : Pk} {ks : List (List Nat)} (h : p.Rep ks) {i : Nat} {key : List Nat} (hi : i ≤ ks.length) (hne : key ≠ []) :
    ∃ q, p.replaceAt key i = .ok q ∧ q.Rep (if i < ks.length then ks.set i key else ks ++ [key]) := by
  have fin : ∀ (e : R Pk) (ks' : List (List Nat)), key ∈ ks' → (∃ q, e = .ok q ∧ q.Rep ks') →
      ∃ q, (e >>= fun p => if p.totalSize > 0 then pure p else R.abort) = .ok q ∧ q.Rep ks' := by
    rintro e ks' hm ⟨q, rfl, hq⟩
    refine ⟨q, ?_, hq⟩
    rw [R.bind_ok, if_pos (hq.total_pos hm hne)]
    rfl
  rw [Pk.replaceAt]
  refine fin _ _ ?_ ?_
  · split
    · rename_i h1
      rw [List.set_eq_take_append_cons_drop, if_pos h1]; simp
    · simp
  rw [Pk.replaceIn.eq_def, h.num]
  by_cases hlt : i < ks.length
  · rw [if_pos hlt, if_pos hlt]
    cases p with
    | dbts keys t =>
      obtain _ | ⟨h1, h2⟩ := h
      subst h1; subst h2
      exact replaceDbt_ok hlt key
    | fixed mem k n t =>
      try simp only
      by_cases hk : key.length = k
      · obtain ⟨h1, h2, h3, h4⟩ := h
        have hl : mem.length = n * align4 k := by rw [h1, slots_length h2, h3]
        have hb : i * align4 k + k ≤ mem.length := by
          have := align4_le k
          have := Nat.mul_le_mul_right (align4 k) (Nat.succ_le_of_lt hlt)
          rw [Nat.succ_mul] at this
          rw [hl, h3]; omega
        rw [if_pos hk, if_pos hb]
        refine ⟨_, rfl, .fixed ?_ ?_ (by simpa using h3) h4⟩
        · have hd : mem.drop (i * align4 k + k) = List.replicate (align4 k - k) 0 ++ (ks.drop (i + 1)).flatMap slotOf := by
            rw [← List.drop_drop, h1, slots_drop h2, List.drop_eq_getElem_cons hlt, List.flatMap_cons, slotOf,
              h2 _ (List.getElem_mem hlt), List.append_assoc]
            have := h2 _ (List.getElem_mem hlt)
            rw [List.drop_append_of_le_length (by omega), List.drop_of_length_le (by omega)]
            rfl
          rw [hd, h1, slots_take h2, List.set_eq_take_append_cons_drop, if_pos hlt, List.flatMap_append, List.flatMap_cons, slotOf, hk]
          simp
        · intro x hx
          rcases List.mem_or_eq_of_mem_set hx with hx | rfl
          · exact h2 x hx
          · exact hk
      · rw [if_neg hk, h.toDbts, R.bind_ok]
        exact replaceDbt_ok hlt key
  · rw [if_neg hlt, if_neg hlt, if_pos (by omega)]
    have := h.insertAt (i := i) (key := key) (by omega) hne
    have e : i = ks.length := by omega
    subst e
    simpa using this

theorem Pk.Rep.deleteAt {p : Pk} {ks : List (List Nat)} (h : p.Rep ks) {i : Nat} (hi : i < ks.length) :
    ∃ q, p.deleteAt i = .ok q ∧ q.Rep (ks.eraseIdx i) := by
  rw [Pk.deleteAt.eq_def, h.num, if_pos hi]
  cases p with
  | dbts keys t =>
    obtain _ | ⟨h1, h2⟩ := h
    subst h1; subst h2
    have hx := List.getElem?_eq_getElem hi
    have hs := sum_get hx
    try simp only
    rw [hx]
    try simp only
    rw [if_pos (by omega)]
    refine ⟨_, rfl, .dbts rfl ?_⟩
    rw [List.eraseIdx_eq_take_drop_succ, sum_split, hs]
    omega
  | fixed mem k n t =>
    obtain ⟨h1, h2, h3, h4⟩ := h
    have hl : mem.length = n * align4 k := by rw [h1, slots_length h2, h3]
    have ht : align4 k ≤ t := by
      rw [h4]
      have := Nat.mul_le_mul_left (align4 k) (show 1 ≤ n by omega)
      omega
    try simp only
    rw [if_pos ⟨by omega, ht⟩]
    refine ⟨_, rfl, .fixed ?_ ?_ ?_ ?_⟩
    · have hd : ((ks.drop (i + 1)).flatMap slotOf).length = (n - 1 - i) * align4 k := by
        rw [slots_length fun x hx => h2 x (List.mem_of_mem_drop hx), List.length_drop, h3]
        congr 1; omega
      rw [h1, slots_take h2, slots_drop h2, ← hd, List.take_length, List.eraseIdx_eq_take_drop_succ, List.flatMap_append]
    · exact fun x hx => h2 x (List.mem_of_mem_eraseIdx hx)
    · rw [List.length_eraseIdx_of_lt hi, h3]
    · rw [h4, Nat.mul_sub, Nat.mul_one]

theorem destroyKeys_ok (ks : List (List Nat)) (t : Nat) : destroyKeys ks (t + (ks.map List.length).sum) = .ok t := by
  induction ks with
  | nil => simp [destroyKeys]
  | cons a ks ih =>
    rw [destroyKeys, List.map_cons, List.sum_cons, if_pos (by omega), show t + (a.length + (ks.map List.length).sum) - a.length = t + (ks.map List.length).sum by omega, ih]

theorem Pk.Rep.splitAt {p : Pk} {ks : List (List Nat)} (h : p.Rep ks) (hne : ∀ x ∈ ks, x ≠ []) {i : Nat} (hi : i < ks.length) :
    ∃ q r, p.splitAt i = .ok (q, some r) ∧ q.Rep (ks.take i) ∧ r.Rep (ks.drop i) := by
  rw [Pk.splitAt.eq_def, h.num, if_pos hi]
  cases p with
  | dbts keys t =>
    obtain _ | ⟨h1, h2⟩ := h
    subst h1; subst h2
    obtain ⟨r, hr, hr'⟩ := Pk.Rep.fromDbts (keys.drop i)
    try simp only
    have hs : (keys.map List.length).sum = ((keys.take i).map List.length).sum + ((keys.drop i).map List.length).sum := by
      rw [← sum_split, List.take_append_drop]
    have hq : (Pk.dbts (keys.take i) ((keys.take i).map List.length).sum).Rep (keys.take i) := .dbts rfl rfl
    refine ⟨_, r, ?_, hq, hr'⟩
    rw [hr, R.bind_ok, hs, destroyKeys_ok, R.bind_ok, hq.sanity, R.bind_ok]
    rfl
  | fixed mem k n t =>
    obtain ⟨h1, h2, h3, h4⟩ := h
    have hl : mem.length = n * align4 k := by rw [h1, slots_length h2, h3]
    try simp only
    rw [if_pos (by omega)]
    have hq : (Pk.fixed (mem.take (i * align4 k)) k i (i * align4 k)).Rep (ks.take i) := by
      refine .fixed (by rw [h1, slots_take h2]) (fun x hx => h2 x (List.mem_of_mem_take hx)) ?_ (Nat.mul_comm ..)
      rw [List.length_take]; omega
    obtain ⟨q, e, hq'⟩ := hq.resized fun x hx => hne x (List.mem_of_mem_take hx)
    refine ⟨q, _, by rw [e, R.bind_ok]; rfl, hq', .fixed ?_ (fun x hx => h2 x (List.mem_of_mem_drop hx)) ?_ rfl⟩
    · have hd : ((ks.drop i).flatMap slotOf).length = align4 k * (n - i) := by
        rw [slots_length fun x hx => h2 x (List.mem_of_mem_drop hx), List.length_drop, h3, Nat.mul_comm]
      rw [h1, slots_drop h2, ← hd, List.take_length]
    · rw [List.length_drop, h3]

theorem Pk.Rep.splitAt_all {p : Pk} {ks : List (List Nat)} (h : p.Rep ks) {i : Nat} (hi : ¬ i < ks.length) : p.splitAt i = .ok (p, none) := by
  rw [Pk.splitAt.eq_def, h.num, if_neg hi, h.sanity, R.bind_ok]
  rfl

/-! ### On disk -/

/-- What is written for pivots. -/
def keyFields (ks : List (List Nat)) : List Field := ks.map Field.bytes

theorem writeKeys_ok {ks : List (List Nat)} (hne : ∀ x ∈ ks, x ≠ []) (hv : ∀ f ∈ keyFields ks, BufSpec.Valid f) (w : W)
    (hf : w.out.length + (BufSpec.layout (keyFields ks)).length ≤ w.size) :
    writeKeys ks w = .ok ((ks.map List.length).sum, { w with out := w.out ++ BufSpec.layout (keyFields ks) }) := by
  induction ks generalizing w with
  | nil => simp [writeKeys, keyFields, BufSpec.layout]
  | cons a ks ih =>
    have e : BufSpec.layout (keyFields (a :: ks)) = BufSpec.bytes (.bytes a) ++ BufSpec.layout (keyFields ks) := by
      simp [keyFields, BufSpec.layout]
    rw [e, List.length_append] at hf
    have hw : w.bytes0 a = .ok { w with out := w.out ++ BufSpec.bytes (.bytes a) } :=
      W.field0_ok (hv (.bytes a) (by simp [keyFields])) (by omega)
    rw [writeKeys, if_pos (by have := List.length_pos_iff.mpr (hne a (List.mem_cons_self ..)); omega), hw, R.bind_ok,
      ih (fun x hx => hne x (List.mem_cons_of_mem _ hx)) (fun f hf => hv f (by simp only [keyFields, List.map_cons, List.mem_cons] at hf ⊢; exact Or.inr hf)) _
        (by simp only [List.length_append]; omega), R.bind_ok, e]
    simp [R.pure_ok]

theorem Pk.Rep.serialize {p : Pk} {ks : List (List Nat)} (h : p.Rep ks) (hne : ∀ x ∈ ks, x ≠ []) (hv : ∀ f ∈ keyFields ks, BufSpec.Valid f) (w : W)
    (hf : w.out.length + (BufSpec.layout (keyFields ks)).length ≤ w.size) :
    p.serialize w = .ok { w with out := w.out ++ BufSpec.layout (keyFields ks) } := by
  rw [Pk.serialize, h.all, R.bind_ok, writeKeys_ok hne hv w hf, R.bind_ok]
  try simp only
  rw [if_pos h.serializedSize.symm]
  rfl

theorem readKeys_ok {ks : List (List Nat)} (hv : ∀ f ∈ keyFields ks, BufSpec.Valid f) (pre post : List Nat) :
    readKeys ks.length ⟨pre ++ (BufSpec.layout (keyFields ks) ++ post), pre.length⟩ =
      .ok (ks, ⟨pre ++ (BufSpec.layout (keyFields ks) ++ post), (pre ++ BufSpec.layout (keyFields ks)).length⟩) := by
  induction ks generalizing pre with
  | nil => simp [readKeys, keyFields, BufSpec.layout]
  | cons a ks ih =>
    have e : BufSpec.layout (keyFields (a :: ks)) = BufSpec.bytes (.bytes a) ++ BufSpec.layout (keyFields ks) := by
      simp [keyFields, BufSpec.layout]
    have hl : (BufSpec.bytes (.bytes a)).length = 4 + a.length := by simp [BufSpec.bytes, digits_length]
    have h1 := Rd.bytes_ok (pre := pre) (post := BufSpec.layout (keyFields ks) ++ post) (bs := a) (hv (.bytes a) (by simp [keyFields]))
    have h2 := ih (fun f hf => hv f (by simp only [keyFields, List.map_cons, List.mem_cons] at hf ⊢; exact Or.inr hf)) (pre ++ BufSpec.bytes (.bytes a))
    simp only [e, List.append_assoc, List.length_append, List.length_cons, hl] at h1 h2 ⊢
    rw [readKeys, h1, R.bind_ok]
    try simp only
    rw [h2, R.bind_ok]
    rfl

theorem Pk.Rep.deserialize {ks : List (List Nat)} (hv : ∀ f ∈ keyFields ks, BufSpec.Valid f) (pre post : List Nat) :
    ∃ p, Pk.deserialize ⟨pre ++ (BufSpec.layout (keyFields ks) ++ post), pre.length⟩ ks.length =
      .ok (p, ⟨pre ++ (BufSpec.layout (keyFields ks) ++ post), (pre ++ BufSpec.layout (keyFields ks)).length⟩) ∧ p.Rep ks := by
  rw [Pk.deserialize, readKeys_ok hv, R.bind_ok]
  try simp only
  by_cases hs : sameSize ks = true ∧ 0 < ks.length
  · rw [if_pos hs]
    cases ks with
    | nil => simp at hs
    | cons a ks =>
      obtain ⟨p, hp, hr⟩ := Pk.Rep.toFixed (sameSize_spec.mp hs.1)
      refine ⟨p, ?_, hr⟩
      rw [hp, R.bind_ok, hr.sanity, R.bind_ok]
      rfl
  · rw [if_neg hs]
    have hr : (Pk.dbts ks (ks.map List.length).sum).Rep ks := .dbts rfl rfl
    refine ⟨_, ?_, hr⟩
    rw [hr.sanity, R.bind_ok]
    rfl

end Verif.Node
