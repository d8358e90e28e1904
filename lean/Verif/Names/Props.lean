import Verif.Names.Model

/-! C69: every dictionary has a file of its own. -/
namespace Verif.Names

/-! Hex numbers -/

def unhex (c : Char) : Nat := (['0', '1', '2', '3', '4', '5', '6', '7', '8', '9', 'a', 'b', 'c', 'd', 'e', 'f'].idxOf c)

theorem unhex_digit (n : Nat) (h : n < 16) : unhex (hexDigit n) = n := by
  have : ∀ n : Fin 16, unhex (hexDigit n.val) = n.val := by decide
  exact this ⟨n, h⟩

theorem digit_ne (n : Nat) : hexDigit n ≠ '_' ∧ hexDigit n ≠ 'B' ∧ hexDigit n ≠ 'P' := by
  by_cases h : n < 16
  · have : ∀ n : Fin 16, hexDigit n.val ≠ '_' ∧ hexDigit n.val ≠ 'B' ∧ hexDigit n.val ≠ 'P' := by decide
    exact this ⟨n, h⟩
  · have : hexDigit n = '0' := by
      unfold hexDigit; rw [List.getD_eq_getElem?_getD, List.getElem?_eq_none (by simp; omega)]; rfl
    rw [this]; decide

theorem hexGo_ne (b n : Nat) : '_' ∉ hexGo b n ∧ 'B' ∉ hexGo b n ∧ 'P' ∉ hexGo b n := by
  induction b generalizing n with
  | zero =>
    have := digit_ne (n % 16)
    simp only [hexGo, List.mem_singleton]
    exact ⟨fun h => this.1 h.symm, fun h => this.2.1 h.symm, fun h => this.2.2 h.symm⟩
  | succ b ih =>
    simp only [hexGo]
    split
    · have := digit_ne n
      simp only [List.mem_singleton]
      exact ⟨fun h => this.1 h.symm, fun h => this.2.1 h.symm, fun h => this.2.2 h.symm⟩
    · have := digit_ne (n % 16)
      have := ih (n / 16)
      simp only [List.mem_append, List.mem_singleton]
      grind

def value (s : List Char) : Nat := s.foldl (fun a c => 16 * a + unhex c) 0

theorem value_hexGo (b n : Nat) (h : n < 16 ^ (b + 1)) : value (hexGo b n) = n := by
  induction b generalizing n with
  | zero =>
    have : n < 16 := by simpa using h
    simp [hexGo, value, Nat.mod_eq_of_lt this, unhex_digit n this]
  | succ b ih =>
    simp only [hexGo]
    split
    · rename_i h'; simp [value, unhex_digit n h']
    · have h1 : n / 16 < 16 ^ (b + 1) := by
        rw [Nat.div_lt_iff_lt_mul (by omega)]; rw [Nat.pow_succ] at h; exact h
      have := ih (n / 16) h1
      simp only [value, List.foldl_append, List.foldl_cons, List.foldl_nil] at this ⊢
      rw [this, unhex_digit _ (Nat.mod_lt _ (by omega))]; omega

theorem hex_inj {n m : Nat} (hn : n < 2 ^ 64) (hm : m < 2 ^ 64) (h : hex n = hex m) : n = m := by
  have h1 := value_hexGo 15 n (by simpa using hn)
  have h2 := value_hexGo 15 m (by simpa using hm)
  unfold hex at h; rw [h] at h1; omega

/-- The last part after an underscore. -/
theorem last_part {a a' b b' : List Char} (hb : '_' ∉ b) (hb' : '_' ∉ b') (h : a ++ '_' :: b = a' ++ '_' :: b') :
    a = a' ∧ b = b' := by
  rw [List.append_eq_append_iff] at h
  rcases h with ⟨c, h1, h2⟩ | ⟨c, h1, h2⟩
  · rcases c with _ | ⟨x, c⟩
    · simp at h1 h2; exact ⟨h1.symm, h2⟩
    · simp at h2; obtain ⟨_, rfl⟩ := h2; simp at hb
  · rcases c with _ | ⟨x, c⟩
    · simp at h1 h2; exact ⟨h1, h2.symm⟩
    · simp at h2; obtain ⟨_, rfl⟩ := h2; simp at hb'

/-- Ids are of 64 bits. -/
def Ids.Ok (x : Ids) : Prop := x.id1 < 2 ^ 64 ∧ x.id2 < 2 ^ 64

def MarkOk (m : Option (Mark × Nat)) : Prop := ∀ k n, m = some (k, n) → n < 2 ^ 31

/-- A file's name says what it was made from: the ids, the hint, the mark and the number. -/
theorem C69_name_determines {x y : Ids} {h k : List Char} {m m' : Option (Mark × Nat)} (hx : x.Ok) (hy : y.Ok)
    (hm : MarkOk m) (hm' : MarkOk m') (he : iname x h m = iname y k m') : x = y ∧ h = k ∧ m = m' := by
  have hex_ := fun n => (hexGo_ne 15 n).1
  have h3 : ∀ {h k : List Char}, h ++ ('_' :: hex x.id1) ++ ('_' :: hex x.id2) ++ ('_' :: hex version) =
      k ++ ('_' :: hex y.id1) ++ ('_' :: hex y.id2) ++ ('_' :: hex version) → x = y ∧ h = k := by
    intro h k he
    obtain ⟨he1, _⟩ := last_part (hex_ _) (hex_ _) he
    obtain ⟨he2, h2⟩ := last_part (hex_ _) (hex_ _) he1
    obtain ⟨he3, h1⟩ := last_part (hex_ _) (hex_ _) he2
    obtain ⟨a, b⟩ := x; obtain ⟨c, d⟩ := y
    have e1 := hex_inj hx.1 hy.1 h1
    have e2 := hex_inj hx.2 hy.2 h2
    dsimp only at e1 e2; subst e1; subst e2
    exact ⟨rfl, he3⟩
  have hmk : ∀ m : Mark, '_' ∉ [m.char] := by intro m; cases m <;> decide
  have hno : ∀ (m : Mark) (n : Nat), [m.char] ≠ hex n := by
    intro m n h'
    have := hexGo_ne 15 n
    unfold hex at h'; rw [← h'] at this
    cases m <;> simp [Mark.char] at this
  rcases m with _ | ⟨m, n⟩ <;> rcases m' with _ | ⟨m', n'⟩ <;> simp only [iname] at he <;>
    have he := List.append_cancel_right he
  · obtain ⟨e1, e2⟩ := h3 he; exact ⟨e1, e2, rfl⟩
  · obtain ⟨he, _⟩ := last_part (hex_ _) (hex_ _) he
    obtain ⟨_, he⟩ := last_part (hex_ _) (hmk _) he
    exact absurd he.symm (hno _ _)
  · obtain ⟨he, _⟩ := last_part (hex_ _) (hex_ _) he
    obtain ⟨_, he⟩ := last_part (hmk _) (hex_ _) he
    exact absurd he (hno _ _)
  · obtain ⟨he, h1⟩ := last_part (hex_ _) (hex_ _) he
    obtain ⟨he, h2⟩ := last_part (hmk _) (hmk _) he
    obtain ⟨e1, e2⟩ := h3 he
    have e3 := hex_inj (Nat.lt_trans (hm m n rfl) (by decide)) (Nat.lt_trans (hm' m' n' rfl) (by decide)) h1
    have e4 : m = m' := by cases m <;> cases m' <;> simp [Mark.char] at h2 <;> rfl
    subst e3; subst e4; exact ⟨e1, e2, rfl⟩

example : iname ⟨0x1a, 3⟩ (hint false "a.b".toList) none = "a_b_1a_3_1d.tokudb".toList ∧
    iname ⟨0x1a, 3⟩ (hint true "./d.x/t..1".toList) (some (.B, 2)) = "d.x/t_1_1a_3_1d_B_2.tokudb".toList := by decide

/-- A call's loaded dictionaries are fewer than 2^31 (an `int`). -/
def Call.Ok : Call → Prop
  | .one x _ => x.Ok
  | .load x _ ds => x.Ok ∧ ds.length < 2 ^ 31

theorem Call.names_mem {b : Bool} {c : Call} (hc : c.Ok) {s} (hs : s ∈ c.names b) :
    c.ids.Ok ∧ ∃ h m, MarkOk m ∧ s = iname c.ids h m := by
  cases c with
  | one x d =>
    simp only [Call.names, List.mem_singleton] at hs
    exact ⟨hc, _, none, fun _ _ h => (by cases h), hs⟩
  | load x m ds =>
    simp only [Call.names, List.mem_map] at hs
    obtain ⟨⟨d, i⟩, hi, hs⟩ := hs
    refine ⟨hc.1, _, some (m, i), ?_, hs.symm⟩
    intro k n h'
    injection h' with h'; injection h' with _ h'; subst h'
    have := List.snd_lt_of_mem_zipIdx hi
    have := hc.2; omega

/-- With transactions: whatever is created, loaded and renamed to, each call in a transaction of its own, no file name is made
twice. -/
theorem C69_names_made_once (b : Bool) (l : List Call) (hok : ∀ c ∈ l, c.Ok) (hd : (l.map Call.ids).Nodup) :
    (l.map (Call.names b)).flatten.Nodup := by
  unfold List.Nodup
  rw [List.pairwise_flatten]
  constructor
  · intro s hs
    rw [List.mem_map] at hs
    obtain ⟨c, hc, rfl⟩ := hs
    have hcok := hok c hc
    cases c with
    | one x d => simp [Call.names]
    | load x m ds =>
      simp only [Call.names]
      rw [List.pairwise_map]
      have hp : ds.zipIdx.Pairwise (fun p q => p.2 ≠ q.2) := by
        have : (ds.zipIdx.map (·.2)).Nodup := by
          rw [List.zipIdx_map_snd]; exact List.nodup_range'
        unfold List.Nodup at this
        rwa [List.pairwise_map] at this
      refine (List.pairwise_iff_forall_sublist.mpr fun {p q} hpq he => ?_)
      have hne := List.pairwise_iff_forall_sublist.mp hp hpq
      have h1 : p ∈ ds.zipIdx := hpq.subset (by simp)
      have h2 : q ∈ ds.zipIdx := hpq.subset (by simp)
      have hb : ∀ r ∈ ds.zipIdx, MarkOk (some (m, r.2)) := by
        intro r hr k n h'
        injection h' with h'; injection h' with _ h'; subst h'
        have := List.snd_lt_of_mem_zipIdx hr
        have := hcok.2; omega
      have := (C69_name_determines hcok.1 hcok.1 (hb p h1) (hb q h2) he).2.2
      simp at this; exact hne this
  · rw [List.pairwise_map]
    unfold List.Nodup at hd
    rw [List.pairwise_map] at hd
    refine (List.pairwise_iff_forall_sublist.mpr fun {p q} hpq => ?_)
    have hne := List.pairwise_iff_forall_sublist.mp hd hpq
    have h1 : p ∈ l := hpq.subset (by simp)
    have h2 : q ∈ l := hpq.subset (by simp)
    intro s hs s' hs' he
    subst he
    obtain ⟨hx, h, m, hm, e1⟩ := Call.names_mem (hok p h1) hs
    obtain ⟨hy, k, m', hm', e2⟩ := Call.names_mem (hok q h2) hs'
    exact hne (C69_name_determines hx hy hm hm' (e1.symm.trans e2)).1

example : (∀ c ∈ [Call.one ⟨5, 0⟩ "a.b".toList, .one ⟨5, 6⟩ "a_b".toList, .load ⟨5, 7⟩ .B ["a_b".toList, "a.b".toList]], c.Ok) ∧
    ([Call.one ⟨5, 0⟩ "a.b".toList, .one ⟨5, 6⟩ "a_b".toList, .load ⟨5, 7⟩ .B ["a_b".toList, "a.b".toList]].map
      Call.ids).Nodup := by
  refine ⟨?_, by decide⟩
  intro c hc
  simp only [List.mem_cons, List.not_mem_nil, or_false] at hc
  rcases hc with rfl | rfl | rfl <;> simp [Call.Ok, Ids.Ok]

/-- A name fits the buffer it is written to, if the ids are below 2^48 (12 digits each). -/
theorem hexGo_length (b n k : Nat) (hk : n < 16 ^ (k + 1)) : (hexGo b n).length ≤ k + 1 := by
  induction b generalizing n k with
  | zero => simp [hexGo]
  | succ b ih =>
    simp only [hexGo]
    split
    · simp
    · rename_i h'
      rcases k with _ | k
      · simp at hk; omega
      · have h1 : n / 16 < 16 ^ (k + 1) := by
          rw [Nat.div_lt_iff_lt_mul (by omega)]; rw [Nat.pow_succ] at hk; exact hk
        have := ih (n / 16) k h1
        simp; omega

theorem C69_name_fits {x : Ids} (h : List Char) (m : Option (Mark × Nat)) (h1 : x.id1 < 2 ^ 48) (h2 : x.id2 < 2 ^ 48) (hm : MarkOk m) :
    (iname x h m).length ≤ room h := by
  have e1 := hexGo_length 15 x.id1 11 (by simpa using h1)
  have e2 := hexGo_length 15 x.id2 11 (by simpa using h2)
  have e3 : (hex version).length = 2 := by decide
  rcases m with _ | ⟨m, n⟩
  · simp only [iname, room, List.length_append, List.length_cons, product, e3, hex] at *; simp; omega
  · have e4 := hexGo_length 15 n 7 (Nat.lt_trans (hm m n rfl) (by decide))
    simp only [iname, room, List.length_append, List.length_cons, product, e3, hex] at *; simp; omega

/-- A loader whose transaction has two ids of sixteen digits, with 2^28 dictionaries, does not: the assertion fails. -/
theorem C69_name_too_long : ∃ x : Ids, x.Ok ∧ ∃ m, MarkOk m ∧ room [] < (iname x [] m).length := by
  refine ⟨⟨2 ^ 60, 2 ^ 60 + 1⟩, by simp [Ids.Ok], some (.B, 2 ^ 28), ?_, by decide⟩
  intro k n h; injection h with h; injection h with _ h; subst h; decide

/-! Without transactions -/

/-- What the directory of one process is like. -/
structure EInv (e : Env) : Prop where
  next : e.next ≤ 2 ^ 64
  names : ∀ p ∈ e.dir, ∃ n h, n < e.next ∧ p.2 = iname ⟨n, 0⟩ h none
  keys : (e.dir.map (·.1)).Nodup
  files : (e.dir.map (·.2)).Nodup

theorem Env.get_none {e : Env} {d} (h : e.get d = none) : d ∉ e.dir.map (·.1) := by
  unfold Env.get at h
  rw [Option.map_eq_none_iff, List.find?_eq_none] at h
  intro hd
  rw [List.mem_map] at hd
  obtain ⟨p, hp, rfl⟩ := hd
  exact h p hp (by simp)

theorem Env.get_some {e : Env} {d i} (h : e.get d = some i) : (d, i) ∈ e.dir := by
  unfold Env.get at h
  rw [Option.map_eq_some_iff] at h
  obtain ⟨p, hp, rfl⟩ := h
  have h1 := List.mem_of_find?_eq_some hp
  have h2 := List.find?_some hp
  simp at h2; subst h2; exact h1

theorem inj_of_nodup {α β} {f : α → β} {l : List α} (h : (l.map f).Nodup) {p q} (hp : p ∈ l) (hq : q ∈ l) (he : f p = f q) :
    p = q := by
  induction l with
  | nil => cases hp
  | cons a l ih =>
    rw [List.map_cons, List.nodup_cons] at h
    rcases List.mem_cons.mp hp with hp' | hp' <;> rcases List.mem_cons.mp hq with hq' | hq'
    · rw [hp', hq']
    · subst hp'; exact absurd (List.mem_map.mpr ⟨q, hq', he.symm⟩) h.1
    · subst hq'; exact absurd (List.mem_map.mpr ⟨p, hp', he⟩) h.1
    · exact ih h.2 hp' hq'

theorem EInv.op {e : Env} (h : EInv e) (o : Op) (ho : o ≠ .restart) (hn : e.next < 2 ^ 64) : EInv (e.op o) := by
  cases o with
  | restart => exact absurd rfl ho
  | «open» d =>
    simp only [Env.op, Env.open]
    rcases hg : e.get d with _ | i
    · dsimp only
      refine ⟨by show e.next + 1 ≤ 2 ^ 64; omega, ?_, ?_, ?_⟩
      · intro p hp
        rcases List.mem_cons.mp hp with rfl | hp
        · exact ⟨e.next, _, by simp, rfl⟩
        · obtain ⟨n, k, h1, h2⟩ := h.names p hp
          exact ⟨n, k, by simp; omega, h2⟩
      · simp only [List.map_cons, List.nodup_cons]; exact ⟨Env.get_none hg, h.keys⟩
      · simp only [List.map_cons, List.nodup_cons]
        refine ⟨fun hm => ?_, h.files⟩
        rw [List.mem_map] at hm
        obtain ⟨p, hp, he⟩ := hm
        obtain ⟨n, k, h1, h2⟩ := h.names p hp
        rw [h2] at he
        have := (C69_name_determines ⟨by show n < 2 ^ 64; omega, by simp⟩ ⟨hn, by simp⟩ (fun _ _ h => by cases h) (fun _ _ h => by cases h) he).1
        injection this with this; omega
    · exact h
  | rename d d' =>
    simp only [Env.op, Env.rename]
    rcases hg : e.get d with _ | i
    · exact h
    · rcases hg' : e.get d' with _ | i'
      · dsimp only
        have hin := Env.get_some hg
        have hsub : List.Sublist (e.dir.filter (·.1 != d)) e.dir := List.filter_sublist
        refine ⟨h.next, ?_, ?_, ?_⟩
        · intro p hp
          rcases List.mem_cons.mp hp with rfl | hp
          · obtain ⟨n, k, h1, h2⟩ := h.names _ hin
            exact ⟨n, k, h1, h2⟩
          · exact h.names p (hsub.subset hp)
        · simp only [List.map_cons, List.nodup_cons]
          exact ⟨fun hm => Env.get_none hg' ((hsub.map _).subset hm), (hsub.map _).nodup h.keys⟩
        · simp only [List.map_cons, List.nodup_cons]
          refine ⟨fun hm => ?_, (hsub.map _).nodup h.files⟩
          rw [List.mem_map] at hm
          obtain ⟨p, hp, he⟩ := hm
          rw [List.mem_filter] at hp
          obtain ⟨hp1, hp2⟩ := hp
          have : p = (d, i) := inj_of_nodup h.files hp1 hin he
          subst this; simp at hp2
      · exact h
  | remove d =>
    simp only [Env.op, Env.remove]
    have hsub : List.Sublist (e.dir.filter (·.1 != d)) e.dir := List.filter_sublist
    exact ⟨h.next, fun p hp => h.names p (hsub.subset hp), (hsub.map _).nodup h.keys, (hsub.map _).nodup h.files⟩

theorem Env.next_op (e : Env) (o : Op) : (e.op o).next ≤ e.next + 1 := by
  cases o with
  | «open» d => simp only [Env.op, Env.open]; split <;> simp
  | rename d d' => simp only [Env.op, Env.rename]; split <;> simp
  | remove d => simp [Env.op, Env.remove]
  | restart => simp [Env.op, Env.restart]

theorem EInv.run (l : List Op) (e : Env) (h : EInv e) (hl : ∀ o ∈ l, o ≠ .restart) (hn : e.next + l.length ≤ 2 ^ 64) :
    EInv (e.run l) := by
  induction l generalizing e with
  | nil => exact h
  | cons o l ih =>
    simp only [List.length_cons] at hn
    have h1 := h.op o (hl o List.mem_cons_self) (by omega)
    have h2 := e.next_op o
    exact ih _ h1 (fun o ho => hl o (List.mem_cons_of_mem _ ho)) (by omega)

/-- Without transactions, in one process: two dictionaries never have the same file. -/
theorem C69_no_transactions_partial (l : List Op) (hl : ∀ o ∈ l, o ≠ .restart) (hn : l.length ≤ 2 ^ 64) {d d' i : List Char}
    (h : (Env.run ⟨[], 0⟩ l).get d = some i) (h' : (Env.run ⟨[], 0⟩ l).get d' = some i) : d = d' := by
  have hi := EInv.run l ⟨[], 0⟩ ⟨by simp, by simp, by simp, by simp⟩ hl (by simpa using hn)
  have := inj_of_nodup hi.files (Env.get_some h) (Env.get_some h') rfl
  injection this

example : (Env.run ⟨[], 0⟩ [.open "a.b".toList, .open "a_b".toList, .rename "a_b".toList "c".toList, .open "a_b".toList]).get
      "c".toList = some "a_b_1_0_1d.tokudb".toList ∧
    (Env.run ⟨[], 0⟩ [.open "a.b".toList, .open "a_b".toList, .rename "a_b".toList "c".toList, .open "a_b".toList]).get
      "a_b".toList = some "a_b_2_0_1d.tokudb".toList := by decide

/-- ... but a restart begins to count anew, and they do: names that differ only in characters that are not letters or digits,
or a dictionary renamed and another created by its old name. -/
theorem C69_restart_shares_a_file :
    (∃ d d' : List Char, d ≠ d' ∧ ∃ i, (Env.run ⟨[], 0⟩ [.open d, .restart, .open d']).get d = some i ∧
      (Env.run ⟨[], 0⟩ [.open d, .restart, .open d']).get d' = some i) ∧
    ∃ d d' : List Char, d ≠ d' ∧ ∃ i, (Env.run ⟨[], 0⟩ [.open d, .rename d d', .restart, .open d]).get d = some i ∧
      (Env.run ⟨[], 0⟩ [.open d, .rename d d', .restart, .open d]).get d' = some i :=
  ⟨⟨"a.b".toList, "a_b".toList, by decide, "a_b_0_0_1d.tokudb".toList, by decide, by decide⟩,
    "a".toList, "b".toList, by decide, "a_0_0_1d.tokudb".toList, by decide, by decide⟩

/-- Renaming `dbname` in `fname` to `newname` does nothing, whatever the new name is: it asks for a rename of the old name to
itself. -/
theorem C69_rename_in_a_file_does_nothing (e : Env) (fname dbname newname : List Char) :
    e.rename (renameSub fname dbname newname).1 (renameSub fname dbname newname).2 = e ∧
      (dbname ≠ newname → (renameSub fname dbname newname).2 ≠ sub fname newname) := by
  constructor
  · simp only [renameSub, Env.rename]
    rcases e.get (sub fname dbname) with _ | i <;> rfl
  · intro h he
    simp only [renameSub, sub] at he
    have := List.append_cancel_left he
    injection this with _ this
    exact h this

end Verif.Names
