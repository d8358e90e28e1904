import Verif.Hot.BuildSpec

/-! Every interleaving keeps the index right for the part the builder has passed, and empty below it. -/
namespace Verif.Hot.Build

variable {K H V W : Type} [LinearOrder K] [DecidableEq H]

/-- The index value under `h` computed from a source row. -/
def look (gen : Gen K H V W) (k : K) (v : V) (h : H) : Option W := ((gen k v).find? fun r => r.1 = h).map (·.2)

/-- The index rows of source row `k` are what they should be, if it is for the index to have them. -/
def GoodAt (gen : Gen K H V W) (own : H → K) (here : K → Bool) (d : Data K H V W) (k : K) : Prop :=
  ∀ h, own h = k → d.idx h = if here k then (d.src k).bind fun v => look gen k v h else none

theorem writeIdx_map {R : Type} (key : R → H) (f : R → Option W) (l : List R) (hn : (l.map key).Nodup)
    (idx : H → Option W) (h : H) :
    writeIdx idx (l.map fun r => (key r, f r)) h = match l.find? fun r => key r = h with
      | some r => f r
      | none => idx h := by
  induction l generalizing idx with
  | nil => rfl
  | cons r l ih =>
    rw [List.map_cons, List.nodup_cons] at hn
    simp only [List.map_cons, writeIdx]
    rw [ih hn.2]
    by_cases hr : key r = h
    · have : l.find? (fun r => key r = h) = none := by
        rw [List.find?_eq_none]
        intro q hq hk
        simp at hk
        exact hn.1 (by rw [hr, ← hk]; exact List.mem_map_of_mem hq)
      rw [this, List.find?_cons_of_pos (by simpa using hr)]
      simp [hr]
    · rw [List.find?_cons_of_neg (by simpa using hr)]
      cases l.find? (fun r => key r = h) with
      | some q => rfl
      | none => simp [Ne.symm hr]

theorem writeIdx_other (rows : List (H × Option W)) (idx : H → Option W) (h : H) (hn : ∀ r ∈ rows, r.1 ≠ h) :
    writeIdx idx rows h = idx h := by
  induction rows generalizing idx with
  | nil => rfl
  | cons r rs ih =>
    simp only [writeIdx]
    rw [ih _ fun q hq => hn q (List.mem_cons_of_mem _ hq), if_neg (Ne.symm (hn r (by simp)))]

theorem writeIdx_agree (rows : List (H × Option W)) (i j : H → Option W) (h : H) (hh : i h = j h) :
    writeIdx i rows h = writeIdx j rows h := by
  induction rows generalizing i j with
  | nil => exact hh
  | cons r rs ih =>
    simp only [writeIdx]
    apply ih
    split
    · rfl
    · exact hh

/-- The act touches only these source keys and their index rows. -/
def FootA (own : H → K) (keys : List K) : Act K H V W → Prop
  | .src k _ => k ∈ keys
  | .idx g rows => g ∈ keys ∧ ∀ r ∈ rows, own r.1 = g

/-- Same rows at source key `k`. -/
def SameAt (own : H → K) (k : K) (d d' : Data K H V W) : Prop :=
  d.src k = d'.src k ∧ ∀ h, own h = k → d.idx h = d'.idx h

theorem GoodAt.of_same {gen : Gen K H V W} {own : H → K} {here : K → Bool} {d d' : Data K H V W} {k : K}
    (h : GoodAt gen own here d k) (hs : SameAt own k d d') : GoodAt gen own here d' k := by
  intro x hx
  rw [← hs.2 x hx, ← hs.1]
  exact h x hx

theorem doAct_same (own : H → K) (here : K → Bool) (k : K) (d d' : Data K H V W) (a : Act K H V W)
    (h : SameAt own k d d') : SameAt own k (doAct here d a) (doAct here d' a) := by
  cases a with
  | src k' v =>
    refine ⟨?_, h.2⟩
    simp only [doAct]
    split
    · rfl
    · exact h.1
  | idx g rows =>
    simp only [doAct]
    split
    · exact ⟨h.1, fun x hx => writeIdx_agree rows _ _ x (h.2 x hx)⟩
    · exact h

theorem doAct_away (own : H → K) (here : K → Bool) (k : K) (d : Data K H V W) (a : Act K H V W) (keys : List K)
    (hf : FootA own keys a) (hk : k ∉ keys) : SameAt own k (doAct here d a) d := by
  cases a with
  | src k' v =>
    refine ⟨?_, fun _ _ => rfl⟩
    simp only [doAct]
    rw [if_neg]
    rintro rfl
    exact hk hf
  | idx g rows =>
    simp only [doAct]
    split
    · refine ⟨rfl, fun x hx => writeIdx_other rows _ x ?_⟩
      rintro r hr rfl
      have := hf.2 r hr
      exact hk (by rw [← hx, this]; exact hf.1)
    · exact ⟨rfl, fun _ _ => rfl⟩

def runActs (here : K → Bool) (d : Data K H V W) (acts : List (Act K H V W)) : Data K H V W :=
  acts.foldl (doAct here) d

theorem runActs_same (own : H → K) (here : K → Bool) (k : K) (acts : List (Act K H V W)) (d d' : Data K H V W)
    (h : SameAt own k d d') : SameAt own k (runActs here d acts) (runActs here d' acts) := by
  induction acts generalizing d d' with
  | nil => exact h
  | cons a acts ih => exact ih _ _ (doAct_same own here k d d' a h)

theorem doAct_congr (own : H → K) (here here' : K → Bool) (d : Data K H V W) (a : Act K H V W) (keys : List K)
    (hf : FootA own keys a) (hh : ∀ k ∈ keys, here k = here' k) : doAct here d a = doAct here' d a := by
  cases a with
  | src k v => rfl
  | idx g rows => simp only [doAct, hh g hf.1]

theorem runActs_congr (own : H → K) (here here' : K → Bool) (acts : List (Act K H V W)) (d : Data K H V W)
    (keys : List K) (hf : ∀ a ∈ acts, FootA own keys a) (hh : ∀ k ∈ keys, here k = here' k) :
    runActs here d acts = runActs here' d acts := by
  induction acts generalizing d with
  | nil => rfl
  | cons a acts ih =>
    simp only [runActs, List.foldl_cons]
    rw [doAct_congr own here here' d a keys (hf a (by simp)) hh]
    exact ih _ fun b hb => hf b (List.mem_cons_of_mem _ hb)

/-! ### Calls -/

variable {gen : Gen K H V W} {own : H → K}

theorem puts_at (S : Sound gen own) (k : K) (v : V) (idx : H → Option W) (h : H) :
    writeIdx idx (puts gen k v) h = match look gen k v h with
      | some x => some x
      | none => idx h := by
  unfold puts look
  rw [writeIdx_map Prod.fst (fun r => some r.2) _ (S.once k v)]
  cases (gen k v).find? fun r => r.1 = h <;> rfl

theorem dels_at (S : Sound gen own) (k : K) (v : V) (idx : H → Option W) (h : H) :
    writeIdx idx (dels gen k v) h = match look gen k v h with
      | some _ => none
      | none => idx h := by
  unfold dels look
  rw [writeIdx_map Prod.fst (fun r => (none : Option W)) _ (S.once k v)]
  cases (gen k v).find? fun r => r.1 = h <;> rfl

theorem look_own (S : Sound gen own) (k : K) (v : V) (h : H) (w : W) (hl : look gen k v h = some w) : own h = k := by
  unfold look at hl
  cases hf : (gen k v).find? fun r => r.1 = h with
  | none => rw [hf] at hl; cases hl
  | some r =>
    have h1 := List.find?_some hf
    have h2 := List.mem_of_find?_eq_some hf
    simp at h1
    rw [← h1]
    exact S.owns k v r h2

theorem foot_puts (S : Sound gen own) (k : K) (v : V) : ∀ r ∈ puts gen k v, own r.1 = k := by
  intro r hr
  obtain ⟨q, hq, rfl⟩ := List.mem_map.mp hr
  exact S.owns k v q hq

theorem foot_dels (S : Sound gen own) (k : K) (v : V) : ∀ r ∈ dels gen k v, own r.1 = k := by
  intro r hr
  obtain ⟨q, hq, rfl⟩ := List.mem_map.mp hr
  exact S.owns k v q hq

theorem call_foot [DecidableEq W] (S : Sound gen own) {src : K → Option V} {keys : List K}
    {acts : List (Act K H V W)} (hc : Call gen src keys acts) : ∀ a ∈ acts, FootA own keys a := by
  cases hc with
  | put k v _ _ ha =>
    rcases ha with rfl | rfl <;> simp [FootA] <;> exact fun a b hab => foot_puts S k v (a, b) hab
  | del k v _ _ ha =>
    rcases ha with rfl | rfl <;> simp [FootA] <;> exact fun a b hab => foot_dels S k v (a, b) hab
  | upd k vo vn _ acts ha =>
    have h1 : ∀ r ∈ updDels gen k vo vn, own r.1 = k := by
      intro r hr
      obtain ⟨q, hq, rfl⟩ := List.mem_map.mp hr
      exact S.owns k vo q ((List.mem_filter.mp hq).1)
    have h2 : ∀ r ∈ updPuts gen k vo vn, own r.1 = k := by
      intro r hr
      obtain ⟨q, hq, rfl⟩ := List.mem_map.mp hr
      exact S.owns k vn q ((List.mem_filter.mp hq).1)
    intro a hm
    rcases List.mem_cons.mp hm with rfl | hm
    · exact ⟨by simp, h1⟩
    · rcases ha with rfl | rfl <;>
        (simp only [List.mem_cons, List.not_mem_nil, or_false] at hm
         rcases hm with rfl | rfl <;> first | exact ⟨by simp, h2⟩ | exact (by simp [FootA]))
  | move ko kn vo vn _ _ _ a1 a2 h1 h2 =>
    intro a hm
    rcases List.mem_append.mp hm with hm | hm
    · rcases h1 with rfl | rfl <;>
        (simp only [List.mem_cons, List.not_mem_nil, or_false] at hm
         rcases hm with rfl | rfl <;> first | exact ⟨by simp, foot_dels S ko vo⟩ | exact (by simp [FootA]))
    · rcases h2 with rfl | rfl <;>
        (simp only [List.mem_cons, List.not_mem_nil, or_false] at hm
         rcases hm with rfl | rfl <;> first | exact ⟨by simp, foot_puts S kn vn⟩ | exact (by simp [FootA]))

/-- A put of a new row, in either order. -/
theorem good_put (S : Sound gen own) (here : K → Bool) (d : Data K H V W) (k : K) (v : V) (hs : d.src k = none)
    (hg : GoodAt gen own here d k) (acts : List (Act K H V W))
    (ha : acts = [.src k (some v), .idx k (puts gen k v)] ∨ acts = [.idx k (puts gen k v), .src k (some v)]) :
    GoodAt gen own here (runActs here d acts) k := by
  have key : ∀ h, own h = k → (if here k then writeIdx d.idx (puts gen k v) else d.idx) h =
      if here k then look gen k v h else none := by
    intro h hh
    have := hg h hh
    rw [hs] at this
    by_cases hk : here k = true
    · rw [if_pos hk, if_pos hk, puts_at S]
      rw [if_pos hk] at this
      cases look gen k v h with
      | some x => rfl
      | none => exact this
    · rw [if_neg hk, if_neg hk]
      rw [if_neg hk] at this
      exact this
  intro h hh
  have := key h hh
  rcases ha with rfl | rfl <;>
    (simp only [runActs, List.foldl_cons, List.foldl_nil, doAct]
     by_cases hk : here k = true
     · simp only [hk, if_true] at this ⊢; simpa using this
     · simp only [hk, if_false, Bool.false_eq_true] at this ⊢; simpa using this)

/-- A delete of the row that is there, in either order. -/
theorem good_del (S : Sound gen own) (here : K → Bool) (d : Data K H V W) (k : K) (v : V) (hs : d.src k = some v)
    (hg : GoodAt gen own here d k) (acts : List (Act K H V W))
    (ha : acts = [.src k none, .idx k (dels gen k v)] ∨ acts = [.idx k (dels gen k v), .src k none]) :
    GoodAt gen own here (runActs here d acts) k := by
  have key : ∀ h, own h = k → (if here k then writeIdx d.idx (dels gen k v) else d.idx) h = none := by
    intro h hh
    have := hg h hh
    rw [hs] at this
    by_cases hk : here k = true
    · rw [if_pos hk, dels_at S]
      rw [if_pos hk] at this
      simp only [Option.bind_some] at this
      cases hl : look gen k v h with
      | some x => rfl
      | none => rw [hl] at this; exact this
    · rw [if_neg hk]
      rw [if_neg hk] at this
      exact this
  intro h hh
  have := key h hh
  rcases ha with rfl | rfl <;>
    (simp only [runActs, List.foldl_cons, List.foldl_nil, doAct]
     by_cases hk : here k = true
     · simp only [hk, if_true] at this ⊢; simpa using this
     · simp only [hk, if_false, Bool.false_eq_true] at this ⊢; simpa using this)

theorem find_filter {R : Type} (l : List R) (p q : R → Bool) :
    (l.filter q).find? p = l.find? fun r => p r && q r := by
  rw [List.find?_filter]
  congr 1
  funext r
  cases p r <;> cases q r <;> rfl

theorem find_unique {R : Type} (key : R → H) (l : List R) (hn : (l.map key).Nodup) (r : R) (hr : r ∈ l) :
    l.find? (fun x => key x = key r) = some r := by
  induction l with
  | nil => cases hr
  | cons a l ih =>
    rw [List.map_cons, List.nodup_cons] at hn
    rcases List.mem_cons.mp hr with rfl | hr
    · rw [List.find?_cons_of_pos (by simp)]
    · rw [List.find?_cons_of_neg, ih hn.2 hr]
      simp only [decide_eq_true_eq]
      intro he
      exact hn.1 (by rw [he]; exact List.mem_map_of_mem hr)

theorem nodup_filter {R : Type} (key : R → H) (l : List R) (q : R → Bool) (hn : (l.map key).Nodup) :
    ((l.filter q).map key).Nodup := hn.sublist (List.filter_sublist.map _)

/-- An update of the row that is there. -/
theorem upd_at [DecidableEq W] (S : Sound gen own) (k : K) (vo vn : V) (idx : H → Option W) (h : H)
    (hi : idx h = look gen k vo h) :
    writeIdx (writeIdx idx (updDels gen k vo vn)) (updPuts gen k vo vn) h = look gen k vn h := by
  unfold updPuts
  rw [writeIdx_map Prod.fst (fun r => some r.2) _ (nodup_filter _ _ _ (S.once k vn)), find_filter]
  unfold updDels
  rw [writeIdx_map Prod.fst (fun r => (none : Option W)) _ (nodup_filter _ _ _ (S.once k vo)), find_filter, hi]
  unfold look
  cases hn : (gen k vn).find? fun r => r.1 = h with
  | some r =>
    have h1 : r.1 = h := by simpa using List.find?_some hn
    have h2 := List.mem_of_find?_eq_some hn
    by_cases hc : (gen k vo).contains r = true
    · -- the row was there in the same form
      have hx : (gen k vn).find? (fun x => decide (x.1 = h) && decide ((gen k vo).contains x = false)) = none := by
        rw [List.find?_eq_none]
        intro x hx hp
        simp only [Bool.and_eq_true, decide_eq_true_eq] at hp
        have e1 := find_unique Prod.fst _ (S.once k vn) x hx
        rw [hp.1, hn] at e1
        injection e1 with e1
        rw [← e1, hc] at hp
        exact absurd hp.2 (by simp)
      rw [hx]
      have hy : (gen k vo).find? (fun x => decide (x.1 = h) &&
          decide (((gen k vn).map Prod.fst).contains x.1 = false)) = none := by
        rw [List.find?_eq_none]
        intro x _ hp
        simp only [Bool.and_eq_true, decide_eq_true_eq] at hp
        have : ((gen k vn).map Prod.fst).contains x.1 = true := by
          rw [List.contains_iff_mem, hp.1, ← h1]; exact List.mem_map_of_mem h2
        rw [this] at hp
        exact absurd hp.2 (by simp)
      simp only
      rw [hy]
      simp only
      have hm : r ∈ gen k vo := by simpa using hc
      have := find_unique Prod.fst _ (S.once k vo) r hm
      rw [h1] at this
      rw [this]
    · have hx : (gen k vn).find? (fun x => decide (x.1 = h) && decide ((gen k vo).contains x = false)) = some r := by
        have : ∀ x ∈ gen k vn, (decide (x.1 = h) && decide ((gen k vo).contains x = false)) = decide (x.1 = h) := by
          intro x hx
          by_cases he : x.1 = h
          · have e1 := find_unique Prod.fst _ (S.once k vn) x hx
            rw [he, hn] at e1
            injection e1 with e1
            subst e1
            have hc' : (gen k vo).contains r = false := by simpa using hc
            rw [hc']; simp
          · simp [he]
        rw [← hn]
        have hcongr : ∀ (l : List (H × W)) (p q : H × W → Bool), (∀ x ∈ l, p x = q x) → l.find? p = l.find? q := by
          intro l p q
          induction l with
          | nil => intro _; rfl
          | cons a l ih =>
            intro hh
            have ha := hh a (by simp)
            have ht := ih fun x hx => hh x (List.mem_cons_of_mem _ hx)
            cases hq : q a with
            | true => rw [List.find?_cons_of_pos (by rw [ha, hq]), List.find?_cons_of_pos hq]
            | false =>
              rw [List.find?_cons_of_neg (by rw [ha, hq]; simp), List.find?_cons_of_neg (by rw [hq]; simp), ht]
        exact hcongr _ _ _ this
      rw [hx]
      rfl
  | none =>
    have hx : (gen k vn).find? (fun x => decide (x.1 = h) && decide ((gen k vo).contains x = false)) = none := by
      rw [List.find?_eq_none] at hn ⊢
      intro x hx hp
      simp only [Bool.and_eq_true] at hp
      exact hn x hx hp.1
    rw [hx]
    simp only
    cases ho : (gen k vo).find? fun r => r.1 = h with
    | none =>
      have hy : (gen k vo).find? (fun x => decide (x.1 = h) &&
          decide (((gen k vn).map Prod.fst).contains x.1 = false)) = none := by
        rw [List.find?_eq_none] at ho ⊢
        intro x hx hp
        simp only [Bool.and_eq_true] at hp
        exact ho x hx hp.1
      rw [hy]
    | some r =>
      have hy : ∃ q, (gen k vo).find? (fun x => decide (x.1 = h) &&
          decide (((gen k vn).map Prod.fst).contains x.1 = false)) = some q := by
        rw [← Option.isSome_iff_exists, List.find?_isSome]
        refine ⟨r, List.mem_of_find?_eq_some ho, ?_⟩
        have h1 : r.1 = h := by simpa using List.find?_some ho
        have : ((gen k vn).map Prod.fst).contains h = false := by
          rw [List.find?_eq_none] at hn
          apply Bool.eq_false_iff.mpr
          intro hc
          rw [List.contains_iff_mem] at hc
          obtain ⟨x, hx, he⟩ := List.mem_map.mp hc
          exact hn x hx (by simpa using he)
        rw [h1, this]; simp
      obtain ⟨q, hq⟩ := hy
      rw [hq]
      rfl

/-- A whole call leaves good rows good. -/
theorem call_good [DecidableEq W] (S : Sound gen own) (here : K → Bool) (d : Data K H V W) {keys : List K}
    {acts : List (Act K H V W)} (hc : Call gen d.src keys acts) (hg : ∀ k ∈ keys, GoodAt gen own here d k) :
    ∀ k ∈ keys, GoodAt gen own here (runActs here d acts) k := by
  cases hc with
  | put k v hs _ ha =>
    intro k' hk'
    rw [List.mem_singleton] at hk'
    subst hk'
    exact good_put S here d k' v hs (hg k' (by simp)) _ ha
  | del k v hs _ ha =>
    intro k' hk'
    rw [List.mem_singleton] at hk'
    subst hk'
    exact good_del S here d k' v hs (hg k' (by simp)) _ ha
  | upd k vo vn hs acts ha =>
    intro k' hk'
    rw [List.mem_singleton] at hk'
    subst hk'
    intro h hh
    have h0 := hg k' (by simp) h hh
    rw [hs] at h0
    by_cases hk : here k' = true
    · rw [if_pos hk] at h0
      have := upd_at S k' vo vn d.idx h h0
      rcases ha with rfl | rfl <;>
        (simp only [runActs, List.foldl_cons, List.foldl_nil, doAct, hk, if_true]; simpa using this)
    · rw [if_neg hk] at h0
      rcases ha with rfl | rfl <;>
        (simp only [runActs, List.foldl_cons, List.foldl_nil, doAct, hk, if_false, Bool.false_eq_true]; exact h0)
  | move ko kn vo vn hne hs1 hs2 a1 a2 h1 h2 =>
    have f1 : ∀ a ∈ a1, FootA own [ko] a := call_foot S (Call.del (gen := gen) (src := d.src) ko vo hs1 a1 h1)
    have f2 : ∀ a ∈ a2, FootA own [kn] a := call_foot S (Call.put (gen := gen) (src := d.src) kn vn hs2 a2 h2)
    have away : ∀ (acts : List (Act K H V W)) (keys : List K) (k : K) (d : Data K H V W),
        (∀ a ∈ acts, FootA own keys a) → k ∉ keys → SameAt own k (runActs here d acts) d := by
      intro acts keys k
      induction acts with
      | nil => intro d _ _; exact ⟨rfl, fun _ _ => rfl⟩
      | cons a acts ih =>
        intro d hf hk
        have e1 := ih (doAct here d a) (fun b hb => hf b (List.mem_cons_of_mem _ hb)) hk
        have e2 := doAct_away own here k d a keys (hf a (by simp)) hk
        exact ⟨e1.1.trans e2.1, fun h hh => (e1.2 h hh).trans (e2.2 h hh)⟩
    have hrun : runActs here d (a1 ++ a2) = runActs here (runActs here d a1) a2 := by
      simp [runActs]
    have g1 := good_del S here d ko vo hs1 (hg ko (by simp)) a1 h1
    have aw1 := away a1 [ko] kn d f1 (by simpa using Ne.symm hne)
    have g2 : GoodAt gen own here (runActs here d a1) kn :=
      GoodAt.of_same (hg kn (by simp)) ⟨aw1.1.symm, fun h hh => (aw1.2 h hh).symm⟩
    have g3 := good_put S here (runActs here d a1) kn vn (aw1.1.trans hs2) g2 a2 h2
    have aw2 := away a2 [kn] ko (runActs here d a1) f2 (by simpa using hne)
    have g4 : GoodAt gen own here (runActs here (runActs here d a1) a2) ko :=
      GoodAt.of_same g1 ⟨aw2.1.symm, fun h hh => (aw2.2 h hh).symm⟩
    rw [hrun]
    intro k hk
    simp only [List.mem_cons, List.not_mem_nil, or_false] at hk
    rcases hk with rfl | rfl
    · exact g4
    · exact g3

end Verif.Hot.Build
