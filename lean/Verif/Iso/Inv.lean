import Verif.Iso.Lemmas

/-! The invariant of serializable transactions beside each other. -/
namespace Verif.Iso

variable {K V : Type} [LinearOrder K]

/-- What a search in progress has made sure of. -/
def SInv (rows : Store K V) (locks : K → Prop) (s : Search K) : Prop :=
  s.eng = s.q.start ∧
  match s.phase with
  | .going lo => (∀ k, lo.ahead s.q.dir k → s.q.start.ahead s.q.dir k) ∧
      ∀ k, s.q.start.ahead s.q.dir k → ¬ lo.ahead s.q.dir k → locks k ∧ rows k = none
  | .ended => ∀ k, s.q.start.ahead s.q.dir k → rows k = none
  | .waiting => True

/-- One transaction. -/
structure TInv (base rows : Store K V) (x : Txn K V) : Prop where
  right : Right x.log [base]
  asks : ∀ q a, Ev.ask q a ∈ x.log → ∀ k, Seen q a k → x.locks k
  wrotes : ∀ k v, Ev.wrote k v ∈ x.log → x.locks k
  undos : ∀ l ∈ x.levels, ∀ r ∈ l, x.locks r.1
  len : (runAlone x.log [base]).length = x.levels.length
  ne : x.levels ≠ []
  top : x.aborting = false → ∀ k, x.locks k → rows k = now (runAlone x.log [base]) k
  below : ∀ k, x.locks k → Below k (base k) x.levels (rows k) (valsAt k (runAlone x.log [base]))
  live : x.aborting = true → x.search = none
  search : ∀ s, x.search = some s → SInv rows x.locks s

structure Inv (init : Store K V) (w : World K V) : Prop where
  serial : Serial init w.done
  disj : ∀ t u x y k, t ≠ u → w.txns t = some x → w.txns u = some y → x.locks k → ¬ y.locks k
  each : ∀ t x, w.txns t = some x → TInv (afterAll init w.done) w.rows x
  free : ∀ k, (∀ t x, w.txns t = some x → ¬ x.locks k) → w.rows k = afterAll init w.done k

/-- Not written by this transaction: unlocked keys are as before it. -/
theorem vals_unlocked {base rows : Store K V} {x : Txn K V} (h : TInv base rows x) (k : K) (hk : ¬ x.locks k) :
    ∀ v ∈ valsAt k (runAlone x.log [base]), v = base k := by
  apply runAlone_untouched
  · exact fun v hm => hk (h.wrotes k v hm)
  · simp [valsAt]

theorem now_unlocked {base rows : Store K V} {x : Txn K V} (h : TInv base rows x) (k : K) (hk : ¬ x.locks k) :
    now (runAlone x.log [base]) k = base k := by
  have hv := vals_unlocked h k hk
  rw [now_at]
  have hl : (valsAt k (runAlone x.log [base])).length = x.levels.length := by simp [valsAt, h.len]
  cases hc : valsAt k (runAlone x.log [base]) with
  | nil =>
    rw [hc] at hl
    exact absurd (List.eq_nil_of_length_eq_zero hl.symm) h.ne
  | cons v vs =>
    rw [hc] at hv
    exact hv v (by simp)

/-- A lock that nobody else has. -/
theorem tinv_lock {base rows : Store K V} {x : Txn K V} (h : TInv base rows x) (R : K → Prop)
    (hR : ∀ k, R k → ¬ x.locks k → rows k = base k) : TInv base rows (x.lock R) where
  right := h.right
  asks := fun q a hm k hs => .inl (h.asks q a hm k hs)
  wrotes := fun k v hm => .inl (h.wrotes k v hm)
  undos := fun l hl r hr => .inl (h.undos l hl r hr)
  len := h.len
  ne := h.ne
  top := by
    intro ha k hk
    by_cases hl : x.locks k
    · exact h.top ha k hl
    · rcases hk with hk | hk
      · exact absurd hk hl
      · rw [hR k hk hl]
        exact (now_unlocked h k hl).symm
  below := by
    intro k hk
    by_cases hl : x.locks k
    · exact h.below k hl
    · rcases hk with hk | hk
      · exact absurd hk hl
      · simp only [Txn.lock]
        rw [hR k hk hl]
        apply below_untouched k (base k) x.levels _ h.ne
        · simp [valsAt, h.len]
        · rintro l hm r hr rfl
          exact hl (h.undos l hm r hr)
        · exact vals_unlocked h k hl
  live := h.live
  search := by
    intro s hs
    have := h.search s hs
    refine ⟨this.1, ?_⟩
    have h2 := this.2
    split
    · rename_i lo hp
      rw [hp] at h2
      exact ⟨h2.1, fun k h3 h4 => ⟨.inl (h2.2 k h3 h4).1, (h2.2 k h3 h4).2⟩⟩
    · rename_i hp
      rw [hp] at h2
      exact h2
    · trivial

/-- A search ends or moves on; everything else as before. -/
theorem tinv_search {base rows : Store K V} {x : Txn K V} (h : TInv base rows x) (s : Option (Search K))
    (hs : ∀ s', s = some s' → x.aborting = false ∧ SInv rows x.locks s') : TInv base rows { x with search := s } where
  right := h.right
  asks := h.asks
  wrotes := h.wrotes
  undos := h.undos
  len := h.len
  ne := h.ne
  top := h.top
  below := h.below
  live := by
    intro ha
    cases s with
    | none => rfl
    | some s' => rw [(hs s' rfl).1] at ha; cases ha
  search := fun s' he => (hs s' he).2

/-- An answer about locked keys that is right now. -/
theorem tinv_ask {base rows : Store K V} {x : Txn K V} (h : TInv base rows x) (ha : x.aborting = false)
    (q : Query K) (a : Option (K × V)) (hs : ∀ k, Seen q a k → x.locks k) (hi : IsAnswer rows q a) :
    TInv base rows { x with log := x.log ++ [Ev.ask q a], search := none } := by
  have hrun : runAlone (x.log ++ [Ev.ask q a]) [base] = runAlone x.log [base] := by
    rw [runAlone_append]; rfl
  refine ⟨?_, ?_, ?_, h.undos, ?_, h.ne, ?_, ?_, fun _ => rfl, ?_⟩
  · rw [right_append]
    refine ⟨h.right, isAnswer_congr rows _ q a ?_ hi⟩
    intro k hk
    exact h.top ha k (hs k hk)
  · intro q' a' hm
    rcases List.mem_append.mp hm with hm | hm
    · exact h.asks q' a' hm
    · rw [List.mem_singleton] at hm
      injection hm with e1 e2
      subst e1 e2
      exact hs
  · intro k v hm
    rcases List.mem_append.mp hm with hm | hm
    · exact h.wrotes k v hm
    · rw [List.mem_singleton] at hm
      cases hm
  · simp only
    rw [hrun]; exact h.len
  · simp only
    rw [hrun]; exact h.top
  · simp only
    rw [hrun]; exact h.below
  · intro s he
    cases he

/-- Rows this transaction has not locked change. -/
theorem tinv_rows {base rows rows' : Store K V} {x : Txn K V} (h : TInv base rows x)
    (hl : ∀ k, x.locks k → rows' k = rows k)
    (hg : ∀ s, x.search = some s → s.phase = .ended → ∀ k, s.q.start.ahead s.q.dir k → rows' k = rows k) :
    TInv base rows' x where
  right := h.right
  asks := h.asks
  wrotes := h.wrotes
  undos := h.undos
  len := h.len
  ne := h.ne
  top := fun ha k hk => by rw [hl k hk]; exact h.top ha k hk
  below := fun k hk => by rw [hl k hk]; exact h.below k hk
  live := h.live
  search := by
    intro s hs
    have := h.search s hs
    refine ⟨this.1, ?_⟩
    have h2 := this.2
    split
    · rename_i lo hp
      rw [hp] at h2
      refine ⟨h2.1, fun k h3 h4 => ?_⟩
      have := h2.2 k h3 h4
      exact ⟨this.1, (hl k this.1).trans this.2⟩
    · rename_i hp
      rw [hp] at h2
      intro k hk
      rw [hg s hs hp k hk]
      exact h2 k hk
    · trivial

/-- Another transaction commits. -/
theorem tinv_base {base base' rows : Store K V} {x : Txn K V} (h : TInv base rows x)
    (hb : ∀ k, x.locks k → base' k = base k) : TInv base' rows x := by
  have hv : ∀ k, x.locks k → valsAt k [base] = valsAt k [base'] := by
    intro k hk
    simp [valsAt, hb k hk]
  have hlen : ∀ (l : List (Ev K V)) (a b : List (Store K V)), a.length = b.length →
      (runAlone l a).length = (runAlone l b).length := by
    intro l
    induction l with
    | nil => exact fun _ _ h => h
    | cons e l ih =>
      intro a b hab
      apply ih
      rcases a with _ | ⟨s, _ | ⟨s2, r⟩⟩ <;> rcases b with _ | ⟨s', _ | ⟨s2', r'⟩⟩ <;>
        simp only [List.length_cons, List.length_nil] at hab <;> try omega
      · cases e <;> rfl
      · cases e <;> simp [alone] <;> omega
  refine ⟨right_congr x.locks _ _ _ h.asks hv h.right, h.asks, h.wrotes, h.undos, ?_, h.ne, ?_, ?_, h.live, h.search⟩
  · rw [← h.len]
    exact hlen _ _ _ rfl
  · intro ha k hk
    rw [h.top ha k hk, now_at, now_at, runAlone_congr k x.log _ _ (hv k hk)]
  · intro k hk
    rw [hb k hk, ← runAlone_congr k x.log _ _ (hv k hk)]
    exact h.below k hk

/-- Change one transaction, the rows staying as they are. -/
theorem inv_set {init : Store K V} {w : World K V} (h : Inv init w) (t : Nat) (x x' : Txn K V)
    (hx : w.txns t = some x) (hl : ∀ k, x.locks k → x'.locks k)
    (hn : ∀ k, x'.locks k → x.locks k ∨ ∀ u y, u ≠ t → w.txns u = some y → ¬ y.locks k)
    (ht : TInv (afterAll init w.done) w.rows x') : Inv init (w.set t (some x')) where
  serial := h.serial
  disj := by
    intro a b y z k hab hy hz hk hk'
    simp only [World.set] at hy hz
    split at hy
    · rename_i ha
      subst ha
      rw [if_neg (Ne.symm hab)] at hz
      cases hy
      rcases hn k hk with hk | hf
      · exact h.disj a b x z k hab hx hz hk hk'
      · exact hf b z (Ne.symm hab) hz hk'
    · rename_i ha
      split at hz
      · rename_i hb
        subst hb
        cases hz
        rcases hn k hk' with hk2 | hf
        · exact h.disj a b y x k hab hy hx hk hk2
        · exact hf a y hab hy hk
      · exact h.disj a b y z k hab hy hz hk hk'
  each := by
    intro u y hy
    simp only [World.set] at hy
    split at hy
    · cases hy
      exact ht
    · exact h.each u y hy
  free := by
    intro k hk
    apply h.free k
    intro u y hy hyk
    by_cases hu : u = t
    · subst hu
      rw [hx] at hy
      cases hy
      exact hk u x' (by simp [World.set]) (hl k hyk)
    · exact hk u y (by simp [World.set, hu, hy]) hyk

/-- The rows change under a lock of `t`, and `t` with them. -/
theorem inv_write {init : Store K V} {w : World K V} (h : Inv init w) (t : Nat) (x x' : Txn K V) (k : K)
    (v : Option V) (hx : w.txns t = some x) (hl : x'.locks = x.locks) (hk : x.locks k) (hg : NoGap w t k)
    (ht : TInv (afterAll init w.done) (upd w.rows k v) x') :
    Inv init ({ w with rows := upd w.rows k v }.set t (some x')) where
  serial := h.serial
  disj := by
    intro a b y z k' hab hy hz hk1 hk2
    simp only [World.set] at hy hz
    split at hy
    · rename_i ha
      subst ha
      rw [if_neg (Ne.symm hab)] at hz
      cases hy
      rw [hl] at hk1
      exact h.disj a b x z k' hab hx hz hk1 hk2
    · rename_i ha
      split at hz
      · rename_i hb
        subst hb
        cases hz
        rw [hl] at hk2
        exact h.disj a b y x k' hab hy hx hk1 hk2
      · exact h.disj a b y z k' hab hy hz hk1 hk2
  each := by
    intro u y hy
    simp only [World.set] at hy
    split at hy
    · cases hy
      exact ht
    · rename_i hu
      show TInv (afterAll init w.done) (upd w.rows k v) y
      refine tinv_rows (h.each u y hy) ?_ ?_
      · intro k' hk'
        simp only [upd]
        rw [if_neg]
        rintro rfl
        exact h.disj t u x y k' (Ne.symm hu) hx hy hk hk'
      · intro s hs hp k' hk'
        simp only [upd]
        rw [if_neg]
        rintro rfl
        exact hg u y s hu hy hs hp hk'
  free := by
    intro k' hk'
    have hne : k' ≠ k := by
      rintro rfl
      exact hk' t x' (by simp [World.set]) (by rw [hl]; exact hk)
    show upd w.rows k v k' = _
    simp only [upd, if_neg hne]
    apply h.free k'
    intro u y hy hyk
    by_cases hu : u = t
    · subst hu
      rw [hx] at hy
      cases hy
      exact hk' u x' (by simp [World.set]) (by rw [hl]; exact hyk)
    · exact hk' u y (by simp [World.set, hu, hy]) hyk

/-- What a free lock adds is as all the others left it. -/
theorem free_rows {init : Store K V} {w : World K V} (h : Inv init w) (t : Nat) (x : Txn K V) (R : K → Prop)
    (hx : w.txns t = some x) (hf : Free w t R) (k : K) (hR : R k) (hk : ¬ x.locks k) :
    w.rows k = afterAll init w.done k := by
  apply h.free k
  intro u y hy hyk
  by_cases hu : u = t
  · subst hu
    rw [hx] at hy
    cases hy
    exact hk hyk
  · exact hf u y hu hy k hyk hR

/-- An answer with its lock. -/
theorem inv_answer {init : Store K V} {w : World K V} (h : Inv init w) (t : Nat) (x : Txn K V) (R : K → Prop)
    (q : Query K) (a : Option (K × V)) (hx : w.txns t = some x) (ha : x.aborting = false) (hf : Free w t R)
    (hs : ∀ k, Seen q a k → x.locks k ∨ R k) (hi : IsAnswer w.rows q a) :
    Inv init (w.set t (some { x.lock R with log := x.log ++ [Ev.ask q a], search := none })) := by
  have h1 : TInv (afterAll init w.done) w.rows (x.lock R) :=
    tinv_lock (h.each t x hx) R fun k hR hk => free_rows h t x R hx hf k hR hk
  refine inv_set h t x _ hx (fun k hk => .inl hk) ?_ (tinv_ask h1 ha q a hs hi)
  rintro k (hk | hk)
  · exact .inl hk
  · exact .inr fun u y hu hy hyk => hf u y hu hy k hyk hk

theorem search_live {init : Store K V} {w : World K V} (h : Inv init w) (t : Nat) (x : Txn K V) (s : Search K)
    (hx : w.txns t = some x) (hs : x.search = some s) : x.aborting = false := by
  cases ha : x.aborting with
  | false => rfl
  | true =>
    have := (h.each t x hx).live ha
    rw [hs] at this
    cases this

omit [LinearOrder K] in
theorem lock_free {w : World K V} {t : Nat} {x : Txn K V} {R : K → Prop} (hf : Free w t R) :
    ∀ k, (x.lock R).locks k → x.locks k ∨ ∀ u y, u ≠ t → w.txns u = some y → ¬ y.locks k := by
  rintro k (hk | hk)
  · exact .inl hk
  · exact .inr fun u y hu hy hyk => hf u y hu hy k hyk hk

theorem noGap_of {f : Flags} (hfl : f.gap = false) {w : World K V} {t : Nat} {k : K}
    (h : f.gap = true ∨ NoGap w t k) : NoGap w t k := by
  rcases h with h | h
  · rw [hfl] at h; cases h
  · exact h

theorem inv_step {init : Store K V} {w w' : World K V} (h : Inv init w) (hs : Step ⟨false, false, false⟩ w w') :
    Inv init w' := by
  cases hs with
  | new t ht =>
    refine ⟨h.serial, ?_, ?_, ?_⟩
    · intro a b y z k hab hy hz hk hk'
      simp only [World.set] at hy hz
      split at hy
      · cases hy
        exact hk
      · split at hz
        · cases hz
          exact hk'
        · exact h.disj a b y z k hab hy hz hk hk'
    · intro u y hy
      simp only [World.set] at hy
      split at hy
      · cases hy
        exact ⟨trivial, fun q a hm => (by cases hm), fun k v hm => (by cases hm),
          (by intro l hl r hr; rw [List.mem_singleton.mp hl] at hr; cases hr), rfl, (by simp),
          fun _ k hk => hk.elim, fun k hk => hk.elim, fun _ => rfl, fun s hs => (by cases hs)⟩
      · exact h.each u y hy
    · intro k hk
      apply h.free k
      intro u y hy hyk
      refine hk u y ?_ hyk
      simp only [World.set]
      rw [if_neg]
      · exact hy
      · rintro rfl
        rw [ht] at hy
        cases hy
  | lock t x R hx hsn hf =>
    exact inv_set h t x _ hx (fun k hk => .inl hk) (lock_free hf)
      (tinv_lock (h.each t x hx) R fun k hR hk => free_rows h t x R hx hf k hR hk)
  | write t x l ls k v hx hsn ha hlv hk hg =>
    have hi := h.each t x hx
    have hrun : runAlone (x.log ++ [Ev.wrote k v]) [afterAll init w.done] =
        alone (Ev.wrote k v) (runAlone x.log [afterAll init w.done]) := by rw [runAlone_append]; rfl
    obtain ⟨s0, r0, hst⟩ : ∃ s0 r0, runAlone x.log [afterAll init w.done] = s0 :: r0 := by
      cases hc : runAlone x.log [afterAll init w.done] with
      | nil =>
        have := hi.len
        rw [hc, hlv] at this
        cases this
      | cons s r => exact ⟨s, r, rfl⟩
    refine inv_write h t x _ k v hx (by rfl) hk (noGap_of rfl hg)
      ⟨?_, ?_, ?_, ?_, ?_, (by simp), ?_, ?_, ?_, ?_⟩
    · simp only
      rw [right_append]
      exact ⟨hi.right, trivial⟩
    · intro q a hm
      rcases List.mem_append.mp hm with hm | hm
      · exact hi.asks q a hm
      · rw [List.mem_singleton] at hm; cases hm
    · intro k' v' hm
      rcases List.mem_append.mp hm with hm | hm
      · exact hi.wrotes k' v' hm
      · rw [List.mem_singleton] at hm
        injection hm with e1 _
        subst e1
        exact hk
    · intro l' hl' r hr
      rcases List.mem_cons.mp hl' with rfl | hl'
      · rcases List.mem_cons.mp hr with rfl | hr
        · exact hk
        · exact hi.undos l (by rw [hlv]; simp) r hr
      · exact hi.undos l' (by rw [hlv]; simp [hl']) r hr
    · have := hi.len
      rw [hlv, hst] at this
      simp only
      rw [hrun, hst]
      simpa [alone] using this
    · intro _ k' hk'
      simp only
      rw [hrun, hst]
      have := hi.top ha k' hk'
      rw [hst] at this
      simp only [upd, now, alone, List.head?_cons, Option.getD_some] at this ⊢
      split
      · rfl
      · exact this
    · intro k' hk'
      have := hi.below k' hk'
      rw [hst, hlv] at this
      simp only
      rw [hrun, hst]
      have hund : undoAt k' ((k, w.rows k) :: l) (upd w.rows k v k') = undoAt k' l (w.rows k') := by
        simp only [undoAt, upd]
        by_cases he : k' = k
        · subst he; simp
        · simp [he]
      have hvals : valsAt k' (alone (Ev.wrote k v) (s0 :: r0)) = upd s0 k v k' :: valsAt k' r0 := rfl
      have hvals0 : valsAt k' (s0 :: r0) = s0 k' :: valsAt k' r0 := rfl
      rw [hvals]
      rw [hvals0] at this
      rcases ls with _ | ⟨l2, ls⟩
      · rcases hr : valsAt k' r0 with _ | ⟨v1, vs⟩
        · rw [hr] at this
          show undoAt k' _ _ = _
          rw [hund]
          exact this
        · rw [hr] at this
          exact this.elim
      · rcases hr : valsAt k' r0 with _ | ⟨v1, vs⟩
        · rw [hr] at this
          exact this.elim
        · rw [hr] at this
          refine ⟨?_, ?_⟩
          · rw [hund]; exact this.1
          · rw [hund]; exact this.2
    · intro ha'
      exact hsn
    · intro s hs
      rw [hsn] at hs
      cases hs
  | call t x q hx hsn ha =>
    refine inv_set h t x _ hx (fun k hk => hk) (fun k hk => .inl hk) (tinv_search (h.each t x hx) _ ?_)
    intro s' he
    cases he
    exact ⟨ha, rfl, fun k hk => hk, fun k h1 h2 => absurd h1 h2⟩
  | found t x q eng lo r v hx hsr hr hnone hv hw hf =>
    have hsi := (h.each t x hx).search _ hsr
    obtain ⟨he, h1, h2⟩ := hsi
    simp only at he
    subst he
    refine inv_answer h t x _ q (some (r, v)) hx (search_live h t x _ hx hsr) hf ?_ ⟨h1 r hr, hw, hv, ?_⟩
    · intro k hk
      exact .inr (lockTo_of_ahead _ _ _ _ hk.1 hk.2)
    · intro k hk hl
      by_cases ho : lo.ahead q.dir k
      · exact hnone k ho hl
      · exact (h2 k hk ho).2
  | pivot t x q eng lo p lo' hx hsr hpt hlo hmono hnone hf =>
    have hsi := (h.each t x hx).search _ hsr
    obtain ⟨he, h1, h2⟩ := hsi
    simp only at he
    subst he
    have ht := tinv_lock (h.each t x hx) _ fun k hR hk => free_rows h t x _ hx hf k hR hk
    refine inv_set h t x _ hx (fun k hk => .inl hk) (lock_free hf) (tinv_search ht _ ?_)
    intro s' he'
    cases he'
    refine ⟨search_live h t x _ hx hsr, rfl, fun k hk => h1 k (hmono k hk), ?_⟩
    intro k hk hn
    by_cases ho : lo.ahead q.dir k
    · refine ⟨.inr (lockTo_of_ahead _ _ _ _ hk ?_), hnone k ho hn⟩
      rcases hlo with rfl | rfl
      · intro hp
        exact hn (lt_asymm' _ p k hp)
      · exact hn
    · exact ⟨.inl (h2 k hk ho).1, (h2 k hk ho).2⟩
  | off t x q eng lo hx hsr hnone =>
    have hsi := (h.each t x hx).search _ hsr
    obtain ⟨he, h1, h2⟩ := hsi
    simp only at he
    subst he
    refine inv_set h t x _ hx (fun k hk => hk) (fun k hk => .inl hk) (tinv_search (h.each t x hx) _ ?_)
    intro s' he'
    cases he'
    refine ⟨search_live h t x _ hx hsr, rfl, ?_⟩
    intro k hk
    by_cases ho : lo.ahead q.dir k
    · exact hnone k ho
    · exact (h2 k hk ho).2
  | lockEnd t x q eng hx hsr hf =>
    have hsi := (h.each t x hx).search _ hsr
    obtain ⟨he, h1⟩ := hsi
    simp only at he
    subst he
    refine inv_answer h t x _ q none hx (search_live h t x _ hx hsr) hf ?_ ?_
    · intro k hk
      exact .inr ⟨lockOn_of_ahead _ _ _ hk.1, fun _ => hk.2⟩
    · intro k hk _
      exact h1 k hk
  | missing t x q eng lo hx hsr hpt hnone hf =>
    have hsi := (h.each t x hx).search _ hsr
    obtain ⟨he, h1, h2⟩ := hsi
    simp only at he
    subst he
    refine inv_answer h t x _ q none hx (search_live h t x _ hx hsr) hf ?_ ?_
    · intro k hk
      exact .inr ⟨lockOn_of_ahead _ _ _ hk.1, fun _ => hk.2⟩
    · intro k hk hw
      by_cases ho : lo.ahead q.dir k
      · exact hnone k ho hw
      · exact (h2 k hk ho).2
  | out t x q eng lo r hx hsr hpt hr hnone hnw hl =>
    have hsi := (h.each t x hx).search _ hsr
    obtain ⟨he, h1, h2⟩ := hsi
    have hl' : ∀ k, q.start.ahead q.dir k → within q.dir q.bound k → x.locks k := by
      rcases hl with hl | hl
      · cases hl
      · exact hl
    refine inv_set h t x _ hx (fun k hk => hk) (fun k hk => .inl hk)
      (tinv_ask (h.each t x hx) (search_live h t x _ hx hsr) q none (fun k hk => hl' k hk.1 hk.2) ?_)
    intro k hk hw
    by_cases ho : lo.ahead q.dir k
    · apply hnone k ho
      -- within the bound, and `r` is not
      cases hb : q.bound with
      | none => rw [hb] at hnw; exact absurd trivial hnw
      | some m =>
        rw [hb] at hw hnw
        have hmr : q.dir.lt m r := by
          by_cases hc : q.dir.lt m r
          · exact hc
          · exact absurd hc hnw
        rcases lt_tri q.dir k m with h3 | h3 | h3
        · exact lt_trans' _ _ _ _ h3 hmr
        · rw [h3]; exact hmr
        · exact absurd h3 hw
    · exact (h2 k hk ho).2
  | bounded t x q eng lo p hx hsr hpt hnone hp hf =>
    have hsi := (h.each t x hx).search _ hsr
    obtain ⟨he, h1, h2⟩ := hsi
    simp only at he
    subst he
    refine inv_answer h t x _ q none hx (search_live h t x _ hx hsr) hf ?_ ?_
    · intro k hk
      exact .inr (lockTo_of_ahead _ _ _ _ hk.1 (hp k hk.2))
    · intro k hk hw
      by_cases ho : lo.ahead q.dir k
      · exact hnone k ho hw
      · exact (h2 k hk ho).2
  | wait t x q eng ph hx hsr =>
    refine inv_set h t x _ hx (fun k hk => hk) (fun k hk => .inl hk) (tinv_search (h.each t x hx) _ ?_)
    intro s' he'
    cases he'
    exact ⟨search_live h t x _ hx hsr, ((h.each t x hx).search _ hsr).1, trivial⟩
  | granted t x q eng R hx hsr hf =>
    have hsi := (h.each t x hx).search _ hsr
    obtain ⟨he, _⟩ := hsi
    simp only at he
    subst he
    have ht := tinv_lock (h.each t x hx) _ fun k hR hk => free_rows h t x _ hx hf k hR hk
    refine inv_set h t x _ hx (fun k hk => .inl hk) (lock_free hf) (tinv_search ht _ ?_)
    intro s' he'
    cases he'
    exact ⟨search_live h t x _ hx hsr, rfl, fun k hk => hk, fun k h1 h2 => absurd h1 h2⟩
  | refused t x q eng hx hsr =>
    refine inv_set h t x _ hx (fun k hk => hk) (fun k hk => .inl hk) (tinv_search (h.each t x hx) _ ?_)
    intro s' he'
    cases he'
  | bulkWait t x q eng lo r r0 v0 q0 l hb => cases hb
  | current t x k hx hsn ha hk =>
    have hseen : ∀ (a : Option (K × V)) k', Seen (.get k) a k' → a.all (fun p => p.1 = k) = true → k' = k := by
      intro a k' hs hall
      rcases lt_trichotomy k' k with h3 | h3 | h3
      · cases a with
        | none => exact absurd h3 hs.1
        | some p => exact absurd h3 hs.1
      · exact h3
      · cases a with
        | none => exact absurd h3 hs.2
        | some p =>
          obtain ⟨r, v⟩ := p
          simp only [Option.all_some, decide_eq_true_eq] at hall
          subst hall
          exact absurd h3 hs.2
    have ht : TInv (afterAll init w.done) w.rows
        { x with log := x.log ++ [Ev.ask (.get k) ((w.rows k).map fun v => (k, v))], search := none } := by
      refine tinv_ask (h.each t x hx) ha _ _ ?_ ?_
      · intro k' hs
        rw [hseen _ k' hs (by cases w.rows k <;> simp)]
        exact hk
      · cases hv : w.rows k with
        | none =>
          intro k' h1 h2
          have : k' = k := hseen none k' ⟨h1, h2⟩ rfl
          rw [this]; exact hv
        | some v =>
          refine ⟨lt_irrefl k, lt_irrefl k, hv, ?_⟩
          intro k' h1 h2
          exact absurd h2 h1
    have hxx : { x with log := x.log ++ [Ev.ask (.get k) ((w.rows k).map fun v => (k, v))] } =
        { x with log := x.log ++ [Ev.ask (.get k) ((w.rows k).map fun v => (k, v))], search := none } := by
      rw [← hsn]
    rw [hxx]
    exact inv_set h t x _ hx (fun k hk => hk) (fun k hk => .inl hk) ht
  | beginChild t x hx hsn ha =>
    have hi := h.each t x hx
    have hrun : runAlone (x.log ++ [Ev.«begin»]) [afterAll init w.done] =
        alone Ev.«begin» (runAlone x.log [afterAll init w.done]) := by rw [runAlone_append]; rfl
    obtain ⟨s0, r0, hst⟩ : ∃ s0 r0, runAlone x.log [afterAll init w.done] = s0 :: r0 := by
      cases hc : runAlone x.log [afterAll init w.done] with
      | nil =>
        have := hi.len
        rw [hc] at this
        exact absurd (List.eq_nil_of_length_eq_zero this.symm) hi.ne
      | cons s r => exact ⟨s, r, rfl⟩
    refine inv_set h t x _ hx (fun k hk => hk) (fun k hk => .inl hk)
      ⟨?_, ?_, ?_, ?_, ?_, (by simp), ?_, ?_, fun _ => hsn, hi.search⟩
    · simp only
      rw [right_append]
      exact ⟨hi.right, trivial⟩
    · intro q a hm
      rcases List.mem_append.mp hm with hm | hm
      · exact hi.asks q a hm
      · rw [List.mem_singleton] at hm; cases hm
    · intro k' v' hm
      rcases List.mem_append.mp hm with hm | hm
      · exact hi.wrotes k' v' hm
      · rw [List.mem_singleton] at hm; cases hm
    · intro l' hl' r hr
      rcases List.mem_cons.mp hl' with rfl | hl'
      · cases hr
      · exact hi.undos l' hl' r hr
    · have := hi.len
      rw [hst] at this
      simp only
      rw [hrun, hst]
      simpa [alone] using this
    · intro _ k' hk'
      simp only
      rw [hrun, hst]
      have := hi.top ha k' hk'
      rw [hst] at this
      exact this
    · intro k' hk'
      have hb := hi.below k' hk'
      have htop := hi.top ha k' hk'
      rw [hst] at hb htop
      simp only
      rw [hrun, hst]
      have hvals : valsAt k' (alone Ev.«begin» (s0 :: r0)) = s0 k' :: s0 k' :: valsAt k' r0 := rfl
      have hvals0 : valsAt k' (s0 :: r0) = s0 k' :: valsAt k' r0 := rfl
      rw [hvals]
      rw [hvals0] at hb
      cases hlv : x.levels with
      | nil => exact absurd hlv hi.ne
      | cons l ls =>
        rw [hlv] at hb
        exact ⟨htop, hb⟩
  | commitChild t x l1 l2 ls hx hsn ha hlv =>
    have hi := h.each t x hx
    have hrun : runAlone (x.log ++ [Ev.commit]) [afterAll init w.done] =
        alone Ev.commit (runAlone x.log [afterAll init w.done]) := by rw [runAlone_append]; rfl
    obtain ⟨s0, s1, r0, hst⟩ : ∃ s0 s1 r0, runAlone x.log [afterAll init w.done] = s0 :: s1 :: r0 := by
      have hlen := hi.len
      rw [hlv] at hlen
      rcases hc : runAlone x.log [afterAll init w.done] with _ | ⟨s, _ | ⟨s2, r⟩⟩
      · rw [hc] at hlen; simp at hlen
      · rw [hc] at hlen; simp at hlen
      · exact ⟨s, s2, r, rfl⟩
    refine inv_set h t x _ hx (fun k hk => hk) (fun k hk => .inl hk)
      ⟨?_, ?_, ?_, ?_, ?_, (by simp), ?_, ?_, fun _ => hsn, hi.search⟩
    · simp only
      rw [right_append]
      exact ⟨hi.right, trivial⟩
    · intro q a hm
      rcases List.mem_append.mp hm with hm | hm
      · exact hi.asks q a hm
      · rw [List.mem_singleton] at hm; cases hm
    · intro k' v' hm
      rcases List.mem_append.mp hm with hm | hm
      · exact hi.wrotes k' v' hm
      · rw [List.mem_singleton] at hm; cases hm
    · intro l' hl' r hr
      rcases List.mem_cons.mp hl' with rfl | hl'
      · rcases List.mem_append.mp hr with hr | hr
        · exact hi.undos l1 (by rw [hlv]; simp) r hr
        · exact hi.undos l2 (by rw [hlv]; simp) r hr
      · exact hi.undos l' (by rw [hlv]; simp [hl']) r hr
    · have := hi.len
      rw [hst, hlv] at this
      simp only
      rw [hrun, hst]
      simp only [alone, List.length_cons] at this ⊢
      omega
    · intro _ k' hk'
      simp only
      rw [hrun, hst]
      have := hi.top ha k' hk'
      rw [hst] at this
      exact this
    · intro k' hk'
      have hb := hi.below k' hk'
      rw [hst, hlv] at hb
      simp only
      rw [hrun, hst]
      have hvals : valsAt k' (alone Ev.commit (s0 :: s1 :: r0)) = s0 k' :: valsAt k' r0 := rfl
      have hvals0 : valsAt k' (s0 :: s1 :: r0) = s0 k' :: s1 k' :: valsAt k' r0 := rfl
      rw [hvals]
      rw [hvals0] at hb
      obtain ⟨_, hb2⟩ := hb
      rcases ls with _ | ⟨l3, ls⟩
      · rcases hr : valsAt k' r0 with _ | ⟨v1, vs⟩
        · rw [hr] at hb2
          show undoAt k' (l1 ++ l2) _ = _
          rw [undoAt_append]
          exact hb2
        · rw [hr] at hb2
          exact hb2.elim
      · rcases hr : valsAt k' r0 with _ | ⟨v1, vs⟩
        · rw [hr] at hb2
          exact hb2.elim
        · rw [hr] at hb2
          refine ⟨?_, ?_⟩
          · rw [undoAt_append]; exact hb2.1
          · rw [undoAt_append]; exact hb2.2
  | abort t x hx hsn ha =>
    have hi := h.each t x hx
    exact inv_set h t x _ hx (fun k hk => hk) (fun k hk => .inl hk)
      ⟨hi.right, hi.asks, hi.wrotes, hi.undos, hi.len, hi.ne, fun ha => (by cases ha), hi.below, fun _ => hsn,
        hi.search⟩
  | undo t x k o l ls hx ha hsn hlv hg =>
    have hi := h.each t x hx
    have hk : x.locks k := hi.undos ((k, o) :: l) (by rw [hlv]; simp) (k, o) (by simp)
    refine inv_write h t x _ k o hx (by rfl) hk (noGap_of rfl hg)
      ⟨hi.right, hi.asks, hi.wrotes, ?_, ?_, (by simp), ?_, ?_, fun _ => hsn, ?_⟩
    · intro l' hl' r hr
      rcases List.mem_cons.mp hl' with rfl | hl'
      · exact hi.undos ((k, o) :: l') (by rw [hlv]; simp) r (List.mem_cons_of_mem _ hr)
      · exact hi.undos l' (by rw [hlv]; simp [hl']) r hr
    · have := hi.len
      rw [hlv] at this
      exact this
    · intro ha'
      simp only at ha'
      rw [ha] at ha'
      cases ha'
    · intro k' hk'
      have hb := hi.below k' hk'
      rw [hlv] at hb
      have hund : undoAt k' l (upd w.rows k o k') = undoAt k' ((k, o) :: l) (w.rows k') := rfl
      simp only
      rcases ls with _ | ⟨l2, ls⟩
      · rcases hr : valsAt k' (runAlone x.log [afterAll init w.done]) with _ | ⟨v1, _ | ⟨v2, vs⟩⟩
        · rw [hr] at hb; exact hb.elim
        · rw [hr] at hb
          exact hb
        · rw [hr] at hb; exact hb.elim
      · rcases hr : valsAt k' (runAlone x.log [afterAll init w.done]) with _ | ⟨v1, _ | ⟨v2, vs⟩⟩
        · rw [hr] at hb; exact hb.elim
        · rw [hr] at hb; exact hb.elim
        · rw [hr] at hb
          exact hb
    · intro s hs
      rw [hsn] at hs
      cases hs
  | aborted t x l ls hx ha hsn hlv =>
    have hi := h.each t x hx
    have hrun : runAlone (x.log ++ [Ev.abort]) [afterAll init w.done] =
        alone Ev.abort (runAlone x.log [afterAll init w.done]) := by rw [runAlone_append]; rfl
    obtain ⟨s0, s1, r0, hst⟩ : ∃ s0 s1 r0, runAlone x.log [afterAll init w.done] = s0 :: s1 :: r0 := by
      have hlen := hi.len
      rw [hlv] at hlen
      rcases hc : runAlone x.log [afterAll init w.done] with _ | ⟨s, _ | ⟨s2, r⟩⟩
      · rw [hc] at hlen; simp at hlen
      · rw [hc] at hlen; simp at hlen
      · exact ⟨s, s2, r, rfl⟩
    have hb' : ∀ k', x.locks k' → w.rows k' = s1 k' ∧
        Below k' (afterAll init w.done k') (l :: ls) (w.rows k') (s1 k' :: valsAt k' r0) := by
      intro k' hk'
      have hb := hi.below k' hk'
      rw [hst, hlv] at hb
      exact hb
    refine inv_set h t x _ hx (fun k hk => hk) (fun k hk => .inl hk)
      ⟨?_, ?_, ?_, ?_, ?_, (by simp), ?_, ?_, fun _ => hsn, hi.search⟩
    · simp only
      rw [right_append]
      exact ⟨hi.right, trivial⟩
    · intro q a hm
      rcases List.mem_append.mp hm with hm | hm
      · exact hi.asks q a hm
      · rw [List.mem_singleton] at hm; cases hm
    · intro k' v' hm
      rcases List.mem_append.mp hm with hm | hm
      · exact hi.wrotes k' v' hm
      · rw [List.mem_singleton] at hm; cases hm
    · intro l' hl' r hr
      exact hi.undos l' (by rw [hlv]; exact List.mem_cons_of_mem _ hl') r hr
    · have := hi.len
      rw [hst, hlv] at this
      simp only
      rw [hrun, hst]
      simp only [alone, List.length_cons] at this ⊢
      omega
    · intro _ k' hk'
      simp only
      rw [hrun, hst]
      exact (hb' k' hk').1
    · intro k' hk'
      simp only
      rw [hrun, hst]
      exact (hb' k' hk').2
  | abortedRoot t x hx ha hsn hlv =>
    have hi := h.each t x hx
    refine ⟨h.serial, ?_, ?_, ?_⟩
    · intro a b y z k hab hy hz hk hk'
      simp only [World.set] at hy hz
      split at hy
      · cases hy
      · split at hz
        · cases hz
        · exact h.disj a b y z k hab hy hz hk hk'
    · intro u y hy
      simp only [World.set] at hy
      split at hy
      · cases hy
      · exact h.each u y hy
    · intro k hk
      by_cases hkx : x.locks k
      · have hb := hi.below k hkx
        rw [hlv] at hb
        rcases hr : valsAt k (runAlone x.log [afterAll init w.done]) with _ | ⟨v1, _ | ⟨v2, vs⟩⟩
        · rw [hr] at hb; exact hb.elim
        · rw [hr] at hb
          exact hb
        · rw [hr] at hb; exact hb.elim
      · apply h.free k
        intro u y hy hyk
        by_cases hu : u = t
        · subst hu
          rw [hx] at hy
          cases hy
          exact hkx hyk
        · exact hk u y (by simp [World.set, hu, hy]) hyk
  | commit t x l hx ha hsn hlv =>
    have hi := h.each t x hx
    have hbase : afterAll init (w.done ++ [x.log]) = now (runAlone x.log [afterAll init w.done]) := by
      simp [afterAll, after]
    have hout : ∀ k, ¬ x.locks k → afterAll init (w.done ++ [x.log]) k = afterAll init w.done k := by
      intro k hk
      rw [hbase]
      exact now_unlocked hi k hk
    refine ⟨?_, ?_, ?_, ?_⟩
    · exact (serial_append init w.done x.log).mpr ⟨h.serial, hi.right⟩
    · intro a b y z k hab hy hz hk hk'
      simp only [World.set] at hy hz
      split at hy
      · cases hy
      · split at hz
        · cases hz
        · exact h.disj a b y z k hab hy hz hk hk'
    · intro u y hy
      simp only [World.set] at hy
      split at hy
      · cases hy
      · rename_i hu
        refine tinv_base (h.each u y hy) ?_
        intro k hk
        exact hout k fun hk' => h.disj t u x y k (Ne.symm hu) hx hy hk' hk
    · intro k hk
      show w.rows k = afterAll init (w.done ++ [x.log]) k
      by_cases hkx : x.locks k
      · rw [hbase]
        exact hi.top ha k hkx
      · rw [hout k hkx]
        apply h.free k
        intro u y hy hyk
        by_cases hu : u = t
        · subst hu
          rw [hx] at hy
          cases hy
          exact hkx hyk
        · exact hk u y (by simp [World.set, hu, hy]) hyk

theorem inv_reach {rows : Store K V} {w : World K V} (h : Reach ⟨false, false, false⟩ rows w) : Inv rows w := by
  induction h with
  | start =>
    exact ⟨trivial, fun t u x y k _ hx => (by cases hx), fun t x hx => (by cases hx), fun k _ => rfl⟩
  | step w w' _ hs ih => exact inv_step ih hs

end Verif.Iso
