import Verif.Iso.Model

/-! Lemmas about answers and about transactions run alone: both look only at the keys they have seen. -/
namespace Verif.Iso

variable {K V : Type} [LinearOrder K]

theorem lt_irrefl' (d : Dir) (x : K) : ¬ d.lt x x := by
  cases d <;> exact lt_irrefl x

theorem lt_asymm' (d : Dir) (x y : K) (h : d.lt x y) : ¬ d.lt y x := by
  cases d <;> exact lt_asymm h

theorem lt_trans' (d : Dir) (x y z : K) (h : d.lt x y) (h' : d.lt y z) : d.lt x z := by
  cases d
  · exact lt_trans h h'
  · exact lt_trans h' h

theorem lt_tri (d : Dir) (x y : K) : d.lt x y ∨ x = y ∨ d.lt y x := by
  cases d
  · exact lt_trichotomy x y
  · rcases lt_trichotomy x y with h | h | h
    · exact .inr (.inr h)
    · exact .inr (.inl h)
    · exact .inl h

/-- What is ahead of the start is in the lock, as far as the lock goes. -/
theorem lockOn_of_ahead (d : Dir) (b : Start K) (x : K) (h : b.ahead d x) : lockOn d b x := by
  cases b with
  | inf => trivial
  | incl k => exact h
  | excl k => exact lt_asymm' d k x h

theorem lockTo_of_ahead (d : Dir) (b : Start K) (r x : K) (h : b.ahead d x) (hr : ¬ d.lt r x) : lockTo d b r x :=
  ⟨lockOn_of_ahead d b x h, hr⟩

/-- The keys an answer is about. -/
def Seen (q : Query K) : Option (K × V) → K → Prop
  | some (r, _), k => q.start.ahead q.dir k ∧ ¬ q.dir.lt r k
  | none, k => q.start.ahead q.dir k ∧ within q.dir q.bound k

theorem isAnswer_congr (s s' : Store K V) (q : Query K) (a : Option (K × V)) (h : ∀ k, Seen q a k → s k = s' k)
    (ha : IsAnswer s q a) : IsAnswer s' q a := by
  cases a with
  | none =>
    intro x h1 h2
    rw [← h x ⟨h1, h2⟩]
    exact ha x h1 h2
  | some p =>
    obtain ⟨r, v⟩ := p
    obtain ⟨h1, h2, h3, h4⟩ := ha
    refine ⟨h1, h2, ?_, ?_⟩
    · rw [← h r ⟨h1, lt_irrefl' _ r⟩]; exact h3
    · intro x hx hl
      rw [← h x ⟨hx, lt_asymm' _ x r hl⟩]
      exact h4 x hx hl

/-! ### Key by key -/

def valsAt (k : K) (st : List (Store K V)) : List (Option V) := st.map (· k)

theorem now_at (k : K) (st : List (Store K V)) : now st k = (valsAt k st).head?.getD none := by
  cases st <;> rfl

theorem alone_congr (k : K) (e : Ev K V) (st st' : List (Store K V)) (h : valsAt k st = valsAt k st') :
    valsAt k (alone e st) = valsAt k (alone e st') := by
  have hl : st.length = st'.length := by
    have := congrArg List.length h
    simpa [valsAt] using this
  rcases st with _ | ⟨s, _ | ⟨s2, r⟩⟩ <;> rcases st' with _ | ⟨s', _ | ⟨s2', r'⟩⟩ <;>
    simp only [List.length_cons, List.length_nil] at hl <;> try omega
  · rfl
  · simp only [valsAt, List.map_cons, List.map_nil, List.cons.injEq, and_true] at h
    cases e <;> simp [alone, valsAt, upd, h]
  · simp only [valsAt, List.map_cons, List.cons.injEq] at h
    cases e <;> simp [alone, valsAt, upd, h]

theorem runAlone_congr (k : K) (l : List (Ev K V)) (st st' : List (Store K V)) (h : valsAt k st = valsAt k st') :
    valsAt k (runAlone l st) = valsAt k (runAlone l st') := by
  induction l generalizing st st' with
  | nil => exact h
  | cons e l ih => exact ih _ _ (alone_congr k e st st' h)

theorem runAlone_append (l l' : List (Ev K V)) (st : List (Store K V)) :
    runAlone (l ++ l') st = runAlone l' (runAlone l st) := by
  induction l generalizing st with
  | nil => rfl
  | cons e l ih => exact ih _

/-- A key that was not written has its value everywhere. -/
theorem runAlone_untouched (k : K) (b : Option V) (l : List (Ev K V)) (st : List (Store K V))
    (hl : ∀ v, Ev.wrote k v ∉ l) (h : ∀ x ∈ valsAt k st, x = b) : ∀ x ∈ valsAt k (runAlone l st), x = b := by
  induction l generalizing st with
  | nil => exact h
  | cons e l ih =>
    apply ih
    · exact fun v hm => hl v (List.mem_cons_of_mem _ hm)
    · have he : ∀ v, e ≠ Ev.wrote k v := fun v hv => hl v (by rw [hv]; simp)
      rcases st with _ | ⟨s, _ | ⟨s2, r⟩⟩
      · cases e <;> exact h
      · cases e with
        | wrote k' v =>
          have hne : k ≠ k' := by rintro rfl; exact he v rfl
          simp only [valsAt, alone, List.map_cons, List.map_nil, upd, if_neg hne] at h ⊢
          exact h
        | «begin» => simpa [valsAt, alone] using h
        | ask q a => exact h
        | commit => exact h
        | abort => exact h
      · cases e with
        | wrote k' v =>
          have hne : k ≠ k' := by rintro rfl; exact he v rfl
          simp only [valsAt, alone, List.map_cons, upd, if_neg hne] at h ⊢
          exact h
        | «begin» =>
          simp only [valsAt, alone, List.map_cons, List.mem_cons] at h ⊢
          rintro x (rfl | rfl | rfl | hx)
          · exact h _ (.inl rfl)
          · exact h _ (.inl rfl)
          · exact h _ (.inr (.inl rfl))
          · exact h _ (.inr (.inr hx))
        | ask q a => exact h
        | commit =>
          simp only [valsAt, alone, List.map_cons, List.mem_cons] at h ⊢
          rintro x (rfl | hx)
          · exact h _ (.inl rfl)
          · exact h _ (.inr (.inr hx))
        | abort =>
          simp only [valsAt, alone, List.map_cons, List.mem_cons] at h ⊢
          rintro x (rfl | hx)
          · exact h _ (.inr (.inl rfl))
          · exact h _ (.inr (.inr hx))

theorem right_append (l : List (Ev K V)) (e : Ev K V) (st : List (Store K V)) :
    Right (l ++ [e]) st ↔ Right l st ∧ (match e with | .ask q a => IsAnswer (now (runAlone l st)) q a | _ => True) := by
  induction l generalizing st with
  | nil =>
    simp only [List.nil_append, Right, runAlone]
    cases e <;> simp
  | cons e' l ih =>
    simp only [List.cons_append, Right, runAlone, ih, and_assoc]

theorem right_congr (L : K → Prop) (l : List (Ev K V)) (st st' : List (Store K V))
    (hl : ∀ q a, Ev.ask q a ∈ l → ∀ k, Seen q a k → L k) (h : ∀ k, L k → valsAt k st = valsAt k st')
    (hr : Right l st) : Right l st' := by
  induction l generalizing st st' with
  | nil => trivial
  | cons e l ih =>
    refine ⟨?_, ih _ _ (fun q a hm => hl q a (List.mem_cons_of_mem _ hm)) (fun k hk => alone_congr k e _ _ (h k hk))
      hr.2⟩
    cases e with
    | ask q a =>
      refine isAnswer_congr _ _ q a ?_ hr.1
      intro k hk
      rw [now_at, now_at, h k (hl q a (by simp) k hk)]
    | _ => trivial

theorem serial_append (s : Store K V) (ls : List (List (Ev K V))) (l : List (Ev K V)) :
    Serial s (ls ++ [l]) ↔ Serial s ls ∧ Right l [afterAll s ls] := by
  induction ls generalizing s with
  | nil => simp [Serial, afterAll]
  | cons x ls ih => simp only [List.cons_append, Serial, ih, afterAll, List.foldl_cons, and_assoc]

/-! ### Taking back -/

/-- Take back the writes of a rollback log, newest first, at one key. -/
def undoAt (k : K) : List (K × Option V) → Option V → Option V
  | [], x => x
  | (k', o) :: l, x => undoAt k l (if k = k' then o else x)

theorem undoAt_append (k : K) (l l' : List (K × Option V)) (x : Option V) :
    undoAt k (l ++ l') x = undoAt k l' (undoAt k l x) := by
  induction l generalizing x with
  | nil => rfl
  | cons r l ih => exact ih _

theorem undoAt_other (k : K) (l : List (K × Option V)) (x : Option V) (h : ∀ r ∈ l, r.1 ≠ k) : undoAt k l x = x := by
  induction l generalizing x with
  | nil => rfl
  | cons r l ih =>
    obtain ⟨k', o⟩ := r
    have hne : k ≠ k' := fun he => h (k', o) (by simp) he.symm
    simp only [undoAt, if_neg hne]
    exact ih x fun q hq => h q (List.mem_cons_of_mem _ hq)

/-- Taking back the rollback logs one after another gives the values below. -/
def Below (k : K) (b : Option V) : List (List (K × Option V)) → Option V → List (Option V) → Prop
  | [l], x, [_] => undoAt k l x = b
  | l :: l2 :: ls, x, _ :: v :: vs => undoAt k l x = v ∧ Below k b (l2 :: ls) (undoAt k l x) (v :: vs)
  | _, _, _ => False

theorem below_untouched (k : K) (b : Option V) (levels : List (List (K × Option V))) (vals : List (Option V))
    (hne : levels ≠ []) (hlen : vals.length = levels.length) (h : ∀ l ∈ levels, ∀ r ∈ l, r.1 ≠ k)
    (hv : ∀ x ∈ vals, x = b) : Below k b levels b vals := by
  induction levels generalizing vals with
  | nil => exact absurd rfl hne
  | cons l ls ih =>
    have hu : undoAt k l b = b := undoAt_other k l b (h l (by simp))
    rcases ls with _ | ⟨l2, ls⟩
    · rcases vals with _ | ⟨v, _ | ⟨v2, vs⟩⟩ <;> simp at hlen
      exact hu
    · rcases vals with _ | ⟨v, _ | ⟨v2, vs⟩⟩ <;> simp at hlen
      refine ⟨?_, ?_⟩
      · rw [hu, hv v2 (by simp)]
      · rw [hu]
        exact ih _ (by simp) (by simpa using hlen) (fun x hx => h x (List.mem_cons_of_mem _ hx))
          fun x hx => hv x (List.mem_cons_of_mem _ hx)

end Verif.Iso
