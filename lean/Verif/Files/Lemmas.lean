import Verif.Files.Model

/-! Logs without renamed files: who is in the directory, and which files are open or doomed. -/
namespace Verif.Files

/-- Open, by the log. -/
def openStep (f : File) (b : Bool) : Rec → Bool
  | .create _ _ g => if g = f then true else b
  | .fopen g _ => if g = f then true else b
  | .fclose g _ => if g = f then false else b
  | _ => b

def openL (L : List Rec) (f : File) : Bool := L.foldl (openStep f) false

/-- To be unlinked, by the log. -/
def Doomed (L : List Rec) (f : File) : Prop :=
  (∃ t d, Rec.create t d f ∈ L ∧ Rec.abort t ∈ L) ∨ ∃ t d, Rec.remove t d f ∈ L ∧ Rec.commit t ∈ L

/-- What holds of the log before a record. -/
def ok (L : List Rec) : Rec → Prop
  | .begin t => Rec.begin t ∉ L
  | .create t d f => Live L t ∧ LockFree L t d ∧ view L t d = none ∧ ¬ Created L f
  | .remove t d f => Live L t ∧ LockFree L t d ∧ view L t d = some f ∧ openL L f = true
  | .rename t d d' i => Live L t ∧ LockFree L t d ∧ LockFree L t d' ∧ view L t d = some i ∧ view L t d' = none
  | .frename .. => False
  | .put t f _ => Live L t ∧ (∃ d, LockFree L t d ∧ view L t d = some f) ∧ openL L f = true
  | .fopen f i => i = f ∧ openL L f = false ∧ ∃ t d, Live L t ∧ LockFree L t d ∧ view L t d = some f
  | .fclose f i => i = f ∧ openL L f = true ∧ ¬ Held L f
  | .assoc l => (∀ f i u, (f, i, u) ∈ l → i = f ∧ openL L f = true ∧ (u = true ↔ Doomed L f)) ∧ (l.map (·.1)).Nodup
  | .commit t => Live L t
  | .abort t => Live L t

inductive Good : List Rec → Prop where
  | nil : Good []
  | snoc (L r) : Good L → ok L r → Good (L ++ [r])

theorem Good.take {L} (h : Good L) (n : Nat) : Good (L.take n) := by
  induction h with
  | nil => simpa using Good.nil
  | snoc L r h ho ih =>
    by_cases hn : n ≤ L.length
    · rw [List.take_append_of_le_length hn]; exact ih
    · rw [List.take_of_length_le (by simp; omega)]; exact Good.snoc _ _ h ho

theorem Good.ok_at {L} (h : Good L) (k : Nat) (r : Rec) (hr : L[k]? = some r) : ok (L.take k) r := by
  induction h with
  | nil => simp at hr
  | snoc L r' h ho ih =>
    by_cases hn : k < L.length
    · rw [List.getElem?_append_left hn] at hr
      rw [List.take_append_of_le_length (Nat.le_of_lt hn)]; exact ih hr
    · rw [List.getElem?_append_right (by omega)] at hr
      have hk : k - L.length = 0 := by
        rcases h0 : k - L.length with _ | m
        · rfl
        · rw [h0] at hr; simp at hr
      rw [hk] at hr; simp at hr
      rw [show k = L.length by omega, List.take_left, ← hr]; exact ho

/-- Two ways of seeing that agree on who has touched `d` agree on `d`. -/
theorem dirv_congr (S S' : Tx → Bool) (d : Name) (L : List Rec)
    (h : ∀ t, (∃ r ∈ L, touches t d r = true) → S t = S' t) : dirv S L d = dirv S' L d := by
  suffices H : ∀ (L : List Rec) (m m' : Name → Option File), m d = m' d →
      (∀ t, (∃ r ∈ L, touches t d r = true) → S t = S' t) →
      L.foldl (dirStep S) m d = L.foldl (dirStep S') m' d from H L _ _ rfl h
  intro L
  induction L with
  | nil => intro m m' hm _; exact hm
  | cons r L ih =>
    intro m m' hm h
    refine ih _ _ ?_ fun t ⟨r', hr', ht⟩ => h t ⟨r', List.mem_cons_of_mem _ hr', ht⟩
    have hh := fun t ht => h t ⟨r, List.mem_cons_self, ht⟩
    cases r with
    | create t e f =>
      by_cases hd : d = e
      · have := hh t (by simp [touches, hd])
        simp only [dirStep, this]; split <;> simp_all
      · simp only [dirStep]; split <;> split <;> simp_all
    | remove t e f =>
      by_cases hd : d = e
      · have := hh t (by simp [touches, hd])
        simp only [dirStep, this]; split <;> simp_all
      · simp only [dirStep]; split <;> split <;> simp_all
    | rename t e e' f =>
      by_cases hd : d = e ∨ d = e'
      · have := hh t (by rcases hd with hd | hd <;> simp [touches, hd])
        simp only [dirStep, this]; split <;> simp_all
      · simp only [not_or] at hd
        simp only [dirStep]; split <;> split <;> simp_all
    | frename t e e' f i j =>
      by_cases hd : d = e ∨ d = e'
      · have := hh t (by rcases hd with hd | hd <;> simp [touches, hd])
        simp only [dirStep, this]; split <;> simp_all
      · simp only [not_or] at hd
        simp only [dirStep]; split <;> split <;> simp_all
    | _ => exact hm

/-- A way of seeing: the committed, none of the aborted. -/
def Sees (L : List Rec) (S : Tx → Bool) : Prop :=
  (∀ t, Rec.commit t ∈ L → S t = true) ∧ ∀ t, Rec.abort t ∈ L → S t = false

theorem Sees.pre {L L' S} (h : Sees (L ++ L') S) : Sees L S :=
  ⟨fun t ht => h.1 t (List.mem_append_left _ ht), fun t ht => h.2 t (List.mem_append_left _ ht)⟩

/-- What a transaction sees of a row it may lock is what anyone sees who sees it. -/
theorem view_eq {L t d} (hg : ∀ u r, r ∈ L → touches u d r = true → Rec.begin u ∈ L) (hl : LockFree L t d) {S} (hs : Sees L S)
    (ht : S t = true) : dirv S L d = view L t d := by
  refine dirv_congr _ _ _ _ fun u ⟨r, hr, hu⟩ => ?_
  by_cases hut : u = t
  · subst hut; simp [ht]
  · by_cases hc : Rec.commit u ∈ L
    · simp [isCom, hc, hs.1 u hc]
    · by_cases ha : Rec.abort u ∈ L
      · simp [isCom, hc, hs.2 u ha, hut]
      · have := hl u hut ⟨hg u r hr hu, hc, ha⟩ r hr
        rw [this] at hu; cases hu

theorem dirv_snoc (S : Tx → Bool) (L : List Rec) (r : Rec) : dirv S (L ++ [r]) = dirStep S (dirv S L) r := by
  simp [dirv]

theorem openL_snoc (L : List Rec) (r : Rec) (f : File) : openL (L ++ [r]) f = openStep f (openL L f) r := by
  simp [openL]

theorem rowsOf_append (L L' : List Rec) (f : File) : rowsOf (L ++ L') f = rowsOf L f ++ rowsOf L' f := by
  simp [rowsOf]

theorem Live.not_end {L t} (h : Live L t) : Rec.commit t ∉ L ∧ Rec.abort t ∉ L := h.2

/-- What a good log says about the directory. -/
structure Dir (L : List Rec) : Prop where
  begun : ∀ u d r, r ∈ L → touches u d r = true → Rec.begin u ∈ L
  creator : ∀ t d t' d' f, Rec.create t d f ∈ L → Rec.create t' d' f ∈ L → t = t'
  removed : ∀ t d f, Rec.remove t d f ∈ L → Created L f
  dirA : ∀ S, Sees L S → ∀ d f, dirv S L d = some f →
    (∃ c d0, Rec.create c d0 f ∈ L ∧ S c = true) ∧ ∀ t d', Rec.remove t d' f ∈ L → S t = false
  dirB : ∀ S, Sees L S → ∀ c d0 f, Rec.create c d0 f ∈ L → S c = true → (∀ t d', Rec.remove t d' f ∈ L → S t = false) →
    ∃ d, dirv S L d = some f
  dirC : ∀ S, Sees L S → ∀ d d' f, dirv S L d = some f → dirv S L d' = some f → d = d'
  remOne : ∀ S, Sees L S → ∀ t d t' d' f, Rec.remove t d f ∈ L → Rec.remove t' d' f ∈ L → S t = true → S t' = true → t = t'
  remCreated : ∀ S, Sees L S → ∀ t d c d' f, Rec.remove t d f ∈ L → Rec.create c d' f ∈ L → S t = true → S c = true

theorem begun_snoc {L : List Rec} (h : ∀ u d r, r ∈ L → touches u d r = true → Rec.begin u ∈ L) {r : Rec}
    (hr : ∀ u d, touches u d r = true → Rec.begin u ∈ L) :
    ∀ u d r', r' ∈ L ++ [r] → touches u d r' = true → Rec.begin u ∈ L ++ [r] := by
  intro u d r' hr' hu
  rcases List.mem_append.mp hr' with h' | h'
  · exact List.mem_append_left _ (h u d r' h' hu)
  · simp only [List.mem_singleton] at h'; subst h'
    exact List.mem_append_left _ (hr u d hu)

theorem sees_only {L t} (hl : Live L t) (hF : ∀ t, Rec.commit t ∈ L → Rec.abort t ∉ L) :
    Sees L (fun u => isCom L u || u = t) := by
  refine ⟨fun u hu => by simp [isCom, hu], fun u hu => ?_⟩
  have : u ≠ t := fun e => hl.2.2 (e ▸ hu)
  have h2 : Rec.commit u ∉ L := fun h => hF u h hu
  simp [isCom, this, h2]

/-- A record that has nothing to do with the directory. -/
def neutral : Rec → Bool
  | .create .. => false
  | .remove .. => false
  | .rename .. => false
  | .frename .. => false
  | _ => true

theorem Dir.neutral {L r} (h : Dir L) (hr : neutral r = true) : Dir (L ++ [r]) := by
  have hc : ∀ t d f, Rec.create t d f ∈ L ++ [r] ↔ Rec.create t d f ∈ L := by
    intro t d f; cases r <;> simp_all [Files.neutral]
  have hm : ∀ t d f, Rec.remove t d f ∈ L ++ [r] ↔ Rec.remove t d f ∈ L := by
    intro t d f; cases r <;> simp_all [Files.neutral]
  have hd : ∀ S, dirv S (L ++ [r]) = dirv S L := by
    intro S; rw [dirv_snoc]; cases r <;> first | rfl | (simp [Files.neutral] at hr)
  refine ⟨begun_snoc h.begun fun u d hu => ?_, ?_, ?_, ?_, ?_, ?_, ?_, ?_⟩
  · cases r <;> simp_all [Files.neutral, touches]
  · intro t d t' d' f; rw [hc, hc]; exact h.creator t d t' d' f
  · intro t d f; rw [hm]; intro h'
    obtain ⟨c, e, hce⟩ := h.removed t d f h'
    exact ⟨c, e, (hc _ _ _).mpr hce⟩
  · intro S hs d f; rw [hd]; simp only [hc, hm]; exact h.dirA S hs.pre d f
  · intro S hs c d f; rw [hd]; simp only [hc, hm]; exact h.dirB S hs.pre c d f
  · intro S hs d d' f; rw [hd]; exact h.dirC S hs.pre d d' f
  · intro S hs t d t' d' f; rw [hm, hm]; exact h.remOne S hs.pre t d t' d' f
  · intro S hs t d c d' f; rw [hm, hc]; exact h.remCreated S hs.pre t d c d' f

theorem Dir.create {L t d f} (h : Dir L) (hl : Live L t) (hf : LockFree L t d) (hv : view L t d = none)
    (hn : ¬ Created L f) : Dir (L ++ [.create t d f]) := by
  have hc : ∀ t' d' f', Rec.create t' d' f' ∈ L ++ [.create t d f] ↔ Rec.create t' d' f' ∈ L ∨ (t' = t ∧ d' = d ∧ f' = f) := by
    intro t' d' f'; simp
  have hm : ∀ t' d' f', Rec.remove t' d' f' ∈ L ++ [.create t d f] ↔ Rec.remove t' d' f' ∈ L := by
    intro t' d' f'; simp
  have hd : ∀ S, dirv S (L ++ [.create t d f]) = if S t then fun x => if x = d then some f else dirv S L x else dirv S L := by
    intro S; rw [dirv_snoc]; rfl
  have hfr : ∀ t' d', Rec.remove t' d' f ∉ L := fun t' d' h' => hn (h.removed _ _ _ h')
  have hfc : ∀ t' d', Rec.create t' d' f ∉ L := fun t' d' h' => hn ⟨_, _, h'⟩
  refine ⟨begun_snoc h.begun fun u e hu => ?_, ?_, ?_, ?_, ?_, ?_, ?_, ?_⟩
  · simp [touches] at hu; rw [← hu.1]; exact hl.1
  · intro t1 d1 t2 d2 g; rw [hc, hc]
    rintro (h1 | ⟨h1, h1', h1''⟩) (h2 | ⟨h2, h2', h2''⟩)
    · exact h.creator _ _ _ _ _ h1 h2
    · subst h2''; exact absurd h1 (hfc _ _)
    · subst h1''; exact absurd h2 (hfc _ _)
    · rw [h1, h2]
  · intro t' d' g; rw [hm]; intro h'
    obtain ⟨c, e, hce⟩ := h.removed _ _ _ h'
    exact ⟨c, e, (hc _ _ _).mpr (Or.inl hce)⟩
  · intro S hs e g; rw [hd]; simp only [hc, hm]
    intro hg
    by_cases hS : S t = true
    · rw [if_pos hS] at hg
      by_cases he : e = d
      · rw [if_pos he] at hg; injection hg with hg; subst hg
        exact ⟨⟨t, d, Or.inr ⟨rfl, rfl, rfl⟩, hS⟩, fun t' d' h' => absurd h' (hfr _ _)⟩
      · rw [if_neg he] at hg
        obtain ⟨⟨c, d0, h1, h2⟩, h3⟩ := h.dirA S hs.pre e g hg
        exact ⟨⟨c, d0, Or.inl h1, h2⟩, h3⟩
    · rw [if_neg hS] at hg
      obtain ⟨⟨c, d0, h1, h2⟩, h3⟩ := h.dirA S hs.pre e g hg
      exact ⟨⟨c, d0, Or.inl h1, h2⟩, h3⟩
  · intro S hs c d0 g; rw [hd]; simp only [hc, hm]
    rintro (h1 | ⟨h1, h1', h1''⟩) h2 h3
    · obtain ⟨e, he⟩ := h.dirB S hs.pre c d0 g h1 h2 h3
      refine ⟨e, ?_⟩
      by_cases hS : S t = true
      · rw [if_pos hS]
        have : e ≠ d := by
          intro h'; rw [h', view_eq (fun u r => h.begun u d r) hf hs.pre hS, hv] at he; cases he
        rw [if_neg this]; exact he
      · rw [if_neg hS]; exact he
    · subst h1; refine ⟨d, ?_⟩
      rw [if_pos h2]; rw [if_pos rfl, h1'']
  · intro S hs e e' g; rw [hd]
    by_cases hS : S t = true
    · rw [if_pos hS]
      by_cases h1 : e = d <;> by_cases h2 : e' = d
      · intro _ _; rw [h1, h2]
      · rw [if_pos h1, if_neg h2]; intro hg hg'; injection hg with hg; subst hg
        obtain ⟨⟨c, d0, h3, _⟩, _⟩ := h.dirA S hs.pre e' _ hg'
        exact absurd h3 (hfc _ _)
      · rw [if_neg h1, if_pos h2]; intro hg' hg; injection hg with hg; subst hg
        obtain ⟨⟨c, d0, h3, _⟩, _⟩ := h.dirA S hs.pre e _ hg'
        exact absurd h3 (hfc _ _)
      · rw [if_neg h1, if_neg h2]; exact h.dirC S hs.pre e e' g
    · rw [if_neg hS]; exact h.dirC S hs.pre e e' g
  · intro S hs t1 d1 t2 d2 g; rw [hm, hm]; exact h.remOne S hs.pre t1 d1 t2 d2 g
  · intro S hs t1 d1 c d2 g; rw [hm, hc]
    rintro h1 (h2 | ⟨h2, h2', h2''⟩) h3
    · exact h.remCreated S hs.pre t1 d1 c d2 g h1 h2 h3
    · subst h2''; exact absurd h1 (hfr _ _)

theorem Dir.remove {L t d f} (h : Dir L) (hl : Live L t) (hf : LockFree L t d) (hv : view L t d = some f)
    (ho : ∀ t, Rec.commit t ∈ L → Rec.abort t ∉ L) : Dir (L ++ [.remove t d f]) := by
  have hc : ∀ t' d' f', Rec.create t' d' f' ∈ L ++ [.remove t d f] ↔ Rec.create t' d' f' ∈ L := by
    intro t' d' f'; simp
  have hm : ∀ t' d' f', Rec.remove t' d' f' ∈ L ++ [.remove t d f] ↔ Rec.remove t' d' f' ∈ L ∨ (t' = t ∧ d' = d ∧ f' = f) := by
    intro t' d' f'; simp
  have hd : ∀ S, dirv S (L ++ [.remove t d f]) = if S t then fun x => if x = d then none else dirv S L x else dirv S L := by
    intro S; rw [dirv_snoc]; rfl
  have hvs : ∀ S, Sees L S → S t = true → dirv S L d = some f := by
    intro S hs hS; rw [view_eq (fun u r => h.begun u d r) hf hs hS, hv]
  have hA := fun S hs hS => h.dirA S hs d f (hvs S hs hS)
  refine ⟨begun_snoc h.begun fun u e hu => ?_, ?_, ?_, ?_, ?_, ?_, ?_, ?_⟩
  · simp [touches] at hu; rw [← hu.1]; exact hl.1
  · intro t1 d1 t2 d2 g; rw [hc, hc]; exact h.creator t1 d1 t2 d2 g
  · intro t' d' g; rw [hm]
    have hcr : Created L g → Created (L ++ [.remove t d f]) g := fun ⟨c, e, hce⟩ => ⟨c, e, (hc _ _ _).mpr hce⟩
    rintro (h' | ⟨_, _, h'⟩)
    · exact hcr (h.removed _ _ _ h')
    · subst h'
      obtain ⟨⟨c, e, hce, _⟩, _⟩ := hA _ (sees_only hl ho) (by simp)
      exact hcr ⟨c, e, hce⟩
  · intro S hs e g; rw [hd]; simp only [hc, hm]
    intro hg
    by_cases hS : S t = true
    · rw [if_pos hS] at hg
      by_cases he : e = d
      · rw [if_pos he] at hg; cases hg
      · rw [if_neg he] at hg
        obtain ⟨h1, h3⟩ := h.dirA S hs.pre e g hg
        refine ⟨h1, ?_⟩
        rintro t' d' (h' | ⟨_, _, h'⟩)
        · exact h3 _ _ h'
        · subst h'; exact absurd (h.dirC S hs.pre _ _ _ hg (hvs S hs.pre hS)) he
    · rw [if_neg hS] at hg
      obtain ⟨h1, h3⟩ := h.dirA S hs.pre e g hg
      refine ⟨h1, ?_⟩
      rintro t' d' (h' | ⟨h', _, _⟩)
      · exact h3 _ _ h'
      · subst h'; simpa using hS
  · intro S hs c d0 g; rw [hd]; simp only [hc, hm]
    intro h1 h2 h3
    obtain ⟨e, he⟩ := h.dirB S hs.pre c d0 g h1 h2 fun t' d' h' => h3 t' d' (Or.inl h')
    refine ⟨e, ?_⟩
    by_cases hS : S t = true
    · rw [if_pos hS]
      have : e ≠ d := by
        intro h'; rw [h', hvs S hs.pre hS] at he; injection he with he
        have := h3 t d (Or.inr ⟨rfl, rfl, he.symm⟩)
        rw [this] at hS; cases hS
      rw [if_neg this]; exact he
    · rw [if_neg hS]; exact he
  · intro S hs e e' g; rw [hd]
    by_cases hS : S t = true
    · rw [if_pos hS]
      by_cases h1 : e = d <;> by_cases h2 : e' = d
      · intro _ _; rw [h1, h2]
      · rw [if_pos h1]; intro hg; cases hg
      · rw [if_pos h2]; intro _ hg; cases hg
      · rw [if_neg h1, if_neg h2]; exact h.dirC S hs.pre e e' g
    · rw [if_neg hS]; exact h.dirC S hs.pre e e' g
  · intro S hs t1 d1 t2 d2 g; rw [hm, hm]
    rintro (h1 | ⟨h1, _, h1'⟩) (h2 | ⟨h2, _, h2'⟩) h3 h4
    · exact h.remOne S hs.pre _ _ _ _ _ h1 h2 h3 h4
    · subst h2; subst h2'; have := (hA S hs.pre h4).2 _ _ h1; rw [this] at h3; cases h3
    · subst h1; subst h1'; have := (hA S hs.pre h3).2 _ _ h2; rw [this] at h4; cases h4
    · rw [h1, h2]
  · intro S hs t1 d1 c d2 g; rw [hm, hc]
    rintro (h1 | ⟨h1, _, h1'⟩) h2 h3
    · exact h.remCreated S hs.pre _ _ _ _ _ h1 h2 h3
    · subst h1; subst h1'
      obtain ⟨⟨c', d', h4, h5⟩, _⟩ := hA S hs.pre h3
      rw [h.creator _ _ _ _ _ h2 h4]; exact h5

theorem Dir.rename {L t d d' f} (h : Dir L) (hl : Live L t) (hf : LockFree L t d) (hf' : LockFree L t d')
    (hv : view L t d = some f) (hv' : view L t d' = none) : Dir (L ++ [.rename t d d' f]) := by
  have hc : ∀ t1 d1 f1, Rec.create t1 d1 f1 ∈ L ++ [.rename t d d' f] ↔ Rec.create t1 d1 f1 ∈ L := by
    intro t1 d1 f1; simp
  have hm : ∀ t1 d1 f1, Rec.remove t1 d1 f1 ∈ L ++ [.rename t d d' f] ↔ Rec.remove t1 d1 f1 ∈ L := by
    intro t1 d1 f1; simp
  have hd : ∀ S, dirv S (L ++ [.rename t d d' f]) =
      if S t then fun x => if x = d' then some f else if x = d then none else dirv S L x else dirv S L := by
    intro S; rw [dirv_snoc]; rfl
  have hvs : ∀ S, Sees L S → S t = true → dirv S L d = some f := by
    intro S hs hS; rw [view_eq (fun u r => h.begun u d r) hf hs hS, hv]
  have hvs' : ∀ S, Sees L S → S t = true → dirv S L d' = none := by
    intro S hs hS; rw [view_eq (fun u r => h.begun u d' r) hf' hs hS, hv']
  refine ⟨begun_snoc h.begun fun u e hu => ?_, ?_, ?_, ?_, ?_, ?_, ?_, ?_⟩
  · simp [touches] at hu; rw [← hu.1]; exact hl.1
  · intro t1 d1 t2 d2 g; rw [hc, hc]; exact h.creator t1 d1 t2 d2 g
  · intro t1 d1 g; rw [hm]; intro h1
    obtain ⟨c, e, hce⟩ := h.removed _ _ _ h1
    exact ⟨c, e, (hc _ _ _).mpr hce⟩
  · intro S hs e g; rw [hd]; simp only [hc, hm]
    intro hg
    by_cases hS : S t = true
    · rw [if_pos hS] at hg
      by_cases he : e = d'
      · rw [if_pos he] at hg; injection hg with hg; subst hg; exact h.dirA S hs.pre d _ (hvs S hs.pre hS)
      · rw [if_neg he] at hg
        by_cases he' : e = d
        · rw [if_pos he'] at hg; cases hg
        · rw [if_neg he'] at hg; exact h.dirA S hs.pre e g hg
    · rw [if_neg hS] at hg; exact h.dirA S hs.pre e g hg
  · intro S hs c d0 g; rw [hd]; simp only [hc, hm]
    intro h1 h2 h3
    obtain ⟨e, he⟩ := h.dirB S hs.pre c d0 g h1 h2 h3
    by_cases hS : S t = true
    · rw [if_pos hS]
      by_cases h4 : e = d
      · rw [h4, hvs S hs.pre hS] at he
        exact ⟨d', by rw [if_pos rfl, he]⟩
      · have : e ≠ d' := by intro h'; rw [h', hvs' S hs.pre hS] at he; cases he
        exact ⟨e, by rw [if_neg this, if_neg h4, he]⟩
    · rw [if_neg hS]; exact ⟨e, he⟩
  · intro S hs e e' g; rw [hd]
    by_cases hS : S t = true
    · rw [if_pos hS]
      by_cases h1 : e = d' <;> by_cases h2 : e' = d'
      · intro _ _; rw [h1, h2]
      · rw [if_pos h1, if_neg h2]; intro hg hg'; injection hg with hg; subst hg
        by_cases h3 : e' = d
        · rw [if_pos h3] at hg'; cases hg'
        · rw [if_neg h3] at hg'; exact absurd (h.dirC S hs.pre _ _ _ hg' (hvs S hs.pre hS)) h3
      · rw [if_neg h1, if_pos h2]; intro hg' hg; injection hg with hg; subst hg
        by_cases h3 : e = d
        · rw [if_pos h3] at hg'; cases hg'
        · rw [if_neg h3] at hg'; exact absurd (h.dirC S hs.pre _ _ _ hg' (hvs S hs.pre hS)) h3
      · rw [if_neg h1, if_neg h2]
        by_cases h3 : e = d <;> by_cases h4 : e' = d
        · intro _ _; rw [h3, h4]
        · rw [if_pos h3]; intro hg; cases hg
        · rw [if_pos h4]; intro _ hg; cases hg
        · rw [if_neg h3, if_neg h4]; exact h.dirC S hs.pre e e' g
    · rw [if_neg hS]; exact h.dirC S hs.pre e e' g
  · intro S hs t1 d1 t2 d2 g; rw [hm, hm]; exact h.remOne S hs.pre t1 d1 t2 d2 g
  · intro S hs t1 d1 c d2 g; rw [hm, hc]; exact h.remCreated S hs.pre t1 d1 c d2 g

/-- What a good log is like. -/
structure Facts (L : List Rec) : Prop where
  dir : Dir L
  once : ∀ t, Rec.commit t ∈ L → Rec.abort t ∉ L
  ended : ∀ t, Rec.commit t ∈ L ∨ Rec.abort t ∈ L → Rec.begin t ∈ L
  put : ∀ t f v, Rec.put t f v ∈ L → Created L f
  opened : ∀ f, openL L f = true → Created L f
  held : ∀ t d f, (Rec.create t d f ∈ L ∨ Rec.remove t d f ∈ L) → Live L t → openL L f = true

theorem Created.snoc {L f r} (h : Created L f) : Created (L ++ [r]) f := by
  obtain ⟨t, d, h⟩ := h; exact ⟨t, d, List.mem_append_left _ h⟩

theorem Live.pre {L r t} (h : Live (L ++ [r]) t) (hr : r ≠ .begin t) : Live L t := by
  obtain ⟨h1, h2, h3⟩ := h
  refine ⟨?_, fun h => h2 (List.mem_append_left _ h), fun h => h3 (List.mem_append_left _ h)⟩
  rcases List.mem_append.mp h1 with h | h
  · exact h
  · simp only [List.mem_singleton] at h; exact absurd h.symm hr

/-- What one sees in the directory was created, and neither was that aborted nor a removal of it committed. -/
theorem Facts.seen {L} (h : Facts L) {t d f} (hl : Live L t) (hv : view L t d = some f) : Created L f ∧ ¬ Doomed L f := by
  have hs := sees_only hl h.once
  obtain ⟨⟨c, d0, h1, h2⟩, h3⟩ := h.dir.dirA _ hs d f hv
  refine ⟨⟨c, d0, h1⟩, ?_⟩
  rintro (⟨c', d', h4, h5⟩ | ⟨t', d', h4, h5⟩)
  · have := hs.2 _ h5
    dsimp only at this
    rw [h.dir.creator _ _ _ _ _ h4 h1, h2] at this; cases this
  · have := hs.1 _ h5
    dsimp only at this
    rw [h3 _ _ h4] at this; cases this

theorem Good.facts {L} (hg : Good L) : Facts L := by
  induction hg with
  | nil =>
    constructor
    · constructor <;> simp [dirv]
    all_goals simp [openL]
  | snoc L r hg ho ih =>
    have hdir : Dir (L ++ [r]) := by
      cases r with
      | create t d f => exact ih.dir.create ho.1 ho.2.1 ho.2.2.1 ho.2.2.2
      | remove t d f => exact ih.dir.remove ho.1 ho.2.1 ho.2.2.1 ih.once
      | rename t d d' i => exact ih.dir.rename ho.1 ho.2.1 ho.2.2.1 ho.2.2.2.1 ho.2.2.2.2
      | frename => exact ho.elim
      | _ => exact ih.dir.neutral rfl
    refine ⟨hdir, ?_, ?_, ?_, ?_, ?_⟩
    · intro t h1 h2
      rcases List.mem_append.mp h1 with h1' | h1' <;> rcases List.mem_append.mp h2 with h2' | h2'
      · exact ih.once t h1' h2'
      · simp only [List.mem_singleton] at h2'; subst h2'; exact ho.2.1 h1'
      · simp only [List.mem_singleton] at h1'; subst h1'; exact ho.2.2 h2'
      · simp only [List.mem_singleton] at h1' h2'; rw [← h1'] at h2'; cases h2'
    · intro t h
      refine List.mem_append_left _ ?_
      rcases h with h | h <;> rcases List.mem_append.mp h with h | h
      · exact ih.ended t (Or.inl h)
      · simp only [List.mem_singleton] at h; subst h; exact ho.1
      · exact ih.ended t (Or.inr h)
      · simp only [List.mem_singleton] at h; subst h; exact ho.1
    · intro t f v h
      rcases List.mem_append.mp h with h | h
      · exact (ih.put t f v h).snoc
      · simp only [List.mem_singleton] at h; subst h
        exact (ih.opened f ho.2.2).snoc
    · intro f h
      rw [openL_snoc] at h
      cases r with
      | create t d g =>
        simp only [openStep] at h
        by_cases hg : g = f
        · subst hg; exact ⟨t, d, by simp⟩
        · rw [if_neg hg] at h; exact (ih.opened f h).snoc
      | fopen g i =>
        simp only [openStep] at h
        by_cases hg : g = f
        · subst hg; obtain ⟨_, _, t, d, h1, _, h2⟩ := ho
          exact (ih.seen h1 h2).1.snoc
        · rw [if_neg hg] at h; exact (ih.opened f h).snoc
      | fclose g i =>
        simp only [openStep] at h
        by_cases hg : g = f
        · rw [if_pos hg] at h; cases h
        · rw [if_neg hg] at h; exact (ih.opened f h).snoc
      | _ => exact (ih.opened f h).snoc
    · intro t d f h hl
      rw [openL_snoc]
      by_cases hb : r = .begin t
      · subst hb
        have : Rec.begin t ∈ L := by
          rcases h with h | h <;> simp at h
          · exact ih.dir.begun t d _ h (by simp [touches])
          · exact ih.dir.begun t d _ h (by simp [touches])
        exact absurd this ho
      · have hl' := hl.pre hb
        have hold : (Rec.create t d f ∈ L ∨ Rec.remove t d f ∈ L) → openL L f = true := fun h => ih.held t d f h hl'
        cases r with
        | create t' d' g =>
          simp only [openStep]; split
          · rfl
          · rename_i hne
            refine hold ?_
            rcases h with h | h <;> simp at h
            · rcases h with h | h
              · exact Or.inl h
              · exact absurd h.2.2.symm hne
            · exact Or.inr h
        | remove t' d' g =>
          simp only [openStep]
          rcases h with h | h <;> simp at h
          · exact hold (Or.inl h)
          · rcases h with h | h
            · exact hold (Or.inr h)
            · rw [h.2.2]; exact ho.2.2.2
        | fopen g i =>
          simp only [openStep]; split
          · rfl
          · simp at h; exact hold h
        | fclose g i =>
          simp at h
          simp only [openStep]; split
          · rename_i he; subst he
            refine absurd ⟨t, hl', ?_⟩ ho.2.2
            rcases h with h | h
            · exact ⟨_, h, by simp [holds]⟩
            · exact ⟨_, h, by simp [holds]⟩
          · exact hold h
        | _ => simp at h; exact hold h

end Verif.Files
