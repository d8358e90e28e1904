import Verif.Files.Lemmas

/-! The disk while running, without renamed files. -/
namespace Verif.Files

def isRem (t : Tx) (f : File) : Rec → Bool
  | .remove u _ g => u = t && g = f
  | _ => false

def isCre (t : Tx) (f : File) : Rec → Bool
  | .create u _ g => u = t && g = f
  | _ => false

def isFren : Rec → Bool
  | .frename .. => true
  | _ => false

/-- No file is removed twice by the same transaction, or created twice. -/
def Apart (a b : Rec) : Prop := ∀ t f, (isRem t f a && isRem t f b) = false ∧ (isCre t f a && isCre t f b) = false

theorem isRem_iff {t f} {L : List Rec} : L.any (isRem t f) = true ↔ ∃ d, Rec.remove t d f ∈ L := by
  rw [List.any_eq_true]
  constructor
  · rintro ⟨r, hr, h⟩
    cases r <;> simp [isRem] at h
    rename_i u d g; obtain ⟨rfl, rfl⟩ := h; exact ⟨d, hr⟩
  · rintro ⟨d, h⟩; exact ⟨_, h, by simp [isRem]⟩

theorem isCre_iff {t f} {L : List Rec} : L.any (isCre t f) = true ↔ ∃ d, Rec.create t d f ∈ L := by
  rw [List.any_eq_true]
  constructor
  · rintro ⟨r, hr, h⟩
    cases r <;> simp [isCre] at h
    rename_i u d g; obtain ⟨rfl, rfl⟩ := h; exact ⟨d, hr⟩
  · rintro ⟨d, h⟩; exact ⟨_, h, by simp [isCre]⟩

theorem Good.apart {L} (h : Good L) : L.Pairwise Apart := by
  induction h with
  | nil => exact .nil
  | snoc L r h ho ih =>
    rw [List.pairwise_append]
    refine ⟨ih, List.pairwise_singleton _ _, ?_⟩
    intro a ha b hb t f
    simp only [List.mem_singleton] at hb; subst hb
    constructor
    · cases b <;> simp [isRem]
      rename_i u d g
      rintro h1 rfl
      cases a <;> simp [isRem] at h1
      rename_i u' d' g'; obtain ⟨rfl, rfl⟩ := h1
      obtain ⟨hl, hf, hv, _⟩ := ho
      intro hu; subst hu
      have := (h.facts.dir.dirA _ (sees_only hl h.facts.once) _ _ hv).2 _ _ ha
      simp at this
    · cases b <;> simp [isCre]
      rename_i u d g
      rintro h1 rfl
      cases a <;> simp [isCre] at h1
      rename_i u' d' g'; obtain ⟨rfl, rfl⟩ := h1
      intro hu; subst hu
      exact ho.2.2.2 ⟨_, _, ha⟩

theorem Good.noFren {L} (h : Good L) : ∀ r ∈ L, isFren r = false := by
  induction h with
  | nil => simp
  | snoc L r h ho ih =>
    intro a ha
    rcases List.mem_append.mp ha with ha | ha
    · exact ih a ha
    · simp only [List.mem_singleton] at ha; subst ha
      cases a <;> first | rfl | exact ho.elim

/-- What a commit does to the open files. -/
theorem commitAll_spec (t : Tx) (L : List Rec) (k : Disk) (hp : L.Pairwise Apart)
    (hn : ∀ f o, L.any (isRem t f) = true → k.opn f = some o → o.doom = false) :
    ∃ k', commitAll t L k = some k' ∧ k'.fs = k.fs ∧
      ∀ f, k'.opn f = (k.opn f).map fun o => if L.any (isRem t f) then { o with doom := true } else o := by
  induction L with
  | nil => exact ⟨k, rfl, rfl, fun f => by simp⟩
  | cons r L ih =>
    obtain ⟨hp1, hp2⟩ := List.pairwise_cons.mp hp
    obtain ⟨k1, hk1, hfs, hop⟩ := ih hp2 fun f o hf ho => hn f o (by simp [hf]) ho
    by_cases hr : ∃ d f, r = .remove t d f
    · obtain ⟨d, f, rfl⟩ := hr
      have hf : L.any (isRem t f) = false := by
        rw [List.any_eq_false]
        intro b hb hb'
        have := (hp1 b hb t f).1
        rw [hb'] at this; simp [isRem] at this
      simp only [commitAll, if_pos, hk1, Option.bind_some, doom]
      have hopf := hop f
      rw [hf] at hopf
      rcases ho : k.opn f with _ | o
      · rw [ho] at hopf; simp only [Option.map_none] at hopf
        simp only [hopf]
        refine ⟨k1, rfl, hfs, fun g => ?_⟩
        by_cases hg : f = g
        · subst hg; simp [hopf, ho]
        · simp [hop g, isRem, hg]
      · rw [ho] at hopf; simp at hopf
        have hd := hn f o (by simp [isRem]) ho
        simp only [hopf, hd, Bool.false_eq_true, if_false]
        refine ⟨_, rfl, hfs, fun g => ?_⟩
        by_cases hg : f = g
        · subst hg; simp [upd, ho, isRem]
        · simp [upd, hop g, isRem, hg, Ne.symm hg]
    · have hr' : ∀ f, isRem t f r = false := by
        intro f; cases r <;> simp [isRem]
        rintro rfl rfl; exact hr ⟨_, _, rfl⟩
      have : commitAll t (r :: L) k = commitAll t L k := by
        cases r <;> simp [commitAll]
        rintro rfl; exact absurd ⟨_, _, rfl⟩ hr
      rw [this]
      refine ⟨k1, hk1, hfs, fun f => ?_⟩
      rw [hop f]; simp [hr']

/-- What an abort does to the open files. -/
theorem abortAll_spec (t : Tx) (L : List Rec) (k : Disk) (hp : L.Pairwise Apart) (hx : ∀ r ∈ L, isFren r = false)
    (hn : ∀ f o, L.any (isCre t f) = true → k.opn f = some o → o.doom = false) :
    ∃ k', abortAll t L k = some k' ∧ k'.fs = k.fs ∧
      ∀ f, k'.opn f = (k.opn f).map fun o => if L.any (isCre t f) then { o with doom := true, skip := true } else o := by
  induction L with
  | nil => exact ⟨k, rfl, rfl, fun f => by simp⟩
  | cons r L ih =>
    obtain ⟨hp1, hp2⟩ := List.pairwise_cons.mp hp
    obtain ⟨k1, hk1, hfs, hop⟩ := ih hp2 (fun r hr => hx r (List.mem_cons_of_mem _ hr)) fun f o hf ho => hn f o (by simp [hf]) ho
    by_cases hr : ∃ d f, r = .create t d f
    · obtain ⟨d, f, rfl⟩ := hr
      have hf : L.any (isCre t f) = false := by
        rw [List.any_eq_false]
        intro b hb hb'
        have := (hp1 b hb t f).2
        rw [hb'] at this; simp [isCre] at this
      simp only [abortAll, if_pos, hk1, Option.bind_some, doom]
      have hopf := hop f
      rw [hf] at hopf
      rcases ho : k.opn f with _ | o
      · rw [ho] at hopf; simp only [Option.map_none] at hopf
        simp only [hopf]
        refine ⟨k1, rfl, hfs, fun g => ?_⟩
        by_cases hg : f = g
        · subst hg; simp [hopf, ho]
        · simp [hop g, isCre, hg]
      · rw [ho] at hopf; simp at hopf
        have hd := hn f o (by simp [isCre]) ho
        simp only [hopf, hd, Bool.false_eq_true, if_false]
        refine ⟨_, rfl, hfs, fun g => ?_⟩
        by_cases hg : f = g
        · subst hg; simp [upd, ho, isCre]
        · simp [upd, hop g, isCre, hg, Ne.symm hg]
    · have hr' : ∀ f, isCre t f r = false := by
        intro f; cases r <;> simp [isCre]
        rintro rfl rfl; exact hr ⟨_, _, rfl⟩
      have : abortAll t (r :: L) k = abortAll t L k := by
        have := hx r List.mem_cons_self
        cases r <;> simp [abortAll] <;> simp [isFren] at this
        rintro rfl; exact absurd ⟨_, _, rfl⟩ hr
      rw [this]
      refine ⟨k1, hk1, hfs, fun f => ?_⟩
      rw [hop f]; simp [hr']

/-- A live transaction's removals are of files not doomed. -/
theorem Facts.remFresh {L} (h : Facts L) {t d f} (hl : Live L t) (hr : Rec.remove t d f ∈ L) : ¬ Doomed L f := by
  have hs := sees_only hl h.once
  rintro (⟨c, d', h1, h2⟩ | ⟨t', d', h1, h2⟩)
  · have h3 := h.dir.remCreated _ hs _ _ _ _ _ hr h1 (by simp)
    have h4 := hs.2 _ h2
    dsimp only at h3 h4; rw [h3] at h4; cases h4
  · have := h.dir.remOne _ hs _ _ _ _ _ h1 hr (hs.1 _ h2) (by simp)
    subst this; exact hl.2.1 h2

theorem Facts.creFresh {L} (h : Facts L) {t d f} (hl : Live L t) (hr : Rec.create t d f ∈ L) : ¬ Doomed L f := by
  rintro (⟨c, d', h1, h2⟩ | ⟨t', d', h1, h2⟩)
  · have := h.dir.creator _ _ _ _ _ hr h1
    subst this; exact hl.2.2 h2
  · have hs : Sees L (isCom L) :=
      ⟨fun u hu => by simp [isCom, hu], fun u hu => by simp [isCom]; exact fun hc => h.once u hc hu⟩
    have h3 := h.dir.remCreated _ hs _ _ _ _ _ h1 hr (hs.1 _ h2)
    simp [isCom] at h3; exact hl.2.1 h3

theorem Doomed.created {L f} (h : Facts L) (hd : Doomed L f) : Created L f := by
  rcases hd with ⟨c, d', h1, _⟩ | ⟨t', d', h1, _⟩
  · exact ⟨_, _, h1⟩
  · exact h.dir.removed _ _ _ h1

theorem doomed_commit {L t f} (hF : Facts L) (hl : Live L t) :
    Doomed (L ++ [.commit t]) f ↔ Doomed L f ∨ L.any (isRem t f) = true := by
  rw [isRem_iff]; unfold Doomed
  constructor
  · rintro (⟨c, d, h1, h2⟩ | ⟨u, d, h1, h2⟩)
    · simp at h1 h2; exact Or.inl (Or.inl ⟨c, d, h1, h2⟩)
    · simp at h1 h2
      rcases h2 with h2 | rfl
      · exact Or.inl (Or.inr ⟨u, d, h1, h2⟩)
      · exact Or.inr ⟨d, h1⟩
  · rintro ((⟨c, d, h1, h2⟩ | ⟨u, d, h1, h2⟩) | ⟨d, h1⟩)
    · exact Or.inl ⟨c, d, by simp [h1], by simp [h2]⟩
    · exact Or.inr ⟨u, d, by simp [h1], by simp [h2]⟩
    · exact Or.inr ⟨t, d, by simp [h1], by simp⟩

theorem doomed_abort {L t f} (hF : Facts L) (hl : Live L t) :
    Doomed (L ++ [.abort t]) f ↔ Doomed L f ∨ L.any (isCre t f) = true := by
  rw [isCre_iff]; unfold Doomed
  constructor
  · rintro (⟨c, d, h1, h2⟩ | ⟨u, d, h1, h2⟩)
    · simp at h1 h2
      rcases h2 with h2 | rfl
      · exact Or.inl (Or.inl ⟨c, d, h1, h2⟩)
      · exact Or.inr ⟨d, h1⟩
    · simp at h1 h2; exact Or.inl (Or.inr ⟨u, d, h1, h2⟩)
  · rintro ((⟨c, d, h1, h2⟩ | ⟨u, d, h1, h2⟩) | ⟨d, h1⟩)
    · exact Or.inl ⟨c, d, by simp [h1], by simp [h2]⟩
    · exact Or.inr ⟨u, d, by simp [h1], by simp [h2]⟩
    · exact Or.inl ⟨t, d, by simp [h1], by simp⟩

/-- Records that neither end a transaction nor create a file change nothing about who is doomed. -/
theorem doomed_keep {L r f} (hF : Facts L) (hg : ok L r) (hr : match r with | .commit _ => False | .abort _ => False | _ => True) :
    Doomed (L ++ [r]) f ↔ Doomed L f := by
  unfold Doomed
  constructor
  · rintro (⟨c, d, h1, h2⟩ | ⟨u, d, h1, h2⟩)
    · have h2' : Rec.abort c ∈ L := by cases r <;> simp_all
      rcases List.mem_append.mp h1 with h1 | h1
      · exact Or.inl ⟨c, d, h1, h2'⟩
      · simp only [List.mem_singleton] at h1; subst h1; exact absurd h2' hg.1.2.2
    · have h2' : Rec.commit u ∈ L := by cases r <;> simp_all
      rcases List.mem_append.mp h1 with h1 | h1
      · exact Or.inr ⟨u, d, h1, h2'⟩
      · simp only [List.mem_singleton] at h1; subst h1; exact absurd h2' hg.1.2.1
  · rintro (⟨c, d, h1, h2⟩ | ⟨u, d, h1, h2⟩)
    · exact Or.inl ⟨c, d, by simp [h1], by simp [h2]⟩
    · exact Or.inr ⟨u, d, by simp [h1], by simp [h2]⟩

/-- At the beginning of a checkpoint: what was open, and is not listed, or doomed, is gone. -/
def Settled (L : List Rec) (p : Nat) (fs : File → Option Img) : Prop :=
  ∃ l, L[p]? = some (.assoc l) ∧ ∀ f, Created (L.take p) f → f ∉ l.map (·.1) →
    openL (L.take p) f = true ∨ Doomed (L.take p) f → fs f = none

structure WInv (w : World) : Prop where
  good : Good w.log
  len : w.ck ≤ w.synced ∧ w.synced ≤ w.log.length
  img : ∀ i m, w.disk.fs i = some m → m.id = i ∧ m.lsn ≤ w.synced ∧ m.rows = rowsOf (w.log.take m.lsn) i
  gone : ∀ i, Created w.log i → w.disk.fs i = none → (∃ t d, Rec.create t d i ∈ w.log ∧ Rec.abort t ∈ w.log) ∨
    ∃ t d, Rec.remove t d i ∈ w.log.take w.synced ∧ Rec.commit t ∈ w.log.take w.synced
  opn : ∀ f o, w.disk.opn f = some o → o.name = f ∧ openL w.log f = true ∧ (o.doom = true ↔ Doomed w.log f) ∧
    (o.skip = true → ∃ t d, Rec.create t d f ∈ w.log ∧ Rec.abort t ∈ w.log) ∧ w.disk.fs f ≠ none
  shut : ∀ f, Created w.log f → w.disk.opn f = none → (openL w.log f = true → w.disk.fs f = none) ∧
    (Doomed w.log f → w.disk.fs f = none) ∧ ∀ m, w.disk.fs f = some m → m.rows = rowsOf w.log f
  unborn : ∀ f, ¬ Created w.log f → w.disk.fs f = none ∧ w.disk.opn f = none
  ckRows : ∀ f m, w.disk.fs f = some m → m.lsn ≤ w.ck → m.rows = rowsOf (w.log.take w.ck) f
  ckSet : w.ck = 0 ∨ (w.ck < w.synced ∧ Settled w.log w.ck w.disk.fs)
  pin : ∀ p l, w.pin = some (p, l) → p < w.log.length ∧ w.ck ≤ p ∧ Settled w.log p w.disk.fs ∧ (∀ f ∈ l, w.disk.opn f ≠ none) ∧
    ∀ f m, w.disk.fs f = some m → f ∉ l → m.lsn ≤ p → m.rows = rowsOf (w.log.take p) f

theorem Settled.snoc {L p fs r} (h : Settled L p fs) : Settled (L ++ [r]) p fs := by
  obtain ⟨l, h1, h2⟩ := h
  have hp : p < L.length := by
    rcases Nat.lt_or_ge p L.length with h | h
    · exact h
    · rw [List.getElem?_eq_none h] at h1; cases h1
  refine ⟨l, by rw [List.getElem?_append_left hp]; exact h1, ?_⟩
  rw [List.take_append_of_le_length (by omega)]; exact h2

theorem Settled.fs {L p fs fs'} (h : Settled L p fs) (hf : ∀ f, Created (L.take p) f → fs f = none → fs' f = none) :
    Settled L p fs' := by
  obtain ⟨l, h1, h2⟩ := h
  exact ⟨l, h1, fun f hc hl ho => hf f hc (h2 f hc hl ho)⟩

theorem mem_take_mono {α} {L L' : List α} {n m : Nat} (hn : n ≤ m) {a} (h : a ∈ L.take n) : a ∈ (L ++ L').take m := by
  rw [List.take_append]
  refine List.mem_append_left _ ?_
  exact (List.take_prefix_take_left hn).subset h

/-- A step that appends a record and leaves the files on disk as they are. -/
theorem WInv.append {w : World} (h : WInv w) (r : Rec) (s : Nat) (opn : File → Option Open) (hg : ok w.log r)
    (hs : w.synced ≤ s ∧ s ≤ w.log.length + 1)
    (hc : ∀ f, Created (w.log ++ [r]) f ↔ Created w.log f)
    (ho : ∀ f o, opn f = some o → o.name = f ∧ openL (w.log ++ [r]) f = true ∧ (o.doom = true ↔ Doomed (w.log ++ [r]) f) ∧
      (o.skip = true → ∃ t d, Rec.create t d f ∈ w.log ++ [r] ∧ Rec.abort t ∈ w.log ++ [r]) ∧ w.disk.fs f ≠ none)
    (hshut : ∀ f, Created w.log f → opn f = none → (openL (w.log ++ [r]) f = true → w.disk.fs f = none) ∧
      (Doomed (w.log ++ [r]) f → w.disk.fs f = none) ∧ rowsOf (w.log ++ [r]) f = rowsOf w.log f ∧ w.disk.opn f = none)
    (hun : ∀ f, ¬ Created w.log f → opn f = none) :
    WInv ⟨w.log ++ [r], s, w.ck, ⟨w.disk.fs, opn⟩, w.pin⟩ := by
  have hlen := h.len
  refine ⟨Good.snoc _ _ h.good hg, ⟨by show w.ck ≤ s; omega, by simp; exact hs.2⟩, ?_, ?_, ho, ?_, ?_, ?_, ?_, ?_⟩
  · intro i m hm
    obtain ⟨h1, h2, h3⟩ := h.img i m hm
    refine ⟨h1, by show m.lsn ≤ s; omega, ?_⟩
    rw [List.take_append_of_le_length (by omega)]; exact h3
  · intro i hi hm
    rcases h.gone i ((hc i).mp hi) hm with ⟨t, d, h1, h2⟩ | ⟨t, d, h1, h2⟩
    · exact Or.inl ⟨t, d, List.mem_append_left _ h1, List.mem_append_left _ h2⟩
    · exact Or.inr ⟨t, d, mem_take_mono hs.1 h1, mem_take_mono hs.1 h2⟩
  · intro f hf hof
    obtain ⟨h1, h2, h3, h4⟩ := hshut f ((hc f).mp hf) hof
    refine ⟨h1, h2, fun m hm => ?_⟩
    show m.rows = rowsOf (w.log ++ [r]) f
    rw [h3]; exact (h.shut f ((hc f).mp hf) h4).2.2 m hm
  · intro f hf
    have := fun h' => hf ((hc f).mpr h')
    exact ⟨(h.unborn f this).1, hun f this⟩
  · intro f m hm hl
    show m.rows = rowsOf ((w.log ++ [r]).take w.ck) f
    rw [List.take_append_of_le_length (by omega)]; exact h.ckRows f m hm hl
  · rcases h.ckSet with h0 | h0
    · exact Or.inl h0
    · exact Or.inr ⟨by have := h0.1; show w.ck < s; omega, h0.2.snoc⟩
  · intro p l hp
    obtain ⟨h1, h2, h3, h4, h5⟩ := h.pin p l hp
    refine ⟨by simp; omega, h2, h3.snoc, ?_, ?_⟩
    · intro f hf hof
      have h6 := h4 f hf
      by_cases hcf : Created w.log f
      · exact h6 (hshut f hcf hof).2.2.2
      · exact h6 (h.unborn f hcf).2
    · intro f m hm hl hlp
      show m.rows = rowsOf ((w.log ++ [r]).take p) f
      rw [List.take_append_of_le_length (by omega)]; exact h5 f m hm hl hlp

end Verif.Files
