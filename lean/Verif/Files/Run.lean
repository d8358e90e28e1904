import Verif.Files.Inv

/-! The invariant is kept by every step. -/
namespace Verif.Files

theorem created_iff {L r f} (hr : ∀ t d, r ≠ Rec.create t d f) : Created (L ++ [r]) f ↔ Created L f := by
  constructor
  · rintro ⟨t, d, h⟩
    rcases List.mem_append.mp h with h | h
    · exact ⟨t, d, h⟩
    · simp only [List.mem_singleton] at h; exact absurd h.symm (hr t d)
  · exact fun h => h.snoc

theorem rowsOf_snoc {L r f} (hr : rowOf f r = none) : rowsOf (L ++ [r]) f = rowsOf L f := by
  rw [rowsOf_append]; simp [rowsOf, hr]

/-- A record that opens, closes, creates and ends nothing. -/
def still : Rec → Bool
  | .begin _ => true
  | .remove .. => true
  | .rename .. => true
  | .put .. => true
  | .assoc _ => true
  | _ => false

theorem WInv.still {w : World} (h : WInv w) (r : Rec) (hg : ok w.log r) (hr : still r = true)
    (hrow : ∀ f, w.disk.opn f = none → rowOf f r = none) : WInv ⟨w.log ++ [r], w.synced, w.ck, w.disk, w.pin⟩ := by
  have hF := h.good.facts
  have hD : ∀ f, Doomed (w.log ++ [r]) f ↔ Doomed w.log f := fun f => doomed_keep hF hg (by cases r <;> simp_all [Files.still])
  have hO : ∀ f, openL (w.log ++ [r]) f = openL w.log f := fun f => by
    rw [openL_snoc]; cases r <;> first | rfl | (simp [Files.still] at hr)
  refine h.append r w.synced w.disk.opn hg ⟨Nat.le_refl _, by have := h.len.2; omega⟩ (fun f => created_iff fun t d => ?_) ?_ ?_
    fun f hf => (h.unborn f hf).2
  · rintro rfl; simp [Files.still] at hr
  · intro f o ho
    obtain ⟨h1, h2, h3, h4, h5⟩ := h.opn f o ho
    refine ⟨h1, by rw [hO]; exact h2, by rw [hD]; exact h3, fun hs => ?_, h5⟩
    obtain ⟨t, d, h6, h7⟩ := h4 hs
    exact ⟨t, d, List.mem_append_left _ h6, List.mem_append_left _ h7⟩
  · intro f hf hof
    obtain ⟨h1, h2, h3⟩ := h.shut f hf hof
    rw [hO, hD]
    exact ⟨h1, h2, rowsOf_snoc (hrow f hof), hof⟩

theorem WInv.commit {w : World} (h : WInv w) {t k s} (hl : Live w.log t) (hk : commitAll t w.log w.disk = some k)
    (hs : w.synced ≤ s ∧ s ≤ w.log.length + 1) : WInv ⟨w.log ++ [.commit t], s, w.ck, k, w.pin⟩ := by
  have hF := h.good.facts
  obtain ⟨k', hk', hfs, hop⟩ := commitAll_spec t w.log w.disk h.good.apart (by
    intro f o hf ho
    obtain ⟨d, hd⟩ := isRem_iff.mp hf
    have := hF.remFresh hl hd
    rw [← (h.opn f o ho).2.2.1] at this; simpa using this)
  rw [hk] at hk'; injection hk' with hk'; subst hk'
  obtain ⟨fs, opn⟩ := k
  dsimp only at hfs hop; subst hfs
  have hO : ∀ f, openL (w.log ++ [Rec.commit t]) f = openL w.log f := fun f => by rw [openL_snoc]; rfl
  refine h.append (.commit t) s opn hl hs (fun f => created_iff (by simp)) ?_ ?_ ?_
  · intro f o ho
    rw [hop f] at ho
    rcases hof : w.disk.opn f with _ | o'
    · rw [hof] at ho; cases ho
    · rw [hof] at ho; simp only [Option.map_some, Option.some.injEq] at ho
      obtain ⟨h1, h2, h3, h4, h5⟩ := h.opn f o' hof
      rw [hO, doomed_commit hF hl]
      have h4' : o'.skip = true → ∃ u d, Rec.create u d f ∈ w.log ++ [.commit t] ∧ Rec.abort u ∈ w.log ++ [.commit t] := by
        intro hs'
        obtain ⟨u, d, h6, h7⟩ := h4 hs'
        exact ⟨u, d, List.mem_append_left _ h6, List.mem_append_left _ h7⟩
      by_cases hr : w.log.any (isRem t f) = true
      · rw [if_pos hr] at ho; subst ho
        exact ⟨h1, h2, by simp [hr], h4', h5⟩
      · rw [if_neg hr] at ho; subst ho
        exact ⟨h1, h2, by rw [h3]; simp [hr], h4', h5⟩
  · intro f hf hof
    have hof' : w.disk.opn f = none := by
      rw [hop f] at hof; simpa using hof
    obtain ⟨h1, h2, h3⟩ := h.shut f hf hof'
    rw [hO, doomed_commit hF hl]
    refine ⟨h1, ?_, rowsOf_snoc rfl, hof'⟩
    rintro (hd | hd)
    · exact h2 hd
    · obtain ⟨d, hd⟩ := isRem_iff.mp hd
      exact h1 (hF.held t d f (Or.inr hd) hl)
  · intro f hf
    rw [hop f, (h.unborn f hf).2]; rfl

theorem WInv.abort {w : World} (h : WInv w) {t k} (hl : Live w.log t) (hk : abortAll t w.log w.disk = some k) :
    WInv ⟨w.log ++ [.abort t], w.synced, w.ck, k, w.pin⟩ := by
  have hF := h.good.facts
  obtain ⟨k', hk', hfs, hop⟩ := abortAll_spec t w.log w.disk h.good.apart h.good.noFren (by
    intro f o hf ho
    obtain ⟨d, hd⟩ := isCre_iff.mp hf
    have := hF.creFresh hl hd
    rw [← (h.opn f o ho).2.2.1] at this; simpa using this)
  rw [hk] at hk'; injection hk' with hk'; subst hk'
  obtain ⟨fs, opn⟩ := k
  dsimp only at hfs hop; subst hfs
  have hO : ∀ f, openL (w.log ++ [Rec.abort t]) f = openL w.log f := fun f => by rw [openL_snoc]; rfl
  refine h.append (.abort t) w.synced opn hl ⟨Nat.le_refl _, by have := h.len.2; omega⟩ (fun f => created_iff (by simp)) ?_ ?_ ?_
  · intro f o ho
    rw [hop f] at ho
    rcases hof : w.disk.opn f with _ | o'
    · rw [hof] at ho; cases ho
    · rw [hof] at ho; simp only [Option.map_some, Option.some.injEq] at ho
      obtain ⟨h1, h2, h3, h4, h5⟩ := h.opn f o' hof
      rw [hO, doomed_abort hF hl]
      have h4' : o'.skip = true → ∃ u d, Rec.create u d f ∈ w.log ++ [.abort t] ∧ Rec.abort u ∈ w.log ++ [.abort t] := by
        intro hs'
        obtain ⟨u, d, h6, h7⟩ := h4 hs'
        exact ⟨u, d, List.mem_append_left _ h6, List.mem_append_left _ h7⟩
      by_cases hr : w.log.any (isCre t f) = true
      · rw [if_pos hr] at ho; subst ho
        refine ⟨h1, h2, by simp [hr], fun _ => ?_, h5⟩
        obtain ⟨d, hd⟩ := isCre_iff.mp hr
        exact ⟨t, d, List.mem_append_left _ hd, by simp⟩
      · rw [if_neg hr] at ho; subst ho
        exact ⟨h1, h2, by rw [h3]; simp [hr], h4', h5⟩
  · intro f hf hof
    have hof' : w.disk.opn f = none := by
      rw [hop f] at hof; simpa using hof
    obtain ⟨h1, h2, h3⟩ := h.shut f hf hof'
    rw [hO, doomed_abort hF hl]
    refine ⟨h1, ?_, rowsOf_snoc rfl, hof'⟩
    rintro (hd | hd)
    · exact h2 hd
    · obtain ⟨d, hd⟩ := isCre_iff.mp hd
      exact h1 (hF.held t d f (Or.inl hd) hl)
  · intro f hf
    rw [hop f, (h.unborn f hf).2]; rfl

theorem WInv.fopen {w : World} (h : WInv w) {t d i img} (hl : Live w.log t) (hf : LockFree w.log t d)
    (hv : view w.log t d = some i) (hi : w.disk.fs i = some img) (ho : w.disk.opn img.id = none) :
    WInv { w with log := w.log ++ [.fopen img.id i], disk :=
        { w.disk with opn := upd w.disk.opn img.id (some ⟨i, i, false, false⟩) } } := by
  have hF := h.good.facts
  obtain ⟨hc, hd⟩ := hF.seen hl hv
  rw [(h.img i img hi).1] at ho ⊢
  have hcl : openL w.log i = false := by
    rcases hb : openL w.log i with _ | _
    · rfl
    · have := (h.shut i hc ho).1 hb; rw [this] at hi; cases hi
  have hok : ok w.log (.fopen i i) := ⟨rfl, hcl, t, d, hl, hf, hv⟩
  have hD : ∀ f, Doomed (w.log ++ [.fopen i i]) f ↔ Doomed w.log f := fun f => doomed_keep hF hok trivial
  refine h.append (.fopen i i) w.synced _ hok ⟨Nat.le_refl _, by have := h.len.2; omega⟩ (fun f => created_iff (by simp)) ?_ ?_ ?_
  · intro f o hof
    rw [openL_snoc, hD]
    by_cases hfi : f = i
    · subst hfi
      simp [upd] at hof; subst hof
      exact ⟨rfl, by simp [openStep], by simp [hd], by simp, by simp [hi]⟩
    · simp only [upd, if_neg hfi] at hof
      obtain ⟨h1, h2, h3, h4, h5⟩ := h.opn f o hof
      refine ⟨h1, by simp [openStep, Ne.symm hfi, h2], h3, fun hs => ?_, h5⟩
      obtain ⟨u, d, h6, h7⟩ := h4 hs
      exact ⟨u, d, List.mem_append_left _ h6, List.mem_append_left _ h7⟩
  · intro f hcf hof
    by_cases hfi : f = i
    · subst hfi; simp [upd] at hof
    · simp only [upd, if_neg hfi] at hof
      obtain ⟨h1, h2, h3⟩ := h.shut f hcf hof
      rw [openL_snoc, hD]
      exact ⟨by simpa [openStep, Ne.symm hfi] using h1, h2, rowsOf_snoc rfl, hof⟩
  · intro f hcf
    have hfi : f ≠ i := by rintro rfl; exact hcf hc
    simp only [upd, if_neg hfi]; exact (h.unborn f hcf).2

theorem rowsOf_unborn {L f} (h : Facts L) (hc : ¬ Created L f) : rowsOf L f = [] := by
  unfold rowsOf
  rw [List.filterMap_eq_nil_iff]
  intro r hr
  cases r <;> simp [rowOf]
  rintro rfl; exact hc (h.put _ _ _ hr)

theorem Created.of_take {L n f} (h : Created (L.take n) f) : Created L f := by
  obtain ⟨t, d, h⟩ := h; exact ⟨t, d, List.mem_of_mem_take h⟩

theorem WInv.create {w : World} (h : WInv w) {t d f} (hl : Live w.log t) (hf : LockFree w.log t d)
    (hv : view w.log t d = none) (hn : ¬ Created w.log f) :
    WInv { w with log := w.log ++ [.create t d f], disk :=
        ⟨upd w.disk.fs f (some ⟨f, [], 0⟩), upd w.disk.opn f (some ⟨f, f, false, false⟩)⟩ } := by
  have hF := h.good.facts
  have hok : ok w.log (.create t d f) := ⟨hl, hf, hv, hn⟩
  have hD : ∀ g, Doomed (w.log ++ [.create t d f]) g ↔ Doomed w.log g := fun g => doomed_keep hF hok trivial
  have hlen := h.len
  have hC : ∀ g, g ≠ f → (Created (w.log ++ [.create t d f]) g ↔ Created w.log g) := fun g hg =>
    created_iff (by rintro t' d' h'; injection h' with _ _ h'; exact hg h'.symm)
  have hfs : ∀ p g, Created (w.log.take p) g → w.disk.fs g = none → upd w.disk.fs f (some ⟨f, [], 0⟩) g = none := by
    intro p g hg hgn
    have : g ≠ f := by rintro rfl; exact hn hg.of_take
    simp only [upd, if_neg this]; exact hgn
  have hset : ∀ p, Settled w.log p w.disk.fs →
      Settled (w.log ++ [.create t d f]) p (upd w.disk.fs f (some ⟨f, [], 0⟩)) := fun p hp => (hp.fs (hfs p)).snoc
  have hnil : ∀ p, p ≤ w.log.length → rowsOf ((w.log ++ [Rec.create t d f]).take p) f = [] := by
    intro p hp; rw [List.take_append_of_le_length hp]
    exact rowsOf_unborn (h.good.take p).facts fun h' => hn h'.of_take
  refine ⟨Good.snoc _ _ h.good hok, ⟨hlen.1, by simp; omega⟩, ?_, ?_, ?_, ?_, ?_, ?_, ?_, ?_⟩
  · intro i m hm
    by_cases hi : i = f
    · subst hi; simp [upd] at hm; subst hm; exact ⟨rfl, Nat.zero_le _, by simp [rowsOf]⟩
    · simp only [upd, if_neg hi] at hm
      obtain ⟨h1, h2, h3⟩ := h.img i m hm
      refine ⟨h1, h2, ?_⟩
      rw [List.take_append_of_le_length (by omega)]; exact h3
  · intro i hi hm
    by_cases hif : i = f
    · subst hif; simp [upd] at hm
    · simp only [upd, if_neg hif] at hm
      rcases h.gone i ((hC i hif).mp hi) hm with ⟨t, d, h1, h2⟩ | ⟨t, d, h1, h2⟩
      · exact Or.inl ⟨t, d, List.mem_append_left _ h1, List.mem_append_left _ h2⟩
      · exact Or.inr ⟨t, d, mem_take_mono (Nat.le_refl _) h1, mem_take_mono (Nat.le_refl _) h2⟩
  · intro g o ho
    dsimp only; rw [openL_snoc, hD]
    by_cases hg : g = f
    · subst hg; simp [upd] at ho; subst ho
      refine ⟨rfl, by simp [openStep], ?_, by simp, by simp [upd]⟩
      simp; exact fun hd => hn (hd.created hF)
    · simp only [upd, if_neg hg] at ho ⊢
      obtain ⟨h1, h2, h3, h4, h5⟩ := h.opn g o ho
      refine ⟨h1, by simp [openStep, Ne.symm hg, h2], h3, fun hs => ?_, h5⟩
      obtain ⟨u, d, h6, h7⟩ := h4 hs
      exact ⟨u, d, List.mem_append_left _ h6, List.mem_append_left _ h7⟩
  · intro g hcg ho
    dsimp only; rw [openL_snoc, hD]
    by_cases hg : g = f
    · subst hg; simp [upd] at ho
    · simp only [upd, if_neg hg] at ho ⊢
      obtain ⟨h1, h2, h3⟩ := h.shut g ((hC g hg).mp hcg) ho
      refine ⟨by simpa [openStep, Ne.symm hg] using h1, h2, ?_⟩
      rw [rowsOf_snoc rfl]; exact h3
  · intro g hcg
    have hg : g ≠ f := by rintro rfl; exact hcg ⟨t, d, by simp⟩
    simp only [upd, if_neg hg]; exact h.unborn g fun h' => hcg h'.snoc
  · intro g m hm hlc
    by_cases hg : g = f
    · subst hg; simp [upd] at hm; subst hm; exact (hnil w.ck (by omega)).symm
    · simp only [upd, if_neg hg] at hm
      show m.rows = rowsOf ((w.log ++ [Rec.create t d f]).take w.ck) g
      rw [List.take_append_of_le_length (by omega)]; exact h.ckRows g m hm hlc
  · rcases h.ckSet with h0 | h0
    · exact Or.inl h0
    · exact Or.inr ⟨h0.1, hset _ h0.2⟩
  · intro p l hp
    obtain ⟨h1, h2, h3, h4, h5⟩ := h.pin p l hp
    refine ⟨by simp; omega, h2, hset _ h3, ?_, ?_⟩
    · intro g hg
      by_cases hgf : g = f
      · subst hgf; simp [upd]
      · simp only [upd, if_neg hgf]; exact h4 g hg
    · intro g m hm hl' hlp
      by_cases hg : g = f
      · subst hg; simp [upd] at hm; subst hm; exact (hnil _ (by omega)).symm
      · simp only [upd, if_neg hg] at hm
        show m.rows = rowsOf ((w.log ++ [Rec.create t d f]).take p) g
        rw [List.take_append_of_le_length (by omega)]; exact h5 g m hm hl' hlp

theorem WInv.fclose {w : World} (h : WInv w) {f o} (ho : w.disk.opn f = some o) (hh : ¬ Held w.log f)
    (hpin : ∀ p l, w.pin = some (p, l) → f ∉ l) :
    WInv { w with log := w.log ++ [.fclose f o.name], synced := w.log.length + 1, disk :=
        ⟨upd w.disk.fs o.name (if o.doom then none else some ⟨f, rowsOf w.log f, w.log.length + 1⟩),
          upd w.disk.opn f none⟩ } := by
  have hF := h.good.facts
  obtain ⟨hn, hop, hdm, hsk, hfsn⟩ := h.opn f o ho
  rw [hn]
  have hok : ok w.log (.fclose f f) := ⟨rfl, hop, hh⟩
  have hD : ∀ g, Doomed (w.log ++ [.fclose f f]) g ↔ Doomed w.log g := fun g => doomed_keep hF hok trivial
  have hC : ∀ g, Created (w.log ++ [.fclose f f]) g ↔ Created w.log g := fun g => created_iff (by simp)
  have hlen := h.len
  generalize hnew : (if o.doom = true then none else some (⟨f, rowsOf w.log f, w.log.length + 1⟩ : Img)) = new
  have hnew' : ∀ m, new = some m → o.doom = false ∧ m = ⟨f, rowsOf w.log f, w.log.length + 1⟩ := by
    intro m hm; subst hnew
    by_cases hd : o.doom = true
    · rw [if_pos hd] at hm; cases hm
    · rw [if_neg hd] at hm; injection hm with hm; exact ⟨by simpa using hd, hm.symm⟩
  have hfs : ∀ g, w.disk.fs g = none → upd w.disk.fs f new g = none := by
    intro g hg
    have : g ≠ f := by rintro rfl; exact hfsn hg
    simp only [upd, if_neg this]; exact hg
  have hset : ∀ p, Settled w.log p w.disk.fs → Settled (w.log ++ [.fclose f f]) p (upd w.disk.fs f new) :=
    fun p hp => (hp.fs fun g _ hg => hfs g hg).snoc
  refine ⟨Good.snoc _ _ h.good hok, ⟨by show w.ck ≤ w.log.length + 1; omega, by simp⟩, ?_, ?_, ?_, ?_, ?_, ?_, ?_, ?_⟩
  · intro i m hm
    by_cases hi : i = f
    · subst hi; simp [upd] at hm; obtain ⟨_, rfl⟩ := hnew' m hm
      refine ⟨rfl, Nat.le_refl _, ?_⟩
      rw [List.take_of_length_le (by simp), rowsOf_snoc rfl]
    · simp only [upd, if_neg hi] at hm
      obtain ⟨h1, h2, h3⟩ := h.img i m hm
      refine ⟨h1, by show m.lsn ≤ w.log.length + 1; omega, ?_⟩
      rw [List.take_append_of_le_length (by omega)]; exact h3
  · intro i hi hm
    have hw : (∃ t d, Rec.create t d i ∈ w.log ∧ Rec.abort t ∈ w.log) ∨
        ∃ t d, Rec.remove t d i ∈ w.log ∧ Rec.commit t ∈ w.log := by
      by_cases hif : i = f
      · subst hif; simp [upd] at hm
        have : o.doom = true := by
          rcases hd : o.doom with _ | _
          · rw [hd] at hnew; subst hnew; simp at hm
          · rfl
        exact hdm.mp this
      · simp only [upd, if_neg hif] at hm
        rcases h.gone i ((hC i).mp hi) hm with h' | ⟨t, d, h1, h2⟩
        · exact Or.inl h'
        · exact Or.inr ⟨t, d, List.mem_of_mem_take h1, List.mem_of_mem_take h2⟩
    rcases hw with ⟨t, d, h1, h2⟩ | ⟨t, d, h1, h2⟩
    · exact Or.inl ⟨t, d, List.mem_append_left _ h1, List.mem_append_left _ h2⟩
    · refine Or.inr ⟨t, d, ?_, ?_⟩ <;> rw [List.take_of_length_le (by simp)]
      · exact List.mem_append_left _ h1
      · exact List.mem_append_left _ h2
  · intro g o' ho'
    dsimp only; rw [openL_snoc, hD]
    by_cases hg : g = f
    · subst hg; simp [upd] at ho'
    · simp only [upd, if_neg hg] at ho' ⊢
      obtain ⟨h1, h2, h3, h4, h5⟩ := h.opn g o' ho'
      refine ⟨h1, by simp [openStep, Ne.symm hg, h2], h3, fun hs => ?_, h5⟩
      obtain ⟨u, d, h6, h7⟩ := h4 hs
      exact ⟨u, d, List.mem_append_left _ h6, List.mem_append_left _ h7⟩
  · intro g hcg ho'
    dsimp only; rw [openL_snoc, hD]
    by_cases hg : g = f
    · subst hg
      refine ⟨by simp [openStep], ?_, ?_⟩
      · intro hd; simp only [upd, if_true]
        rw [← hdm] at hd; rw [hd] at hnew; exact hnew.symm
      · intro m hm; simp [upd] at hm; obtain ⟨_, rfl⟩ := hnew' m hm
        rw [rowsOf_snoc rfl]
    · simp only [upd, if_neg hg] at ho' ⊢
      obtain ⟨h1, h2, h3⟩ := h.shut g ((hC g).mp hcg) ho'
      refine ⟨by simpa [openStep, Ne.symm hg] using h1, h2, ?_⟩
      rw [rowsOf_snoc rfl]; exact h3
  · intro g hcg
    have hcg' : ¬ Created w.log g := fun h' => hcg h'.snoc
    obtain ⟨h1, h2⟩ := h.unborn g hcg'
    refine ⟨hfs g h1, ?_⟩
    have hg : g ≠ f := by rintro rfl; exact hcg' (hF.opened g hop)
    simp only [upd, if_neg hg]; exact h2
  · intro g m hm hlc
    by_cases hg : g = f
    · subst hg; simp [upd] at hm; obtain ⟨_, rfl⟩ := hnew' m hm
      dsimp only at hlc; omega
    · simp only [upd, if_neg hg] at hm
      show m.rows = rowsOf ((w.log ++ [Rec.fclose f f]).take w.ck) g
      rw [List.take_append_of_le_length (by omega)]; exact h.ckRows g m hm hlc
  · rcases h.ckSet with h0 | h0
    · exact Or.inl h0
    · exact Or.inr ⟨by show w.ck < w.log.length + 1; omega, hset _ h0.2⟩
  · intro p l hp
    obtain ⟨h1, h2, h3, h4, h5⟩ := h.pin p l hp
    refine ⟨by simp; omega, h2, hset _ h3, ?_, ?_⟩
    · intro g hg
      have : g ≠ f := by rintro rfl; exact hpin p l hp hg
      simp only [upd, if_neg this]; exact h4 g hg
    · intro g m hm hl' hlp
      by_cases hg : g = f
      · subst hg; simp [upd] at hm; obtain ⟨_, rfl⟩ := hnew' m hm
        dsimp only at hlp; omega
      · simp only [upd, if_neg hg] at hm
        show m.rows = rowsOf ((w.log ++ [Rec.fclose f f]).take p) g
        rw [List.take_append_of_le_length (by omega)]; exact h5 g m hm hl' hlp

theorem WInv.fcloseSkip {w : World} (h : WInv w) {f o} (ho : w.disk.opn f = some o)
    (hpin : ∀ p l, w.pin = some (p, l) → f ∉ l) (hs : o.skip = true) :
    WInv { w with disk :=
        ⟨upd w.disk.fs o.name (if o.doom then none else some ⟨f, rowsOf w.log f, 0⟩), upd w.disk.opn f none⟩ } := by
  have hF := h.good.facts
  obtain ⟨hn, hop, hdm, hsk, hfsn⟩ := h.opn f o ho
  have hdd : o.doom = true := hdm.mpr (Or.inl (hsk hs))
  rw [hn, if_pos hdd]
  have hfs : ∀ g, w.disk.fs g = none → upd w.disk.fs f none g = none := by
    intro g hg; simp only [upd]; split
    · rfl
    · exact hg
  have hfs' : ∀ g m, upd w.disk.fs f none g = some m → w.disk.fs g = some m := by
    intro g m; simp only [upd]; split
    · intro h'; cases h'
    · exact id
  refine ⟨h.good, h.len, fun i m hm => h.img i m (hfs' i m hm), ?_, ?_, ?_, ?_, fun g m hm => h.ckRows g m (hfs' g m hm), ?_, ?_⟩
  · intro i hi hm
    by_cases hif : i = f
    · subst hif; exact Or.inl (hsk hs)
    · simp only [upd, if_neg hif] at hm; exact h.gone i hi hm
  · intro g o' ho'
    by_cases hg : g = f
    · subst hg; simp [upd] at ho'
    · simp only [upd, if_neg hg] at ho' ⊢; exact h.opn g o' ho'
  · intro g hcg ho'
    by_cases hg : g = f
    · subst hg; simp [upd]
    · simp only [upd, if_neg hg] at ho' ⊢; exact h.shut g hcg ho'
  · intro g hcg
    obtain ⟨h1, h2⟩ := h.unborn g hcg
    refine ⟨hfs g h1, ?_⟩
    simp only [upd]; split
    · rfl
    · exact h2
  · rcases h.ckSet with h0 | h0
    · exact Or.inl h0
    · exact Or.inr ⟨h0.1, h0.2.fs fun g _ hg => hfs g hg⟩
  · intro p l hp
    obtain ⟨h1, h2, h3, h4, h5⟩ := h.pin p l hp
    refine ⟨h1, h2, h3.fs fun g _ hg => hfs g hg, ?_, fun g m hm => h5 g m (hfs' g m hm)⟩
    intro g hg
    have : g ≠ f := by rintro rfl; exact hpin p l hp hg
    simp only [upd, if_neg this]; exact h4 g hg

theorem WInv.ckBegin {w : World} (h : WInv w) {l} (hl : ∀ f i u, (f, i, u) ∈ l ↔ ∃ o, w.disk.opn f = some o ∧ o.name = i ∧ o.doom = u)
    (hnd : (l.map (·.1)).Nodup) :
    WInv { w with log := w.log ++ [.assoc l], pin := some (w.log.length, l.map (·.1)) } := by
  have hlen := h.len
  have hok : ok w.log (.assoc l) := by
    refine ⟨fun f i u hm => ?_, hnd⟩
    obtain ⟨o, h1, h2, h3⟩ := (hl f i u).mp hm
    obtain ⟨h4, h5, h6, _⟩ := h.opn f o h1
    exact ⟨by rw [← h2, h4], h5, by rw [← h3]; exact h6⟩
  have hb := h.still (.assoc l) hok rfl (fun _ _ => rfl)
  refine ⟨hb.good, hb.len, hb.img, hb.gone, hb.opn, hb.shut, hb.unborn, hb.ckRows, hb.ckSet, ?_⟩
  intro p l' hp
  simp only [Option.some.injEq, Prod.mk.injEq] at hp
  obtain ⟨rfl, rfl⟩ := hp
  have hin : ∀ f, f ∈ l.map (·.1) ↔ w.disk.opn f ≠ none := by
    intro f
    rw [List.mem_map]
    constructor
    · rintro ⟨⟨f', i, u⟩, hm, rfl⟩
      obtain ⟨o, h1, _⟩ := (hl _ _ _).mp hm
      dsimp only; rw [h1]; simp
    · intro ho
      rcases hof : w.disk.opn f with _ | o
      · exact absurd hof ho
      · exact ⟨(f, o.name, o.doom), (hl _ _ _).mpr ⟨o, hof, rfl, rfl⟩, rfl⟩
  refine ⟨by simp, by show w.ck ≤ w.log.length; omega, ⟨l, by simp, ?_⟩, fun f hf => (hin f).mp hf, ?_⟩
  · simp only [List.take_left]
    intro f hc hnl hor
    have hof : w.disk.opn f = none := by
      rcases hof : w.disk.opn f with _ | o
      · rfl
      · exact absurd ((hin f).mpr (by rw [hof]; simp)) hnl
    obtain ⟨h1, h2, _⟩ := h.shut f hc hof
    rcases hor with hor | hor
    · exact h1 hor
    · exact h2 hor
  · simp only [List.take_left]
    intro f m hm hnl _
    have hof : w.disk.opn f = none := by
      rcases hof : w.disk.opn f with _ | o
      · rfl
      · exact absurd ((hin f).mpr (by rw [hof]; simp)) hnl
    have hc : Created w.log f := by
      rcases Classical.em (Created w.log f) with hc | hc
      · exact hc
      · have := (h.unborn f hc).1; rw [hm] at this; cases this
    exact (h.shut f hc hof).2.2 m hm

theorem WInv.ckFile {w : World} (h : WInv w) {p l f o} (hp : w.pin = some (p, l)) (hf : f ∈ l) (ho : w.disk.opn f = some o)
    (hs : p ≤ w.synced) :
    WInv { w with pin := some (p, l.filter (· ≠ f)), disk :=
        { w.disk with fs := upd w.disk.fs o.name (some ⟨f, rowsOf (w.log.take p) f, p⟩) } } := by
  have hF := h.good.facts
  obtain ⟨hn, hop, hdm, hsk, hfsn⟩ := h.opn f o ho
  rw [hn]
  obtain ⟨h1, h2, h3, h4, h5⟩ := h.pin p l hp
  have hfs : ∀ g, w.disk.fs g = none → upd w.disk.fs f (some ⟨f, rowsOf (w.log.take p) f, p⟩) g = none := by
    intro g hg
    have : g ≠ f := by rintro rfl; exact hfsn hg
    simp only [upd, if_neg this]; exact hg
  have hfs' : ∀ g, upd w.disk.fs f (some ⟨f, rowsOf (w.log.take p) f, p⟩) g = none → w.disk.fs g = none := by
    intro g; simp only [upd]; split
    · intro h'; cases h'
    · exact id
  refine ⟨h.good, h.len, ?_, fun i hi hm => h.gone i hi (hfs' i hm), ?_, ?_, ?_, ?_, ?_, ?_⟩
  · intro i m hm
    by_cases hi : i = f
    · subst hi; simp [upd] at hm; subst hm; exact ⟨rfl, hs, rfl⟩
    · simp only [upd, if_neg hi] at hm; exact h.img i m hm
  · intro g o' ho'
    obtain ⟨h6, h7, h8, h9, h10⟩ := h.opn g o' ho'
    exact ⟨h6, h7, h8, h9, fun h' => h10 (hfs' g h')⟩
  · intro g hcg ho'
    obtain ⟨h6, h7, h8⟩ := h.shut g hcg ho'
    refine ⟨fun h' => hfs g (h6 h'), fun h' => hfs g (h7 h'), ?_⟩
    have : g ≠ f := by rintro rfl; dsimp only at ho'; rw [ho] at ho'; cases ho'
    simp only [upd, if_neg this]; exact h8
  · intro g hcg
    obtain ⟨h6, h7⟩ := h.unborn g hcg
    exact ⟨hfs g h6, h7⟩
  · intro g m hm hlc
    by_cases hg : g = f
    · subst hg; simp [upd] at hm; subst hm
      dsimp only at hlc
      rw [show w.ck = p by omega]
    · simp only [upd, if_neg hg] at hm; exact h.ckRows g m hm hlc
  · rcases h.ckSet with h0 | h0
    · exact Or.inl h0
    · exact Or.inr ⟨h0.1, h0.2.fs fun g _ hg => hfs g hg⟩
  · intro p' l' hp'
    simp only [Option.some.injEq, Prod.mk.injEq] at hp'
    obtain ⟨rfl, rfl⟩ := hp'
    refine ⟨h1, h2, h3.fs fun g _ hg => hfs g hg, fun g hg => h4 g (List.mem_filter.mp hg).1, ?_⟩
    intro g m hm hl' hlp
    by_cases hg : g = f
    · subst hg; simp [upd] at hm; subst hm; rfl
    · simp only [upd, if_neg hg] at hm
      refine h5 g m hm (fun h' => hl' ?_) hlp
      simp [h', hg]

theorem WInv.ckEnd {w : World} (h : WInv w) {p} (hp : w.pin = some (p, [])) :
    WInv { w with pin := none, ck := p, synced := w.log.length } := by
  obtain ⟨h1, h2, h3, h4, h5⟩ := h.pin p [] hp
  have hlen := h.len
  refine ⟨h.good, ⟨Nat.le_of_lt h1, Nat.le_refl _⟩, ?_, ?_, h.opn, h.shut, h.unborn, fun g m hm hl => h5 g m hm (by simp) hl,
    Or.inr ⟨h1, h3⟩, fun p l hp => by cases hp⟩
  · intro i m hm
    obtain ⟨h6, h7, h8⟩ := h.img i m hm
    exact ⟨h6, by show m.lsn ≤ w.log.length; omega, h8⟩
  · intro i hi hm
    rcases h.gone i hi hm with h' | ⟨t, d, h1, h2⟩
    · exact Or.inl h'
    · refine Or.inr ⟨t, d, ?_, ?_⟩ <;> rw [List.take_length]
      · exact List.mem_of_mem_take h1
      · exact List.mem_of_mem_take h2

theorem WInv.sync {w : World} (h : WInv w) {n} (h1 : w.synced ≤ n) (h2 : n ≤ w.log.length) : WInv { w with synced := n } := by
  have hlen := h.len
  refine ⟨h.good, ⟨by show w.ck ≤ n; omega, h2⟩, ?_, ?_, h.opn, h.shut, h.unborn, h.ckRows,
    h.ckSet.imp id fun h0 => ⟨by have := h0.1; show w.ck < n; omega, h0.2⟩, h.pin⟩
  · intro i m hm
    obtain ⟨h6, h7, h8⟩ := h.img i m hm
    exact ⟨h6, by show m.lsn ≤ n; omega, h8⟩
  · intro i hi hm
    rcases h.gone i hi hm with h' | ⟨t, d, h3, h4⟩
    · exact Or.inl h'
    · have hsub := (List.take_prefix_take_left (l := w.log) h1).subset
      exact Or.inr ⟨t, d, hsub h3, hsub h4⟩

theorem WInv.step {w w' : World} (h : WInv w) (hs : Step false w w') : WInv w' := by
  cases hs with
  | «begin» t hb => exact h.still _ hb rfl fun _ _ => rfl
  | create t d f hl hf hv hn _ _ => exact h.create hl hf hv hn
  | fopen t d i img hl hf hv hi ho => exact h.fopen hl hf hv hi ho
  | put t d f o v hl hf ho hv =>
    obtain ⟨h1, h2, _⟩ := h.opn f o ho
    rw [h1] at hv
    refine h.still (.put t f v) ⟨hl, ⟨d, hf, hv⟩, h2⟩ rfl fun g hg => ?_
    simp only [rowOf]; rw [if_neg]; rintro rfl; rw [ho] at hg; cases hg
  | remove t d f o hl hf ho hv ht =>
    obtain ⟨h1, h2, _⟩ := h.opn f o ho
    rw [h1] at hv
    exact h.still (.remove t d f) ⟨hl, hf, hv, h2⟩ rfl fun g hg => rfl
  | rename t d d' f o _ hl hf hf' ho hv hv' ht =>
    exact h.still (.rename t d d' o.name) ⟨hl, hf, hf', hv, hv'⟩ rfl fun g hg => rfl
  | frename => rename_i hh _ _ _ _ _ _ _ _ _; cases hh
  | frenameFails => rename_i hh _ _ _ _ _ _ _ _ _ _ _; cases hh
  | commit t k hl hk =>
    have hlen := h.len
    exact h.commit hl hk (by split <;> omega)
  | abort t k hl hk => exact h.abort hl hk
  | sync n h1 h2 => exact h.sync h1 h2
  | fclose f o ho hh hp _ => exact h.fclose ho hh hp
  | fcloseSkip f o ho hh hp hsk => exact h.fcloseSkip ho hp hsk
  | ckBegin l _ hl hn => exact h.ckBegin hl hn
  | ckFile p l f o hp hf ho hs => exact h.ckFile hp hf ho hs
  | ckEnd p hp => exact h.ckEnd hp

theorem WInv.reach {w : World} (h : Reach false w) : WInv w := by
  induction h with
  | start =>
    refine ⟨.nil, ⟨Nat.le_refl _, Nat.le_refl _⟩, ?_, ?_, ?_, ?_, ?_, ?_, Or.inl rfl, ?_⟩ <;> simp [World.start, Created]
  | step w w' _ hs ih => exact ih.step hs

end Verif.Files
