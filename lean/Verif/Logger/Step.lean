import Verif.Logger.StepLemmas
/-!
Every step keeps the invariant, and none crashes.
-/
set_option linter.unusedVariables false
set_option linter.unusedSimpArgs false
namespace Verif.Logger
open Verif.Log Verif.Log.Spec Verif.Ser Verif.Logger.Spec

variable {lsn0 : Nat} {cfg : Cfg} {old : List File}

/-- What a step must do. -/
def Good1 (lsn0 : Nat) (cfg : Cfg) (old : List File) (g : G) (evs : List Event) : Res → Prop
  | .ok s' ev => ∃ g', Inv lsn0 cfg old g' s' (evs ++ ev.toList) ∧ g.dur lsn0 ≤ g'.dur lsn0
  | .wait => True
  | .crash => False

theorem good_none {g g' : G} {evs : List Event} {s' : St} (h : Inv lsn0 cfg old g' s' evs) (hd : g.dur lsn0 ≤ g'.dur lsn0) :
    Good1 lsn0 cfg old g evs (.ok s' none) := ⟨g', by simpa using h, hd⟩

theorem view_noted_wr (g : G) (n : Nat) : (g.noted n).wr lsn0 = g.wr lsn0 := rfl

theorem step_good {g : G} {s : St} {evs : List Event} (h : Inv lsn0 cfg old g s evs) (t : Tid) (hl : s.lsn + 1 < 2 ^ 64) : Good1 lsn0 cfg old g evs (step cfg s t) := by
  have hpc := h.pcs t
  have hfs := h.data.fsynced
  unfold step
  split <;> rename_i e <;> rw [e] at hpc <;> simp only [PcOk] at hpc
  · -- idle
    trivial
  · -- logLock
    split
    · rename_i hn
      refine good_none (h.quiet (some t) s.outFree s.fsynced hfs (.inr (.inl ⟨hn, rfl, rfl⟩)) (.inl ⟨rfl, by rw [e]; rfl⟩) hpc (.inr (.inr (by rw [e]; rfl))) (.inr (.inr (.inr (by rw [e]; rfl)))) (.inr (.inr (by rw [e]; rfl)))) (Nat.le_refl _)
    · trivial
  · -- space
    rename_i j sy
    obtain ⟨n, hn, hle, hw⟩ := jobLen hpc
    simp only [hn]
    split
    · rename_i hr
      rw [roomy_iff hle] at hr
      refine good_none (h.quiet s.inLock s.outFree s.fsynced hfs (.inl ⟨rfl, by rw [e]; rfl⟩) (.inl ⟨rfl, by rw [e]; rfl⟩) ⟨hpc, n, hn, ?_⟩ (.inr (.inr (by rw [e]; rfl))) (.inr (.inr (.inl rfl))) (.inr (.inr (by rw [e]; rfl)))) (Nat.le_refl _)
      show (bytesOf g.i).length + n ≤ g.size
      rw [← h.data.inb, ← h.data.size]; exact Nat.le_trans hr h.data.inMin
    · refine good_none (h.quiet none s.outFree s.fsynced hfs (.inr (.inr ⟨by rw [e]; rfl, rfl, rfl⟩)) (.inl ⟨rfl, by rw [e]; rfl⟩) hpc (.inr (.inr (by rw [e]; rfl))) (.inr (.inr (.inr (by rw [e]; rfl)))) (.inr (.inr (by rw [e]; rfl)))) (Nat.le_refl _)
  · -- spaceGrab
    split
    · rename_i hf
      refine good_none (h.quiet s.inLock false s.fsynced hfs (.inl ⟨rfl, by rw [e]; rfl⟩) (.inr (.inl ⟨hf, rfl, rfl⟩)) ⟨hpc, hfs⟩ (.inr (.inr (by rw [e]; rfl))) (.inr (.inr (.inr (by rw [e]; rfl)))) (.inr (.inr (by rw [e]; rfl)))) (Nat.le_refl _)
    · trivial
  · -- spaceLock
    split
    · rename_i hn
      refine good_none (h.quiet (some t) s.outFree s.fsynced hfs (.inr (.inl ⟨hn, rfl, rfl⟩)) (.inl ⟨rfl, by rw [e]; rfl⟩) hpc (.inr (.inr (by rw [e]; rfl))) (.inr (.inr (.inr (by rw [e]; rfl)))) (.inr (.inr (by rw [e]; rfl)))) (Nat.le_refl _)
    · trivial
  · -- spaceTest
    rename_i j sy fs
    obtain ⟨n, hn, hle, hw⟩ := jobLen hpc.1
    simp only [hn]
    have hp0 := pend_none h (t := t) (by rw [e]; rfl) (by rw [e]; rfl)
    split
    · rename_i hr
      rw [roomy_iff hle] at hr
      refine good_none (h.quiet s.inLock s.outFree s.fsynced hfs (.inl ⟨rfl, by rw [e]; rfl⟩) (.inl ⟨rfl, by rw [e]; rfl⟩) ⟨hpc.1, hpc.2, n, hn, ?_⟩ (.inl hp0) (.inr (.inr (.inl rfl))) (.inr (.inr (by rw [e]; rfl)))) (Nat.le_refl _)
      show (bytesOf g.i).length + n ≤ g.size
      rw [← h.data.inb, ← h.data.size]; exact Nat.le_trans hr h.data.inMin
    · split
      · obtain ⟨s', hs', hd, h1, h2, h3⟩ := swap_data h.data hp0
        simp only [hs']
        refine good_none (g' := g.swapped s.outbuf.size) (h.next (t := t) (p := .spill j sy fs) (fun _ h => h) (fun u => by rw [goto_pc, h1]) (hd.same rfl (fun _ h => h) rfl rfl rfl rfl rfl hd.fsynced rfl)
          (.inl ⟨h2, by rw [e]; rfl⟩) (.inl ⟨h3, by rw [e]; rfl⟩) ⟨hpc.1, hpc.2, rfl⟩ (by simp [G.swapped, G.lsn, G.out, G.wr, G.dur, hp0]) (Nat.le_refl _) (.inl (by rw [e]; rfl)) (.inl (by rw [e]; rfl))
          (.inr (.inl rfl)) (.inr (.inr (.inl rfl))) (.inr (.inr ⟨rfl, by rw [e]; rfl⟩))) (Nat.le_refl _)
      · rename_i hz
        refine good_none (h.quiet s.inLock s.outFree s.fsynced hfs (.inl ⟨rfl, by rw [e]; rfl⟩) (.inl ⟨rfl, by rw [e]; rfl⟩) ⟨hpc.1, hpc.2, ?_⟩ (.inl hp0) (.inr (.inr (.inl rfl))) (.inr (.inr (by rw [e]; rfl)))) (Nat.le_refl _)
        show (bytesOf g.i).length = 0
        rw [← h.data.inb]; omega
  · -- spill
    rename_i j sy fs
    obtain ⟨s', hs', hd, h1, h2, h3⟩ := writeOut_data h.data
    simp only [hs']
    refine good_none (g' := g.flushed) (h.next (t := t) (p := .spillRoll j sy fs) (fun _ h => h) (fun u => by rw [goto_pc, h1]) (hd.same rfl (fun _ h => h) rfl rfl rfl rfl rfl hd.fsynced rfl)
          (.inl ⟨h2, by rw [e]; rfl⟩) (.inl ⟨h3, by rw [e]; rfl⟩) hpc (by simp [G.flushed, G.lsn, G.out, G.wr, G.dur]; omega) (Nat.le_refl _) (.inl (by rw [e]; rfl)) (.inr ⟨rfl, rfl⟩)
          (.inl rfl) (.inr (.inr (.inl rfl))) (.inr (.inl rfl))) (Nat.le_refl _)
  · -- spillRoll
    rename_i j sy fs
    have hp0 := pend_none h (t := t) (by rw [e]; rfl) (by rw [e]; rfl)
    have hsd := synced_data h.data
    have hdur : g.dur lsn0 ≤ g.synced.dur lsn0 := by simp only [G.synced, G.dur, List.length_append]; omega
    split
    · obtain ⟨s', hs', hd, h1, h2, h3, h4⟩ := noted_data hsd
      simp only [hs']
      refine good_none (g' := g.synced.noted (g.synced.wr lsn0)) (h.next (t := t) (p := .spillOpen j sy s.written) (fun _ h => h) (fun u => by rw [goto_pc, h1]; rfl) (hd.same rfl (fun _ h => h) rfl rfl rfl rfl rfl hd.fsynced rfl)
          (.inl ⟨h2, by rw [e]; rfl⟩) (.inl ⟨h3, by rw [e]; rfl⟩) ⟨hpc.1, hsd.wr, hpc.2.2, rfl, rfl, rfl⟩ (by simp [G.synced, G.noted, G.lsn, G.out, G.wr, G.dur]; omega) hdur (.inl (by rw [e]; rfl)) (.inr ⟨rfl, rfl⟩)
          (.inl hp0) (.inl rfl) (.inr (.inl rfl))) hdur
    · rename_i hsm
      refine good_none (h.quiet s.inLock s.outFree s.fsynced hfs (.inl ⟨rfl, by rw [e]; rfl⟩) (.inl ⟨rfl, by rw [e]; rfl⟩) hpc (.inl hp0) (.inr (.inr (.inl rfl))) (.inl ?_)) (Nat.le_refl _)
      rw [h.data.nIn] at hsm; omega
  · -- spillOpen
    rename_i j sy fs
    have hp0 := pend_none h (t := t) (by rw [e]; rfl) (by rw [e]; rfl)
    obtain ⟨h1, h2, h3, h4, h5, h6⟩ := hpc
    have hd := opened_data h.data h4 h5 h6
    have hdur : (g.opened (g.wr lsn0)).dur lsn0 = g.dur lsn0 := by simp [G.opened, G.dur]; omega
    have hwr : (g.opened (g.wr lsn0)).wr lsn0 = g.wr lsn0 := by rw [G.wr, hdur, G.wr, h4]; rfl
    refine good_none (g' := g.opened (g.wr lsn0)) (h.next (t := t) (p := .grow j sy fs) (fun _ h => h) (fun u => rfl) (hd.same rfl (fun _ h => h) rfl rfl rfl rfl rfl hd.fsynced rfl)
          (.inl ⟨rfl, by rw [e]; rfl⟩) (.inl ⟨rfl, by rw [e]; rfl⟩) ⟨h1, ?_, h3⟩ (Nat.le_of_eq ?_) (Nat.le_of_eq hdur.symm) (.inl (by rw [e]; rfl)) (.inr ⟨rfl, rfl⟩)
          (.inl hp0) (.inl rfl) (.inl ?_)) (Nat.le_of_eq hdur.symm)
    · show fs ≤ (g.opened (g.wr lsn0)).dur lsn0
      rw [hdur]
      have : fs = g.wr lsn0 := h2
      rw [this, G.wr, h4]; exact Nat.le_refl _
    · simp only [G.lsn, G.out, hwr]; simp [G.opened]
    · simp [G.cur, G.opened, bytesOf, header_length]; omega
  · -- grow
    rename_i j sy fs
    obtain ⟨n, hn, hle, hw⟩ := jobLen hpc.1
    obtain ⟨z, hz, hz1, hz2⟩ := grown_ok (size := s.inbuf.size) hle
    simp only [hn, hz]
    have hp0 := pend_none h (t := t) (by rw [e]; rfl) (by rw [e]; rfl)
    have hd := h.data
    have hi0 : (bytesOf g.i).length = 0 := hpc.2.2
    refine good_none (g' := { g with size := z }) (h.next (t := t) (p := .spaceDone j sy fs) (fun _ h => h) (fun u => rfl) ?_
          (.inl ⟨rfl, by rw [e]; rfl⟩) (.inl ⟨rfl, by rw [e]; rfl⟩) ⟨hpc.1, hpc.2.1, n, hn, ?_⟩ (Nat.le_refl _) (Nat.le_refl _) (.inl (by rw [e]; rfl)) (.inl (by rw [e]; rfl))
          (.inl hp0) (.inr (.inr (.inl rfl))) (.inr (.inr ⟨rfl, by rw [e]; rfl⟩))) (Nat.le_refl _)
    · exact { hd with size := rfl, inMin := Nat.le_trans hd.inMin hz2 }
    · show (bytesOf g.i).length + n ≤ z
      omega
  · -- spaceDone
    rename_i j sy fs
    have hp0 := pend_none h (t := t) (by rw [e]; rfl) (by rw [e]; rfl)
    refine good_none (h.quiet s.inLock true (if s.fsynced < fs then fs else s.fsynced) ?_ (.inl ⟨rfl, by rw [e]; rfl⟩) (.inr (.inr ⟨by rw [e]; rfl, rfl, rfl⟩)) ⟨hpc.1, hpc.2.2⟩ (.inl hp0) (.inr (.inr (.inl rfl))) (.inr (.inr (by rw [e]; rfl)))) (Nat.le_refl _)
    split
    · exact hpc.2.1
    · exact hfs
  · -- put
    rename_i j sy
    obtain ⟨hj, n, hn, hroom⟩ := hpc
    obtain ⟨n', hn', hle, hw⟩ := jobLen hj
    rw [hn] at hn'
    cases R.ok.inj hn'
    · obtain ⟨bs, hbs, hlen, hwr⟩ := hw _ hl
      simp only [hbs]
      have hroom : (bytesOf g.i).length + n ≤ g.size := hroom
      have hfit : s.inbuf.bytes.length + bs.length ≤ s.inbuf.size := by rw [h.data.inb, hlen, h.data.size]; exact hroom
      rw [if_pos hfit]
      have hd := h.data
      have hall : (g.added (logged j.now ⟨j.cmd, s.lsn + 1, j.vals⟩, bs)).all = g.all ++ [(logged j.now ⟨j.cmd, s.lsn + 1, j.vals⟩, bs)] := by simp [G.all, G.added]
      have hlsn : (g.added (logged j.now ⟨j.cmd, s.lsn + 1, j.vals⟩, bs)).lsn lsn0 = g.lsn lsn0 + 1 := by
        show g.out lsn0 + (g.i ++ [_]).length = g.out lsn0 + g.i.length + 1
        simp only [List.length_append, List.length_cons, List.length_nil]; omega
      have hlen2 : lsn0 + g.all.length = g.lsn lsn0 := by simp [G.all, G.lsn, G.out, G.wr, G.dur]; omega
      refine ⟨g.added (logged j.now ⟨j.cmd, s.lsn + 1, j.vals⟩, bs), h.next (t := t) (p := .unlock j sy (s.lsn + 1)) (fun _ h => List.mem_append_left _ h) (fun u => rfl) ?_
          (.inl ⟨rfl, by rw [e]; rfl⟩) (.inl ⟨rfl, by rw [e]; rfl⟩) ⟨?_, bs, ?_⟩ ?_ (Nat.le_refl _) (.inr ⟨rfl, rfl, rfl, rfl, rfl⟩) (.inl (by rw [e]; rfl))
          (.inr (.inr ⟨rfl, by rw [e]; rfl⟩)) (.inr (.inl ?_)) (.inr (.inr ⟨rfl, by rw [e]; rfl⟩)), Nat.le_refl _⟩
      · exact
          { all := by rw [recs_append, hd.all, hall]; rfl
            num := by
              rw [hall, numbered_append]
              refine ⟨hd.num, ?_, trivial⟩
              rw [hlen2, ← hd.lsn]; rfl
            written := by
              intro r hr
              rw [hall] at hr
              rcases List.mem_append.mp hr with hr | hr
              · exact hd.written r hr
              · simp only [List.mem_cons, List.not_mem_nil, or_false] at hr
                rw [hr]; exact hwr
            lsn := by rw [hlsn, ← hd.lsn]; rfl
            wr := hd.wr
            files := hd.files
            k := hd.k
            hdr := hd.hdr
            out := hd.out
            inb := by
              show s.inbuf.bytes ++ bs = bytesOf (g.i ++ [_])
              rw [hd.inb, bytesOf_append]; simp [bytesOf]
            outMax := hd.outMax
            inMax := by intro _; rw [hlsn, ← hd.lsn]; rfl
            inMaxLe := by rw [hlsn, ← hd.lsn]; exact Nat.le_refl _
            outMaxLe := by rw [hlsn]; exact Nat.le_succ_of_le hd.outMaxLe
            fsynced := hd.fsynced
            size := hd.size
            inMin := hd.inMin
            outMin := hd.outMin
            nIn := hd.nIn
            trimmed := fun f hf => TrimmedAbove.mono (fun _ h => List.mem_append_left _ h) (hd.trimmed f hf) }
      · show s.lsn + 1 ≤ (g.added _).lsn lsn0
        rw [hlsn, hd.lsn]; exact Nat.le_refl _
      · simp
      · rw [hlsn]; omega
      · simp [G.added]
  · -- unlock
    rename_i j sy l
    split
    · refine good_none (h.quiet none s.outFree s.fsynced hfs (.inr (.inr ⟨by rw [e]; rfl, rfl, rfl⟩)) (.inl ⟨rfl, by rw [e]; rfl⟩) hpc (.inr (.inr (by rw [e]; rfl))) (.inr (.inr (.inr (by rw [e]; rfl)))) (.inr (.inr (by rw [e]; rfl)))) (Nat.le_refl _)
    · refine ⟨g, h.move (t := t) (p := .idle) (fun _ h => List.mem_append_left _ h) (by rw [recs_append]; simp [recs, Event.rec?]) (fun u => rfl) rfl rfl rfl rfl rfl hfs rfl
        (.inr (.inr ⟨by rw [e]; rfl, rfl, rfl⟩)) (.inl ⟨rfl, by rw [e]; rfl⟩) trivial (.inr (.inr (by rw [e]; rfl))) (.inr (.inr (.inr (by rw [e]; rfl)))) (.inr (.inr (by rw [e]; rfl))), Nat.le_refl _⟩
  · -- wait
    rename_i c l
    split
    · refine ⟨g, h.move (t := t) (p := .idle) (fun _ h => List.mem_append_left _ h) (by rw [recs_append]; simp [recs, Event.rec?]) (fun u => rfl) rfl rfl rfl rfl rfl hfs rfl
        (.inl ⟨rfl, by rw [e]; rfl⟩) (.inl ⟨rfl, by rw [e]; rfl⟩) trivial (.inr (.inr (by rw [e]; rfl))) (.inr (.inr (.inr (by rw [e]; rfl)))) (.inr (.inr (by rw [e]; rfl))), Nat.le_refl _⟩
    · rename_i hlt
      split
      · rename_i hf
        refine good_none (h.quiet s.inLock false s.fsynced hfs (.inl ⟨rfl, by rw [e]; rfl⟩) (.inr (.inl ⟨hf, rfl, rfl⟩)) ⟨hpc.1, hpc.2, by omega, hfs⟩ (.inr (.inr (by rw [e]; rfl))) (.inr (.inr (.inr (by rw [e]; rfl)))) (.inr (.inr (by rw [e]; rfl)))) (Nat.le_refl _)
      · trivial
  · -- fsLock
    split
    · rename_i hn
      refine good_none (h.quiet (some t) s.outFree s.fsynced hfs (.inr (.inl ⟨hn, rfl, rfl⟩)) (.inl ⟨rfl, by rw [e]; rfl⟩) hpc (.inr (.inr (by rw [e]; rfl))) (.inr (.inr (.inr (by rw [e]; rfl)))) (.inr (.inr (by rw [e]; rfl)))) (Nat.le_refl _)
    · trivial
  · -- fsSwap
    rename_i c l fs
    have hp0 := pend_none h (t := t) (by rw [e]; rfl) (by rw [e]; rfl)
    obtain ⟨s', hs', hd, h1, h2, h3⟩ := swap_data h.data hp0
    simp only [hs']
    have hout : (g.swapped s.outbuf.size).out lsn0 = g.lsn lsn0 := by simp [G.swapped, G.out, G.lsn, G.wr, G.dur, hp0]
    refine good_none (g' := g.swapped s.outbuf.size) (h.next (t := t) (p := .fsUnlock c l fs) (fun _ h => h) (fun u => by rw [goto_pc, h1]) (hd.same rfl (fun _ h => h) rfl rfl rfl rfl rfl hd.fsynced rfl)
          (.inl ⟨h2, by rw [e]; rfl⟩) (.inl ⟨h3, by rw [e]; rfl⟩) ⟨?_, hpc.2⟩ (by simp [G.swapped, G.lsn, G.out, G.wr, G.dur, hp0]) (Nat.le_refl _) (.inl (by rw [e]; rfl)) (.inl (by rw [e]; rfl))
          (.inr (.inl rfl)) (.inr (.inr (.inl rfl))) (.inr (.inr ⟨rfl, by rw [e]; rfl⟩))) (Nat.le_refl _)
    show l ≤ (g.swapped s.outbuf.size).out lsn0
    rw [hout]; exact hpc.1
  · -- fsUnlock
    refine good_none (h.quiet none s.outFree s.fsynced hfs (.inr (.inr ⟨by rw [e]; rfl, rfl, rfl⟩)) (.inl ⟨rfl, by rw [e]; rfl⟩) hpc (.inr (.inl rfl)) (.inr (.inr (.inl rfl))) (.inr (.inr (by rw [e]; rfl)))) (Nat.le_refl _)
  · -- fsWrite
    rename_i c l fs
    obtain ⟨s', hs', hd, h1, h2, h3⟩ := writeOut_data h.data
    simp only [hs']
    have hwr : g.flushed.wr lsn0 = g.out lsn0 := by simp [G.flushed, G.out, G.wr, G.dur]; omega
    refine good_none (g' := g.flushed) (h.next (t := t) (p := .fsRoll c l fs) (fun _ h => h) (fun u => by rw [goto_pc, h1]) (hd.same rfl (fun _ h => h) rfl rfl rfl rfl rfl hd.fsynced rfl)
          (.inl ⟨h2, by rw [e]; rfl⟩) (.inl ⟨h3, by rw [e]; rfl⟩) ⟨?_, hpc.2⟩ (by simp [G.flushed, G.lsn, G.out, G.wr, G.dur]; omega) (Nat.le_refl _) (.inl (by rw [e]; rfl)) (.inr ⟨rfl, rfl⟩)
          (.inl rfl) (.inr (.inr (.inl rfl))) (.inr (.inl rfl))) (Nat.le_refl _)
    show l ≤ g.flushed.wr lsn0
    rw [hwr]; exact hpc.1
  · -- fsRoll
    rename_i c l fs
    have hp0 := pend_none h (t := t) (by rw [e]; rfl) (by rw [e]; rfl)
    have hsd := synced_data h.data
    have hdur : g.dur lsn0 ≤ g.synced.dur lsn0 := by simp only [G.synced, G.dur, List.length_append]; omega
    have hwr : g.synced.wr lsn0 = g.wr lsn0 := by simp [G.synced, G.wr, G.dur]; omega
    split
    · obtain ⟨s', hs', hd, h1, h2, h3, h4⟩ := noted_data hsd
      simp only [hs']
      refine good_none (g' := g.synced.noted (g.synced.wr lsn0)) (h.next (t := t) (p := .fsOpen c l s.written) (fun _ h => h) (fun u => by rw [goto_pc, h1]; rfl) (hd.same rfl (fun _ h => h) rfl rfl rfl rfl rfl hd.fsynced rfl)
          (.inl ⟨h2, by rw [e]; rfl⟩) (.inl ⟨h3, by rw [e]; rfl⟩) ⟨?_, hpc.2.1, hsd.wr, rfl, rfl, rfl⟩ (by simp [G.synced, G.noted, G.lsn, G.out, G.wr, G.dur]; omega) hdur (.inl (by rw [e]; rfl)) (.inr ⟨rfl, rfl⟩)
          (.inl hp0) (.inl rfl) (.inr (.inl rfl))) hdur
      show l ≤ g.synced.wr lsn0
      rw [hwr]; exact hpc.1
    · rename_i hsm
      refine good_none (h.quiet s.inLock s.outFree s.fsynced hfs (.inl ⟨rfl, by rw [e]; rfl⟩) (.inl ⟨rfl, by rw [e]; rfl⟩) ⟨hpc.1, hpc.2.1, hpc.2.2.2, .inl hpc.2.2.1⟩ (.inl hp0) (.inr (.inr (.inl rfl))) (.inl ?_)) (Nat.le_refl _)
      rw [h.data.nIn] at hsm; omega
  · -- fsOpen
    rename_i c l fs
    have hp0 := pend_none h (t := t) (by rw [e]; rfl) (by rw [e]; rfl)
    obtain ⟨h1, h2, h3, h4, h5, h6⟩ := hpc
    have hd := opened_data h.data h4 h5 h6
    have hdur : (g.opened (g.wr lsn0)).dur lsn0 = g.dur lsn0 := by simp [G.opened, G.dur]; omega
    have hwr : (g.opened (g.wr lsn0)).wr lsn0 = g.wr lsn0 := by rw [G.wr, hdur, G.wr, h4]; rfl
    refine good_none (g' := g.opened (g.wr lsn0)) (h.next (t := t) (p := .fsSync c l fs) (fun _ h => h) (fun u => rfl) (hd.same rfl (fun _ h => h) rfl rfl rfl rfl rfl hd.fsynced rfl)
          (.inl ⟨rfl, by rw [e]; rfl⟩) (.inl ⟨rfl, by rw [e]; rfl⟩) ⟨?_, h2, ?_, .inr rfl⟩ (Nat.le_of_eq ?_) (Nat.le_of_eq hdur.symm) (.inl (by rw [e]; rfl)) (.inr ⟨rfl, rfl⟩)
          (.inl hp0) (.inl rfl) (.inl ?_)) (Nat.le_of_eq hdur.symm)
    · show l ≤ (g.opened (g.wr lsn0)).wr lsn0
      rw [hwr]; exact h1
    · show fs ≤ (g.opened (g.wr lsn0)).dur lsn0
      rw [hdur]
      have : fs = g.wr lsn0 := h3
      rw [this, G.wr, h4]; exact Nat.le_refl _
    · simp only [G.lsn, G.out, hwr]; simp [G.opened]
    · simp [G.cur, G.opened, bytesOf, header_length]; omega
  · -- fsSync
    rename_i c l fs
    have hp0 := pend_none h (t := t) (by rw [e]; rfl) (by rw [e]; rfl)
    have hsd := synced_data h.data
    have hdur : g.dur lsn0 ≤ g.synced.dur lsn0 := by simp only [G.synced, G.dur, List.length_append]; omega
    have hwr : g.synced.dur lsn0 = g.wr lsn0 := by simp [G.synced, G.wr, G.dur]; omega
    have hw := h.data.wr
    obtain ⟨h1, h2, h3, h4⟩ := hpc
    have h1 : l ≤ g.wr lsn0 := h1
    have h3 : fs ≤ g.dur lsn0 := h3
    split
    · rw [if_pos (by rw [hw, G.wr]; omega)]
      refine good_none (g' := g.synced) (h.next (t := t) (p := .fsNote c l s.written) (fun _ h => h) (fun u => rfl) (hsd.same rfl (fun _ h => h) rfl rfl rfl rfl rfl hsd.fsynced rfl)
          (.inl ⟨rfl, by rw [e]; rfl⟩) (.inl ⟨rfl, by rw [e]; rfl⟩) ⟨by rw [hw]; exact h1, h2, ?_, rfl⟩ (by simp [G.synced, G.lsn, G.out, G.wr, G.dur]; omega) hdur (.inl (by rw [e]; rfl)) (.inr ⟨rfl, rfl⟩)
          (.inl hp0) (.inl rfl) (.inr (.inr ⟨by rw [cur_synced], by rw [e]; rfl⟩))) hdur
      show s.written ≤ g.synced.dur lsn0
      rw [hwr, hw]; exact Nat.le_refl _
    · rename_i hnl
      have hc : g.gu = [] := by
        rcases h4 with h4 | h4
        · exact absurd h4 hnl
        · exact h4
      refine good_none (h.quiet s.inLock s.outFree s.fsynced hfs (.inl ⟨rfl, by rw [e]; rfl⟩) (.inl ⟨rfl, by rw [e]; rfl⟩) ⟨by omega, h2, h3, hc⟩ (.inl hp0) (.inl hc) (.inr (.inr (by rw [e]; rfl)))) (Nat.le_refl _)
  · -- fsNote
    rename_i c l fs
    have hp0 := pend_none h (t := t) (by rw [e]; rfl) (by rw [e]; rfl)
    obtain ⟨s', hs', hd, h1, h2, h3, h4⟩ := noted_data h.data
    simp only [hs']
    refine good_none (g' := g.noted (g.wr lsn0)) (h.next (t := t) (p := .fsRelease c l fs) (fun _ h => h) (fun u => by rw [goto_pc, h1]) (hd.same rfl (fun _ h => h) rfl rfl rfl rfl rfl hd.fsynced rfl)
          (.inl ⟨h2, by rw [e]; rfl⟩) (.inl ⟨h3, by rw [e]; rfl⟩) hpc (Nat.le_refl _) (Nat.le_refl _) (.inl (by rw [e]; rfl)) (.inr ⟨rfl, rfl⟩)
          (.inl hp0) (.inl hpc.2.2.2) (.inr (.inr ⟨rfl, by rw [e]; rfl⟩))) (Nat.le_refl _)
  · -- fsRelease
    rename_i c l fs
    have hp0 := pend_none h (t := t) (by rw [e]; rfl) (by rw [e]; rfl)
    refine ⟨g, h.move (t := t) (p := .idle) (fun _ h => List.mem_append_left _ h) (by rw [recs_append]; simp [recs, Event.rec?]) (fun u => rfl) rfl rfl rfl rfl rfl ?_ rfl
        (.inl ⟨rfl, by rw [e]; rfl⟩) (.inr (.inr ⟨by rw [e]; rfl, rfl, rfl⟩)) trivial (.inl hp0) (.inl hpc.2.2.2) (.inr (.inr (by rw [e]; rfl))), Nat.le_refl _⟩
    show (if s.fsynced < fs then fs else s.fsynced) ≤ _
    split
    · exact hpc.2.2.1
    · exact hfs
  · -- flushLock
    split
    · rename_i hn
      refine good_none (h.quiet (some t) s.outFree s.fsynced hfs (.inr (.inl ⟨hn, rfl, rfl⟩)) (.inl ⟨rfl, by rw [e]; rfl⟩) trivial (.inr (.inr (by rw [e]; rfl))) (.inr (.inr (.inr (by rw [e]; rfl)))) (.inr (.inr (by rw [e]; rfl)))) (Nat.le_refl _)
    · trivial
  · -- flushRead
    refine good_none (h.quiet s.inLock s.outFree s.fsynced hfs (.inl ⟨rfl, by rw [e]; rfl⟩) (.inl ⟨rfl, by rw [e]; rfl⟩) h.data.inMaxLe (.inr (.inr (by rw [e]; rfl))) (.inr (.inr (.inr (by rw [e]; rfl)))) (.inr (.inr (by rw [e]; rfl)))) (Nat.le_refl _)
  · -- flushUnlock
    refine good_none (h.quiet none s.outFree s.fsynced hfs (.inr (.inr ⟨by rw [e]; rfl, rfl, rfl⟩)) (.inl ⟨rfl, by rw [e]; rfl⟩) ⟨hpc, trivial⟩ (.inr (.inr (by rw [e]; rfl))) (.inr (.inr (.inr (by rw [e]; rfl)))) (.inr (.inr (by rw [e]; rfl)))) (Nat.le_refl _)
  · -- trimGrab
    split
    · rename_i hf
      refine good_none (h.quiet s.inLock false s.fsynced hfs (.inl ⟨rfl, by rw [e]; rfl⟩) (.inr (.inl ⟨hf, rfl, rfl⟩)) ⟨hpc, hfs⟩ (.inr (.inr (by rw [e]; rfl))) (.inr (.inr (.inr (by rw [e]; rfl)))) (.inr (.inr (by rw [e]; rfl)))) (Nat.le_refl _)
    · trivial
  · -- trimLoop
    rename_i l fs
    have hp0 := pend_none h (t := t) (by rw [e]; rfl) (by rw [e]; rfl)
    have out : Good1 lsn0 cfg old g evs (.ok (s.goto t (.trimRelease l fs)) none) :=
      good_none (h.quiet s.inLock s.outFree s.fsynced hfs (.inl ⟨rfl, by rw [e]; rfl⟩) (.inl ⟨rfl, by rw [e]; rfl⟩) hpc.2 (.inl hp0) (.inr (.inr (.inr (by rw [e]; rfl)))) (.inr (.inr (by rw [e]; rfl)))) (Nat.le_refl _)
    split
    · rename_i hc
      have hd := h.data
      have hfl := hd.files
      have hlen := hc.2
      rw [hfl, List.length_append, List.length_cons, List.length_nil] at hlen
      have hk : g.k < (old ++ closedFiles lsn0 g.closed).length := by
        rw [List.length_drop] at hlen; omega
      rw [List.drop_eq_getElem_cons hk, List.cons_append] at hfl
      rw [hfl]
      dsimp only
      split
      · exact out
      · rename_i hlt
        refine good_none (g' := { g with k := g.k + 1 }) (h.next (t := t) (p := .trimLoop l fs) (fun _ h => h) (fun u => rfl) ?_
          (.inl ⟨rfl, by rw [e]⟩) (.inl ⟨rfl, by rw [e]⟩) hpc (Nat.le_refl _) (Nat.le_refl _) (.inl (by rw [e]; rfl)) (.inr ⟨rfl, rfl⟩)
          (.inl hp0) (.inr (.inr (.inr ⟨rfl, rfl, by rw [e]; rfl⟩))) (.inr (.inr ⟨rfl, by rw [e]; rfl⟩))) (Nat.le_refl _)
        exact { hd with
          files := rfl
          k := hk
          trimmed := by
            intro f hf
            rw [List.take_succ_eq_append_getElem hk] at hf
            rcases List.mem_append.mp hf with hf | hf
            · exact hd.trimmed f hf
            · simp only [List.mem_cons, List.not_mem_nil, or_false] at hf
              obtain ⟨u, hu⟩ := hpc.1
              exact ⟨u, l, hu, by rw [hf]; omega⟩ }
    · exact out
  · -- trimRelease
    rename_i l fs
    have hp0 := pend_none h (t := t) (by rw [e]; rfl) (by rw [e]; rfl)
    refine ⟨g, h.move (t := t) (p := .idle) (fun _ h => List.mem_append_left _ h) (by rw [recs_append]; simp [recs, Event.rec?]) (fun u => rfl) rfl rfl rfl rfl rfl ?_ rfl
        (.inl ⟨rfl, by rw [e]; rfl⟩) (.inr (.inr ⟨by rw [e]; rfl, rfl, rfl⟩)) trivial (.inl hp0) (.inr (.inr (.inr (by rw [e]; rfl)))) (.inr (.inr (by rw [e]; rfl))), Nat.le_refl _⟩
    show (if s.fsynced < fs then fs else s.fsynced) ≤ _
    split
    · exact hpc
    · exact hfs

theorem call_good {g : G} {s : St} {evs : List Event} (h : Inv lsn0 cfg old g s evs) (t : Tid) (c : Call) (hc : CallOk c) : Good1 lsn0 cfg old g evs (s.call t c) := by
  unfold St.call
  split
  · rename_i e
    have key : ∀ p, PcOk (g.view lsn0) (evs ++ [.call t c]) t p → holdsIn p = false → holdsOut p = false → Good1 lsn0 cfg old g evs (.ok (s.goto t p) (some (.call t c))) := by
      intro p hp h1 h2
      exact ⟨g, h.move (t := t) (p := p) (fun _ h => List.mem_append_left _ h) (by rw [recs_append]; simp [recs, Event.rec?]) (fun u => rfl) rfl rfl rfl rfl rfl h.data.fsynced rfl
        (.inl ⟨rfl, by rw [e, h1]; rfl⟩) (.inl ⟨rfl, by rw [e, h2]; rfl⟩) hp (.inr (.inr (by rw [e]; rfl))) (.inr (.inr (.inr (by rw [e]; rfl)))) (.inr (.inr (by rw [e]; rfl))), Nat.le_refl _⟩
    cases c with
    | log j sy => exact key _ hc rfl rfl
    | flush => exact key _ trivial rfl rfl
    | sync l =>
      dsimp only
      split
      · rename_i hl
        exact key _ ⟨by rw [h.data.lsn] at hl; exact hl, rfl⟩ rfl rfl
      · trivial
    | trim l => exact key _ ⟨t, by simp⟩ rfl rfl
  · trivial

theorem act_good {g : G} {s : St} {evs : List Event} (h : Inv lsn0 cfg old g s evs) (t : Tid) (a : Act) (ha : a.Ok) (hl : s.lsn + 1 < 2 ^ 64) :
    Good1 lsn0 cfg old g evs (act cfg s t a) := by
  cases a with
  | call c => exact call_good h t c ha
  | go => exact step_good h t hl

/-- The state in which nothing has been logged. -/
def G.init (cfg : Cfg) (lsn0 : Nat) : G := ⟨[], [], [], [], [], 0, false, lsn0, cfg.minBuf⟩

theorem inv_opened : Inv lsn0 cfg old (G.init cfg lsn0) (St.opened cfg old lsn0) [] where
  data :=
    { all := rfl
      num := trivial
      written := by intro r hr; simp [G.init, G.all] at hr
      lsn := rfl
      wr := rfl
      files := by simp [G.init, closedFiles, St.opened, St.openFile, G.cur, bytesOf]
      k := Nat.zero_le _
      hdr := fun _ => rfl
      out := rfl
      inb := rfl
      outMax := fun h => absurd rfl h
      inMax := fun h => absurd rfl h
      inMaxLe := Nat.le_refl _
      outMaxLe := Nat.le_refl _
      fsynced := Nat.le_refl _
      size := rfl
      inMin := Nat.le_refl _
      outMin := Nat.le_refl _
      nIn := rfl
      trimmed := by intro f hf; simp [G.init] at hf }
  locks := ⟨by intro t; simp [St.opened, St.openFile, holdsIn], by intro t u h; simp [St.opened, St.openFile, holdsOut] at h, by simp [St.opened, St.openFile, holdsOut]⟩
  pcs := fun t => trivial
  pend := .inl rfl
  late := .inl rfl
  small := .inl (by simp [G.cur, G.init, bytesOf, header_length]; omega)

theorem Run.numbers {s0 s : St} {evs : List Event} (h : Run cfg s0 s evs) (h0 : s0.lsn + 1 < 2 ^ 64) : s.lsn + 1 < 2 ^ 64 := by
  cases h with
  | start => exact h0
  | step _ _ _ h => exact h

theorem inv_run {s : St} {evs : List Event} (h0 : lsn0 + 1 < 2 ^ 64) (h : Run cfg (St.opened cfg old lsn0) s evs) : ∃ g, Inv lsn0 cfg old g s evs := by
  induction h with
  | start => exact ⟨_, inv_opened⟩
  | step hr ha hs hl ih =>
    rename_i t a ev
    obtain ⟨g, ih⟩ := ih
    have := act_good ih t a ha (Run.numbers hr h0)
    rw [hs] at this
    obtain ⟨g', h', _⟩ := this
    exact ⟨g', h'⟩

/-- From a state with the invariant. -/
theorem inv_more {g : G} {s s' : St} {evs evs' : List Event} (hi : Inv lsn0 cfg old g s evs) (h0 : s.lsn + 1 < 2 ^ 64) (h : Run cfg s s' evs') :
    ∃ g', Inv lsn0 cfg old g' s' (evs ++ evs') ∧ g.dur lsn0 ≤ g'.dur lsn0 := by
  induction h with
  | start => exact ⟨g, by simpa using hi, Nat.le_refl _⟩
  | step hr ha hs hl ih =>
    rename_i t a ev
    obtain ⟨g1, ih, hd⟩ := ih
    have := act_good ih t a ha (Run.numbers hr h0)
    rw [hs] at this
    obtain ⟨g', h', hd'⟩ := this
    exact ⟨g', by rw [← List.append_assoc]; exact h', Nat.le_trans hd hd'⟩

theorem run_append {s0 s s' : St} {evs evs' : List Event} (h : Run cfg s0 s evs) (h' : Run cfg s s' evs') : Run cfg s0 s' (evs ++ evs') := by
  induction h' with
  | start => simpa using h
  | step _ ha hs hl ih => rw [← List.append_assoc]; exact .step ih ha hs hl

end Verif.Logger
