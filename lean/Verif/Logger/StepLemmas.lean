import Verif.Logger.InvLemmas
/-!
Every step keeps the invariant, and none crashes.
-/
set_option linter.unusedVariables false
set_option linter.unusedSimpArgs false
namespace Verif.Logger
open Verif.Log Verif.Log.Spec Verif.Ser Verif.Logger.Spec

variable {lsn0 : Nat} {cfg : Cfg} {old : List File}

/-- The data are the same but for `fsynced_lsn`, and no record was logged. -/
theorem Data.same {g : G} {s s' : St} {evs evs' : List Event} (h : Data lsn0 cfg old g s evs) (hr : recs evs' = recs evs) (he : ∀ e ∈ evs, e ∈ evs')
    (h1 : s'.lsn = s.lsn) (h2 : s'.written = s.written) (h3 : s'.files = s.files) (h4 : s'.outbuf = s.outbuf) (h5 : s'.inbuf = s.inbuf)
    (h6 : s'.fsynced ≤ g.dur lsn0) (h7 : s'.nInFile = s.nInFile) : Data lsn0 cfg old g s' evs' where
  all := by rw [hr]; exact h.all
  num := h.num
  written := h.written
  lsn := by rw [h1]; exact h.lsn
  wr := by rw [h2]; exact h.wr
  files := by rw [h3]; exact h.files
  k := h.k
  hdr := h.hdr
  out := by rw [h4]; exact h.out
  inb := by rw [h5]; exact h.inb
  outMax := by rw [h4]; exact h.outMax
  inMax := by rw [h5]; exact h.inMax
  inMaxLe := by rw [h5]; exact h.inMaxLe
  outMaxLe := by rw [h4]; exact h.outMaxLe
  fsynced := h6
  size := by rw [h5]; exact h.size
  inMin := by rw [h5]; exact h.inMin
  outMin := by rw [h4]; exact h.outMin
  nIn := by rw [h7]; exact h.nIn
  trimmed := fun f hf => TrimmedAbove.mono he (h.trimmed f hf)

/-- Thread `t` goes to `p`. -/
theorem Inv.next {g g' : G} {s s' : St} {evs evs' : List Event} (h : Inv lsn0 cfg old g s evs) {t : Tid} {p : Pc}
    (he : ∀ e ∈ evs, e ∈ evs')
    (hpc : ∀ u, s'.pc u = if u = t then p else s.pc u)
    (hd : Data lsn0 cfg old g' s' evs')
    (hin : (s'.inLock = s.inLock ∧ holdsIn p = holdsIn (s.pc t)) ∨ (s.inLock = none ∧ s'.inLock = some t ∧ holdsIn p = true) ∨
      (holdsIn (s.pc t) = true ∧ s'.inLock = none ∧ holdsIn p = false))
    (hout : (s'.outFree = s.outFree ∧ holdsOut p = holdsOut (s.pc t)) ∨ (s.outFree = true ∧ s'.outFree = false ∧ holdsOut p = true) ∨
      (holdsOut (s.pc t) = true ∧ s'.outFree = true ∧ holdsOut p = false))
    (hp : PcOk (g'.view lsn0) evs' t p)
    (hl : g.lsn lsn0 ≤ g'.lsn lsn0) (hdur : g.dur lsn0 ≤ g'.dur lsn0)
    (ho : holdsOut (s.pc t) = true ∨ (g'.wr lsn0 = g.wr lsn0 ∧ g'.out lsn0 = g.out lsn0 ∧ g'.gu = g.gu ∧ g'.hdr = g.hdr ∧ g'.info = g.info))
    (hi : holdsIn (s.pc t) = true ∨ (g'.i = g.i ∧ g'.size = g.size))
    (hpend : g'.p = [] ∨ isPend p = true ∨ (g'.p = g.p ∧ isPend (s.pc t) = false))
    (hlate : g'.gu = [] ∨ g'.i ≠ [] ∨ isLate p = true ∨ (g'.gu = g.gu ∧ g'.i = g.i ∧ isLate (s.pc t) = false))
    (hsmall : g'.cur.bytes.length ≤ max cfg.lgMax 12 ∨ isRolling p = true ∨ (g'.cur.bytes = g.cur.bytes ∧ isRolling (s.pc t) = false)) :
    Inv lsn0 cfg old g' s' evs' where
  data := hd
  locks := h.locks.step hpc hin hout
  pcs := by
    intro u
    rw [hpc u]
    by_cases hu : u = t
    · rw [if_pos hu, hu]; exact hp
    · rw [if_neg hu]
      refine (h.pcs u).frame he hl hdur ?_ ?_
      · intro hh
        rcases ho with ho | ⟨a, b, c, d, e⟩
        · exact absurd (h.locks.one u t hh ho) hu
        · refine ⟨a, b, ?_, ?_⟩
          · show g.gu = [] → g'.gu = []
            rw [c]; exact id
          · show (g.gu = [] ∧ g.hdr = true ∧ g.info = g.wr lsn0) → (g'.gu = [] ∧ g'.hdr = true ∧ g'.info = g'.wr lsn0)
            rw [c, d, e, a]; exact id
      · intro hh
        rcases hi with hi | ⟨a, b⟩
        · have e1 := (h.locks.inl u).mp hh
          rw [(h.locks.inl t).mp hi] at e1
          exact absurd (Option.some.inj e1).symm hu
        · refine ⟨?_, ?_⟩
          · show (bytesOf g'.i).length = (bytesOf g.i).length
            rw [a]
          · exact b
  pend := by
    rcases hpend with h1 | h1 | ⟨h1, h2⟩
    · exact .inl h1
    · exact .inr ⟨t, by rw [hpc t, if_pos rfl]; exact h1⟩
    · rcases h.pend with h3 | ⟨u, h3⟩
      · exact .inl (h1.trans h3)
      · refine .inr ⟨u, ?_⟩
        rw [hpc u, if_neg]
        · exact h3
        · intro e; rw [e, h2] at h3; cases h3
  late := by
    rcases hlate with h1 | h1 | h1 | ⟨h1, h0, h2⟩
    · exact .inl h1
    · exact .inr (.inl h1)
    · exact .inr (.inr ⟨t, by rw [hpc t, if_pos rfl]; exact h1⟩)
    · rcases h.late with h3 | h3 | ⟨u, h3⟩
      · exact .inl (h1.trans h3)
      · exact .inr (.inl (by rw [h0]; exact h3))
      · refine .inr (.inr ⟨u, ?_⟩)
        rw [hpc u, if_neg]
        · exact h3
        · intro e; rw [e, h2] at h3; cases h3
  small := by
    rcases hsmall with h1 | h1 | ⟨h1, h2⟩
    · exact .inl h1
    · exact .inr ⟨t, by rw [hpc t, if_pos rfl]; exact h1⟩
    · rcases h.small with h3 | ⟨u, h3⟩
      · exact .inl (by rw [h1]; exact h3)
      · refine .inr ⟨u, ?_⟩
        rw [hpc u, if_neg]
        · exact h3
        · intro e; rw [e, h2] at h3; cases h3

/-- A step that changes only places and locks, and perhaps `fsynced_lsn`. -/
theorem Inv.move {g : G} {s s' : St} {evs evs' : List Event} (h : Inv lsn0 cfg old g s evs) {t : Tid} {p : Pc}
    (he : ∀ e ∈ evs, e ∈ evs') (hr : recs evs' = recs evs)
    (hpc : ∀ u, s'.pc u = if u = t then p else s.pc u)
    (h1 : s'.lsn = s.lsn) (h2 : s'.written = s.written) (h3 : s'.files = s.files) (h4 : s'.outbuf = s.outbuf) (h5 : s'.inbuf = s.inbuf)
    (h6 : s'.fsynced ≤ g.dur lsn0) (h7 : s'.nInFile = s.nInFile)
    (hin : (s'.inLock = s.inLock ∧ holdsIn p = holdsIn (s.pc t)) ∨ (s.inLock = none ∧ s'.inLock = some t ∧ holdsIn p = true) ∨
      (holdsIn (s.pc t) = true ∧ s'.inLock = none ∧ holdsIn p = false))
    (hout : (s'.outFree = s.outFree ∧ holdsOut p = holdsOut (s.pc t)) ∨ (s.outFree = true ∧ s'.outFree = false ∧ holdsOut p = true) ∨
      (holdsOut (s.pc t) = true ∧ s'.outFree = true ∧ holdsOut p = false))
    (hp : PcOk (g.view lsn0) evs' t p)
    (hpend : g.p = [] ∨ isPend p = true ∨ isPend (s.pc t) = false)
    (hlate : g.gu = [] ∨ g.i ≠ [] ∨ isLate p = true ∨ isLate (s.pc t) = false)
    (hsmall : g.cur.bytes.length ≤ max cfg.lgMax 12 ∨ isRolling p = true ∨ isRolling (s.pc t) = false) : Inv lsn0 cfg old g s' evs' :=
  h.next he hpc (h.data.same hr he h1 h2 h3 h4 h5 h6 h7) hin hout hp (Nat.le_refl _) (Nat.le_refl _) (.inr ⟨rfl, rfl, rfl, rfl, rfl⟩) (.inr ⟨rfl, rfl⟩)
    (hpend.imp id (Or.imp id fun h => ⟨rfl, h⟩)) (hlate.imp id (Or.imp id (Or.imp id fun h => ⟨rfl, rfl, h⟩))) (hsmall.imp id (Or.imp id fun h => ⟨rfl, h⟩))

/-- Moving without an event. -/
theorem Inv.quiet {g : G} {s : St} {evs : List Event} (h : Inv lsn0 cfg old g s evs) {t : Tid} {p : Pc} (il : Option Tid) (fr : Bool) (fsy : Nat)
    (h6 : fsy ≤ g.dur lsn0)
    (hin : (il = s.inLock ∧ holdsIn p = holdsIn (s.pc t)) ∨ (s.inLock = none ∧ il = some t ∧ holdsIn p = true) ∨
      (holdsIn (s.pc t) = true ∧ il = none ∧ holdsIn p = false))
    (hout : (fr = s.outFree ∧ holdsOut p = holdsOut (s.pc t)) ∨ (s.outFree = true ∧ fr = false ∧ holdsOut p = true) ∨
      (holdsOut (s.pc t) = true ∧ fr = true ∧ holdsOut p = false))
    (hp : PcOk (g.view lsn0) evs t p)
    (hpend : g.p = [] ∨ isPend p = true ∨ isPend (s.pc t) = false)
    (hlate : g.gu = [] ∨ g.i ≠ [] ∨ isLate p = true ∨ isLate (s.pc t) = false)
    (hsmall : g.cur.bytes.length ≤ max cfg.lgMax 12 ∨ isRolling p = true ∨ isRolling (s.pc t) = false) :
    Inv lsn0 cfg old g ({ s with inLock := il, outFree := fr, fsynced := fsy }.goto t p) evs :=
  h.move (fun _ h => h) rfl (fun u => rfl) rfl rfl rfl rfl rfl h6 rfl hin hout hp hpend hlate hsmall

/-! ### The parts of the steps that change data -/

theorem pend_none {g : G} {s : St} {evs : List Event} (h : Inv lsn0 cfg old g s evs) {t : Tid} (ho : holdsOut (s.pc t) = true) (hn : isPend (s.pc t) = false) : g.p = [] := by
  rcases h.pend with h1 | ⟨u, h1⟩
  · exact h1
  · have : holdsOut (s.pc u) = true := by
      cases hp : s.pc u <;> rw [hp] at h1 <;> first | rfl | cases h1
    rw [h.locks.one u t this ho, hn] at h1
    cases h1

theorem bytesOf_nil_iff {l : List Rec} (h : ∀ r ∈ l, Written r) : (bytesOf l).length = 0 ↔ l = [] := by
  constructor
  · intro h0
    cases l with
    | nil => rfl
    | cons r l =>
      have hw := Written.whole (h r (by simp))
      have := hw.pos
      rw [bytesOf_cons, List.length_append] at h0
      omega
  · intro h0; rw [h0]; rfl

def G.swapped (g : G) (z : Nat) : G := { g with p := g.i, i := [], size := z }
def G.flushed (g : G) : G := { g with gu := g.gu ++ g.p, p := [] }
def G.synced (g : G) : G := { g with gs := g.gs ++ g.gu, gu := [], hdr := true }
def G.noted (g : G) (n : Nat) : G := { g with info := n }
def G.opened (g : G) (n : Nat) : G := { g with closed := g.closed ++ [g.gs], gs := [], gu := [], hdr := false, info := n }
def G.added (g : G) (r : Rec) : G := { g with i := g.i ++ [r] }

theorem swap_data {g : G} {s : St} {evs : List Event} (h : Data lsn0 cfg old g s evs) (hp : g.p = []) :
    ∃ s', s.swap = some s' ∧ Data lsn0 cfg old (g.swapped s.outbuf.size) s' evs ∧ s'.pc = s.pc ∧ s'.inLock = s.inLock ∧ s'.outFree = s.outFree := by
  have h0 : s.outbuf.bytes.length = 0 := by rw [h.out, hp]; rfl
  refine ⟨{ s with inbuf := s.outbuf, outbuf := s.inbuf }, by rw [St.swap, if_pos h0], ?_, rfl, rfl, rfl⟩
  have hall : (g.swapped s.outbuf.size).all = g.all := by simp [G.all, G.swapped, hp]
  have hout : (g.swapped s.outbuf.size).out lsn0 = g.lsn lsn0 := by simp [G.swapped, G.out, G.lsn, G.wr, G.dur, hp]
  have hlsn : (g.swapped s.outbuf.size).lsn lsn0 = g.lsn lsn0 := by simp [G.swapped, G.out, G.lsn, G.wr, G.dur, hp]
  exact
    { all := by rw [hall]; exact h.all
      num := by rw [hall]; exact h.num
      written := by rw [hall]; exact h.written
      lsn := by rw [hlsn]; exact h.lsn
      wr := h.wr
      files := h.files
      k := h.k
      hdr := h.hdr
      out := h.inb
      inb := by show s.outbuf.bytes = bytesOf []; rw [h.out, hp]
      outMax := by intro hi; rw [hout]; exact h.inMax hi
      inMax := by intro hi; exact absurd rfl hi
      inMaxLe := by rw [hlsn]; exact h.outMaxLe
      outMaxLe := by rw [hlsn]; exact h.inMaxLe
      fsynced := h.fsynced
      size := rfl
      inMin := h.outMin
      outMin := h.inMin
      nIn := h.nIn
      trimmed := h.trimmed }

theorem cur_flushed (g : G) : g.flushed.cur = { g.cur with bytes := g.cur.bytes ++ bytesOf g.p } := by
  simp only [G.cur, G.flushed, bytesOf_append, List.append_assoc]; rfl

theorem writeOut_data {g : G} {s : St} {evs : List Event} (h : Data lsn0 cfg old g s evs) :
    ∃ s', s.writeOut = some s' ∧ Data lsn0 cfg old g.flushed s' evs ∧ s'.pc = s.pc ∧ s'.inLock = s.inLock ∧ s'.outFree = s.outFree := by
  have hw : ∀ r ∈ g.p, Written r := fun r hr => h.written r (by simp [G.all, hr])
  have hall : g.flushed.all = g.all := by simp [G.all, G.flushed]
  have hwr : g.flushed.wr lsn0 = g.out lsn0 := by simp [G.flushed, G.out, G.wr, G.dur]; omega
  have hout : g.flushed.out lsn0 = g.out lsn0 := by simp [G.flushed, G.out, G.wr, G.dur]; omega
  have hlsn : g.flushed.lsn lsn0 = g.lsn lsn0 := by simp [G.flushed, G.out, G.lsn, G.wr, G.dur]; omega
  by_cases hp : g.p = []
  · have h0 : ¬ s.outbuf.bytes.length > 0 := by rw [h.out, hp]; simp [bytesOf]
    refine ⟨s, by rw [St.writeOut, if_neg h0], ?_, rfl, rfl, rfl⟩
    have : g.flushed = g := by
      rw [G.flushed, hp, List.append_nil, ← hp]
    rw [this]; exact h
  · have h0 : s.outbuf.bytes.length > 0 := by
      rw [h.out]
      have : ¬ (bytesOf g.p).length = 0 := fun h => hp ((bytesOf_nil_iff hw).mp h)
      omega
    have hm := h.outMax hp
    have h1 : s.outbuf.maxLsn > s.written := by
      rw [hm, h.wr, G.out]
      have : g.p.length ≠ 0 := fun h => hp (List.length_eq_zero_iff.mp h)
      omega
    refine ⟨{ s with
        files := onLast (fun f => { f with bytes := f.bytes ++ s.outbuf.bytes }) s.files
        written := s.outbuf.maxLsn
        nInFile := s.nInFile + s.outbuf.bytes.length
        outbuf := { s.outbuf with bytes := [] } }, by rw [St.writeOut, if_pos h0, if_pos h1], ?_, rfl, rfl, rfl⟩
    exact
      { all := by rw [hall]; exact h.all
        num := by rw [hall]; exact h.num
        written := by rw [hall]; exact h.written
        lsn := by rw [hlsn]; exact h.lsn
        wr := by rw [hwr]; exact hm
        files := by
          show onLast _ s.files = _
          rw [h.files, onLast_append, cur_flushed, h.out]; rfl
        k := h.k
        hdr := h.hdr
        out := rfl
        inb := h.inb
        outMax := by intro hi; exact absurd rfl hi
        inMax := by intro hi; rw [hlsn]; exact h.inMax hi
        inMaxLe := by rw [hlsn]; exact h.inMaxLe
        outMaxLe := by rw [hlsn]; exact h.outMaxLe
        fsynced := h.fsynced
        size := h.size
        inMin := h.inMin
        outMin := h.outMin
        nIn := by
          show s.nInFile + s.outbuf.bytes.length = _
          rw [h.nIn, h.out, cur_flushed, List.length_append]
        trimmed := h.trimmed }

theorem cur_synced (g : G) : g.synced.cur = { g.cur with synced := g.cur.bytes.length } := by
  simp [G.cur, G.synced, bytesOf_append, header_length, Nat.add_assoc]

theorem synced_data {g : G} {s : St} {evs : List Event} (h : Data lsn0 cfg old g s evs) : Data lsn0 cfg old g.synced s.fsync evs := by
  have hall : g.synced.all = g.all := by simp [G.all, G.synced]
  have hwr : g.synced.wr lsn0 = g.wr lsn0 := by simp [G.synced, G.wr, G.dur]; omega
  have hout : g.synced.out lsn0 = g.out lsn0 := by simp [G.synced, G.out, G.wr, G.dur]; omega
  have hlsn : g.synced.lsn lsn0 = g.lsn lsn0 := by simp [G.synced, G.out, G.lsn, G.wr, G.dur]; omega
  have hdur : g.dur lsn0 ≤ g.synced.dur lsn0 := by simp only [G.synced, G.dur, List.length_append]; omega
  exact
    { all := by rw [hall]; exact h.all
      num := by rw [hall]; exact h.num
      written := by rw [hall]; exact h.written
      lsn := by rw [hlsn]; exact h.lsn
      wr := by rw [hwr]; exact h.wr
      files := by
        show onLast _ s.files = _
        rw [h.files, onLast_append, cur_synced]; rfl
      k := h.k
      hdr := by intro hh; cases hh
      out := h.out
      inb := h.inb
      outMax := by rw [hout]; exact h.outMax
      inMax := by rw [hlsn]; exact h.inMax
      inMaxLe := by rw [hlsn]; exact h.inMaxLe
      outMaxLe := by rw [hlsn]; exact h.outMaxLe
      fsynced := Nat.le_trans h.fsynced hdur
      size := h.size
      inMin := h.inMin
      outMin := h.outMin
      nIn := by rw [cur_synced]; exact h.nIn
      trimmed := h.trimmed }

theorem noted_data {g : G} {s : St} {evs : List Event} (h : Data lsn0 cfg old g s evs) :
    ∃ s', s.note = some s' ∧ Data lsn0 cfg old (g.noted (g.wr lsn0)) s' evs ∧ s'.pc = s.pc ∧ s'.inLock = s.inLock ∧ s'.outFree = s.outFree ∧ s'.written = s.written := by
  have hne : s.files ≠ [] := by rw [h.files]; simp
  refine ⟨{ s with files := onLast (fun f => { f with info := s.written }) s.files }, by rw [St.note, if_neg hne], ?_, rfl, rfl, rfl, rfl⟩
  exact
    { all := h.all
      num := h.num
      written := h.written
      lsn := h.lsn
      wr := h.wr
      files := by
        show onLast _ s.files = _
        rw [h.files, onLast_append, h.wr]; rfl
      k := h.k
      hdr := h.hdr
      out := h.out
      inb := h.inb
      outMax := h.outMax
      inMax := h.inMax
      inMaxLe := h.inMaxLe
      outMaxLe := h.outMaxLe
      fsynced := h.fsynced
      size := h.size
      inMin := h.inMin
      outMin := h.outMin
      nIn := h.nIn
      trimmed := h.trimmed }

theorem opened_data {g : G} {s : St} {evs : List Event} (h : Data lsn0 cfg old g s evs) (h1 : g.gu = []) (h2 : g.hdr = true) (h3 : g.info = g.wr lsn0) :
    Data lsn0 cfg old (g.opened (g.wr lsn0)) s.openFile evs := by
  have hfl : (g.opened (g.wr lsn0)).closed.flatten = g.closed.flatten ++ g.gs := by simp [G.opened]
  have hall : (g.opened (g.wr lsn0)).all = g.all := by simp [G.all, G.opened, h1]
  have hdur : (g.opened (g.wr lsn0)).dur lsn0 = g.dur lsn0 := by rw [G.dur, hfl, G.dur]; simp [G.opened]; omega
  have hwr : (g.opened (g.wr lsn0)).wr lsn0 = g.wr lsn0 := by rw [G.wr, hdur, G.wr, h1]; rfl
  have hout : (g.opened (g.wr lsn0)).out lsn0 = g.out lsn0 := by rw [G.out, hwr]; rfl
  have hlsn : (g.opened (g.wr lsn0)).lsn lsn0 = g.lsn lsn0 := by rw [G.lsn, hout]; rfl
  have hcl : closedFiles lsn0 (g.opened (g.wr lsn0)).closed = closedFiles lsn0 g.closed ++ [g.cur] := by
    rw [G.opened, closedFiles_append]
    congr 2
    simp only [G.cur, h1, List.append_nil, h2, if_true, h3, List.length_append, header_length, G.wr, G.dur, List.length_nil, Nat.add_zero]
  exact
    { all := by rw [hall]; exact h.all
      num := by rw [hall]; exact h.num
      written := by rw [hall]; exact h.written
      lsn := by rw [hlsn]; exact h.lsn
      wr := by rw [hwr]; exact h.wr
      files := by
        show s.files ++ _ = _
        rw [hcl, h.files, ← List.append_assoc old, List.drop_append_of_le_length (show (g.opened (g.wr lsn0)).k ≤ _ from h.k)]
        simp [G.cur, G.opened, bytesOf, h.wr]
      k := by rw [hcl, ← List.append_assoc, List.length_append]; have := h.k; show g.k ≤ _; omega
      hdr := fun _ => rfl
      out := h.out
      inb := h.inb
      outMax := by rw [hout]; exact h.outMax
      inMax := by rw [hlsn]; exact h.inMax
      inMaxLe := by rw [hlsn]; exact h.inMaxLe
      outMaxLe := by rw [hlsn]; exact h.outMaxLe
      fsynced := by rw [hdur]; show s.written ≤ _; rw [h.wr, G.wr, h1]; exact Nat.le_refl _
      size := h.size
      inMin := h.inMin
      outMin := h.outMin
      nIn := by simp [G.cur, G.opened, St.openFile, bytesOf, header_length]
      trimmed := by
        intro f hf
        apply h.trimmed f
        rw [hcl, ← List.append_assoc, List.take_append_of_le_length (show (g.opened (g.wr lsn0)).k ≤ _ from h.k)] at hf
        exact hf }

end Verif.Logger
