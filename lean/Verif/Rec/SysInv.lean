import Verif.Rec.Inv
/-! Every reachable state can crash and be recovered. -/
namespace Verif.Rec
open Verif.Rec.Spec
open Verif.Ule (emptyUle)
set_option linter.unusedVariables false
set_option linter.unusedSimpArgs false

variable (files : List File)

theorem Complete.bounds {log : List Rec} {b e : Nat} (h : Complete files log b e) : b < e ∧ e ≤ log.length ∧ 0 < b := by
  obtain ⟨pre, lx, mid, post, hlog, hb, he, -⟩ := h
  rw [hlog, he, hb]; simp; omega

theorem Complete.append {log : List Rec} {b e : Nat} (h : Complete files log b e) (rs : List Rec) : Complete files (log ++ rs) b e := by
  obtain ⟨pre, lx, mid, post, hlog, hb, he, hm⟩ := h
  exact ⟨pre, lx, mid, post ++ rs, by rw [hlog]; simp, hb, he, hm⟩

theorem Complete.take {log : List Rec} {b e n : Nat} (h : Complete files log b e) (hn : e ≤ n) : Complete files (log.take n) b e := by
  obtain ⟨pre, lx, mid, post, hlog, hb, he, hm⟩ := h
  refine ⟨pre, lx, mid, post.take (n - e), ?_, hb, he, hm⟩
  have : log = (pre ++ Rec.ckBegin lx :: (block files pre ++ mid ++ [Rec.ckEnd b (files.length + 1) (W pre).txns.length])) ++ post := by rw [hlog]; simp
  have hl : (pre ++ Rec.ckBegin lx :: (block files pre ++ mid ++ [Rec.ckEnd b (files.length + 1) (W pre).txns.length])).length = e := by rw [he, hb]; simp; omega
  rw [this, List.take_append, hl, List.take_of_length_le (by omega)]; simp

/-- Where the checkpoint in progress has begun. -/
def ckb : Option Ck → Nat
  | some c => c.begin
  | none => 0

/-- The checkpoint in progress, as the log shows it. -/
def CkInv (log : List Rec) (last e : Nat) : Option Ck → Prop
  | none => ∀ r ∈ log.drop e, r.isEnd = false
  | some ⟨b, nx, none⟩ => (∀ r ∈ log.drop e, r.isEnd = false) ∧ last < b ∧
      ∃ pre lx mid, log = pre ++ Rec.ckBegin lx :: (block files pre ++ mid) ∧ b = pre.length + 1 ∧ nx = (W pre).txns.length ∧ ∀ r ∈ mid, r.isCk = false
  | some ⟨b, nx, some e'⟩ => (∀ r ∈ (log.take (e' - 1)).drop e, r.isEnd = false) ∧ last < b ∧ Complete files log b e' ∧ ∀ r ∈ log.drop e', r.isEnd = false

/-- How far the checkpoint of a file is. -/
def StageOk {α : Type} : Option Ck → Stage α → Prop
  | none, .idle => True
  | none, _ => False
  | some ⟨_, _, none⟩, .idle => False
  | some ⟨_, _, none⟩, _ => True
  | some ⟨_, _, some _⟩, .done => True
  | some ⟨_, _, some _⟩, _ => False

theorem StageOk.quiet {α : Type} {st : Stage α} : StageOk none st ↔ st = .idle := by cases st <;> simp [StageOk]
theorem StageOk.openCk {α : Type} {st : Stage α} {b nx} : StageOk (some ⟨b, nx, none⟩) st ↔ st ≠ .idle := by cases st <;> simp [StageOk]
theorem StageOk.ended {α : Type} {st : Stage α} {b nx e} : StageOk (some ⟨b, nx, some e⟩) st ↔ st = .done := by cases st <;> simp [StageOk]
theorem StageOk.busy {α : Type} {st : Stage α} {c} (h : StageOk c st) (hs : st ≠ .idle ∧ st ≠ .done) : ∃ b nx, c = some ⟨b, nx, none⟩ := by
  cases c with
  | none => exact absurd (StageOk.quiet.mp h) hs.1
  | some c =>
    obtain ⟨b, nx, e⟩ := c
    cases e with
    | none => exact ⟨b, nx, rfl⟩
    | some e => exact absurd (StageOk.ended.mp h) hs.2

def fileC (log : List Rec) (f : File) : Nat → Rows := fun i => (W (log.take i)).rows f
def rbC (log : List Rec) : Nat → RbImg := fun i => rbOf (W (log.take i)).txns

/-- What holds in every reachable state. -/
structure SysInv (s : Sys) : Prop where
  valid : Valid files s.log
  w : s.w = W s.log
  synced : s.synced ≤ s.log.length
  trim : s.trimmed < s.last
  log : ∃ e, Complete files s.log s.last e ∧ e ≤ s.synced ∧ CkInv files s.log s.last e s.ck
  fstage : ∀ f ∈ files, StageOk s.ck (s.file f).stage
  rstage : StageOk s.ck s.rb.stage
  file : ∀ f ∈ files, FInv (fileC s.log f) s.log.length s.synced s.last (ckb s.ck) (s.file f)
  rb : RInv (rbC s.log) s.log.length s.synced s.last (ckb s.ck) s.rb

theorem fileC_append {log rs : List Rec} {f : File} {i : Nat} (h : i ≤ log.length) : fileC (log ++ rs) f i = fileC log f i := by
  simp only [fileC, List.take_append_of_le_length h]
theorem rbC_append {log rs : List Rec} {i : Nat} (h : i ≤ log.length) : rbC (log ++ rs) i = rbC log i := by
  simp only [rbC, List.take_append_of_le_length h]
theorem fileC_len {log : List Rec} {f : File} : fileC log f log.length = (W log).rows f := by simp [fileC]
theorem rbC_len {log : List Rec} : rbC log log.length = rbOf (W log).txns := by simp [rbC]

theorem SysInv.last_le {s : Sys} (h : SysInv files s) : s.last < s.synced ∧ s.last ≤ s.log.length ∧ 0 < s.last := by
  obtain ⟨e, hc, he, -⟩ := h.log
  have := hc.bounds; have := h.synced; omega

theorem SysInv.ckb_le {s : Sys} (h : SysInv files s) : ckb s.ck ≤ s.log.length := by
  obtain ⟨e, hc, he, hk⟩ := h.log
  cases hck : s.ck with
  | none => simp [ckb]
  | some c =>
    obtain ⟨b, nx, e'⟩ := c
    rw [hck] at hk
    cases e' with
    | none =>
      obtain ⟨-, -, pre, lx, mid, h1, h2, -⟩ := hk
      simp only [ckb]; rw [h1, h2]; simp
    | some e' =>
      obtain ⟨-, -, h1, -⟩ := hk
      have := h1.bounds; simp only [ckb]; omega

theorem SysInv.last_lt {s : Sys} (h : SysInv files s) (hc : s.ck ≠ none) : s.last < ckb s.ck := by
  obtain ⟨e, -, he, hk⟩ := h.log
  cases hck : s.ck with
  | none => exact absurd hck hc
  | some c =>
    obtain ⟨b, nx, e'⟩ := c
    rw [hck] at hk
    cases e' with
    | none => exact hk.2.1
    | some e' => exact hk.2.1

theorem CkInv.append {log : List Rec} {last e : Nat} {ck : Option Ck} {r : Rec} (h : CkInv files log last e ck) (he : e ≤ log.length) (hr : r.isCk = false) : CkInv files (log ++ [r]) last e ck := by
  have hre : r.isEnd = false := by cases r <;> simp [Rec.isCk] at hr <;> rfl
  have hd : ∀ k, k ≤ log.length → (∀ r ∈ log.drop k, r.isEnd = false) → ∀ x ∈ (log ++ [r]).drop k, x.isEnd = false := by
    intro k hk h x hx
    rw [List.drop_append_of_le_length hk] at hx
    rcases List.mem_append.mp hx with h' | h'
    · exact h x h'
    · simp only [List.mem_singleton] at h'; rw [h']; exact hre
  cases ck with
  | none => exact hd e he h
  | some c =>
    obtain ⟨b, nx, e'⟩ := c
    cases e' with
    | none =>
      obtain ⟨h1, h2, pre, lx, mid, h3, h4, h5, h6⟩ := h
      refine ⟨hd e he h1, h2, pre, lx, mid ++ [r], by rw [h3]; simp, h4, h5, ?_⟩
      intro x hx
      rcases List.mem_append.mp hx with h' | h'
      · exact h6 x h'
      · simp only [List.mem_singleton] at h'; rw [h']; exact hr
    | some e' =>
      obtain ⟨h1, h2, h3, h4⟩ := h
      have := h3.bounds
      refine ⟨?_, h2, h3.append _ _, hd e' (by omega) h4⟩
      rw [List.take_append_of_le_length (by omega)]; exact h1

theorem touched_none {sk : File → Bool} {ms : List Msg} {R R' : File → Rows} (h : sendAll sk R ms = some R') {f : File} (ht : touched noSkip ms f = false) : R' f = R f := by
  refine sendAll_file sk ms h f fun m hm hf => ?_
  simp only [touched, noSkip, Bool.not_false, Bool.true_and, List.any_eq_false, decide_eq_true_eq] at ht
  exact ht m hm hf

theorem allowed_ck {files : List File} {log T r} (h : Allowed files log T r) : r.isCk = false := by
  cases r <;> first | rfl | exact absurd h (by simp [Allowed])

theorem allowed_ok {files : List File} {log T r} (h : Allowed files log T r) : Ok files log T r := by
  cases r <;> first | exact h | exact absurd h (by simp [Allowed])

theorem SysInv.client {s s' : Sys} {r : Rec} (h : SysInv files s) (ha : Allowed files s.log s.w.txns r) (he : s.client r = some s') : SysInv files s' := by
  unfold Sys.client at he
  obtain ⟨w', hw, he⟩ := Option.map_eq_some_iff.mp he
  subst he
  have hw0 := hw
  rw [h.w] at hw0 ha
  have hck := allowed_ck ha
  have hW : W (s.log ++ [r]) = w' := by rw [W_snoc, show (W s.log).step noSkip r = some w' from hw0]; rfl
  have hv : Valid files (s.log ++ [r]) := h.valid.snoc (allowed_ok ha) hw0
  obtain ⟨wf, ids⟩ := h.valid.txwf
  obtain ⟨ht, hm⟩ := World.step_some.mp hw0
  obtain ⟨l1, l2, l3⟩ := h.last_le
  have l4 := h.ckb_le
  have hsy := h.synced
  refine ⟨hv, by simp only; exact hW.symm, by simp; omega, h.trim, ?_, h.fstage, h.rstage, ?_, ?_⟩
  · obtain ⟨e, h1, h2, h3⟩ := h.log
    exact ⟨e, h1.append _ _, h2, h3.append files (by simp only at *; omega) hck⟩
  · intro f hf
    refine (h.file f hf).ext _ _ _ _ _ hsy l2 l4 (fun i hi => fileC_append hi) (Nat.le_refl _) ?_
    intro hd
    simp only [Bool.or_eq_false_iff] at hd
    refine ⟨hd.1, ?_⟩
    simp only
    rw [fileC_len, fileC_len, hW]
    rw [h.w] at hd
    exact touched_none hm hd.2
  · refine h.rb.ext _ _ _ _ _ hsy l2 l4 (fun i hi => rbC_append hi) (Nat.le_refl _) ?_
    intro hd
    simp only [Bool.or_eq_false_iff] at hd
    refine ⟨hd.1, ?_⟩
    simp only
    rw [rbC_len, rbC_len, hW]
    rw [h.w] at hd
    exact rb_untouched wf ht hd.2

theorem SysInv.fsync {s : Sys} (h : SysInv files s) (n : Nat) : SysInv files (s.fsync n) := by
  obtain ⟨l1, l2, l3⟩ := h.last_le
  have l4 := h.ckb_le
  have hsy := h.synced
  refine ⟨h.valid, h.w, by simp only [Sys.fsync]; omega, h.trim, ?_, h.fstage, h.rstage, ?_, ?_⟩
  · obtain ⟨e, h1, h2, h3⟩ := h.log
    exact ⟨e, h1, by simp only [Sys.fsync]; omega, h3⟩
  · intro f hf
    exact (h.file f hf).ext _ _ _ _ _ (d := (s.file f).dirty) hsy l2 l4 (fun i _ => rfl) (by simp only [Sys.fsync]; omega) fun hd => ⟨hd, rfl⟩
  · exact h.rb.ext _ _ _ _ _ (d := s.rb.dirty) hsy l2 l4 (fun i _ => rfl) (by simp only [Sys.fsync]; omega) fun hd => ⟨hd, rfl⟩

theorem ok_stills {files : List File} {log : List Rec} {T : Txns} (wf : TxWf T) {e : Xid × Txn} (he : e ∈ T) : Ok files log T (stillRec e) := by
  have hg := get_of_mem wf.sorted he
  unfold stillRec
  split
  · rename_i h; exact ⟨e.2, hg, h⟩
  · rename_i h; exact ⟨e.2, hg, by simpa using h, rfl⟩

theorem Valid.cks {log : List Rec} (h : Valid files log) (rs : List Rec) (hck : ∀ r ∈ rs, r.isCk = true) (hok : ∀ r ∈ rs, ∀ l, Ok files l (W log).txns r) : Valid files (log ++ rs) := by
  induction rs generalizing log with
  | nil => simpa using h
  | cons r rs ih =>
    have hW : W (log ++ [r]) = W log := W_ck _ _ (by simpa using hck r (by simp))
    have := ih (h.snoc (hok r (by simp) log) (step_ck (hck r (by simp)))) (fun r hr => hck r (List.mem_cons_of_mem _ hr)) (fun r hr l => by
      rw [hW]; exact hok r (List.mem_cons_of_mem _ hr) l)
    simpa using this

theorem SysInv.ckBegin {s s' : Sys} {lx : Nat} (h : SysInv files s) (hlx : lastXid s.log ≤ lx) (he : s.ckBegin files lx = some s') : SysInv files s' := by
  unfold Sys.ckBegin at he
  split at he
  · simp at he
  · rename_i hck
    injection he with he; subst he
    obtain ⟨l1, l2, l3⟩ := h.last_le
    have l4 := h.ckb_le
    have hsy := h.synced
    obtain ⟨wf, ids⟩ := h.valid.txwf
    have hlogeq : s.log ++ (Rec.ckBegin lx :: files.map .fassoc ++ .fassocRb :: s.w.txns.map stillRec) = (s.log ++ [Rec.ckBegin lx]) ++ block files s.log := by
      rw [h.w]; simp [block]
    have hW1 : W (s.log ++ [Rec.ckBegin lx]) = W s.log := W_ck _ _ (by simp [Rec.isCk])
    have hW : W ((s.log ++ [Rec.ckBegin lx]) ++ block files s.log) = W s.log := by rw [W_ck _ _ (fun r hr => (block_ck r hr).1), hW1]
    have hv1 : Valid files (s.log ++ [Rec.ckBegin lx]) := h.valid.snoc hlx (step_ck rfl)
    have hv : Valid files ((s.log ++ [Rec.ckBegin lx]) ++ block files s.log) := by
      refine Valid.cks files hv1 _ (fun r hr => (block_ck r hr).1) ?_
      intro r hr l
      rw [hW1]
      simp only [block, List.mem_append, List.mem_map, List.mem_cons] at hr
      rcases hr with ⟨f, hf, rfl⟩ | rfl | ⟨e, he, rfl⟩
      · exact hf
      · exact trivial
      · exact ok_stills wf he
    have happ : (s.log ++ [Rec.ckBegin lx]) ++ block files s.log = s.log ++ (Rec.ckBegin lx :: block files s.log) := by simp
    have htake : ((s.log ++ [Rec.ckBegin lx]) ++ block files s.log).take (s.log.length + 1) = s.log ++ [Rec.ckBegin lx] := by
      rw [List.take_left' (by simp)]
    simp only [hlogeq]
    refine ⟨hv, by simp only; rw [hW]; exact h.w, by simp; omega, h.trim, ?_, ?_, ?_, ?_, ?_⟩
    · obtain ⟨e, h1, h2, h3⟩ := h.log
      rw [hck] at h3
      refine ⟨e, (h1.append _ _).append _ _, h2, ?_, by simp only; omega, s.log, lx, [], by simp, rfl, by rw [h.w], by simp⟩
      intro r hr
      rw [happ, List.drop_append_of_le_length (by omega)] at hr
      rcases List.mem_append.mp hr with h' | h'
      · exact h3 r h'
      · rcases List.mem_cons.mp h' with rfl | h'
        · rfl
        · have := (block_ck r h').2
          cases r <;> simp [Rec.isMark] at this <;> rfl
    · intro f hf; rw [StageOk.openCk]; simp [Obj.begin]
    · rw [StageOk.openCk]; simp [Obj.begin]
    · intro f hf
      have hidle : (s.file f).stage = .idle := by have := h.fstage f hf; rw [hck] at this; exact StageOk.quiet.mp this
      have hC : fileC ((s.log ++ [Rec.ckBegin lx]) ++ block files s.log) f ((s.log ++ [Rec.ckBegin lx]) ++ block files s.log).length = s.w.rows f := by
        rw [fileC_len, hW, h.w]
      have h1 := (h.file f hf).ext (C' := fileC ((s.log ++ [Rec.ckBegin lx]) ++ block files s.log) f) (len' := ((s.log ++ [Rec.ckBegin lx]) ++ block files s.log).length)
        (d := (s.file f).dirty) (synced' := s.synced) _ _ _ _ _ hsy l2 l4 (fun i hi => by rw [happ]; exact fileC_append hi) (Nat.le_refl _)
        (fun hd => ⟨hd, by rw [fileC_len, fileC_len, hW]⟩)
      have h2 := h1.begin _ _ _ _ _ (b' := s.log.length + 1) hidle (by omega) (by rw [hC, h.w]; simp only [fileC, htake, hW1])
      rw [hC] at h2
      exact h2
    · have hidle : s.rb.stage = .idle := by have := h.rstage; rw [hck] at this; exact StageOk.quiet.mp this
      have hC : rbC ((s.log ++ [Rec.ckBegin lx]) ++ block files s.log) ((s.log ++ [Rec.ckBegin lx]) ++ block files s.log).length = rbOf s.w.txns := by
        rw [rbC_len, hW, h.w]
      have h1 := h.rb.ext (C' := rbC ((s.log ++ [Rec.ckBegin lx]) ++ block files s.log)) (len' := ((s.log ++ [Rec.ckBegin lx]) ++ block files s.log).length)
        (d := s.rb.dirty) (synced' := s.synced) _ _ _ _ _ hsy l2 l4 (fun i hi => by rw [happ]; exact rbC_append hi) (Nat.le_refl _)
        (fun hd => ⟨hd, by rw [rbC_len, rbC_len, hW]⟩)
      have h2 := h1.begin _ _ _ _ _ (b' := s.log.length + 1) hidle (by omega) (by rw [hC, h.w]; simp only [rbC, htake, hW1])
      rw [hC] at h2
      exact h2

/-- One dictionary moves on. -/
theorem SysInv.setFile {s : Sys} (h : SysInv files s) {f : File} {o : Obj Rows} (hf : f ∈ files) (hs : StageOk s.ck o.stage)
    (ho : FInv (fileC s.log f) s.log.length s.synced s.last (ckb s.ck) o) : SysInv files { s with file := upd s.file f o } := by
  refine ⟨h.valid, h.w, h.synced, h.trim, h.log, ?_, h.rstage, ?_, h.rb⟩
  · intro g hg; simp only [upd]; split
    · exact hs
    · exact h.fstage g hg
  · intro g hg; simp only [upd]; split
    · rename_i he; subst he; exact ho
    · exact h.file g hg

theorem SysInv.setRb {s : Sys} (h : SysInv files s) {o : Obj RbImg} (hs : StageOk s.ck o.stage)
    (ho : RInv (rbC s.log) s.log.length s.synced s.last (ckb s.ck) o) : SysInv files { s with rb := o } :=
  ⟨h.valid, h.w, h.synced, h.trim, h.log, h.fstage, hs, h.file, ho⟩

theorem skip_stage {α} {o o' : Obj α} (h : o.skip = some o') : o.stage ≠ .idle ∧ o.stage ≠ .done := by
  unfold Obj.skip at h; split at h
  · rename_i e; rw [e]; simp
  · simp at h
theorem start_stage {α} {o o' : Obj α} (h : o.start = some o') : o.stage ≠ .idle ∧ o.stage ≠ .done := by
  unfold Obj.start at h; split at h
  · rename_i e; rw [e]; simp
  · simp at h
theorem finish_stage {α} {o o' : Obj α} {l} (h : o.finish l = some o') : o.stage ≠ .idle ∧ o.stage ≠ .done := by
  unfold Obj.finish at h; split at h
  · rename_i e; rw [e]; simp
  · simp at h

theorem SysInv.skipFile {s s' : Sys} {f : File} (h : SysInv files s) (hf : f ∈ files) (he : s.skipFile f = some s') : SysInv files s' := by
  unfold Sys.skipFile Sys.hdr at he
  split at he
  · obtain ⟨o, h1, rfl⟩ := Option.map_eq_some_iff.mp he
    obtain ⟨b, nx, hb⟩ := (h.fstage f hf).busy (skip_stage h1)
    obtain ⟨i1, i2⟩ := (h.file f hf).skip _ _ _ _ _ h1
    exact h.setFile files hf (by rw [hb, StageOk.openCk, i2]; simp) i1
  · simp at he

theorem SysInv.startFile {s s' : Sys} {f : File} (h : SysInv files s) (hf : f ∈ files) (he : s.startFile f = some s') : SysInv files s' := by
  unfold Sys.startFile Sys.hdr at he
  split at he
  · rename_i c hc
    obtain ⟨o, h1, rfl⟩ := Option.map_eq_some_iff.mp he
    have h' := h.fsync files c.begin
    obtain ⟨b, nx, hb⟩ := (h.fstage f hf).busy (start_stage h1)
    obtain ⟨i1, im, i2⟩ := (h'.file f hf).start _ _ _ _ _ h1
    exact h'.setFile files hf (by simp only [Sys.fsync]; rw [hb, StageOk.openCk, i2]; simp) i1
  · simp at he

theorem SysInv.finishFile {s s' : Sys} {f : File} (h : SysInv files s) (hf : f ∈ files) (he : s.finishFile f = some s') : SysInv files s' := by
  unfold Sys.finishFile Sys.hdr at he
  split at he
  · rename_i c hc
    obtain ⟨o, h1, rfl⟩ := Option.map_eq_some_iff.mp he
    have h' := h.fsync files c.begin
    have l4 := h.ckb_le
    have l5 := h.last_lt files (by rw [hc]; simp)
    obtain ⟨b, nx, hb⟩ := (h.fstage f hf).busy (finish_stage h1)
    have hcb : c.begin = ckb s.ck := by rw [hc]; rfl
    rw [hcb] at h1 h'
    obtain ⟨i1, i2⟩ := (h'.file f hf).finish _ _ _ _ _ (by simp only [Sys.fsync]; omega) (by simp only [Sys.fsync]; omega) h1
    rw [hcb]
    exact h'.setFile files hf (by simp only [Sys.fsync]; rw [hb, StageOk.openCk, i2]; simp) i1
  · simp at he

theorem SysInv.skipRb {s s' : Sys} (h : SysInv files s) (he : s.skipRb = some s') : SysInv files s' := by
  unfold Sys.skipRb Sys.hdr at he
  split at he
  · obtain ⟨o, h1, rfl⟩ := Option.map_eq_some_iff.mp he
    obtain ⟨b, nx, hb⟩ := h.rstage.busy (skip_stage h1)
    obtain ⟨i1, i2⟩ := h.rb.skip _ _ _ _ _ h1
    exact h.setRb files (by rw [hb, StageOk.openCk, i2]; simp) i1
  · simp at he

theorem SysInv.startRb {s s' : Sys} (h : SysInv files s) (he : s.startRb = some s') : SysInv files s' := by
  unfold Sys.startRb Sys.hdr at he
  split at he
  · rename_i c hc
    obtain ⟨o, h1, rfl⟩ := Option.map_eq_some_iff.mp he
    have h' := h.fsync files c.begin
    obtain ⟨b, nx, hb⟩ := h.rstage.busy (start_stage h1)
    obtain ⟨i1, im, i2⟩ := h'.rb.start _ _ _ _ _ h1
    exact h'.setRb files (by simp only [Sys.fsync]; rw [hb, StageOk.openCk, i2]; simp) i1
  · simp at he

theorem SysInv.finishRb {s s' : Sys} (h : SysInv files s) (he : s.finishRb = some s') : SysInv files s' := by
  unfold Sys.finishRb Sys.hdr at he
  split at he
  · rename_i c hc
    obtain ⟨o, h1, rfl⟩ := Option.map_eq_some_iff.mp he
    have h' := h.fsync files c.begin
    have l4 := h.ckb_le
    obtain ⟨b, nx, hb⟩ := h.rstage.busy (finish_stage h1)
    have hcb : c.begin = ckb s.ck := by rw [hc]; rfl
    rw [hcb] at h1 h'
    obtain ⟨i1, i2⟩ := h'.rb.finish _ _ _ _ _ (by simp only [Sys.fsync]; omega) h1
    rw [hcb]
    exact h'.setRb files (by simp only [Sys.fsync]; rw [hb, StageOk.openCk, i2]; simp) i1
  · simp at he

theorem isDone_iff {α} {o : Obj α} : o.isDone = true ↔ o.stage = .done := by
  unfold Obj.isDone; cases o.stage <;> simp

theorem SysInv.ckEndLog {s s' : Sys} (h : SysInv files s) (he : s.ckEndLog files = some s') : SysInv files s' := by
  unfold Sys.ckEndLog at he
  split at he
  · rename_i b nx hck
    split at he
    · rename_i hdone
      injection he with he; subst he
      simp only [Bool.and_eq_true, List.all_eq_true, isDone_iff] at hdone
      obtain ⟨l1, l2, l3⟩ := h.last_le
      have l4 := h.ckb_le
      have hsy := h.synced
      have hW : W (s.log ++ [Rec.ckEnd b (files.length + 1) nx]) = W s.log := W_ck _ _ (by simp [Rec.isCk])
      have hcb : ckb s.ck = b := by rw [hck]; rfl
      refine ⟨h.valid.snoc trivial (step_ck rfl), by simp only; rw [hW]; exact h.w, by simp; omega, h.trim, ?_, ?_, ?_, ?_, ?_⟩
      · obtain ⟨e, h1, h2, h3⟩ := h.log
        rw [hck] at h3
        obtain ⟨c1, c2, pre, lx, mid, c3, c4, c5, c6⟩ := h3
        refine ⟨e, h1.append _ _, h2, ?_, c2, ⟨pre, lx, mid, [], ?_, c4, ?_, c6⟩, ?_⟩
        · simp only [Nat.add_sub_cancel]; rw [List.take_left' rfl]; exact c1
        · rw [c5, c3]; simp
        · rw [c3, c4]; simp; omega
        · simp
      · intro f hf; rw [StageOk.ended]; exact hdone.1 f hf
      · rw [StageOk.ended]; exact hdone.2
      · intro f hf
        have := (h.file f hf).ext (C' := fileC (s.log ++ [Rec.ckEnd b (files.length + 1) nx]) f) (len' := (s.log ++ [Rec.ckEnd b (files.length + 1) nx]).length)
          (d := (s.file f).dirty) (synced' := s.synced) _ _ _ _ _ hsy l2 l4 (fun i hi => fileC_append hi) (Nat.le_refl _)
          (fun hd => ⟨hd, by rw [fileC_len, fileC_len, hW]⟩)
        rw [hcb] at this
        exact this
      · have := h.rb.ext (C' := rbC (s.log ++ [Rec.ckEnd b (files.length + 1) nx])) (len' := (s.log ++ [Rec.ckEnd b (files.length + 1) nx]).length)
          (d := s.rb.dirty) (synced' := s.synced) _ _ _ _ _ hsy l2 l4 (fun i hi => rbC_append hi) (Nat.le_refl _)
          (fun hd => ⟨hd, by rw [rbC_len, rbC_len, hW]⟩)
        rw [hcb] at this
        exact this
    · simp at he
  · simp at he

theorem SysInv.ckEndSync {s s' : Sys} (h : SysInv files s) (he : s.ckEndSync = some s') : SysInv files s' := by
  unfold Sys.ckEndSync at he
  split at he
  · rename_i b nx e' hck
    injection he with he; subst he
    have l5 := h.last_lt files (by rw [hck]; simp)
    have h' := h.fsync files e'
    have hcb : ckb s.ck = b := by rw [hck]; rfl
    have hcb' : ckb (s.fsync e').ck = b := hcb
    obtain ⟨e, h1, h2, h3⟩ := h.log
    rw [hck] at h3
    obtain ⟨c1, c2, c3, c4⟩ := h3
    have := c3.bounds
    have hd : ∀ f ∈ files, (s.file f).stage = .done := by
      intro f hf; have := h.fstage f hf; rw [hck] at this; exact StageOk.ended.mp this
    have hr : s.rb.stage = .done := by have := h.rstage; rw [hck] at this; exact StageOk.ended.mp this
    refine ⟨h.valid, h.w, h'.synced, Nat.lt_trans h.trim c2, ⟨e', c3, by simp only [Sys.fsync]; omega, c4⟩, fun _ _ => StageOk.quiet.mpr rfl, StageOk.quiet.mpr rfl, ?_, ?_⟩
    · intro f hf
      have := (h'.file f hf).idle _ _ _ _ _ (hd f hf) 0
      rw [hcb'] at this
      exact this
    · have := h'.rb.idle _ _ _ _ _ (by rw [hcb']; exact Nat.le_of_lt c2) hr 0
      rw [hcb'] at this
      exact this
  · simp at he

theorem SysInv.trim' {s s' : Sys} {n : Nat} (h : SysInv files s) (he : s.trim n = some s') : SysInv files s' := by
  unfold Sys.trim at he
  split at he
  · injection he with he; subst he
    exact ⟨h.valid, h.w, h.synced, by have := h.trim; simp only; omega, h.log, h.fstage, h.rstage, h.file, h.rb⟩
  · simp at he

theorem SysInv.crash {s : Sys} {n : Nat} (hn : files.Nodup) (h : SysInv files s) (h1 : s.synced ≤ n) (h2 : n ≤ s.log.length) :
    ∃ s', s.crash n = some s' ∧ SysInv files s' ∧ s'.log = s.log.take n := by
  obtain ⟨l1, l2, l3⟩ := h.last_le
  obtain ⟨e, c1, c2, c3⟩ := h.log
  -- where recovery starts
  have hstart : ∃ b' e', Complete files (s.log.take n) b' e' ∧ e' ≤ n ∧ (∀ r ∈ (s.log.take n).drop e', r.isEnd = false) ∧ s.last ≤ b' ∧
      (b' = s.last ∨ b' = ckb s.ck ∧ (∀ f ∈ files, (s.file f).stage = .done) ∧ s.rb.stage = .done) := by
    have old : (∀ r ∈ (s.log.take n).drop e, r.isEnd = false) → _ := fun hh =>
      (⟨s.last, e, c1.take files (by omega), by omega, hh, Nat.le_refl _, .inl rfl⟩ : ∃ b' e', Complete files (s.log.take n) b' e' ∧ e' ≤ n ∧
        (∀ r ∈ (s.log.take n).drop e', r.isEnd = false) ∧ s.last ≤ b' ∧
        (b' = s.last ∨ b' = ckb s.ck ∧ (∀ f ∈ files, (s.file f).stage = .done) ∧ s.rb.stage = .done))
    have sub : ∀ {m : Nat} {x : Rec}, n ≤ m → x ∈ (s.log.take n).drop e → x ∈ (s.log.take m).drop e := by
      intro m x hm hx
      have : s.log.take n = (s.log.take m).take n := by rw [List.take_take, Nat.min_eq_left hm]
      rw [this, List.drop_take] at hx
      exact List.mem_of_mem_take hx
    cases hck : s.ck with
    | none =>
      rw [hck] at c3 old
      refine old fun r hr => c3 r ?_
      have := sub (m := s.log.length) h2 hr
      simpa using this
    | some c =>
      obtain ⟨b, nx, e'⟩ := c
      rw [hck] at c3 old
      cases e' with
      | none =>
        refine old fun r hr => c3.1 r ?_
        have := sub (m := s.log.length) h2 hr
        simpa using this
      | some e' =>
        obtain ⟨d1, d2, d3, d4⟩ := c3
        have hb := d3.bounds
        rcases Nat.lt_or_ge n e' with hlt | hge
        · exact old fun r hr => d1 r (sub (by omega) hr)
        · refine ⟨b, e', d3.take files hge, hge, ?_, Nat.le_of_lt d2, .inr ⟨rfl, ?_, ?_⟩⟩
          · intro r hr
            rw [List.drop_take] at hr
            exact d4 r (List.mem_of_mem_take hr)
          · intro f hf; have := h.fstage f hf; rw [hck] at this; exact StageOk.ended.mp this
          · have := h.rstage; rw [hck] at this; exact StageOk.ended.mp this
  obtain ⟨b', e', d1, d2, d3, d4, d5⟩ := hstart
  have hbn := d1.bounds
  have htt : ∀ i, i ≤ n → (s.log.take n).take i = s.log.take i := fun i hi => by rw [List.take_take, Nat.min_eq_left hi]
  have hlen : (s.log.take n).length = n := by simp; omega
  -- the files
  have hpick : ∀ f, ∃ x, f ∈ files → pick none (s.file f) = some x ∧ x.lsn ≤ s.synced ∧ x.img = fileC s.log f (max x.lsn b') ∧
      ∀ (C' : Nat → Rows) (n' b'' : Nat) (d : Bool), s.synced ≤ n' → C' (max x.lsn b') = fileC s.log f (max x.lsn b') → (d = false → x.img = C' n') →
        FInv C' n' n' b' b'' { s.file f with cnt := x.cnt, dirty := d, stage := .idle } := by
    intro f
    by_cases hf : f ∈ files
    · obtain ⟨x, hx⟩ := (h.file f hf).pick _ _ _ _ _ (last' := b') (by
        rcases d5 with h | ⟨h, h', -⟩
        · exact .inl h
        · exact .inr ⟨h, h' f hf⟩)
      exact ⟨x, fun _ => hx⟩
    · exact ⟨⟨0, 0, fun _ => emptyUle⟩, fun h => absurd h hf⟩
  obtain ⟨slot, hslot⟩ := Classical.axiomOfChoice hpick
  obtain ⟨sl, r1, r2, r3⟩ := h.rb.pick _ _ _ _ _ (last' := b') (by
    intro hs
    refine h.last_lt files ?_
    intro hc
    have := h.rstage; rw [hc, StageOk.quiet] at this; exact hs this) (by
      rcases d5 with h | ⟨h, -, h'⟩
      · exact .inl h
      · exact .inr ⟨h, h'⟩)
  obtain ⟨r, hr, hsim, hbeg, hrb⟩ := recover_spec s.file s.rb files (s.log.take n) slot b' (h.valid.take n) hn (t := s.trimmed) d1 d3 (by have := h.trim; omega) (by
    intro f hf
    obtain ⟨a1, a2, a3, -⟩ := hslot f hf
    refine ⟨a1, ?_⟩
    rw [a3, fileC, htt _ (by omega)]) r1 (by rw [r2, rbC, htt _ (by omega)])
  rw [hlen] at hsim
  have hcr : s.crash n = some {
      log := s.log.take n, synced := n, trimmed := s.trimmed, last := r.begin, w := r.w
      file := fun f => { s.file f with cnt := r.cnt f, dirty := r.dirty f, stage := .idle }
      rb := { s.rb with cnt := sl.cnt, dirty := r.rbDirty, stage := .idle }
      ck := none } := by
    unfold Sys.crash Sys.onDisk
    rw [hr]; simp only [hrb]
  refine ⟨_, hcr, ?_, rfl⟩
  have hmaxn : ∀ f ∈ files, max (slot f).lsn n = n := fun f hf => by have := (hslot f hf).2.1; omega
  have hw : r.w = W (s.log.take n) := by
    have e1 := hsim.txns
    rw [htt _ (Nat.le_refl _)] at e1
    have e2 : r.w.rows = (W (s.log.take n)).rows := by
      funext f
      by_cases hf : f ∈ files
      · rw [hsim.rows f hf, hmaxn f hf, htt _ (Nat.le_refl _)]
      · rw [hsim.out f hf, (h.valid.take n).files.2 f hf]
    cases hrw : r.w; rw [hrw] at e1 e2; simp only at e1 e2; rw [e1, e2]
  refine ⟨h.valid.take n, hw, by simp only [hlen]; exact Nat.le_refl _, by simp only [hbeg]; have := h.trim; omega, ⟨e', by simp only [hbeg]; exact d1, d2, d3⟩,
    fun _ _ => StageOk.quiet.mpr rfl, StageOk.quiet.mpr rfl, ?_, ?_⟩
  · intro f hf
    obtain ⟨a1, a2, a3, a4⟩ := hslot f hf
    simp only [hbeg, hlen, hsim.cnt f hf]
    refine a4 _ _ _ _ h1 ?_ ?_
    · simp only [fileC]; rw [htt _ (by omega)]
    · intro hd
      rw [← hsim.clean f hf hd, hw]; simp only [fileC]; rw [htt _ (Nat.le_refl _)]
  · simp only [hbeg, hlen]
    refine r3 _ _ _ _ h1 (by omega) ?_ ?_
    · intro i hi; simp only [rbC]; rw [htt _ hi]
    · intro hd i hi1 hi2
      exact hsim.rbClean hd i hi1 hi2

theorem SysInv.init : SysInv files (Sys.init files) := by
  have hlog : (Sys.init files).log = ([] ++ [Rec.ckBegin 0]) ++ block files [] ++ [Rec.ckEnd 1 (files.length + 1) 0] := by simp [Sys.init, block, W, World.empty]
  have hW1 : W ([] ++ [Rec.ckBegin 0]) = World.empty := by rw [W_ck _ _ (by simp [Rec.isCk])]; rfl
  have hv1 : Valid files ([] ++ [Rec.ckBegin 0]) := Valid.nil.snoc (Nat.le_refl 0) (step_ck rfl)
  have hv2 : Valid files (([] ++ [Rec.ckBegin 0]) ++ block files []) := by
    refine Valid.cks files hv1 _ (fun r hr => (block_ck r hr).1) ?_
    intro r hr l
    simp only [block, List.mem_append, List.mem_map, List.mem_cons, W, World.empty, List.foldl_nil, List.not_mem_nil, false_and, exists_false, or_false] at hr
    rcases hr with ⟨f, hf, rfl⟩ | rfl
    · exact hf
    · exact trivial
  have hv : Valid files (Sys.init files).log := by rw [hlog]; exact hv2.snoc trivial (step_ck rfl)
  have hWi : ∀ i, W ((Sys.init files).log.take i) = World.empty := by
    intro i
    have := W_ck [] ((Sys.init files).log.take i) (by
      intro r hr
      have hr := List.mem_of_mem_take hr
      rw [hlog] at hr
      simp only [List.nil_append, List.mem_append, List.mem_singleton] at hr
      rcases hr with (rfl | hr) | rfl
      · rfl
      · exact (block_ck r hr).1
      · rfl)
    simpa [W_nil] using this
  have hW : W (Sys.init files).log = World.empty := by have := hWi (Sys.init files).log.length; rwa [List.take_length] at this
  have hlen : (Sys.init files).log.length = files.length + 3 := by simp [Sys.init]
  refine ⟨hv, hW.symm, by rw [hlen]; exact Nat.le_refl _, Nat.zero_lt_one, ⟨files.length + 3, ?_, Nat.le_refl _, ?_⟩, fun _ _ => trivial, trivial, ?_, ?_⟩
  · exact ⟨[], 0, [], [], by rw [hlog]; simp [W, World.empty, Sys.init], rfl, by simp [block, W, World.empty, Sys.init]; omega, by simp⟩
  · show ∀ r ∈ (Sys.init files).log.drop (files.length + 3), r.isEnd = false
    rw [← hlen]; simp
  · intro f hf
    refine ⟨⟨1, fun _ => emptyUle, rfl, ?_, ?_, ?_⟩, ?_, ?_⟩
    · show 1 ≤ files.length + 3; omega
    · simp only [fileC, hWi]; rfl
    · show _ → _; intro _; simp only [fileC, hWi]; rfl
    · intro x hx; simp [Sys.init, Obj.at] at hx
    · intro im him; simp [Sys.init] at him
  · refine ⟨1, fun _ => [], rfl, Nat.le_refl _, ?_, ?_, fun _ => ⟨?_, ?_⟩⟩
    · simp only [rbC, hWi]; rfl
    · intro x hx; simp [Sys.init, Obj.at] at hx
    · simp only [rbC, hWi]; rfl
    · intro x hx; simp [Sys.init, Obj.at] at hx

theorem Reach.inv {s : Sys} (hn : files.Nodup) (h : Reach files s) : SysInv files s := by
  induction h with
  | init => exact SysInv.init files
  | client _ ha he ih => exact ih.client files ha he
  | fsync n _ ih => exact ih.fsync files n
  | ckBegin _ hl he ih => exact ih.ckBegin files hl he
  | skipFile _ hf he ih => exact ih.skipFile files hf he
  | startFile _ hf he ih => exact ih.startFile files hf he
  | finishFile _ hf he ih => exact ih.finishFile files hf he
  | skipRb _ he ih => exact ih.skipRb files he
  | startRb _ he ih => exact ih.startRb files he
  | finishRb _ he ih => exact ih.finishRb files he
  | ckEndLog _ he ih => exact ih.ckEndLog files he
  | ckEndSync _ he ih => exact ih.ckEndSync files he
  | trim _ he ih => exact ih.trim' files he
  | crash _ h1 h2 he ih =>
    obtain ⟨s2, e1, e2, -⟩ := ih.crash files hn h1 h2
    rw [e1] at he; injection he with he; subst he; exact e2

end Verif.Rec
