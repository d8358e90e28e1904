import Verif.Desc.Run

/-!
# Descriptor changes: a property of descriptors that every change keeps

If the first descriptor has it and every new one has it, then so do all the copies there are: the
header's, the file's, the one comparisons use, the rollback entries', the log's.
-/

namespace Verif.Desc

variable {D : Type}

def Tx.All (G : D → Prop) (t : Tx D) : Prop := ∀ r l d, l ∈ t.undo r → d ∈ l → G d

def Rec.All (G : D → Prop) : Rec D → Prop
  | .change _ old new _ => G old ∧ G new
  | _ => True

def Ft.All (G : D → Prop) (f : Ft D) : Prop := G f.desc ∧ G f.cmp

structure All (G : D → Prop) (w : World D) : Prop where
  ft : ∀ f, w.ft = some f → f.All G
  hdr : G w.hdr
  tx : w.tx.All G
  log : ∀ e ∈ w.log, e.All G
  last : w.last.tx.All G
  ck : ∀ c, w.ck = some c → c.ck.tx.All G ∧ ∀ d, c.todo = some d → G d

theorem all_put {G : D → Prop} {t : Tx D} (h : t.All G) (i : Nat) (x : List (List D))
    (hx : ∀ l ∈ x, ∀ d ∈ l, G d) (p : Nat → Bool) : Tx.All G ⟨put t.undo i x, p⟩ := by
  intro r l d hl hd
  have hl : l ∈ put t.undo i x r := hl
  by_cases hr : r = i
  · subst hr; rw [put_same] at hl; exact hx l hl d hd
  · rw [put_other _ _ hr] at hl; exact h r l d hl hd

theorem all_begin {G : D → Prop} {t : Tx D} (h : t.All G) (r : Nat) : (t.begin r).All G := by
  refine all_put h r _ ?_ _
  intro l hl d hd
  rcases List.mem_cons.1 hl with rfl | hl
  · cases hd
  · exact h r l d hl hd

theorem all_save {G : D → Prop} {t : Tx D} (h : t.All G) (r : Nat) {o : D} (ho : G o) :
    (t.save r o).All G := by
  unfold Tx.save
  split
  · exact h
  · rename_i m ls hu
    refine all_put h r _ ?_ _
    intro l hl d hd
    rcases List.mem_cons.1 hl with rfl | hl
    · rcases List.mem_cons.1 hd with rfl | hd
      · exact ho
      · exact h r m d (by rw [hu]; simp) hd
    · exact h r l d (by rw [hu]; simp [hl]) hd

theorem all_commit {G : D → Prop} {t : Tx D} (h : t.All G) (r : Nat) : (t.commit r).All G := by
  unfold Tx.commit
  split
  · exact h
  · exact all_put h r _ (by intro l hl; cases hl) _
  · rename_i a m ls hu
    refine all_put h r _ ?_ _
    intro l hl d hd
    rcases List.mem_cons.1 hl with rfl | hl
    · rcases List.mem_append.1 hd with hd | hd
      · exact h r a d (by rw [hu]; simp) hd
      · exact h r m d (by rw [hu]; simp) hd
    · exact h r l d (by rw [hu]; simp [hl]) hd

theorem all_abort {G : D → Prop} {t : Tx D} (h : t.All G) (r : Nat) : (t.abort r).All G := by
  unfold Tx.abort
  split
  · exact h
  · exact all_put h r _ (by intro l hl; cases hl) _
  · rename_i a m ls hu
    refine all_put h r _ ?_ _
    intro l hl d hd
    exact h r l d (by rw [hu]; exact List.mem_cons_of_mem _ hl) hd

theorem all_top {G : D → Prop} {t : Tx D} (h : t.All G) (r : Nat) : ∀ d ∈ t.top r, G d := by
  intro d hd
  unfold Tx.top at hd
  match hu : t.undo r with
  | [] => rw [hu] at hd; cases hd
  | l :: ls => rw [hu] at hd; exact h r l d (by rw [hu]; simp) hd

theorem all_change {G : D → Prop} {f : Ft D} (h : f.All G) {d : D} (hd : G d) (c : Bool) :
    (changeFt f d c).All G := by
  cases c
  · exact ⟨hd, h.2⟩
  · exact ⟨hd, hd⟩

theorem all_rollback {G : D → Prop} {l : List D} : ∀ {f : Ft D}, f.All G → (∀ d ∈ l, G d) →
    (rollbackFt f l).All G := by
  induction l with
  | nil => intro f h _; exact h
  | cons a l ih =>
    intro f h hl
    exact ih (f := updateDesc f a) ⟨hl a (by simp), h.2⟩ (fun d hd => hl d (by simp [hd]))

theorem all_closed {G : D → Prop} {f : Ft D} {h : D} (hf : f.All G) (hh : G h) :
    G (closedHdr h f) := by
  unfold closedHdr
  split
  · exact hf.1
  · exact hh

structure RAll (G : D → Prop) (s : RSt D) : Prop where
  ft : ∀ f, s.ft = some f → f.All G
  hdr : G s.hdr
  tx : s.tx.All G

theorem rall_step {G : D → Prop} {s : RSt D} (h : RAll G s) {e : Rec D} (he : e.All G) :
    RAll G (replay1 s e) := by
  cases e with
  | begin r => exact ⟨h.ft, h.hdr, all_begin h.tx r⟩
  | prepare r => exact ⟨h.ft, h.hdr, h.tx⟩
  | commit r => exact ⟨h.ft, h.hdr, all_commit h.tx r⟩
  | settled o => exact h
  | fopen =>
    refine ⟨?_, h.hdr, h.tx⟩
    intro f hf
    have hf : some (openFt s.hdr) = some f := hf
    injection hf with hf
    subst hf
    exact ⟨h.hdr, h.hdr⟩
  | fclose =>
    unfold replay1
    cases hft : s.ft with
    | none => exact h
    | some f => exact ⟨fun f hf => (by cases hf), all_closed (h.ft f hft) h.hdr, h.tx⟩
  | change r old new c =>
    unfold replay1
    cases hft : s.ft with
    | none => exact h
    | some f =>
      refine ⟨?_, h.hdr, all_save h.tx r he.1⟩
      intro f' hf'
      have hf' : some (changeFt f new c) = some f' := hf'
      injection hf' with hf'
      subst hf'
      exact all_change (h.ft f hft) he.2 c
  | abort r =>
    refine ⟨?_, h.hdr, all_abort h.tx r⟩
    intro f' hf'
    have hf' : s.ft.map (rollbackFt · (s.tx.top r)) = some f' := hf'
    cases hft : s.ft with
    | none => rw [hft] at hf'; cases hf'
    | some f =>
      rw [hft] at hf'
      injection hf' with hf'
      subst hf'
      exact all_rollback (h.ft f hft) (all_top h.tx r)

theorem rall_run {G : D → Prop} : ∀ {l : List (Rec D)} {s : RSt D}, RAll G s →
    (∀ e ∈ l, e.All G) → RAll G (replay s l)
  | [], _, h, _ => h
  | e :: l, s, h, he =>
    rall_run (l := l) (s := replay1 s e) (rall_step h (he e (by simp)))
      (fun x hx => he x (by simp [hx]))

theorem all_start {G : D → Prop} {w : World D} (h : All G w) : RAll G w.start := by
  refine ⟨?_, h.hdr, h.last⟩
  intro f hf
  unfold World.start at hf
  cases hl : w.last.isOpen with
  | true => rw [hl] at hf; cases hf; exact ⟨h.hdr, h.hdr⟩
  | false => rw [hl] at hf; cases hf

theorem all_snoc {G : D → Prop} {l : List (Rec D)} (h : ∀ e ∈ l, e.All G) {x : Rec D}
    (hx : x.All G) : ∀ e ∈ l ++ [x], e.All G := by
  intro e he
  rcases List.mem_append.1 he with he | he
  · exact h e he
  · simp only [List.mem_singleton] at he
    subst he; exact hx

theorem all_map_ft {G : D → Prop} {ft : Option (Ft D)} (h : ∀ f, ft = some f → f.All G)
    (g : Ft D → Ft D) (hg : ∀ f, f.All G → (g f).All G) : ∀ f, ft.map g = some f → f.All G := by
  intro f hf
  cases hft : ft with
  | none => rw [hft] at hf; cases hf
  | some a =>
    rw [hft] at hf
    injection hf with hf
    subst hf
    exact hg a (h a hft)

theorem all_one {G : D → Prop} {a : Ft D} (ha : a.All G) : ∀ f, some a = some f → f.All G := by
  intro f hf
  injection hf with hf
  subst hf; exact ha

theorem all_step {strict : Bool} {G : D → Prop} {w w' : World D} (st : Step strict G w w')
    (h : All G w) : All G w' := by
  cases st with
  | begin r hm hp => exact ⟨h.ft, h.hdr, all_begin h.tx r, all_snoc h.log trivial, h.last, h.ck⟩
  | change r f new c hm hf hl hu hp ho hg =>
    have ha := h.ft f hf
    exact ⟨all_one (all_change ha hg c), h.hdr, all_save h.tx r ha.1,
      all_snoc h.log ⟨ha.1, hg⟩, h.last, h.ck⟩
  | prepare r l hm hu => exact ⟨h.ft, h.hdr, h.tx, all_snoc h.log trivial, h.last, h.ck⟩
  | commit r hm hu =>
    exact ⟨h.ft, h.hdr, all_commit h.tx r, all_snoc h.log trivial, h.last, h.ck⟩
  | abort r hm hu =>
    exact ⟨all_map_ft h.ft _ fun f hf => all_rollback hf (all_top h.tx r), h.hdr,
      all_abort h.tx r, all_snoc h.log trivial, h.last, h.ck⟩
  | fopen hm hf =>
    exact ⟨all_one ⟨h.hdr, h.hdr⟩, h.hdr, h.tx, all_snoc h.log trivial, h.last, h.ck⟩
  | fclose f hm hf hc hk =>
    exact ⟨fun f hf => (by cases hf), all_closed (h.ft f hf) h.hdr, h.tx,
      all_snoc h.log trivial, h.last, h.ck⟩
  | ckBegin hm hc =>
    refine ⟨all_map_ft h.ft _ fun f hf => hf, h.hdr, h.tx, h.log, h.last, ?_⟩
    intro c hcc
    have hcc : some _ = some c := hcc
    injection hcc with hcc
    subst hcc
    refine ⟨h.tx, fun d hd => ?_⟩
    have hd : (w.ft.bind fun f => if f.dirty then some f.desc else none) = some d := hd
    cases hft : w.ft with
    | none => rw [hft] at hd; cases hd
    | some f =>
      rw [hft] at hd
      simp only [Option.bind_some] at hd
      split at hd
      · injection hd with hd
        subst hd; exact (h.ft f hft).1
      · cases hd
  | ckWrite c d hm hc hd =>
    refine ⟨h.ft, (h.ck c hc).2 d hd, h.tx, h.log, h.last, ?_⟩
    intro c' hcc
    have hcc : some _ = some c' := hcc
    injection hcc with hcc
    subst hcc
    exact ⟨(h.ck c hc).1, fun d hd => (by cases hd)⟩
  | ckEnd c hm hc hd =>
    exact ⟨h.ft, h.hdr, h.tx, h.log, (h.ck c hc).1, fun c hc => (by cases hc)⟩
  | sync hm => exact ⟨h.ft, h.hdr, h.tx, h.log, h.last, h.ck⟩
  | crash n hn hl =>
    exact ⟨fun f hf => (by cases hf), h.hdr, fun r l d hl => (by cases hl),
      fun e he => h.log e (List.mem_of_mem_take he), h.last, fun c hc => (by cases hc)⟩
  | partly k hm =>
    have hr := rall_run (l := (w.log.drop w.last.pos).take k) (all_start h)
      (fun e he => h.log e (List.mem_of_mem_drop (List.mem_of_mem_take he)))
    exact ⟨h.ft, hr.hdr, h.tx, h.log, h.last, h.ck⟩
  | replayed hm =>
    have hr := rall_run (l := w.log.drop w.last.pos) (all_start h)
      (fun e he => h.log e (List.mem_of_mem_drop he))
    exact ⟨hr.ft, hr.hdr, hr.tx, h.log, h.last, h.ck⟩
  | recClose hm hu hc =>
    refine ⟨fun f hf => (by cases hf), ?_, h.tx, h.log, h.last, h.ck⟩
    show G (match w.ft with | some f => closedHdr w.hdr f | none => w.hdr)
    cases hft : w.ft with
    | none => exact h.hdr
    | some f => exact all_closed (h.ft f hft) h.hdr
  | recKeep hm hu hc => exact ⟨h.ft, h.hdr, h.tx, h.log, h.last, h.ck⟩
  | recWrite f hm hf =>
    exact ⟨all_one (a := { f with dirty := false }) (h.ft f hf), all_closed (h.ft f hf) h.hdr, h.tx,
      h.log, h.last, h.ck⟩
  | recDone hm hd => exact ⟨h.ft, h.hdr, h.tx, all_snoc h.log trivial, h.tx, h.ck⟩

theorem all_reach {strict : Bool} {G : D → Prop} {d0 : D} (h0 : G d0) {w : World D}
    (h : Reach strict G d0 w) : All G w := by
  induction h with
  | init =>
    exact ⟨fun f hf => (by cases hf), h0, fun r l d hl => (by cases hl), fun e he => (by cases he),
      fun r l d hl => (by cases hl), fun c hc => (by cases hc)⟩
  | step _ h2 ih => exact all_step h2 ih

end Verif.Desc
