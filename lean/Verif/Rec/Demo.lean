import Verif.Rec.Spec
/-! Runs of the system that can be evaluated, for the examples beside the theorems. -/
namespace Verif.Rec
open Verif.Rec.Spec

/-- `Allowed`, as a test. -/
def allowedB (files : List File) (log : List Rec) (txns : Txns) : Rec → Bool
  | .xbegin p none => p.child == 0 && decide (lastXid log < p.root)
  | .xbegin p (some q) => p.root == q.root && p.child != 0 && p.child != p.root &&
      (match txns.get q with
        | some t => !t.prepared && decide (t.chain.length < Verif.Ule.Spec.maxDepth)
        | none => false) && (txns.childOf q).isNone &&
      log.all fun r => match r with
        | .xbegin p' _ => p'.root != p.root || decide (p'.child < p.child)
        | _ => true
  | .enq p ops => (match txns.get p with
        | some t => !t.prepared
        | none => false) && (txns.childOf p).isNone &&
      ops.all (fun o => decide (o.file ∈ files) && match o.wr with
        | .put v => decide (v.length < Verif.Ule.Spec.maxValLen)
        | .putNew v => decide (v.length < Verif.Ule.Spec.maxValLen)
        | .del => true) &&
      ops.all fun o => log.all fun r => match r with
        | .enq q ops' => ops'.all fun o' => o'.file != o.file || o'.key != o.key || q.root == p.root ||
            decide (.xcommit ⟨q.root, 0⟩ ∈ log) || decide (.xabort ⟨q.root, 0⟩ ∈ log)
        | _ => true
  | .xcommit p => (txns.get p).isSome && (txns.childOf p).isNone
  | .xabort p => (txns.get p).isSome && (txns.childOf p).isNone
  | .xprepare p => (match txns.get p with
        | some t => !t.prepared && t.parent.isNone
        | none => false) && (txns.childOf p).isNone
  | .comment => true
  | _ => false

theorem allowedB_ok {files log txns r} (h : allowedB files log txns r = true) : Allowed files log txns r := by
  cases r with
  | xbegin p q =>
    cases q with
    | none =>
      simp only [allowedB, Bool.and_eq_true, beq_iff_eq, decide_eq_true_eq] at h
      exact h
    | some q =>
      simp only [allowedB, Bool.and_eq_true, beq_iff_eq, bne_iff_ne, ne_eq, Option.isNone_iff_eq_none, List.all_eq_true] at h
      obtain ⟨⟨⟨⟨⟨h1, h2⟩, h3⟩, h4⟩, h5⟩, h6⟩ := h
      refine ⟨h1, h2, h3, ?_, h5, ?_⟩
      · cases hg : txns.get q with
        | none => rw [hg] at h4; simp at h4
        | some t => rw [hg] at h4; simp at h4; exact ⟨t, rfl, h4⟩
      · intro p' q' hm hr
        have := h6 _ hm
        simp [hr] at this; exact this
  | enq p ops =>
    simp only [allowedB, Bool.and_eq_true, Option.isNone_iff_eq_none, List.all_eq_true, decide_eq_true_eq] at h
    obtain ⟨⟨⟨h1, h2⟩, h3⟩, h4⟩ := h
    refine ⟨?_, h2, ?_, ?_⟩
    · cases hg : txns.get p with
      | none => rw [hg] at h1; simp at h1
      | some t => rw [hg] at h1; simp at h1; exact ⟨t, rfl, h1⟩
    · intro o ho
      obtain ⟨a, b⟩ := h3 o ho
      refine ⟨a, ?_⟩
      rintro v (hv | hv) <;> rw [hv] at b <;> simpa using b
    · intro o ho q ops' o' hm ho' hf hk hne
      have := h4 o ho _ hm
      simp only [List.all_eq_true] at this
      have := this o' ho'
      simp [hf, hk, hne] at this
      exact this
  | xcommit p =>
    simp only [allowedB, Bool.and_eq_true, Option.isNone_iff_eq_none, Option.isSome_iff_ne_none] at h; exact h
  | xabort p =>
    simp only [allowedB, Bool.and_eq_true, Option.isNone_iff_eq_none, Option.isSome_iff_ne_none] at h; exact h
  | xprepare p =>
    simp only [allowedB, Bool.and_eq_true, Option.isNone_iff_eq_none] at h
    obtain ⟨h1, h2⟩ := h
    refine ⟨?_, h2⟩
    cases hg : txns.get p with
    | none => rw [hg] at h1; simp at h1
    | some t => rw [hg] at h1; simp at h1; exact ⟨t, rfl, h1⟩
  | comment => trivial
  | ckBegin _ => simp [allowedB] at h
  | fassoc _ => simp [allowedB] at h
  | fassocRb => simp [allowedB] at h
  | stillOpen _ _ => simp [allowedB] at h
  | stillPrep _ => simp [allowedB] at h
  | ckEnd _ _ _ => simp [allowedB] at h

/-- The steps of `Reach`. -/
inductive Cmd where
  | client (r : Rec)
  | fsync (n : Nat)
  | ckBegin (lx : Nat)
  | skipFile (f : File)
  | startFile (f : File)
  | finishFile (f : File)
  | skipRb
  | startRb
  | finishRb
  | ckEndLog
  | ckEndSync
  | trim (n : Nat)
  | crash (n : Nat)

def Cmd.run (files : List File) (s : Sys) : Cmd → Option Sys
  | .client r => if allowedB files s.log s.w.txns r then s.client r else none
  | .fsync n => some (s.fsync n)
  | .ckBegin lx => if lastXid s.log ≤ lx then s.ckBegin files lx else none
  | .skipFile f => if f ∈ files then s.skipFile f else none
  | .startFile f => if f ∈ files then s.startFile f else none
  | .finishFile f => if f ∈ files then s.finishFile f else none
  | .skipRb => s.skipRb
  | .startRb => s.startRb
  | .finishRb => s.finishRb
  | .ckEndLog => s.ckEndLog files
  | .ckEndSync => s.ckEndSync
  | .trim n => s.trim n
  | .crash n => if s.synced ≤ n ∧ n ≤ s.log.length then s.crash n else none

def runAll (files : List File) (s : Sys) : List Cmd → Option Sys
  | [] => some s
  | c :: cs => (c.run files s).bind fun s => runAll files s cs

theorem Cmd.run_reach {files : List File} {s s' : Sys} {c : Cmd} (h : Reach files s) (hr : c.run files s = some s') : Reach files s' := by
  cases c <;> simp only [Cmd.run] at hr
  case client => split at hr; exact h.client (allowedB_ok (by assumption)) hr; simp at hr
  case fsync n => injection hr with hr; subst hr; exact h.fsync n
  case ckBegin => split at hr; exact h.ckBegin (by assumption) hr; simp at hr
  case skipFile => split at hr; exact h.skipFile (by assumption) hr; simp at hr
  case startFile => split at hr; exact h.startFile (by assumption) hr; simp at hr
  case finishFile => split at hr; exact h.finishFile (by assumption) hr; simp at hr
  case skipRb => exact h.skipRb hr
  case startRb => exact h.startRb hr
  case finishRb => exact h.finishRb hr
  case ckEndLog => exact h.ckEndLog hr
  case ckEndSync => exact h.ckEndSync hr
  case trim => exact h.trim hr
  case crash => split at hr; exact h.crash (by omega) (by omega) hr; simp at hr

theorem runAll_reach {files : List File} {s s' : Sys} {cs : List Cmd} (h : Reach files s) (hr : runAll files s cs = some s') : Reach files s' := by
  induction cs generalizing s with
  | nil => injection hr with hr; subst hr; exact h
  | cons c cs ih =>
    simp only [runAll, Option.bind_eq_some_iff] at hr
    obtain ⟨s1, h1, h2⟩ := hr
    exact ih (c.run_reach h h1) h2

end Verif.Rec
