import Verif.Fsize.Steps

/-!
# C86: making the file longer or shorter never damages a block in use
-/

namespace Verif.Fsize

/-- **C86 (partial).**  Whatever threads do — allocate, write and free blocks, make the file longer and shorter, wait for
each other — every block in use holds what was last written to it, as long as a thread that had to wait before making the
file shorter finds no block above the limit it had computed before.  What is missing: `C86_stale_limit_refuted`. -/
theorem C86_blocks_partial {s s' : S} {a : A} {es : List Ev} (h : Start s a) (hf : Fresh s es)
    (hr : run s es = some (some s')) : Holds s' (es.foldl A.step a) := by
  obtain ⟨s1, e, I⟩ := inv_run (inv_start h) hf hr
  cases e
  exact I.holds

/-- **C86, one at a time.**  If the file is not asked to become shorter while that is being done already, no such
condition is needed, and no assertion about the file's size fails. -/
theorem C86_one_at_a_time {s : S} {a : A} {es : List Ev} {r} (h : Start s a) (ho : OneShrink s es)
    (hr : run s es = some r) : ∃ s', r = some s' ∧ Holds s' (es.foldl A.step a) := by
  obtain ⟨s1, e, I⟩ := inv_run (inv_start h) (fresh_of_one (inv_start h) h.shrinkers ho) hr
  exact ⟨s1, e, I.holds⟩

/-- **C86, assertions.**  The size of the file is always the expected one when it is changed. -/
theorem C86_asserts {s : S} {a : A} {es : List Ev} (h : Start s a) (hf : Fresh s es) : run s es ≠ some none := by
  intro hr
  obtain ⟨s1, e, _⟩ := inv_run (inv_start h) hf hr
  cases e

/-- **C86, space.**  A block that its thread may write lies inside the file: writing it does not make the file longer. -/
theorem C86_inside {s s' : S} {a : A} {es : List Ev} (h : Start s a) (hf : Fresh s es)
    (hr : run s es = some (some s')) : ∀ b ∈ s'.blocks, b.phase = .ok → b.off + b.size ≤ s'.fsize := by
  obtain ⟨s1, e, I⟩ := inv_run (inv_start h) hf hr
  cases e
  exact fun b hb hp => Nat.le_trans (I.inside b hb hp) I.safe

/-- **C86, growth.**  A file that is too short becomes long enough, by less than 16 MiB and a stripe more than needed. -/
theorem C86_growth {f need : Nat} (h : f < need) :
    need ≤ newSize f need ∧ newSize f need < need + 16 * 1024 * 1024 + 4096 := by
  refine ⟨(newSize_ge f need).1, ?_⟩
  have h1 := growLoop_bound need (if f = 0 then stripe else f) need
  have h2 := growLoop_ge need (if f = 0 then stripe else f) need
  have h3 := alignUp_lt (a := f) (b := stripe) (by decide)
  have hs : stripe = 4096 := rfl
  have hi : incr = 16777216 := rfl
  have h4 : (if f = 0 then stripe else f) ≤ need + incr := by split <;> omega
  have h5 : f ≤ if f = 0 then stripe else f := by split <;> omega
  unfold newSize toWrite
  generalize growLoop need (if f = 0 then stripe else f) need = g at *
  generalize (if f = 0 then stripe else f) = c at *
  rw [hs] at h3 ⊢
  by_cases hg : g - f > 0
  · rw [if_pos hg]; omega
  · rw [if_neg hg]; omega

example : newSize 5000 9000 = 8192 + 8192 ∧ newSize 0 9000 = 16384 := by decide +kernel

/-- **C86, growth takes effect.**  When a thread has made the file longer for its block, it may write the block. -/
theorem C86_grown {s s' : S} {a : A} {es : List Ev} {off after : Nat} (h : Start s a) (hf : Fresh s es)
    (hr : run s es = some (some s')) (hl : s'.lock = .grown off after) :
    ∃ s'', step s' .growEnd = some (some s'') ∧ s''.lock = .free ∧
      ∃ b ∈ s''.blocks, b.off = off ∧ b.phase = .ok := by
  obtain ⟨s1, e, I⟩ := inv_run (inv_start h) hf hr
  cases e
  have hL := I.lock
  unfold LockInv at hL
  rw [hl] at hL
  obtain ⟨h1, b, hb, h2, _⟩ := hL
  refine ⟨{ setPhase s' off .ok with lock := .free, safe := after }, by unfold step; rw [hl], rfl,
    { b with phase := .ok }, mem_setPhase.mpr ⟨b, hb, by rw [if_pos h2]⟩, h2, rfl⟩

/-- **C86, shrinking.**  After the file was made shorter, fewer than 32 MiB are left above the end of the last block, and
nothing below the limit was cut off. -/
theorem C86_shrinking {s s' : S} {a : A} {es : List Ev} {l before : Nat} (h : Start s a) (hf : Fresh s es)
    (hr : run s es = some (some s')) (hl : s'.lock = .cut l before) :
    ∃ s'', step s' .cutIO = some (some s'') ∧ l ≤ s''.fsize ∧ s''.fsize < l + 32 * 1024 * 1024 ∧
      ∀ p, p < l → s''.data p = s'.data p := by
  obtain ⟨s1, e, I⟩ := inv_run (inv_start h) hf hr
  cases e
  have hL := I.lock
  unfold LockInv at hL
  rw [hl] at hL
  have hlf : l ≤ s'.fsize := by rw [hL.1]; exact I.safe
  obtain ⟨n, hn, _, hge⟩ := cutSize_some s'.fsize l
  have hnl := hge hlf
  refine ⟨{ s' with lock := .wasCut n, fsize := n, data := fun p => if p < n then s'.data p else none }, ?_, hnl, ?_, ?_⟩
  · unfold step
    simp only [hl]
    rw [if_pos hL.2, hn]
  · have h2 := alignUp_lt (a := l) (b := 2 * incr) (by decide)
    have hi : incr = 16777216 := rfl
    unfold cutSize at hn
    simp only []
    split at hn
    · split at hn <;> cases hn
      omega
    · cases hn
      omega
  · intro p hp
    simp only []
    rw [if_pos (by omega)]

/-- **C86, shrinking is asked for.**  When nobody changes the size and the last block ends below it and below the size
needed before, the call makes the file shorter down to that end. -/
theorem C86_shrink_starts {s : S} {before : Nat} (hl : s.lock = .free) (h1 : limit s.blocks < before)
    (h2 : limit s.blocks < s.safe) :
    ∃ s', step s (.shrink before) = some (some s') ∧ s'.lock = .cut (limit s.blocks) s.safe := by
  refine ⟨{ s with lock := .cut (limit s.blocks) s.safe, safe := limit s.blocks }, ?_, rfl⟩
  unfold step
  simp only []
  rw [if_pos ⟨h1, h2⟩, hl]

/-- The step of the thread that holds the lock. -/
def holderEv : Lock → Option Ev
  | .free => none
  | .grow _ _ _ => some .growIO
  | .grown _ _ => some .growEnd
  | .cut _ _ => some .cutIO
  | .wasCut _ => some .cutEnd

/-- **C86, no thread is stuck.**  Who holds the lock can go on, and frees it after at most two steps; when it is free,
every waiting thread can take it. -/
theorem C86_progress {s s' : S} {a : A} {es : List Ev} (h : Start s a) (hf : Fresh s es)
    (hr : run s es = some (some s')) :
    (∀ e, holderEv s'.lock = some e → ∃ s1, step s' e = some (some s1) ∧
      (s1.lock = .free ∨ ∃ e2 s2, holderEv s1.lock = some e2 ∧ step s1 e2 = some (some s2) ∧ s2.lock = .free)) ∧
    (s'.lock = .free → (∀ b ∈ s'.blocks, b.phase = .waiting → ∃ s1, step s' (.grab b.off) = some (some s1)) ∧
      ∀ l ∈ s'.shrinkers, ∃ s1, step s' (.shrinkGrab l) = some (some s1)) := by
  obtain ⟨s1, e, I⟩ := inv_run (inv_start h) hf hr
  cases e
  have hL := I.lock
  unfold LockInv at hL
  refine ⟨?_, ?_⟩
  · intro e he
    cases hl : s'.lock with
    | free => rw [hl] at he; cases he
    | grow o nd be =>
      rw [hl] at he hL
      cases he
      obtain ⟨h1, h2, _⟩ := hL
      refine ⟨{ s' with
          lock := .grown o (newSize s'.fsize nd)
          fsize := newSize s'.fsize nd
          data := fun p => if s'.fsize ≤ p ∧ p < newSize s'.fsize nd then some 0 else s'.data p }, ?_, .inr
        ⟨.growEnd, _, rfl, rfl, rfl⟩⟩
      unfold step
      simp only [hl]
      rw [if_pos ⟨by rw [h1, h2], toWrite_mod _ _⟩]
    | grown o af =>
      rw [hl] at he
      cases he
      exact ⟨{ setPhase s' o .ok with lock := .free, safe := af }, by unfold step; rw [hl], .inl rfl⟩
    | cut l be =>
      rw [hl] at he hL
      cases he
      obtain ⟨n, hn, _⟩ := cutSize_some s'.fsize l
      refine ⟨{ s' with lock := .wasCut n, fsize := n, data := fun p => if p < n then s'.data p else none }, ?_, .inr
        ⟨.cutEnd, _, rfl, rfl, rfl⟩⟩
      unfold step
      simp only [hl]
      rw [if_pos hL.2, hn]
    | wasCut n =>
      rw [hl] at he
      cases he
      exact ⟨{ s' with lock := .free, safe := n }, by unfold step; rw [hl], .inl rfl⟩
  · intro hl
    refine ⟨?_, ?_⟩
    · intro b hb hp
      have hfd : find s' b.off = some b := by
        unfold find
        cases hx : s'.blocks.find? (·.off == b.off) with
        | none => exact absurd (beq_self_eq_true _) (List.find?_eq_none.mp hx b hb)
        | some c =>
          obtain ⟨h1, h2⟩ := find_mem (s := s') (off := b.off) hx
          rw [unique I h1 hb h2]
      unfold step
      simp only [hl, hfd, hp, if_true]
      split
      · exact ⟨_, rfl⟩
      · exact ⟨_, rfl⟩
    · intro l hlm
      unfold step
      simp only []
      rw [if_pos ⟨hl, hlm⟩]
      split
      · exact ⟨_, rfl⟩
      · exact ⟨_, rfl⟩

/-- A file of 128 MiB with a block that ends 4096 bytes below 32 MiB and one at 40 MiB. -/
def exS : S :=
  ⟨[⟨8192, 33542144, .ok⟩, ⟨41943040, 4096, .ok⟩], 134217728, 134217728, fun p => if p < 134217728 then some 7 else none,
    .free, []⟩

def exA : A := [(8192, 33542144, some 7), (41943040, 4096, some 7)]

theorem exStart : Start exS exA where
  lock := rfl
  shrinkers := rfl
  safe := rfl
  inside := by decide
  apart := by decide
  sized := by decide
  same := by
    intro o n w h
    simp only [exA, List.mem_cons, Prod.mk.injEq, List.not_mem_nil, or_false] at h
    rcases h with ⟨e1, e2, _⟩ | ⟨e1, e2, _⟩ <;> subst e1 e2 <;> decide
  holds := by
    intro o n v h p h1 h2
    simp only [exA, List.mem_cons, Prod.mk.injEq, List.not_mem_nil, or_false, Option.some.injEq] at h
    have : p < 134217728 := by omega
    have hv : v = 7 := by omega
    simp only [exS]
    rw [if_pos this, hv]

/-- A block at the end is freed, the file made shorter; meanwhile two threads want blocks at the end: one makes the file
longer, the other waits and finds it long enough. -/
def exEv : List Ev :=
  [.release 41943040, .shrink 41947136, .alloc 33550336 4096, .alloc 70000000 4096, .cutIO, .cutEnd, .grab 70000000,
    .growIO, .growEnd, .grab 33550336, .write 70000000 3, .write 33550336 4]

example : (run exS exEv).map (Option.map fun s => [some s.fsize, some s.safe, s.data 33550336, s.data 70000005, s.data 8192]) =
    some (some [some 83886080, some 83886080, some 4, some 3, some 7]) := by decide +kernel

example : exEv.foldl A.step exA =
    [(70000000, 4096, some 3), (33550336, 4096, some 4), (8192, 33542144, some 7)] := by decide

/-- `Fresh`, computed. -/
def freshB (s : S) : List Ev → Bool
  | [] => true
  | e :: es =>
    (match e with
      | .shrinkGrab l => decide (limit s.blocks ≤ l)
      | _ => true) &&
    match step s e with
    | some (some s') => freshB s' es
    | _ => true

theorem fresh_of_B {es} : ∀ {s : S}, freshB s es = true → Fresh s es := by
  induction es with
  | nil => intros; trivial
  | cons e es ih =>
    intro s h
    unfold freshB at h
    rw [Bool.and_eq_true] at h
    refine ⟨?_, ?_⟩
    · intro l he _
      subst he
      exact of_decide_eq_true h.1
    · split
      · next s' hs => rw [hs] at h; exact ih h.2
      · trivial

example : Fresh exS exEv := fresh_of_B (by decide +kernel)

/-- A thread that waits, and no block is allocated meanwhile. -/
example : Fresh exS [.shrink 134217728, .release 41943040, .shrink 41947136, .cutIO, .cutEnd, .shrinkGrab 33550336, .cutIO,
    .cutEnd] := fresh_of_B (by decide +kernel)

example : (run exS [.shrink 134217728, .release 41943040, .shrink 41947136, .cutIO, .cutEnd, .shrinkGrab 33550336, .cutIO,
    .cutEnd]).map (Option.map fun s => [some s.fsize, some s.safe, s.data 8192, s.data 33554432]) =
    some (some [some 33554432, some 33554432, some 7, none]) := by decide +kernel

/-- The end of a checkpoint frees the block at 40 MiB and wants to make the file shorter while a handle's opening does so
(its limit was the end of that block); after that a new block is placed across the first 32 MiB and written; then the
first thread gets the lock and cuts the file at 32 MiB. -/
def staleEv : List Ev :=
  [.shrink 134217728, .release 41943040, .shrink 41947136, .cutIO, .cutEnd, .alloc 33550336 8192, .write 33550336 5,
    .shrinkGrab 33550336, .cutIO, .cutEnd]

/-- **C86 refuted.**  The limit is computed before the thread waits and not looked at again (block_table.cc:206, 211-214):
a block allocated and written meanwhile is cut off. -/
theorem C86_stale_limit_refuted :
    ∃ (s s' : S) (a : A) (es : List Ev), Start s a ∧ run s es = some (some s') ∧ ¬ Holds s' (es.foldl A.step a) := by
  have hd : (run exS staleEv).map (Option.map fun s => s.data 33554432) = some (some none) := by rfl
  cases hr : run exS staleEv with
  | none => rw [hr] at hd; cases hd
  | some x =>
    cases x with
    | none => rw [hr] at hd; cases hd
    | some s' =>
      refine ⟨exS, s', exA, staleEv, exStart, hr, ?_⟩
      intro h
      have h1 := h 33550336 8192 5 (by decide) 33554432 (by decide) (by decide)
      rw [hr] at hd
      simp only [Option.map_some, Option.some.injEq] at hd
      rw [hd] at h1
      cases h1

end Verif.Fsize
