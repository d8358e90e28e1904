import Verif.Hot.BuildInv
import Mathlib.Data.Nat.Basic

/-! An index built while clients write, C66. -/
namespace Verif.Hot.Build

variable {K H V W : Type} [LinearOrder K] [DecidableEq H] [DecidableEq W]

theorem look_iff {gen : Gen K H V W} {own : H → K} (S : Sound gen own) (k : K) (v : V) (h : H) (x : W) :
    look gen k v h = some x ↔ (h, x) ∈ gen k v := by
  unfold look
  constructor
  · intro hl
    cases hf : (gen k v).find? fun r => r.1 = h with
    | none => rw [hf] at hl; cases hl
    | some r =>
      rw [hf] at hl
      simp only [Option.map_some, Option.some.injEq] at hl
      have h1 : r.1 = h := by simpa using List.find?_some hf
      have h2 := List.mem_of_find?_eq_some hf
      rw [← hl, ← h1]
      exact h2
  · intro hm
    have := find_unique Prod.fst _ (S.once k v) (h, x) hm
    simp only at this
    rw [this]
    rfl

/-- **C66.**  While an index is being built and any number of clients put, delete and update source rows through
calls that name the indexer's source dictionary, whatever the interleaving: a source row that no client and not
the builder is in the middle of has exactly its own rows in the index if the builder has passed it, and none if
not.  Missing: calls that name another source dictionary (`C66_other_source_loses_a_row`). -/
theorem C66_index_right_up_to_the_builder_partial (gen : Gen K H V W) (own : H → K) (S : Sound gen own)
    (src : K → Option V) (w : World K H V W) (hr : Reach gen false src w) (k : K)
    (hk : ∀ c ∈ w.clients, k ∉ c.keys) (hb : ∀ v, w.holder ≠ .builder k v) :
    (shouldInsert w.pos k = true →
      ∀ h x, own h = k → (w.data.idx h = some x ↔ ∃ v, w.data.src k = some v ∧ (h, x) ∈ gen k v)) ∧
    (shouldInsert w.pos k = false → ∀ h, own h = k → w.data.idx h = none) := by
  have hg := (inv_reach S src w hr).idle k hk hb
  constructor
  · intro hp h x hh
    rw [hg h hh, if_pos hp]
    cases hs : w.data.src k with
    | none => simp
    | some v => simp [look_iff S]
  · intro hp h hh
    rw [hg h hh, hp]
    simp

/-- **C66.**  When the builder has come to the end and the calls that were running are over, the index holds exactly
the rows computed from the source as it is now. -/
theorem C66_finished_index_is_complete_partial (gen : Gen K H V W) (own : H → K) (S : Sound gen own)
    (src : K → Option V) (w : World K H V W) (hr : Reach gen false src w) (hd : w.pos = .done)
    (hc : w.clients = []) : IndexOf gen w.data.src w.data.idx := by
  have hb : ∀ k v, w.holder ≠ .builder k v := by
    intro k v he
    have := ((inv_reach S src w hr).pend k v he).1
    rw [hd] at this
    cases this
  intro h x
  have := (C66_index_right_up_to_the_builder_partial gen own S src w hr (own h) (by rw [hc]; simp) (hb _)).1
    (by rw [hd]; rfl) h x rfl
  rw [this]
  constructor
  · rintro ⟨v, hv⟩
    exact ⟨own h, v, hv⟩
  · rintro ⟨k, v, hv, hm⟩
    have : own h = k := S.owns k v _ hm
    subst this
    exact ⟨v, hv, hm⟩

/-! ### A concrete build -/

/-- Two index rows for every source row. -/
def two : Gen Nat (Nat × Nat) Nat Nat := fun k v => [((k, 0), v), ((k, 1), v + 1)]

theorem two_sound : Sound two Prod.fst := by
  constructor
  · intro k v r hr
    simp [two] at hr
    rcases hr with rfl | rfl <;> rfl
  · intro k v
    simp [two]

def rows0 : Nat → Option Nat := fun k => if k = 3 then some 30 else if k = 7 then some 70 else none

/-- The builder does row 7; a client takes the lock, changes rows 7 and is followed by one that moves row 9 in;
another uses the shortcut while the builder does row 3. -/
example : ∃ w, Reach two false rows0 w ∧ w.pos = .done ∧ w.clients = [] ∧ w.data.src 7 = some 71 ∧
    w.data.src 9 = some 90 ∧ w.data.idx (7, 1) = some 72 ∧ w.data.idx (9, 0) = some 90 ∧
    w.data.idx (3, 1) = some 31 := by
  have r0 : Reach two false rows0 (begin_ rows0) := .start
  have r1 := Reach.step _ _ r0 (.builderRead _ 7 rfl rfl (by
    intro k' hk _
    show rows0 k' = none
    unfold rows0
    rw [if_neg (by omega), if_neg (by omega)]))
  have r2 := Reach.step _ _ r1 (.builderWrite _ 7 (some 70) rfl)
  have r3 := Reach.step _ _ r2 (.beginLocked _ _ _ (Call.upd 7 70 71 rfl _ (.inr rfl)) (by intro c hc; cases hc)
    (by intro h; cases h 7 (by simp)) rfl)
  have r4 := Reach.step _ _ r3 (.act _ [] [] _ _ _ rfl rfl)
  have r5 := Reach.step _ _ r4 (.act _ [] [] _ _ _ rfl rfl)
  have r6 := Reach.step _ _ r5 (.act _ [] [] _ _ _ rfl rfl)
  have r7 := Reach.step _ _ r6 (.finish _ [] [] _ rfl rfl)
  have r8 := Reach.step _ _ r7 (.beginShortcut _ _ _ (Call.put 9 90 rfl _ (.inl rfl)) (by intro c hc; cases hc)
    (by intro k hk; rw [List.mem_singleton.mp hk]; rfl))
  have r9 := Reach.step _ _ r8 (.act _ [] [] _ _ _ rfl rfl)
  have r10 := Reach.step _ _ r9 (.builderRead _ 3 rfl rfl (by
    intro k' hk hs
    have hlt : k' < 7 := by
      have : decide (7 ≤ k') = false := hs
      simpa using this
    show (if k' = 9 then some 90 else if k' = 7 then some 71 else rows0 k') = none
    unfold rows0
    rw [if_neg (by omega), if_neg (by omega), if_neg (by omega), if_neg (by omega)]))
  have r11 := Reach.step _ _ r10 (.act _ [] [] _ _ _ rfl rfl)
  have r12 := Reach.step _ _ r11 (.builderWrite _ 3 (some 30) rfl)
  have r13 := Reach.step _ _ r12 (.finish _ [] [] _ rfl rfl)
  have r14 := Reach.step _ _ r13 (.builderEnd _ rfl (by
    intro k' hs
    have hlt : k' < 3 := by
      have : decide (3 ≤ k') = false := hs
      simpa using this
    show (if k' = 9 then some 90 else if k' = 7 then some 71 else rows0 k') = none
    unfold rows0
    rw [if_neg (by omega), if_neg (by omega), if_neg (by omega), if_neg (by omega)]))
  exact ⟨_, r14, rfl, rfl, rfl, rfl, rfl, rfl, rfl⟩

/-- **C66, witness.**  A call that names another source dictionary takes neither the lock nor the shortcut
(src/ydb_write.cc:562-574, 745-757).  It decides not to write to the index, the builder finishes, and only then does
it write to the indexer's source: the finished index lacks the row. -/
theorem C66_other_source_loses_a_row : ∃ w, Reach two true (fun _ => none) w ∧ w.pos = .done ∧ w.clients = [] ∧
    ¬ IndexOf two w.data.src w.data.idx := by
  have r0 : Reach two true (fun _ => none) (begin_ fun _ => none) := .start
  have r1 := Reach.step _ _ r0 (.beginBare _ _ _ rfl (Call.put 5 50 rfl _ (.inr rfl)) (by intro c hc; cases hc))
  have r2 := Reach.step _ _ r1 (.act _ [] [] _ _ _ rfl rfl)
  have r3 := Reach.step _ _ r2 (.builderEnd _ rfl (by intro k _; rfl))
  have r4 := Reach.step _ _ r3 (.act _ [] [] _ _ _ rfl rfl)
  have r5 := Reach.step _ _ r4 (.finish _ [] [] _ rfl rfl)
  refine ⟨_, r5, rfl, rfl, ?_⟩
  intro h
  have := (h (5, 0) 50).mpr ⟨5, 50, rfl, by simp [two]⟩
  cases this

end Verif.Hot.Build
