import Verif.Rec.Tx
/-! The history of the running system, as told by its log. -/
namespace Verif.Rec
open Verif.Rec.Spec
open Verif.Ule (emptyUle)
set_option linter.unusedVariables false
set_option linter.unusedSimpArgs false

abbrev noSkip : File → Bool := fun _ => false

/-- The state after a log. -/
def W (log : List Rec) : World := log.foldl (fun w r => (w.step noSkip r).getD w) World.empty

theorem W_nil : W [] = World.empty := rfl
theorem W_snoc (log : List Rec) (r : Rec) : W (log ++ [r]) = ((W log).step noSkip r).getD (W log) := by
  simp [W, List.foldl_append]

/-- Which records may come next: those of clients, and those of a checkpoint. -/
def Ok (files : List File) (log : List Rec) (txns : Txns) : Rec → Prop
  | .ckBegin lx => lastXid log ≤ lx
  | .fassoc f => f ∈ files
  | .fassocRb => True
  | .stillOpen p parent => ∃ t, txns.get p = some t ∧ t.prepared = false ∧ t.parent = parent
  | .stillPrep p => ∃ t, txns.get p = some t ∧ t.prepared = true
  | .ckEnd _ _ _ => True
  | r => Allowed files log txns r

/-- The logs that can come about. -/
inductive Valid (files : List File) : List Rec → Prop
  | nil : Valid files []
  | snoc {log r w} : Valid files log → Ok files log (W log).txns r → (W log).step noSkip r = some w → Valid files (log ++ [r])

theorem Valid.inv {files log r} (h : Valid files (log ++ [r])) :
    Valid files log ∧ Ok files log (W log).txns r ∧ (W log).step noSkip r = some (W (log ++ [r])) := by
  generalize hl : log ++ [r] = l at h
  cases h with
  | nil => simp at hl
  | snoc h1 h2 h3 =>
    obtain ⟨rfl, h⟩ := List.append_inj' hl rfl
    injection h with h; subst h
    refine ⟨h1, h2, ?_⟩
    rw [W_snoc, h3]; rfl

theorem Valid.prefix {files a b} (h : Valid files (a ++ b)) : Valid files a := by
  induction b using List.reverseRecOn' with
  | nil => simpa using h
  | snoc b r ih => rw [← List.append_assoc] at h; exact ih h.inv.1
where
  List.reverseRecOn' {motive : List Rec → Prop} (l : List Rec) (nil : motive []) (snoc : ∀ b r, motive b → motive (b ++ [r])) : motive l := by
    have : motive l.reverse.reverse := by
      induction l.reverse with
      | nil => exact nil
      | cons a l ih => rw [List.reverse_cons]; exact snoc _ _ ih
    simpa using this

/-- A record that only concerns checkpoints, or nothing at all. -/
def Rec.isCk : Rec → Bool
  | .ckBegin _ | .ckEnd _ _ _ | .fassoc _ | .fassocRb | .stillOpen _ _ | .stillPrep _ => true
  | _ => false

theorem step_ck {w : World} {r : Rec} {sk} (h : r.isCk = true) : w.step sk r = some w := by
  cases r <;> simp [Rec.isCk] at h <;> simp [World.step, txStep, msgs, sendAll]

theorem W_ck (log : List Rec) (rs : List Rec) (h : ∀ r ∈ rs, r.isCk = true) : W (log ++ rs) = W log := by
  induction rs generalizing log with
  | nil => simp
  | cons r rs ih =>
    rw [show log ++ r :: rs = (log ++ [r]) ++ rs by simp, ih _ (fun a ha => h a (List.mem_cons_of_mem _ ha)), W_snoc, step_ck (h r (by simp))]; rfl

theorem Valid.take {files log} (h : Valid files log) (n : Nat) : Valid files (log.take n) := by
  rw [← List.take_append_drop n log] at h; exact h.prefix

/-! ### Ids -/

def xidFold (s : Nat × Nat) (r : Rec) : Nat × Nat := match r with
    | .xbegin p none => (s.1, max s.2 p.root)
    | .ckBegin lx => (lx, s.2)
    | .ckEnd _ _ _ => (s.1, max s.2 s.1)
    | _ => s

def xids (log : List Rec) : Nat × Nat := log.foldl xidFold (0, 0)

theorem lastXid_eq (log) : lastXid log = (xids log).2 := rfl

theorem xids_snoc (log r) : xids (log ++ [r]) = xidFold (xids log) r := by simp [xids, List.foldl_append]

theorem lastXid_mono (log r) : lastXid log ≤ lastXid (log ++ [r]) := by
  rw [lastXid_eq, lastXid_eq, xids_snoc]
  unfold xidFold
  split <;> simp <;> omega

/-- What begin records say about the live transactions, and about ids. -/
structure Ids (log : List Rec) (txns : Txns) : Prop where
  begun : ∀ e ∈ txns, Rec.xbegin e.1 e.2.parent ∈ log
  root : ∀ p q, Rec.xbegin p q ∈ log → p.root ≤ lastXid log
  pos : ∀ p q, Rec.xbegin p q ∈ log → p.root ≠ 0
  parent : ∀ p q, Rec.xbegin p q ∈ log → (q = none ↔ p.child = 0)

theorem get_some_of_ne {l : Txns} {p : Xid} (h : l.get p ≠ none) : ∃ t, l.get p = some t := Option.ne_none_iff_exists'.mp h

theorem Valid.txwf {files log} (h : Valid files log) : TxWf (W log).txns ∧ Ids log (W log).txns := by
  induction h with
  | nil => exact ⟨TxWf.nil, by constructor <;> simp [W, World.empty]⟩
  | @snoc log r w hv hok hst ih =>
    obtain ⟨wf, ids⟩ := ih
    rw [W_snoc, hst]
    simp only [Option.getD_some]
    have hw : txStep (W log).txns r = some w.txns := by
      unfold World.step at hst
      split at hst
      · rename_i a b ha hb; injection hst with hst; subst hst; exact ha
      · simp at hst
    -- records that begin nothing
    have other : ∀ txns' : Txns, (∀ p q, r ≠ .xbegin p q) → (∀ e ∈ txns', ∃ u, (e.1, u) ∈ (W log).txns ∧ u.parent = e.2.parent) → Ids (log ++ [r]) txns' := by
      intro txns' hr hsub
      refine ⟨?_, ?_, ?_, ?_⟩
      · intro e he; obtain ⟨u, hu, hp⟩ := hsub e he; rw [← hp]; exact List.mem_append_left _ (ids.begun _ hu)
      · intro p q hpq
        rcases List.mem_append.mp hpq with h | h
        · exact Nat.le_trans (ids.root p q h) (lastXid_mono _ _)
        · rw [List.mem_singleton] at h; exact absurd h.symm (hr p q)
      · intro p q hpq
        rcases List.mem_append.mp hpq with h | h
        · exact ids.pos p q h
        · rw [List.mem_singleton] at h; exact absurd h.symm (hr p q)
      · intro p q hpq
        rcases List.mem_append.mp hpq with h | h
        · exact ids.parent p q h
        · rw [List.mem_singleton] at h; exact absurd h.symm (hr p q)
    generalize hT : (W log).txns = T at *
    by_cases hck : r.isCk = true
    · have : txStep T r = some T := by cases r <;> simp [Rec.isCk] at hck <;> rfl
      rw [this] at hw; injection hw with hw; rw [← hw]
      refine ⟨wf, other _ ?_ fun e he => ⟨e.2, he, rfl⟩⟩
      intro p q hr; subst hr; simp [Rec.isCk] at hck
    · cases r with
      | xbegin p parent =>
        cases parent with
        | none =>
          obtain ⟨h0, hlt⟩ := hok
          have hnr : ∀ e ∈ T, e.1.root ≠ p.root := by
            intro e he hr
            have := ids.root _ _ (ids.begun e he); omega
          simp only [txStep] at hw
          split at hw
          · injection hw with hw; rw [← hw]
            have hx : lastXid (log ++ [.xbegin p none]) = max (lastXid log) p.root := by
              rw [lastXid_eq, xids_snoc]; rfl
            refine ⟨wf.insRoot h0 hnr, ?_, ?_, ?_, ?_⟩
            · intro e he
              rcases mem_ins.mp he with rfl | he
              · simp
              · exact List.mem_append_left _ (ids.begun e he)
            · intro p' q' h
              rw [hx]
              rcases List.mem_append.mp h with h | h
              · exact Nat.le_trans (ids.root _ _ h) (Nat.le_max_left _ _)
              · rw [List.mem_singleton] at h; injection h with h _; subst h; exact Nat.le_max_right _ _
            · intro p' q' h
              rcases List.mem_append.mp h with h | h
              · exact ids.pos _ _ h
              · rw [List.mem_singleton] at h; injection h with h _; subst h; omega
            · intro p' q' h
              rcases List.mem_append.mp h with h | h
              · exact ids.parent _ _ h
              · rw [List.mem_singleton] at h; injection h with h h'; subst h; subst h'; simp [h0]
          · simp at hw
        | some q =>
          obtain ⟨hr, hc0, hcr, ⟨t, ht, htp, -⟩, hch, hnew⟩ := hok
          simp only [txStep, ht] at hw
          split at hw
          · injection hw with hw; rw [← hw]
            have hqb := ids.begun _ (get_mem ht)
            refine ⟨wf.insChild hr ht htp hch fun e he her => hnew _ _ (ids.begun e he) her, ?_, ?_, ?_, ?_⟩
            · intro e he
              rcases mem_ins.mp he with rfl | he
              · simp
              · exact List.mem_append_left _ (ids.begun e he)
            · intro p' q' h
              refine Nat.le_trans ?_ (lastXid_mono _ _)
              rcases List.mem_append.mp h with h | h
              · exact ids.root _ _ h
              · rw [List.mem_singleton] at h; injection h with h _; subst h; rw [hr]; exact ids.root _ _ hqb
            · intro p' q' h
              rcases List.mem_append.mp h with h | h
              · exact ids.pos _ _ h
              · rw [List.mem_singleton] at h; injection h with h _; subst h; rw [hr]; exact ids.pos _ _ hqb
            · intro p' q' h
              rcases List.mem_append.mp h with h | h
              · exact ids.parent _ _ h
              · rw [List.mem_singleton] at h; injection h with h h'; subst h; subst h'; simp [hc0]
          · simp at hw
      | enq p ops =>
        obtain ⟨⟨t, ht, htp⟩, -⟩ := hok
        simp only [txStep, ht] at hw
        injection hw with hw; rw [← hw]
        refine ⟨wf.set ht rfl rfl (Or.inl rfl), other _ (by simp) ?_⟩
        intro e he
        rcases mem_set he with ⟨rfl, -⟩ | ⟨he, -⟩
        · exact ⟨t, get_mem ht, rfl⟩
        · exact ⟨e.2, he, rfl⟩
      | xcommit p =>
        obtain ⟨hne, hc⟩ := hok
        obtain ⟨t, ht⟩ := get_some_of_ne hne
        simp only [txStep, ht, hc, if_true] at hw
        cases hp : t.parent with
        | none =>
          rw [hp] at hw; injection hw with hw; rw [← hw]
          exact ⟨wf.erase hc, other _ (by simp) fun e he => ⟨e.2, (mem_erase.mp he).1, rfl⟩⟩
        | some q =>
          rw [hp] at hw
          obtain ⟨-, -, -, tq, hq, -, -⟩ := wf.child _ (get_mem ht) q hp
          simp only [hq] at hw
          injection hw with hw; rw [← hw]
          have wf' : TxWf (T.set q { tq with acts := tq.acts ++ t.acts }) := wf.set hq rfl rfl (Or.inl rfl)
          refine ⟨wf'.erase ?_, other _ (by simp) ?_⟩
          · rw [childOf_none] at hc ⊢
            intro e he
            rcases mem_set he with ⟨rfl, -⟩ | ⟨he, -⟩
            · exact hc (q, tq) (get_mem hq)
            · exact hc _ he
          · intro e he
            rcases mem_set (mem_erase.mp he).1 with ⟨rfl, -⟩ | ⟨he, -⟩
            · exact ⟨tq, get_mem hq, rfl⟩
            · exact ⟨e.2, he, rfl⟩
      | xabort p =>
        obtain ⟨hne, hc⟩ := hok
        obtain ⟨t, ht⟩ := get_some_of_ne hne
        simp only [txStep, ht, hc, if_true] at hw
        injection hw with hw; rw [← hw]
        exact ⟨wf.erase hc, other _ (by simp) fun e he => ⟨e.2, (mem_erase.mp he).1, rfl⟩⟩
      | xprepare p =>
        obtain ⟨⟨t, ht, htp, htn⟩, hc⟩ := hok
        simp only [txStep, ht, htn, htp] at hw
        simp only [ne_eq, not_true, if_false, Bool.false_eq_true] at hw
        injection hw with hw; rw [← hw]
        refine ⟨wf.set ht (by simp [htn]) rfl (Or.inr ⟨htn, hc⟩), other _ (by simp) ?_⟩
        intro e he
        rcases mem_set he with ⟨rfl, -⟩ | ⟨he, -⟩
        · exact ⟨t, get_mem ht, by simp [htn]⟩
        · exact ⟨e.2, he, rfl⟩
      | comment =>
        simp only [txStep] at hw
        injection hw with hw; rw [← hw]
        exact ⟨wf, other _ (by simp) fun e he => ⟨e.2, he, rfl⟩⟩
      | ckBegin _ => simp [Rec.isCk] at hck
      | fassoc _ => simp [Rec.isCk] at hck
      | fassocRb => simp [Rec.isCk] at hck
      | stillOpen _ _ => simp [Rec.isCk] at hck
      | stillPrep _ => simp [Rec.isCk] at hck
      | ckEnd _ _ _ => simp [Rec.isCk] at hck

end Verif.Rec
