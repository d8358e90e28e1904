import Verif.Rec.Hist
/-! Recovery replays the log: its state is that of the system when it had logged what has survived. -/
namespace Verif.Rec
open Verif.Rec.Spec
open Verif.Ule (emptyUle)
set_option linter.unusedVariables false
set_option linter.unusedSimpArgs false

/-! ### Messages -/

theorem sendAll_skip (sk : File → Bool) (ms : List Msg) {R R' S : File → Rows} (h : sendAll noSkip R ms = some R')
    (hS : ∀ f, sk f = false → S f = R f) :
    ∃ S', sendAll sk S ms = some S' ∧ (∀ f, sk f = false → S' f = R' f) ∧ (∀ f, touched sk ms f = false → S' f = S f) := by
  induction ms generalizing R S with
  | nil => simp only [sendAll] at h ⊢; injection h with h; subst h; exact ⟨S, rfl, hS, fun _ _ => rfl⟩
  | cons m ms ih =>
    simp only [sendAll] at h ⊢
    obtain ⟨R1, h1, h2⟩ := Option.bind_eq_some_iff.mp h
    simp only [send, noSkip, Bool.false_eq_true, if_false] at h1
    obtain ⟨u, hu, hR1⟩ := Option.map_eq_some_iff.mp h1
    by_cases hk : sk m.file = true
    · simp only [send, hk, if_true, Option.bind_some]
      obtain ⟨S', e1, e2, e3⟩ := ih (S := S) h2 (by
        intro f hf
        have : f ≠ m.file := by intro he; subst he; rw [hk] at hf; simp at hf
        rw [← hR1]; simp only [upd, if_neg this]; exact hS f hf)
      refine ⟨S', e1, e2, ?_⟩
      intro f hf
      apply e3
      simp only [touched, List.any_cons, Bool.and_eq_false_iff, Bool.or_eq_false_iff] at hf ⊢
      rcases hf with hf | ⟨-, hf⟩
      · exact Or.inl hf
      · exact Or.inr hf
    · have hk' : sk m.file = false := by simpa using hk
      have hSm := hS _ hk'
      simp only [send, hk', Bool.false_eq_true, if_false, hSm, hu, Option.map_some, Option.bind_some]
      obtain ⟨S', e1, e2, e3⟩ := ih (S := upd S m.file (upd (R m.file) m.key u)) h2 (by
        intro f hf
        rw [← hR1]
        simp only [upd]
        split
        · rfl
        · exact hS f hf)
      refine ⟨S', e1, e2, ?_⟩
      intro f hf
      simp only [touched, List.any_cons, Bool.and_eq_false_iff, Bool.or_eq_false_iff] at hf
      have hf' : touched sk ms f = false := by
        simp only [touched, Bool.and_eq_false_iff]
        rcases hf with hf | ⟨-, hf⟩
        · exact Or.inl hf
        · exact Or.inr hf
      rw [e3 f hf']
      have : f ≠ m.file := by
        intro he; subst he
        rcases hf with hf | ⟨hf, -⟩
        · simp [hk'] at hf
        · simp at hf
      simp only [upd, if_neg this]

theorem sendAll_file (sk : File → Bool) (ms : List Msg) {R R' : File → Rows} (h : sendAll sk R ms = some R') (f : File)
    (hf : ∀ m ∈ ms, m.file ≠ f) : R' f = R f := by
  induction ms generalizing R with
  | nil => simp only [sendAll] at h; injection h with h; rw [h]
  | cons m ms ih =>
    simp only [sendAll] at h
    obtain ⟨R1, h1, h2⟩ := Option.bind_eq_some_iff.mp h
    rw [ih h2 fun a ha => hf a (List.mem_cons_of_mem _ ha)]
    simp only [send] at h1
    split at h1
    · injection h1 with h1; rw [h1]
    · obtain ⟨u, hu, hR1⟩ := Option.map_eq_some_iff.mp h1
      rw [← hR1]; simp only [upd, if_neg (Ne.symm (hf m (by simp)))]

theorem World.step_some {sk w r w'} : World.step sk w r = some w' ↔ txStep w.txns r = some w'.txns ∧ sendAll sk w.rows (msgs w.txns r) = some w'.rows := by
  unfold World.step
  constructor
  · intro h
    split at h
    · rename_i a b ha hb; injection h with h; subst h; exact ⟨ha, hb⟩
    · simp at h
  · rintro ⟨h1, h2⟩; rw [h1, h2]

/-! ### Only the dictionaries there are -/

theorem msgs_files {files : List File} {T : Txns} {r : Rec} (ha : ∀ e ∈ T, ∀ a ∈ e.2.acts, a.file ∈ files)
    (hr : ∀ p ops, r = .enq p ops → ∀ o ∈ ops, o.file ∈ files) : ∀ m ∈ msgs T r, m.file ∈ files := by
  intro m hm
  cases r with
  | enq p ops =>
    simp only [msgs] at hm
    split at hm
    · obtain ⟨o, ho, rfl⟩ := List.mem_map.mp hm; exact hr p ops rfl o ho
    · simp at hm
  | xcommit p =>
    simp only [msgs] at hm
    split at hm
    · rename_i t ht
      split at hm
      · obtain ⟨a, haa, hc⟩ := List.mem_filterMap.mp hm
        simp only [Act.commitMsg] at hc
        split at hc
        · injection hc with hc; subst hc; exact ha _ (get_mem ht) a (List.mem_reverse.mp haa)
        · simp at hc
      · simp at hm
    · simp at hm
  | xabort p =>
    simp only [msgs] at hm
    split at hm
    · rename_i t ht
      obtain ⟨a, haa, rfl⟩ := List.mem_map.mp hm
      exact ha _ (get_mem ht) a (List.mem_reverse.mp haa)
    · simp at hm
  | _ => simp [msgs] at hm

theorem ok_enq {files log T p ops} (h : Ok files log T (.enq p ops)) : ∀ o ∈ ops, o.file ∈ files := by
  intro o ho; exact (h.2.2.1 o ho).1

theorem Valid.files {files log} (h : Valid files log) : (∀ e ∈ (W log).txns, ∀ a ∈ e.2.acts, a.file ∈ files) ∧
    ∀ f, f ∉ files → (W log).rows f = World.empty.rows f := by
  induction h with
  | nil => simp [W, World.empty]
  | @snoc log r w hv hok hst ih =>
    obtain ⟨ia, ir⟩ := ih
    rw [W_snoc, hst]
    simp only [Option.getD_some]
    obtain ⟨h1, h2⟩ := World.step_some.mp hst
    have hm := msgs_files (r := r) ia (fun p ops hr => by subst hr; exact ok_enq hok)
    refine ⟨?_, ?_⟩
    · generalize (W log).txns = T at *
      cases r with
      | xbegin p parent =>
        cases parent with
        | none =>
          simp only [txStep] at h1
          split at h1
          · injection h1 with h1; rw [← h1]
            intro e he
            rcases mem_ins.mp he with rfl | he
            · simp
            · exact ia e he
          · simp at h1
        | some q =>
          simp only [txStep] at h1
          split at h1
          · split at h1
            · injection h1 with h1; rw [← h1]
              intro e he
              rcases mem_ins.mp he with rfl | he
              · simp
              · exact ia e he
            · simp at h1
          · simp at h1
      | enq p ops =>
        simp only [txStep] at h1
        split at h1
        · rename_i t ht
          injection h1 with h1; rw [← h1]
          intro e he
          rcases mem_set he with ⟨rfl, -⟩ | ⟨he, -⟩
          · intro a haa
            rcases List.mem_append.mp haa with haa | haa
            · exact ia _ (get_mem ht) a haa
            · obtain ⟨o, ho, rfl⟩ := List.mem_map.mp haa; exact ok_enq hok o ho
          · exact ia e he
        · simp at h1
      | xcommit p =>
        simp only [txStep] at h1
        split at h1
        · rename_i t ht
          split at h1
          · split at h1
            · injection h1 with h1; rw [← h1]; intro e he; exact ia e (mem_erase.mp he).1
            · split at h1
              · rename_i tq hq
                injection h1 with h1; rw [← h1]
                intro e he
                rcases mem_set (mem_erase.mp he).1 with ⟨rfl, -⟩ | ⟨he, -⟩
                · intro a haa
                  rcases List.mem_append.mp haa with haa | haa
                  · exact ia _ (get_mem hq) a haa
                  · exact ia _ (get_mem ht) a haa
                · exact ia e he
              · simp at h1
          · simp at h1
        · simp at h1
      | xabort p =>
        simp only [txStep] at h1
        split at h1
        · split at h1
          · injection h1 with h1; rw [← h1]; intro e he; exact ia e (mem_erase.mp he).1
          · simp at h1
        · simp at h1
      | xprepare p =>
        simp only [txStep] at h1
        split at h1
        · rename_i t ht
          split at h1
          · injection h1 with h1; rw [← h1]; exact ia
          · split at h1
            · simp at h1
            · injection h1 with h1; rw [← h1]
              intro e he
              rcases mem_set he with ⟨rfl, -⟩ | ⟨he, -⟩
              · exact ia (p, t) (get_mem ht)
              · exact ia e he
        · simp at h1
      | _ => simp only [txStep] at h1; injection h1 with h1; rw [← h1]; exact ia
    · intro f hf
      rw [← ir f hf]
      exact sendAll_file _ _ h2 f fun m hmm hmf => hf (hmf ▸ hm m hmm)

/-! ### The rollback file -/

theorem rb_untouched {T T' : Txns} {r : Rec} (wf : TxWf T) (h : txStep T r = some T') (hr : rbTouched T r = false) : rbOf T' = rbOf T := by
  funext p
  cases r with
  | xbegin q parent =>
    have key : ∀ t, T.get q = none → t.acts = [] → rbOf (T.ins q t) p = rbOf T p := by
      intro t hn ht
      simp only [rbOf, get_ins wf.sorted hn]
      by_cases hp : p = q
      · subst hp; simp [hn, ht]
      · simp [hp]
    cases parent with
    | none =>
      simp only [txStep] at h
      split at h
      · rename_i hc; injection h with h; rw [← h]; exact key _ hc.2 rfl
      · simp at h
    | some q' =>
      simp only [txStep] at h
      split at h
      · split at h
        · rename_i hc; injection h with h; rw [← h]; exact key _ hc.2 rfl
        · simp at h
      · simp at h
  | enq q ops =>
    simp only [rbTouched, Bool.not_eq_false', List.isEmpty_iff] at hr
    subst hr
    simp only [txStep] at h
    split at h
    · rename_i t ht
      injection h with h; rw [← h]
      simp only [rbOf, get_set]
      by_cases hp : p = q
      · subst hp; simp [ht]
      · simp [hp]
    · simp at h
  | xcommit q =>
    simp only [txStep] at h
    simp only [rbTouched] at hr
    split at h
    · rename_i t ht
      rw [ht] at hr
      simp only [Bool.not_eq_false', List.isEmpty_iff] at hr
      split at h
      · split at h
        · injection h with h; rw [← h]
          simp only [rbOf, get_erase]
          by_cases hp : p = q
          · subst hp; simp [ht, hr]
          · simp [hp]
        · split at h
          · rename_i q' _ _ tq hq
            injection h with h; rw [← h]
            simp only [rbOf, get_erase, get_set, hr, List.append_nil]
            by_cases hp : p = q
            · subst hp; simp [ht, hr]
            · rw [if_neg hp]
              by_cases hp' : p = q'
              · subst hp'; simp [hq]
              · simp [hp']
          · simp at h
      · simp at h
    · simp at h
  | xabort q =>
    simp only [txStep] at h
    simp only [rbTouched] at hr
    split at h
    · rename_i t ht
      rw [ht] at hr
      simp only [Bool.not_eq_false', List.isEmpty_iff] at hr
      split at h
      · injection h with h; rw [← h]
        simp only [rbOf, get_erase]
        by_cases hp : p = q
        · subst hp; simp [ht, hr]
        · simp [hp]
      · simp at h
    · simp at h
  | xprepare q =>
    simp only [txStep] at h
    split at h
    · rename_i t ht
      split at h
      · injection h with h; rw [← h]
      · split at h
        · simp at h
        · injection h with h; rw [← h]
          simp only [rbOf, get_set]
          by_cases hp : p = q
          · subst hp; simp [ht]
          · simp [hp]
    · simp at h
  | _ => simp only [txStep] at h; injection h with h; rw [← h]

/-! ### Numbered records -/

theorem number_append (k : Nat) (a b : List Rec) : number k (a ++ b) = number k a ++ number (k + a.length) b := by
  induction a generalizing k with
  | nil => simp [number]
  | cons r a ih => simp only [List.cons_append, number, ih]; rw [show k + (r :: a).length = k + 1 + a.length by simp; omega]

theorem number_length (k : Nat) (a : List Rec) : (number k a).length = a.length := by
  induction a generalizing k with
  | nil => rfl
  | cons r a ih => simp [number, ih]

theorem number_drop (k t : Nat) (a : List Rec) : (number k a).drop t = number (k + t) (a.drop t) := by
  induction t generalizing k a with
  | zero => simp
  | succ t ih =>
    cases a with
    | nil => simp [number]
    | cons r a => simp only [number, List.drop_succ_cons, ih]; rw [show k + 1 + t = k + (t + 1) by omega]

theorem mem_number {k : Nat} {a : List Rec} {e : Nat × Rec} (h : e ∈ number k a) : e.2 ∈ a := by
  induction a generalizing k with
  | nil => simp [number] at h
  | cons r a ih =>
    simp only [number, List.mem_cons] at h
    rcases h with rfl | h
    · simp
    · exact List.mem_cons_of_mem _ (ih h)

theorem fwdAll_append (F : File → Obj Rows) (B : Obj RbImg) (s : RSt) (a b : List (Nat × Rec)) :
    RSt.fwdAll F B s (a ++ b) = (RSt.fwdAll F B s a).bind fun s => RSt.fwdAll F B s b := by
  induction a generalizing s with
  | nil => simp [RSt.fwdAll]
  | cons x a ih =>
    simp only [List.cons_append, RSt.fwdAll]
    cases s.fwd F B x with
    | none => rfl
    | some s' => simp [ih]

/-! ### Backward scan -/

def Rec.isEnd : Rec → Bool
  | .ckEnd _ _ _ => true
  | _ => false

def Rec.isMark : Rec → Bool
  | .ckEnd _ _ _ | .ckBegin _ => true
  | _ => false

theorem scanBack_newer (x rest : List (Nat × Rec)) (h : ∀ e ∈ x, e.2.isEnd = false) : scanBack none (x ++ rest) = scanBack none rest := by
  induction x with
  | nil => rfl
  | cons e x ih =>
    obtain ⟨l, r⟩ := e
    have hr := h (l, r) (by simp)
    have ih := ih fun e he => h e (List.mem_cons_of_mem _ he)
    cases r <;> simp [Rec.isEnd] at hr <;> simp only [List.cons_append, scanBack] <;> exact ih

theorem scanBack_between (st : Nat × Nat) (x rest : List (Nat × Rec)) (h : ∀ e ∈ x, e.2.isMark = false) :
    scanBack (some st) (x ++ rest) = scanBack (some st) rest := by
  induction x with
  | nil => rfl
  | cons e x ih =>
    obtain ⟨l, r⟩ := e
    have hr := h (l, r) (by simp)
    have ih := ih fun e he => h e (List.mem_cons_of_mem _ he)
    cases r <;> simp [Rec.isMark] at hr <;> simp only [List.cons_append, scanBack] <;> exact ih

theorem scanBack_turn (pre mid post : List Rec) (k lx b nf nx : Nat) (hb : b = k + pre.length)
    (hm : ∀ r ∈ mid, r.isMark = false) (hp : ∀ r ∈ post, r.isEnd = false) :
    scanBack none (number k (pre ++ .ckBegin lx :: (mid ++ .ckEnd b nf nx :: post))).reverse = some (b, b + mid.length + 1, pre.length) := by
  rw [number_append]
  simp only [number]
  rw [number_append]
  simp only [number, List.reverse_append, List.reverse_cons, List.append_assoc, List.cons_append, List.nil_append]
  rw [scanBack_newer _ _ fun e he => hp _ (mem_number (List.mem_reverse.mp he))]
  simp only [scanBack]
  rw [scanBack_between _ _ _ fun e he => hm _ (mem_number (List.mem_reverse.mp he))]
  simp only [scanBack, hb, if_true, List.length_reverse, number_length]
  congr 3
  omega

end Verif.Rec
