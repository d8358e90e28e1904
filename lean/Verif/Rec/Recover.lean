import Verif.Rec.Replay
/-! The forward scan. -/
namespace Verif.Rec
open Verif.Rec.Spec
open Verif.Ule (emptyUle)
set_option linter.unusedVariables false
set_option linter.unusedSimpArgs false

variable (F : File → Obj Rows) (B : Obj RbImg)

/-! ### The records of the checkpoint -/

theorem fwd_fassocs (slot : File → Slot Rows) (fs : List File) (hpick : ∀ f ∈ fs, pick none (F f) = some (slot f)) (hn : fs.Nodup) (s : RSt) (k : Nat)
    (hph : s.phase = .between) (hop : ∀ f ∈ fs, f ∉ s.opened) :
    ∃ o fl c rows, RSt.fwdAll F B s (number k (fs.map .fassoc)) =
      some { s with numFiles := s.numFiles + fs.length, opened := o, flsn := fl, cnt := c, w := { s.w with rows := rows } } ∧
      (∀ f, f ∈ o ↔ f ∈ fs ∨ f ∈ s.opened) ∧ (∀ f ∈ fs, fl f = (slot f).lsn ∧ c f = (slot f).cnt ∧ rows f = (slot f).img) ∧
      (∀ f, f ∉ fs → fl f = s.flsn f ∧ c f = s.cnt f ∧ rows f = s.w.rows f) := by
  induction fs generalizing s k with
  | nil => exact ⟨s.opened, s.flsn, s.cnt, s.w.rows, rfl, by simp, by simp, by simp⟩
  | cons f fs ih =>
    obtain ⟨hf, hn'⟩ := List.nodup_cons.mp hn
    simp only [List.map_cons, number, RSt.fwdAll, RSt.fwd, hph, if_neg (hop f (by simp)), hpick f (by simp), Option.bind_some]
    obtain ⟨o, fl, c, rows, h1, h2, h3, h4⟩ := ih (fun g hg => hpick g (List.mem_cons_of_mem _ hg)) hn'
      { s with numFiles := s.numFiles + 1, opened := f :: s.opened, flsn := upd s.flsn f (slot f).lsn, cnt := upd s.cnt f (slot f).cnt,
               w := { s.w with rows := upd s.w.rows f (slot f).img } } (k + 1) hph (by
        intro g hg
        simp only [List.mem_cons, not_or]
        exact ⟨fun h => hf (h ▸ hg), hop g (List.mem_cons_of_mem _ hg)⟩)
    refine ⟨o, fl, c, rows, ?_, ?_, ?_, ?_⟩
    · simp only [hph] at h1
      rw [h1]; simp only [List.length_cons, Nat.add_assoc, Nat.add_comm 1, Nat.add_left_comm 1]
    · intro g; rw [h2]; simp only [List.mem_cons]; constructor
      · rintro (h | h | h) <;> simp [h]
      · rintro ((h | h) | h) <;> simp [h]
    · intro g hg
      by_cases hgs : g ∈ fs
      · exact h3 g hgs
      · have : g = f := by rcases List.mem_cons.mp hg with h | h
                           · exact h
                           · exact absurd h hgs
        subst this
        have := h4 g hgs
        simpa [upd] using this
    · intro g hg
      have hgs : g ∉ fs := fun h => hg (List.mem_cons_of_mem _ h)
      have hgf : g ≠ f := fun h => hg (h ▸ by simp)
      have := h4 g hgs
      simpa [upd, hgf] using this

theorem get_append {a b : Txns} {p : Xid} : Txns.get (a ++ b) p = match Txns.get a p with
    | some t => some t
    | none => Txns.get b p := by
  induction a with
  | nil => simp [Txns.get]
  | cons e a ih =>
    obtain ⟨q, t⟩ := e
    simp only [List.cons_append, Txns.get]
    split
    · rfl
    · exact ih

theorem set_last {a : Txns} {p : Xid} {t t' : Txn} (h : ∀ e ∈ a, e.1 ≠ p) : Txns.set (a ++ [(p, t)]) p t' = a ++ [(p, t')] := by
  simp only [Txns.set, List.map_append, List.map_cons, List.map_nil, if_true]
  congr 1
  have : a.map (fun e => if e.1 = p then (p, t') else e) = a.map id := List.map_congr_left fun e he => by simp [h e he]
  rw [this, List.map_id]

theorem fwd_stills (T : Txns) (wf : TxWf T) (sl : Slot RbImg) (hrb : sl.img = rbOf T) (es : List (Xid × Txn)) (done : Txns) (hT : T = done ++ es)
    (s : RSt) (k : Nat) (hph : s.phase = .between) (hs : s.w.txns = done) (hsl : s.rb = some sl) (hmgr : s.lastXid ≤ s.mgr)
    (hroot : ∀ e ∈ T, e.1.root ≤ s.lastXid ∧ e.1.root ≠ 0) :
    RSt.fwdAll F B s (number k (es.map stillRec)) = some { s with numTxns := s.numTxns + es.length, w := { s.w with txns := T } } := by
  induction es generalizing done s k with
  | nil => simp only [List.append_nil] at hT; subst hT; simp only [List.map_nil, number, RSt.fwdAll, List.length_nil, Nat.add_zero, ← hs]
  | cons e es ih =>
    obtain ⟨p, t⟩ := e
    have hmem : (p, t) ∈ T := by rw [hT]; simp
    obtain ⟨hr1, hr2⟩ := hroot _ hmem
    simp only at hr1 hr2
    have hlx : s.lastXid ≠ 0 := by omega
    have hlt : ∀ e ∈ done, e.1.lt p = true := by
      intro e he
      have := wf.sorted; rw [hT] at this
      exact (List.pairwise_append.mp this).2.2 e he (p, t) (by simp)
    have hne : ∀ e ∈ done, e.1 ≠ p := fun e he h => by have := hlt e he; rw [h, Xid.lt_irrefl] at this; simp at this
    have hgn : done.get p = none := get_none_iff.mpr hne
    have hTg : T.get p = some t := get_of_mem wf.sorted hmem
    have himg : sl.img p = t.acts := by rw [hrb]; simp only [rbOf, hTg]
    have hT' : T = (done ++ [(p, t)]) ++ es := by rw [hT]; simp
    -- creating the transaction
    have hopen : s.stillOpen p t.parent = some { s with numTxns := s.numTxns + 1, w := { s.w with txns := done ++ [(p, { t with prepared := false })] } } := by
      have hx : txStep s.w.txns (.xbegin p t.parent) = some (done ++ [(p, ⟨t.parent, t.chain, [], false⟩)]) := by
        rw [hs]
        cases hp : t.parent with
        | none =>
          obtain ⟨h0, hch⟩ := wf.root _ hmem hp
          simp only at h0 hch
          simp only [txStep, h0, hgn, and_self, if_true, ins_last hlt, hch]
        | some q =>
          obtain ⟨-, hqr, hqc, u, hu, -, hch⟩ := wf.child _ hmem q hp
          simp only at hqr hqc hch
          have hud : done.get q = some u := by
            have hum := get_mem hu
            rw [hT] at hum
            rcases List.mem_append.mp hum with h | h
            · have hsd : Sorted done := by have := wf.sorted; rw [hT] at this; exact (List.pairwise_append.mp this).1
              exact get_of_mem hsd h
            · exfalso
              rcases List.mem_cons.mp h with h | h
              · injection h with h _; subst h; omega
              · have := wf.sorted; rw [hT] at this
                have := (List.pairwise_cons.mp (List.pairwise_append.mp this).2.1).1 _ h
                rw [Xid.lt_iff] at this; simp only at this; omega
          simp only [txStep, hud, hqr, hgn, and_self, if_true, ins_last hlt, hch]
      have hg : (done ++ [(p, (⟨t.parent, t.chain, [], false⟩ : Txn))]).get p = some ⟨t.parent, t.chain, [], false⟩ := by
        rw [get_append, hgn]; simp [Txns.get]
      simp only [RSt.stillOpen, hlx, hr1, ne_eq, not_false_eq_true, and_self, if_true, hx, hsl, hg, himg, set_last hne]
      congr 2
      cases t.parent with
      | none => simp only; omega
      | some _ => rfl
    cases hprep : t.prepared with
    | false =>
      have ht : { t with prepared := false } = t := by cases t; simp_all
      simp only [List.map_cons, number, RSt.fwdAll, stillRec, hprep, Bool.false_eq_true, if_false, RSt.fwd, hph, hopen, Option.bind_some, ht]
      have := ih (done ++ [(p, t)]) hT' { s with numTxns := s.numTxns + 1, w := { s.w with txns := done ++ [(p, t)] } } (k + 1) hph rfl hsl hmgr hroot
      simp only [hph] at this
      rw [this]
      simp only [List.length_cons, Nat.add_assoc, Nat.add_comm 1]
    | true =>
      have hpn : t.parent = none := by
        cases hp : t.parent with
        | none => rfl
        | some q => have := (wf.child _ hmem q hp).1; simp [hprep] at this
      obtain ⟨par, ch, ac, pr⟩ := t
      simp only at hprep hpn
      subst hprep hpn
      simp only at hopen
      have hg : (done ++ [(p, (⟨none, ch, ac, false⟩ : Txn))]).get p = some ⟨none, ch, ac, false⟩ := by
        rw [get_append, hgn]; simp [Txns.get]
      have hx : txStep (done ++ [(p, ⟨none, ch, ac, false⟩)]) (.xprepare p) = some (done ++ [(p, ⟨none, ch, ac, true⟩)]) := by
        simp only [txStep, hg, ne_eq, not_true, if_false, Bool.false_eq_true, set_last hne]
      have hcl : ∀ lsn, RSt.client { s with numTxns := s.numTxns + 1, w := { s.w with txns := done ++ [(p, ⟨none, ch, ac, false⟩)] } } lsn (.xprepare p)
          = some { s with numTxns := s.numTxns + 1, w := { s.w with txns := done ++ [(p, ⟨none, ch, ac, true⟩)] } } := by
        intro lsn
        simp only [RSt.client, World.step, hx, msgs, sendAll, Option.map_some, touched, List.any_nil, Bool.and_false, Bool.or_false, rbTouched]
      simp only [hph] at hopen hcl
      simp only [List.map_cons, number, RSt.fwdAll, stillRec, if_true, RSt.fwd, hph, hopen, hcl, Option.bind_some]
      have := ih (done ++ [(p, ⟨none, ch, ac, true⟩)]) hT' { s with numTxns := s.numTxns + 1, w := { s.w with txns := done ++ [(p, ⟨none, ch, ac, true⟩)] } } (k + 1) hph rfl hsl hmgr hroot
      simp only [hph] at this
      rw [this]
      simp only [List.length_cons, Nat.add_assoc, Nat.add_comm 1]

/-! ### Replay -/

variable (files : List File) (log : List Rec) (slot : File → Slot Rows) (b : Nat)

/-- Recovery has come as far as lsn `j`. -/
structure Sim (j : Nat) (s : RSt) : Prop where
  txns : s.w.txns = (W (log.take j)).txns
  rows : ∀ f ∈ files, s.w.rows f = (W (log.take (max (slot f).lsn j))).rows f
  out : ∀ f, f ∉ files → s.w.rows f = World.empty.rows f
  opened : ∀ f, f ∈ s.opened ↔ f ∈ files
  flsn : ∀ f ∈ files, s.flsn f = (slot f).lsn
  flsn0 : ∀ f, f ∉ files → s.flsn f = 0
  cnt : ∀ f ∈ files, s.cnt f = (slot f).cnt
  clean : ∀ f ∈ files, s.dirty f = false → s.w.rows f = (slot f).img
  rbClean : s.rbDirty = false → ∀ i, b ≤ i → i ≤ j → rbOf (W (log.take i)).txns = rbOf (W (log.take b)).txns

theorem take_succ {log : List Rec} {j : Nat} {r : Rec} (h : log[j]? = some r) : log.take (j + 1) = log.take j ++ [r] := by
  rw [List.take_add_one, h]; rfl

/-- A record that only concerns checkpoints. -/
theorem Sim.skip {j : Nat} {s : RSt} {r : Rec} (h : Sim files log slot b j s) (hr : log[j]? = some r) (hck : r.isCk = true) : Sim files log slot b (j + 1) s := by
  have hW : W (log.take (j + 1)) = W (log.take j) := by rw [take_succ hr, W_ck _ _ (by simpa using hck)]
  refine ⟨by rw [hW]; exact h.txns, ?_, h.out, h.opened, h.flsn, h.flsn0, h.cnt, h.clean, ?_⟩
  · intro f hf
    rw [h.rows f hf]
    rcases Nat.lt_or_ge j (slot f).lsn with hl | hl
    · rw [Nat.max_eq_left (by omega), Nat.max_eq_left (by omega)]
    · rw [Nat.max_eq_right hl, Nat.max_eq_right (by omega), hW]
  · intro hd i hb hi
    rcases Nat.lt_or_ge j i with hj | hj
    · have : i = j + 1 := by omega
      subst this
      rw [hW]
      rcases Nat.lt_or_ge j b with h1 | h1
      · have : b = j + 1 := by omega
        rw [this, hW]
      · exact h.rbClean hd j h1 (Nat.le_refl _)
    · exact h.rbClean hd i hb hj

/-- A record of a client's call. -/
theorem Sim.client {j : Nat} {s : RSt} {r : Rec} (hv : Valid files log) (h : Sim files log slot b j s) (hbj : b ≤ j) (hr : log[j]? = some r) (hck : r.isCk = false) :
    ∃ s', s.fwd F B (j + 1, r) = some s' ∧ Sim files log slot b (j + 1) s' ∧ s'.phase = s.phase ∧ s'.begin = s.begin ∧ s'.end_ = s.end_ ∧
      s'.numFiles = s.numFiles ∧ s'.numTxns = s.numTxns ∧ s'.lastXid = s.lastXid ∧ s'.rb = s.rb ∧
      (∀ c, s.mgr = max c (lastXid (log.take j)) → s'.mgr = max c (lastXid (log.take (j + 1)))) ∧ (xids (log.take (j + 1))).1 = (xids (log.take j)).1 := by
  have hv1 := hv.take (j + 1)
  rw [take_succ hr] at hv1
  obtain ⟨hvj, hok, hst⟩ := hv1.inv
  obtain ⟨wf, ids⟩ := hvj.txwf
  obtain ⟨fa, fr⟩ := hvj.files
  have hvr := (hv.take (j + 1)).files.2
  rw [← take_succ hr] at hst
  obtain ⟨ht, hm⟩ := World.step_some.mp hst
  have hmf := msgs_files (r := r) fa (fun p ops he => by subst he; exact ok_enq hok)
  obtain ⟨rows', e1, e2, e3⟩ := sendAll_skip (fun f => decide (j + 1 ≤ s.flsn f)) (msgs (W (log.take j)).txns r) (S := s.w.rows) hm (by
    intro f hf
    simp only [decide_eq_false_iff_not, Nat.not_le] at hf
    by_cases hff : f ∈ files
    · rw [h.rows f hff]
      rw [h.flsn f hff] at hf
      rw [Nat.max_eq_right (by omega)]
    · rw [h.out f hff, fr f hff])
  have hc : s.client (j + 1) r = some { s with
      w := ⟨rows', (W (log.take (j + 1))).txns⟩
      mgr := match (generalizing := false) r with
        | .xbegin p none => max s.mgr p.root
        | _ => s.mgr
      dirty := fun f => s.dirty f || touched (fun f => decide (j + 1 ≤ s.flsn f)) (msgs s.w.txns r) f
      rbDirty := s.rbDirty || rbTouched s.w.txns r } := by
    simp only [RSt.client]
    rw [(World.step_some (w' := ⟨rows', (W (log.take (j + 1))).txns⟩)).mpr ⟨by rw [h.txns]; exact ht, by rw [h.txns]; exact e1⟩]
    rfl
  have hfwd : s.fwd F B (j + 1, r) = s.client (j + 1) r := by
    cases r with
    | enq p ops =>
      simp only [RSt.fwd]
      congr 2
      rw [List.filter_eq_self]
      intro o ho
      simp only [decide_eq_true_eq]
      exact (h.opened _).mpr (ok_enq hok o ho)
    | xbegin _ _ => rfl
    | xcommit _ => rfl
    | xabort _ => rfl
    | xprepare _ => rfl
    | comment => rfl
    | _ => simp [Rec.isCk] at hck
  refine ⟨_, hfwd.trans hc, ?_, rfl, rfl, rfl, rfl, rfl, rfl, rfl, ?_, ?_⟩
  · refine ⟨rfl, ?_, ?_, h.opened, h.flsn, h.flsn0, h.cnt, ?_, ?_⟩
    · intro f hf
      rcases Nat.lt_or_ge j (slot f).lsn with hl | hl
      · have : rows' f = s.w.rows f := e3 f (by simp only [touched, h.flsn f hf, Bool.and_eq_false_iff, Bool.not_eq_false', decide_eq_true_eq]; exact Or.inl (by omega))
        simp only [this, h.rows f hf]
        rw [Nat.max_eq_left (by omega), Nat.max_eq_left (by omega)]
      · simp only [e2 f (by simp only [h.flsn f hf, decide_eq_false_iff_not]; omega)]
        rw [Nat.max_eq_right (by omega)]
    · intro f hf
      simp only [e2 f (by simp only [h.flsn0 f hf, decide_eq_false_iff_not]; omega)]
      exact hvr f hf
    · intro f hf hd
      simp only [Bool.or_eq_false_iff] at hd
      rw [h.txns] at hd
      simp only [e3 f hd.2]
      exact h.clean f hf hd.1
    · intro hd i hb hi
      simp only [Bool.or_eq_false_iff] at hd
      rw [h.txns] at hd
      rcases Nat.lt_or_ge j i with hj | hj
      · have : i = j + 1 := by omega
        subst this
        rw [rb_untouched wf ht hd.2]
        exact h.rbClean hd.1 j hbj (Nat.le_refl _)
      · exact h.rbClean hd.1 i hb hj
  · intro c hcc
    rw [take_succ hr, lastXid_eq, xids_snoc]
    rw [lastXid_eq] at hcc
    cases r with
    | xbegin p parent => cases parent with
      | none => simp only [xidFold]; rw [hcc]; omega
      | some q => simpa only [xidFold] using hcc
    | ckBegin _ => simp [Rec.isCk] at hck
    | ckEnd _ _ _ => simp [Rec.isCk] at hck
    | _ => simpa only [xidFold] using hcc
  · rw [take_succ hr, xids_snoc]
    cases r with
    | xbegin p parent => cases parent <;> rfl
    | ckBegin _ => simp [Rec.isCk] at hck
    | ckEnd _ _ _ => simp [Rec.isCk] at hck
    | _ => rfl

/-- What stays the same during replay. -/
def Same (s s' : RSt) : Prop :=
  s'.phase = s.phase ∧ s'.begin = s.begin ∧ s'.end_ = s.end_ ∧ s'.numFiles = s.numFiles ∧ s'.numTxns = s.numTxns ∧ s'.lastXid = s.lastXid ∧ s'.rb = s.rb

theorem Same.refl (s : RSt) : Same s s := ⟨rfl, rfl, rfl, rfl, rfl, rfl, rfl⟩
theorem Same.trans {a b c : RSt} (h : Same a b) (g : Same b c) : Same a c := by
  obtain ⟨h1, h2, h3, h4, h5, h6, h7⟩ := h
  obtain ⟨g1, g2, g3, g4, g5, g6, g7⟩ := g
  exact ⟨g1.trans h1, g2.trans h2, g3.trans h3, g4.trans h4, g5.trans h5, g6.trans h6, g7.trans h7⟩

theorem get_of_drop {log : List Rec} {j : Nat} {r : Rec} {xs : List Rec} (h : log.drop j = r :: xs) : log[j]? = some r ∧ log.drop (j + 1) = xs := by
  refine ⟨?_, ?_⟩
  · have := List.getElem?_drop (xs := log) (i := j) (j := 0)
    rw [h] at this; simpa using this.symm
  · rw [← List.drop_drop, h]; rfl

theorem Sim.skips {s : RSt} (rs : List Rec) {rest : List Rec} {j : Nat} (hd : log.drop j = rs ++ rest) (h : Sim files log slot b j s) (hck : ∀ r ∈ rs, r.isCk = true) :
    Sim files log slot b (j + rs.length) s := by
  induction rs generalizing j with
  | nil => exact h
  | cons r rs ih =>
    obtain ⟨h1, h2⟩ := get_of_drop hd
    have := ih h2 (h.skip files log slot b h1 (hck r (by simp))) fun r hr => hck r (List.mem_cons_of_mem _ hr)
    rw [show j + (r :: rs).length = j + 1 + rs.length by simp; omega]; exact this

theorem Sim.clients (hv : Valid files log) (rs : List Rec) {rest : List Rec} {j : Nat} {s : RSt} (hd : log.drop j = rs ++ rest) (h : Sim files log slot b j s) (hbj : b ≤ j)
    (hck : ∀ r ∈ rs, r.isCk = false) (c : Nat) (hm : s.mgr = max c (lastXid (log.take j))) :
    ∃ s', RSt.fwdAll F B s (number (j + 1) rs) = some s' ∧ Sim files log slot b (j + rs.length) s' ∧ Same s s' ∧
      s'.mgr = max c (lastXid (log.take (j + rs.length))) ∧ (xids (log.take (j + rs.length))).1 = (xids (log.take j)).1 := by
  induction rs generalizing j s with
  | nil => exact ⟨s, rfl, h, Same.refl s, hm, rfl⟩
  | cons r rs ih =>
    obtain ⟨h1, h2⟩ := get_of_drop hd
    obtain ⟨s1, e1, hs1, a1, a2, a3, a4, a5, a6, a7, a8, a9⟩ := h.client F B files log slot b hv hbj h1 (hck r (by simp))
    obtain ⟨s2, e2, hs2, hsame, hm2, hx⟩ := ih h2 hs1 (by omega) (fun r hr => hck r (List.mem_cons_of_mem _ hr)) (a8 c hm)
    have hl : j + (r :: rs).length = j + 1 + rs.length := by simp; omega
    refine ⟨s2, ?_, hl ▸ hs2, Same.trans ⟨a1, a2, a3, a4, a5, a6, a7⟩ hsame, hl ▸ hm2, ?_⟩
    · simp only [number, RSt.fwdAll, e1, Option.bind_some]; exact e2
    · rw [hl, hx, a9]

theorem Sim.newer (hv : Valid files log) (rs : List Rec) {j : Nat} {s : RSt} (hd : log.drop j = rs) (h : Sim files log slot b j s) (hbj : b ≤ j)
    (hck : ∀ r ∈ rs, r.isEnd = false) (hph : s.phase = .newer) (hend : s.end_ ≤ j) (hlx : s.lastXid ≤ s.mgr) (hm : s.mgr = lastXid (log.take j)) :
    ∃ s', RSt.fwdAll F B s (number (j + 1) rs) = some s' ∧ Sim files log slot b (j + rs.length) s' ∧ Same s s' := by
  induction rs generalizing j s with
  | nil => exact ⟨s, rfl, h, Same.refl s⟩
  | cons r rs ih =>
    obtain ⟨h1, h2⟩ := get_of_drop hd
    have hl : j + (r :: rs).length = j + 1 + rs.length := by simp; omega
    have hmono : lastXid (log.take j) ≤ lastXid (log.take (j + 1)) := by rw [take_succ h1]; exact lastXid_mono _ _
    by_cases hc : r.isCk = true
    · have hv1 := hv.take (j + 1)
      rw [take_succ h1] at hv1
      obtain ⟨hvj, hok, hst⟩ := hv1.inv
      have hf : s.fwd F B (j + 1, r) = some s := by
        cases r with
        | ckBegin lx =>
          have : lastXid (log.take j) ≤ lx := hok
          simp only [RSt.fwd, hph]
          rw [if_pos ⟨by omega, by omega, by omega⟩]
        | ckEnd _ _ _ => have := hck _ (List.mem_cons_self ..); simp [Rec.isEnd] at this
        | stillPrep p =>
          obtain ⟨t, ht, hp⟩ := hok
          simp only [RSt.fwd, hph, h.txns, ht, hp, if_true]
        | fassoc f => simp only [RSt.fwd, hph]
        | fassocRb => simp only [RSt.fwd, hph]
        | stillOpen p q => simp only [RSt.fwd, hph]
        | _ => simp [Rec.isCk] at hc
      have hx : lastXid (log.take (j + 1)) = lastXid (log.take j) := by
        rw [take_succ h1, lastXid_eq, lastXid_eq, xids_snoc]
        cases r with
        | ckEnd _ _ _ => have := hck _ (List.mem_cons_self ..); simp [Rec.isEnd] at this
        | ckBegin _ | stillPrep _ | fassoc _ | fassocRb | stillOpen _ _ => rfl
        | _ => simp [Rec.isCk] at hc
      obtain ⟨s2, e2, hs2, hsame⟩ := ih h2 (h.skip files log slot b h1 hc) (by omega) (fun r hr => hck r (List.mem_cons_of_mem _ hr)) hph (by omega) hlx (by omega)
      refine ⟨s2, ?_, hl ▸ hs2, hsame⟩
      simp only [number, RSt.fwdAll, hf, Option.bind_some]; exact e2
    · obtain ⟨s1, e1, hs1, a1, a2, a3, a4, a5, a6, a7, a8, a9⟩ := h.client F B files log slot b hv hbj h1 (by simpa using hc)
      have hm1 := a8 0 (by simpa using hm)
      simp only [Nat.zero_max] at hm1
      obtain ⟨s2, e2, hs2, hsame⟩ := ih h2 hs1 (by omega) (fun r hr => hck r (List.mem_cons_of_mem _ hr)) (a1.trans hph) (by omega) (by omega) hm1
      refine ⟨s2, ?_, hl ▸ hs2, Same.trans ⟨a1, a2, a3, a4, a5, a6, a7⟩ hsame⟩
      simp only [number, RSt.fwdAll, e1, Option.bind_some]; exact e2

/-- The records a checkpoint begins with. -/
def block (pre : List Rec) : List Rec := files.map .fassoc ++ .fassocRb :: (W pre).txns.map stillRec

theorem block_ck {files : List File} {pre : List Rec} : ∀ r ∈ block files pre, r.isCk = true ∧ r.isMark = false := by
  intro r hr
  simp only [block, List.mem_append, List.mem_map, List.mem_cons] at hr
  rcases hr with ⟨f, -, rfl⟩ | rfl | ⟨e, -, rfl⟩
  · exact ⟨rfl, rfl⟩
  · exact ⟨rfl, rfl⟩
  · unfold stillRec; split <;> exact ⟨rfl, rfl⟩

/-- The log contains a complete checkpoint, begun at lsn `b`, whose end record is followed by `post`. -/
def Complete (log : List Rec) (b e : Nat) : Prop :=
  ∃ pre lx mid post, log = pre ++ .ckBegin lx :: (block files pre ++ mid ++ .ckEnd b (files.length + 1) (W pre).txns.length :: post) ∧ b = pre.length + 1 ∧
    e = b + (block files pre ++ mid).length + 1 ∧ ∀ r ∈ mid, r.isCk = false

theorem recover_spec (hv : Valid files log) (hn : files.Nodup) {e t : Nat} (hc : Complete files log b e) (hpost : ∀ r ∈ log.drop e, r.isEnd = false) (ht : t < b)
    (hF : ∀ f ∈ files, pick none (F f) = some (slot f) ∧ (slot f).img = (W (log.take (max (slot f).lsn b))).rows f)
    {sl : Slot RbImg} (hB : pick (some b) B = some sl) (hBi : sl.img = rbOf (W (log.take b)).txns) :
    ∃ r, recover F B ((number 1 log).drop t) = some r ∧ Sim files log slot b log.length r ∧ r.begin = b ∧ r.rb = some sl := by
  obtain ⟨pre, lx, mid, post, hlog, hb, he, hmid⟩ := hc
  have hck : ∀ r ∈ block files pre, r.isCk = true := fun r hr => (block_ck r hr).1
  -- pieces of the log
  have d0 : log.drop pre.length = .ckBegin lx :: (block files pre ++ mid ++ .ckEnd b (files.length + 1) (W pre).txns.length :: post) := by
    rw [hlog]; simp
  obtain ⟨g0, d1⟩ := get_of_drop d0
  rw [← hb] at d1
  have d2 : log.drop (b + (block files pre).length) = mid ++ .ckEnd b (files.length + 1) (W pre).txns.length :: post := by
    rw [← List.drop_drop, d1]; simp
  have d3 : log.drop (b + (block files pre).length + mid.length) = .ckEnd b (files.length + 1) (W pre).txns.length :: post := by
    rw [← List.drop_drop, d2]; simp
  obtain ⟨g3, d4⟩ := get_of_drop d3
  have he' : e = b + (block files pre).length + mid.length + 1 := by rw [he]; simp; omega
  rw [← he'] at d4
  rw [d4] at hpost
  have tpre : log.take pre.length = pre := by rw [hlog]; simp
  have tb : log.take b = pre ++ [.ckBegin lx] := by rw [hb, take_succ g0, tpre]
  have Wb : W (log.take b) = W pre := by rw [tb, W_ck _ _ (by simp [Rec.isCk])]
  have hvb := hv.take b
  rw [tb] at hvb
  obtain ⟨hvp, hok, -⟩ := hvb.inv
  have hok : lastXid pre ≤ lx := hok
  obtain ⟨wf, ids⟩ := hvp.txwf
  -- the backward scan
  have htl : t ≤ pre.length := by omega
  have hdrop : (number 1 log).drop t = number (t + 1) (pre.drop t ++ .ckBegin lx :: ((block files pre ++ mid) ++ .ckEnd b (files.length + 1) (W pre).txns.length :: post)) := by
    rw [number_drop, Nat.add_comm 1 t, hlog, List.drop_append_of_le_length htl]
  have hpl : (pre.drop t).length = pre.length - t := by simp
  have hsb : scanBack none ((number 1 log).drop t).reverse = some (b, e, pre.length - t) := by
    rw [hdrop, scanBack_turn _ _ _ _ _ _ _ _ (by rw [hpl]; omega) ?_ hpost, hpl, he]
    intro r hr
    rcases List.mem_append.mp hr with h | h
    · exact (block_ck r h).2
    · have := hmid r h
      cases r <;> simp [Rec.isCk] at this <;> rfl
  have hfd : ((number 1 log).drop t).drop (pre.length - t) =
      number b (.ckBegin lx :: (files.map .fassoc ++ (.fassocRb :: ((W pre).txns.map stillRec ++ (mid ++ (.ckEnd b (files.length + 1) (W pre).txns.length :: post)))))) := by
    rw [List.drop_drop, number_drop, show t + (pre.length - t) = pre.length by omega, d0, hb, Nat.add_comm 1]
    simp [block]
  -- the forward scan
  unfold recover
  rw [hsb]
  simp only
  rw [hfd]
  simp only [number, RSt.fwdAll, RSt.fwd]
  rw [if_pos ⟨trivial, trivial⟩]
  simp only [Option.bind_some]
  rw [number_append, fwdAll_append]
  obtain ⟨o, fl, c, rows, f1, f2, f3, f4⟩ := fwd_fassocs F B slot files (fun f hf => (hF f hf).1) hn
    ⟨.between, b, e, 0, 0, lx, lx, [], fun _ => 0, fun _ => 0, fun _ => false, none, false, World.empty⟩ (b + 1) rfl (by simp)
  rw [f1]
  simp only [Option.bind_some, number, RSt.fwdAll, RSt.fwd, hB]
  rw [number_append, fwdAll_append]
  have st := fwd_stills F B (W pre).txns wf sl (by rw [hBi, Wb]) (W pre).txns [] rfl
    ⟨.between, b, e, 0 + files.length + 1, 0, lx, lx, o, fl, c, fun _ => false, some sl, false, ⟨rows, World.empty.txns⟩⟩ (b + 1 + (files.map Rec.fassoc).length + 1) rfl rfl rfl
    (Nat.le_refl _) (by
      intro x hx
      have := ids.begun x hx
      exact ⟨Nat.le_trans (ids.root _ _ this) hok, ids.pos _ _ this⟩)
  simp only [Nat.zero_add] at st ⊢
  rw [st]
  simp only [Option.bind_some]
  have hsim0 : Sim files log slot b b ⟨.between, b, e, files.length + 1, (W pre).txns.length, lx, lx, o, fl, c, fun _ => false, some sl, false, ⟨rows, (W pre).txns⟩⟩ := by
    refine ⟨by rw [Wb], ?_, ?_, by simpa using f2, fun f hf => (f3 f hf).1, fun f hf => (f4 f hf).1, fun f hf => (f3 f hf).2.1, ?_, ?_⟩
    · intro f hf; simp only; rw [(f3 f hf).2.2, (hF f hf).2]
    · intro f hf; exact (f4 f hf).2.2
    · intro f hf _; exact (f3 f hf).2.2
    · intro _ i h1 h2; rw [Nat.le_antisymm h1 h2]
  have hsim1 := hsim0.skips files log slot b (block files pre) (rest := mid ++ .ckEnd b (files.length + 1) (W pre).txns.length :: post) (by rw [d1]; simp) hck
  have hx1 : xids (log.take (b + (block files pre).length)) = (lx, lastXid pre) := by
    have : log.take (b + (block files pre).length) = pre ++ [.ckBegin lx] ++ block files pre := by
      rw [List.take_add, tb, d1]; simp
    rw [this]
    have key : ∀ (rs : List Rec) (l : List Rec), (∀ r ∈ rs, r.isCk = true ∧ r.isMark = false) → xids (l ++ rs) = xids l := by
      intro rs
      induction rs with
      | nil => intro l _; simp
      | cons r rs ih =>
        intro l h
        rw [show l ++ r :: rs = (l ++ [r]) ++ rs by simp, ih _ (fun r hr => h r (List.mem_cons_of_mem _ hr)), xids_snoc]
        obtain ⟨h1, h2⟩ := h r (by simp)
        cases r <;> simp [Rec.isCk, Rec.isMark] at h1 h2 <;> rfl
    rw [key _ _ block_ck, xids_snoc]; rfl
  have hl1 : b + 1 + (files.map Rec.fassoc).length + 1 + ((W pre).txns.map stillRec).length = b + (block files pre).length + 1 := by simp [block]; omega
  rw [hl1, number_append, fwdAll_append]
  obtain ⟨s2, e2, hs2, ⟨a1, a2, a3, a4, a5, a6, a7⟩, hm2, hxx⟩ := hsim1.clients F B files log slot b hv mid d2 (by omega) hmid lx (by
    rw [lastXid_eq, hx1]; simp only; omega)
  rw [e2]
  simp only at a1 a2 a3 a4 a5 a6 a7
  simp only [Option.bind_some, number, RSt.fwdAll, RSt.fwd, a1]
  rw [if_pos ⟨a2.symm, by rw [a3, he']; omega, a4.symm, a5.symm⟩]
  simp only [Option.bind_some]
  have hsim3 := hs2.skip files log slot b g3 rfl
  rw [← he'] at hsim3
  have hm3 : s2.mgr = lastXid (log.take e) := by
    rw [he', take_succ g3, lastXid_eq, xids_snoc]
    simp only [xidFold]
    rw [hxx, hx1, hm2, lastXid_eq]
    simp only; omega
  have hsim4 : Sim files log slot b e { s2 with phase := .newer } :=
    ⟨hsim3.txns, hsim3.rows, hsim3.out, hsim3.opened, hsim3.flsn, hsim3.flsn0, hsim3.cnt, hsim3.clean, hsim3.rbClean⟩
  obtain ⟨s5, e5, hs5, c1, c2, c3, c4, c5, c6, c7⟩ := hsim4.newer F B files log slot b hv post d4 (by omega) hpost rfl (by simp only [a3]; omega)
    (by simp only [a6]; rw [hm2]; omega) hm3
  have hlen : log.length = e + post.length := by rw [hlog, he, hb]; simp; omega
  rw [show b + (block files pre).length + 1 + mid.length + 1 = e + 1 by omega, e5]
  simp only at c1 c2 c7
  simp only [c1, if_true]
  exact ⟨s5, rfl, hlen ▸ hs5, by rw [c2, a2], by rw [c7, a7]⟩

end Verif.Rec
