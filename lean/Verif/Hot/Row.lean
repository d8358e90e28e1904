import Verif.Hot.Provisional

/-! One row of the source, whole. -/
namespace Verif.Hot
open Verif.Ule Verif.Mvcc Verif.Txn

theorem commitMsgs_all (h : Bytes) (xs : Xids) (ks : List Bytes) :
    ∀ m ∈ forKey h (commitMsgs xs ks), m = (xs, Op.commit) := by
  intro m hm
  unfold commitMsgs at hm
  split at hm
  · cases hm
  · simp only [forKey, List.mem_map, List.mem_filter] at hm
    obtain ⟨a, ⟨⟨k, -, rfl⟩, -⟩, rfl⟩ := hm
    rfl

def isOpen (s : TxState) : Bool := s = .live ∨ s = .preparing

theorem innerLegal_retired (l : List TxState) (h : ∀ s ∈ l, s = .retired) : innerLegal false l := by
  induction l with
  | nil => trivial
  | cons s l ih =>
    rw [h s (by simp)]
    exact ih fun s hs => h s (List.mem_cons_of_mem _ hs)

theorem prov_all (g : Gen) (hg : g.Ok) (c : Uxr) (hcp : c.val ≠ .placeholder) (r : Uxr) (st : TxState)
    (rest : List (Uxr × TxState)) (hl : legal (st :: rest.map (·.2))) (hc : Chain (r.xid :: ids rest)) :
    ∃ ms ks xs, provLoop g st true [] c.val ((r, st) :: rest) = some (ms, ks, xs) ∧
      ∀ h V, Wf V → V.pux = [] →
        ∃ V', runMsgs V (forKey h (ms ++ commitMsgs xs ks)) = some V' ∧ Wf V' ∧
        (∀ acc, (acc r.xid = true → snapshotRead acc V = look g h c.val.read) →
          snapshotRead acc V' =
            if acc r.xid then look g h (finalVal c.val ((r, st) :: rest)).read else snapshotRead acc V) ∧
        (∀ n acc, n < ((st :: rest.map (·.2)).takeWhile isOpen).length →
          (acc r.xid = true → snapshotRead acc V = look g h c.val.read) →
          snapshotRead acc (abortF V' (ids (((r, st) :: rest).take (n + 1)))) =
            if acc r.xid then look g h (finalVal c.val (((r, st) :: rest).take n)).read
            else snapshotRead acc V) := by
  by_cases hab : st = .aborting
  · subst hab
    refine ⟨[], [], [], by simp [provLoop], fun h V hw hpx => ⟨V, rfl, hw, ?_, ?_⟩⟩
    · intro acc hr
      by_cases h1 : acc r.xid = true
      · rw [if_pos h1]; simpa [finalVal] using hr h1
      · rw [if_neg h1]
    · intro n acc hn
      simp [isOpen] at hn
  · have hx0 : r.xid ≠ 0 := hc.nz r.xid (by simp)
    have hxs : provXids true [] r st = some [r.xid] := by
      cases st <;> simp_all [provXids, setXid, txnidNone]
    obtain ⟨b, hb, hib, ho⟩ : ∃ b, (st = .live ↔ b = true) ∧ innerLegal b (rest.map (·.2)) ∧
        (st = .live ∨ (b = false ∧ ∀ e ∈ rest, e.2 = .retired)) := by
      cases st with
      | aborting => exact absurd rfl hab
      | live => exact ⟨true, by simp, hl, .inl rfl⟩
      | preparing => exact ⟨false, by simp, innerLegal_retired _ hl, .inr ⟨rfl, fun e he => hl _ (List.mem_map_of_mem he)⟩⟩
      | committing => exact ⟨false, by simp, innerLegal_retired _ hl, .inr ⟨rfl, fun e he => hl _ (List.mem_map_of_mem he)⟩⟩
      | retired => exact ⟨false, by simp, innerLegal_retired _ hl, .inr ⟨rfl, fun e he => hl _ (List.mem_map_of_mem he)⟩⟩
    have hopen : ∀ n, n + 1 < ((st :: rest.map (·.2)).takeWhile isOpen).length → n < openLen b rest := by
      intro n hn
      cases hb2 : b with
      | true =>
        simp only [openLen, if_true]
        have : ∀ (l : List TxState), innerLegal true l →
            (l.takeWhile isOpen).length = (l.takeWhile (· = .live)).length := by
          intro l
          induction l with
          | nil => simp
          | cons s l ih =>
            intro hh
            cases s with
            | live => simpa [isOpen] using ih hh
            | preparing => exact absurd hh (by simp [innerLegal])
            | _ => simp [isOpen]
        rw [hb2] at hib
        rw [← this _ hib]
        have hst := hb.mpr hb2
        rw [hst] at hn
        simp [isOpen] at hn ⊢
        omega
      | false =>
        exfalso
        rcases ho with ho | ⟨-, ho⟩
        · rw [hb.mp ho] at hb2; cases hb2
        · cases rest with
          | nil => simp only [List.map_nil, List.takeWhile_cons, List.takeWhile_nil] at hn; split at hn <;> simp at hn
          | cons e rest =>
            simp only [List.map_cons, List.takeWhile_cons, ho e (by simp)] at hn
            split at hn <;> simp [isOpen] at hn
    -- this record, then the others
    have main : ∀ (cur : XrVal) (ms1 : List Msg) (ks1 : List Bytes), cur ≠ .placeholder →
        (throughTxn st = true → ks1 = []) →
        (∀ l, finalVal c.val ((r, st) :: l) = finalVal cur l) →
        (∀ ms ks xs, provLoop g st false [r.xid] cur rest = some (ms, ks, xs) →
          provLoop g st true [] c.val ((r, st) :: rest) = some (ms1 ++ ms, ks1 ++ ks, xs)) →
        (∀ h V, Wf V → V.pux = [] → ∃ V1, runMsgs V (forKey h ms1) = some V1 ∧ Wf V1 ∧
          V1.pux.map (·.xid) <+: [r.xid] ∧
          (∀ acc, (acc r.xid = true → snapshotRead acc V = look g h c.val.read) →
            snapshotRead acc V1 = if acc r.xid then look g h cur.read else snapshotRead acc V) ∧
          (∀ p, p ≠ [] → p <+: [r.xid] → abortF V1 p = abortF V p)) →
        ∃ ms ks xs, provLoop g st true [] c.val ((r, st) :: rest) = some (ms, ks, xs) ∧
          ∀ h V, Wf V → V.pux = [] →
        ∃ V', runMsgs V (forKey h (ms ++ commitMsgs xs ks)) = some V' ∧ Wf V' ∧
        (∀ acc, (acc r.xid = true → snapshotRead acc V = look g h c.val.read) →
          snapshotRead acc V' =
            if acc r.xid then look g h (finalVal c.val ((r, st) :: rest)).read else snapshotRead acc V) ∧
        (∀ n acc, n < ((st :: rest.map (·.2)).takeWhile isOpen).length →
          (acc r.xid = true → snapshotRead acc V = look g h c.val.read) →
          snapshotRead acc (abortF V' (ids (((r, st) :: rest).take (n + 1)))) =
            if acc r.xid then look g h (finalVal c.val (((r, st) :: rest).take n)).read
            else snapshotRead acc V) := by
      intro cur ms1 ks1 hcur hks hfv hloop hfirst
      obtain ⟨ms, ks, xsEnd, e1, e2, e3, e4⟩ := prov_inner g hg st r.xid rest b [r.xid] cur rfl hcur hib ho hc
      refine ⟨ms1 ++ ms, ks1 ++ ks, xsEnd, hloop _ _ _ e1, ?_⟩
      intro h V hw hpx
      obtain ⟨V1, a1, a2, a3, a4, a5⟩ := hfirst h V hw hpx
      obtain ⟨V2, f1, f2, f3, f4, f5⟩ := e4 h V1 a2 a3
      have k1' : ∀ acc, (acc r.xid = true → snapshotRead acc V = look g h c.val.read) →
          (acc r.xid = true → snapshotRead acc V1 = look g h cur.read) := by
        intro acc hr hacc
        rw [a4 acc hr, if_pos hacc]
      have r2 : ∀ acc, (acc r.xid = true → snapshotRead acc V = look g h c.val.read) →
          snapshotRead acc V2 =
            if acc r.xid then look g h (finalVal c.val ((r, st) :: rest)).read else snapshotRead acc V := by
        intro acc hr
        rw [f3 acc (k1' acc hr), hfv, a4 acc hr]
        split <;> rfl
      by_cases ht : throughTxn st = true
      · refine ⟨V2, ?_, f2, r2, ?_⟩
        · rw [hks ht, e2 ht, forKey_append, forKey_append, runMsgs_append, runMsgs_append, a1]
          simp only [Option.bind_some, f1]
          simp [commitMsgs, forKey, runMsgs]
        · intro n acc hn hr
          cases n with
          | zero =>
            have e0 : ids (((r, st) :: rest).take (0 + 1)) = [r.xid] := by simp [ids]
            rw [e0, f4 _ (by simp) (List.prefix_refl _), a5 _ (by simp) (List.prefix_refl _)]
            have := abortF_short V hw [] r.xid (by simp [hpx])
            simp only [List.nil_append] at this
            rw [this]
            simp only [List.take_zero, finalVal]
            by_cases h1 : acc r.xid = true
            · rw [if_pos h1]; exact hr h1
            · rw [if_neg h1]
          | succ n =>
            have e0 : ids (((r, st) :: rest).take (n + 1 + 1)) = [r.xid] ++ ids (rest.take (n + 1)) := by
              simp [ids]
            rw [e0, f5 n acc (hopen n hn) (k1' acc hr), List.take_succ_cons, hfv, a4 acc hr]
            split <;> rfl
      · have hbf : b = false := by
          cases hb2 : b with
          | false => rfl
          | true => rw [hb.mpr hb2] at ht; exact absurd rfl ht
        have hxe := e3 hbf
        obtain ⟨V3, d1, d2, d3, -⟩ := run_commits [r.xid] (Chain.left (xs := [r.xid]) hc (by simp)) _
          (commitMsgs_all h [r.xid] (ks1 ++ ks)) V2 f2
        refine ⟨V3, ?_, d2, ?_, ?_⟩
        · rw [hxe, forKey_append, forKey_append, runMsgs_append, runMsgs_append, a1]
          simp only [Option.bind_some, f1, d1]
        · intro acc hr
          rw [d3 acc, r2 acc hr]
        · intro n acc hn
          exfalso
          have : isOpen st = false := by cases st <;> first | rfl | exact absurd rfl ht
          simp [this] at hn
    have hass : ¬ (st ≠ .live ∧ False ∧ st ≠ .retired) := by rintro ⟨-, h, -⟩; exact h
    by_cases hph : r.isPlaceholder = true
    · refine main c.val [] [] hcp (fun _ => rfl) ?_ ?_ ?_
      · intro l; simp only [finalVal]; rw [if_neg hab, if_pos hph]
      · intro ms ks xs he
        rw [provLoop, if_neg hab, hxs]
        simp only [Option.bind_some, Bool.true_eq_false]
        rw [if_neg hass, if_pos hph, he]
        rfl
      · intro h V hw hpx
        refine ⟨V, rfl, hw, by simp [hpx], ?_, fun _ _ _ => rfl⟩
        intro acc hr
        by_cases h1 : acc r.xid = true
        · rw [if_pos h1]; exact hr h1
        · rw [if_neg h1]
    · have hph' : r.isPlaceholder = false := by simpa using hph
      have hv := not_ph hph'
      refine main r.val (undoL g [r.xid] c.val ++ doL g [r.xid] r.val)
        (if throughTxn st then [] else (undoL g [r.xid] c.val).map Msg.key) hv (fun h => by rw [if_pos h]) ?_ ?_ ?_
      · intro l; simp only [finalVal]; rw [if_neg hab, if_neg hph]
      · intro ms ks xs he
        rw [provLoop, if_neg hab, hxs]
        simp only [Option.bind_some, Bool.true_eq_false]
        rw [if_neg hass, if_neg hph, undoMsgs_eq g _ _ hcp, doMsgs_eq g _ _ hv, he]
        rfl
      · intro h V hw hpx
        obtain ⟨V1, a1, a2, a3, a4, a5⟩ := level g hg h [r.xid] r.xid rfl
          (Chain.left (xs := [r.xid]) hc (by simp)) c.val r.val V hw
        refine ⟨V1, a1, a2, ?_, ?_, a4⟩
        · rcases a5 with ⟨-, rfl⟩ | a5
          · simp [hpx]
          · rw [a5]; exact List.prefix_refl _
        · intro acc hr
          rw [a3 acc]
          cases hacc : acc r.xid with
          | false => simp
          | true =>
            simp only [Bool.true_eq_false, or_false, if_true]
            split
            · rename_i hh
              rw [hr hacc, hh.1, hh.2]
            · rfl

end Verif.Hot
