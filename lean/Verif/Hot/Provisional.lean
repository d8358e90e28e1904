import Verif.Hot.Committed

/-! The provisional part. -/
namespace Verif.Hot
open Verif.Ule Verif.Mvcc Verif.Txn

/-- The value of the last record that counts. -/
def finalVal : XrVal → List (Uxr × TxState) → XrVal
  | p, [] => p
  | p, (r, st) :: rest =>
    if st = .aborting then p else if r.isPlaceholder then finalVal p rest else finalVal r.val rest

theorem abortF_short (V : Ule) (hw : Wf V) (xs : Xids) (y : Txnid) (ha : V.pux.map (·.xid) <+: xs) :
    abortF V (xs ++ [y]) = V := by
  have hal : Aligned V (xs ++ [y]) := ha.trans (List.prefix_append _ _)
  unfold abortF abortA
  rw [promo_of_aligned V _ hal]
  have hl : V.pux.length ≤ xs.length := by simpa using ha.length_le
  simp only [List.length_append, List.length_singleton, Nat.add_sub_cancel]
  rw [List.take_of_length_le hl, strip_of_last _ hw.plast]

theorem Chain.left {xs ys : Xids} (h : Chain (xs ++ ys)) (hne : xs ≠ []) : Chain xs := by
  refine ⟨hne, ?_, fun x hx => h.nz x (by simp [hx]), ?_⟩
  · have := h.nodup; rw [List.nodup_append] at this; exact this.1
  · have := h.len; simp at this; omega

/-- The length of the run of open transactions at the front. -/
def openLen (b : Bool) (l : List (Uxr × TxState)) : Nat :=
  if b then ((l.map (·.2)).takeWhile (· = .live)).length else 0

def ids (l : List (Uxr × TxState)) : Xids := l.map (·.1.xid)

theorem prov_inner (g : Gen) (hg : g.Ok) (outer : TxState) (x : Txnid) (rest : List (Uxr × TxState)) (b : Bool)
    (xs : Xids) (prev : XrVal) (hx : xs.head? = some x) (hp : prev ≠ .placeholder)
    (hl : innerLegal b (rest.map (·.2))) (ho : outer = .live ∨ (b = false ∧ ∀ e ∈ rest, e.2 = .retired))
    (hc : Chain (xs ++ ids rest)) :
    ∃ ms ks xsEnd, provLoop g outer false xs prev rest = some (ms, ks, xsEnd) ∧
      (throughTxn outer = true → ks = []) ∧ (b = false → xsEnd = xs) ∧
      ∀ h V, Wf V → V.pux.map (·.xid) <+: xs → ∃ V', runMsgs V (forKey h ms) = some V' ∧ Wf V' ∧
        (∀ acc, (acc x = true → snapshotRead acc V = look g h prev.read) →
          snapshotRead acc V' = if acc x then look g h (finalVal prev rest).read else snapshotRead acc V) ∧
        (∀ p, p ≠ [] → p <+: xs → abortF V' p = abortF V p) ∧
        (∀ n acc, n < openLen b rest → (acc x = true → snapshotRead acc V = look g h prev.read) →
          snapshotRead acc (abortF V' (xs ++ ids (rest.take (n + 1)))) =
            if acc x then look g h (finalVal prev (rest.take n)).read else snapshotRead acc V) := by
  induction rest generalizing b xs prev with
  | nil =>
    refine ⟨[], [], xs, rfl, fun _ => rfl, fun _ => rfl, fun h V hw ha => ⟨V, rfl, hw, ?_, fun _ _ _ => rfl, ?_⟩⟩
    · intro acc hr
      by_cases h1 : acc x = true
      · rw [if_pos h1]; exact hr h1
      · rw [if_neg h1]
    · intro n acc hn
      unfold openLen at hn
      cases b <;> simp at hn
  | cons e rest ih =>
    obtain ⟨r, st⟩ := e
    have hxne : xs ≠ [] := by intro h; rw [h] at hx; cases hx
    by_cases hab : st = .aborting
    · subst hab
      refine ⟨[], [], xs, by simp [provLoop], fun _ => rfl, fun _ => rfl,
        fun h V hw ha => ⟨V, rfl, hw, ?_, fun _ _ _ => rfl, ?_⟩⟩
      · intro acc hr
        by_cases h1 : acc x = true
        · rw [if_pos h1]; simpa [finalVal] using hr h1
        · rw [if_neg h1]
      · intro n acc hn
        unfold openLen at hn
        cases b <;> simp at hn
    · -- the list of ids and the rest
      have hchain : Chain (xs ++ ids rest) := by
        refine ⟨by simp [hxne], ?_, ?_, ?_⟩
        · exact hc.nodup.sublist (List.Sublist.append (List.Sublist.refl _) (List.sublist_cons_self _ _))
        · intro y hy
          apply hc.nz y
          simp only [ids, List.mem_append, List.map_cons, List.mem_cons] at hy ⊢
          rcases hy with hy | hy
          · exact .inl hy
          · exact .inr (.inr hy)
        · have := hc.len
          simp [ids] at this ⊢
          omega
      obtain ⟨xs', b', hxs', hli, hnl, hpre, hca, hl'⟩ : ∃ xs' b',
          provXids false xs r st = some xs' ∧ (st = .live → b = true ∧ b' = true ∧ xs' = xs ++ [r.xid]) ∧
          (st ≠ .live → b' = false ∧ xs' = xs) ∧
          xs <+: xs' ∧ Chain (xs' ++ ids rest) ∧ innerLegal b' (rest.map (·.2)) := by
        cases st with
        | aborting => exact absurd rfl hab
        | live =>
          cases b with
          | false => exact absurd hl (by simp [innerLegal])
          | true =>
            refine ⟨xs ++ [r.xid], true, rfl, fun _ => ⟨rfl, rfl, rfl⟩, fun h => absurd rfl h,
              List.prefix_append _ _, ?_, hl⟩
            have : xs ++ [r.xid] ++ ids rest = xs ++ ids ((r, TxState.live) :: rest) := by simp [ids]
            rw [this]; exact hc
        | preparing => exact absurd hl (by cases b <;> simp [innerLegal])
        | committing =>
          exact ⟨xs, false, rfl, (by simp), fun _ => ⟨rfl, rfl⟩, List.prefix_refl _, hchain,
            by cases b <;> exact hl⟩
        | retired =>
          exact ⟨xs, false, rfl, (by simp), fun _ => ⟨rfl, rfl⟩, List.prefix_refl _, hchain,
            by cases b <;> exact hl⟩
      have hx' : xs'.head? = some x := by
        obtain ⟨t, rfl⟩ := hpre
        cases xs with
        | nil => cases hx
        | cons a l => exact hx
      have hne' : xs' ≠ [] := by intro h; rw [h] at hx'; cases hx'
      have hcx : Chain xs' := Chain.left hca hne'
      have hbf : b = false → b' = false ∧ xs' = xs := by
        intro hb
        apply hnl
        intro hst
        rw [(hli hst).1] at hb
        cases hb
      have ho' : outer = .live ∨ (b' = false ∧ ∀ e ∈ rest, e.2 = .retired) := by
        rcases ho with ho | ⟨ho, ho2⟩
        · exact .inl ho
        · exact .inr ⟨(hbf ho).1, fun e he => ho2 e (List.mem_cons_of_mem _ he)⟩
      have hass : ¬ (outer ≠ .live ∧ True ∧ st ≠ .retired) := by
        rintro ⟨h1, -, h2⟩
        rcases ho with ho | ⟨-, ho2⟩
        · exact h1 ho
        · exact h2 (ho2 (r, st) (by simp))
      -- this record, then the others
      have combine : ∀ (cur : XrVal) (h : Bytes) (V V1 V' : Ule), Wf V → V.pux.map (·.xid) <+: xs →
          (∀ l, finalVal prev ((r, st) :: l) = finalVal cur l) →
          (∀ acc, (acc x = true → snapshotRead acc V = look g h prev.read) →
            snapshotRead acc V1 = if acc x then look g h cur.read else snapshotRead acc V) →
          (∀ p, p ≠ [] → p <+: xs' → abortF V1 p = abortF V p) →
          (∀ acc, (acc x = true → snapshotRead acc V1 = look g h cur.read) →
            snapshotRead acc V' = if acc x then look g h (finalVal cur rest).read else snapshotRead acc V1) →
          (∀ p, p ≠ [] → p <+: xs' → abortF V' p = abortF V1 p) →
          (∀ n acc, n < openLen b' rest → (acc x = true → snapshotRead acc V1 = look g h cur.read) →
            snapshotRead acc (abortF V' (xs' ++ ids (rest.take (n + 1)))) =
            if acc x then look g h (finalVal cur (rest.take n)).read else snapshotRead acc V1) →
          (∀ acc, (acc x = true → snapshotRead acc V = look g h prev.read) →
            snapshotRead acc V' = if acc x then look g h (finalVal prev ((r, st) :: rest)).read
              else snapshotRead acc V) ∧
          (∀ p, p ≠ [] → p <+: xs → abortF V' p = abortF V p) ∧
          (∀ n acc, n < openLen b ((r, st) :: rest) → (acc x = true → snapshotRead acc V = look g h prev.read) →
            snapshotRead acc (abortF V' (xs ++ ids (((r, st) :: rest).take (n + 1)))) =
            if acc x then look g h (finalVal prev (((r, st) :: rest).take n)).read else snapshotRead acc V) := by
        intro cur h V V1 V' hw ha hfv k1 k2 m1 m2 m3
        have k1' : ∀ acc, (acc x = true → snapshotRead acc V = look g h prev.read) →
            (acc x = true → snapshotRead acc V1 = look g h cur.read) := by
          intro acc hr hacc
          rw [k1 acc hr, if_pos hacc]
        refine ⟨?_, ?_, ?_⟩
        · intro acc hr
          rw [m1 acc (k1' acc hr), hfv, k1 acc hr]
          split <;> rfl
        · intro p hpn hpp
          rw [m2 p hpn (hpp.trans hpre), k2 p hpn (hpp.trans hpre)]
        · intro n acc hn hr
          have hst : st = .live := by
            unfold openLen at hn
            apply Classical.byContradiction
            intro hst
            cases b <;> simp [hst] at hn
          obtain ⟨hb1, hb2, hxe⟩ := hli hst
          cases n with
          | zero =>
            have e0 : xs ++ ids (((r, st) :: rest).take (0 + 1)) = xs' := by simp [ids, hxe]
            rw [e0, m2 xs' hne' (List.prefix_refl _), k2 xs' hne' (List.prefix_refl _), hxe,
              abortF_short V hw xs r.xid ha]
            simp only [List.take_zero, finalVal]
            by_cases h1 : acc x = true
            · rw [if_pos h1]; exact hr h1
            · rw [if_neg h1]
          | succ n =>
            have e0 : xs ++ ids (((r, st) :: rest).take (n + 1 + 1)) = xs' ++ ids (rest.take (n + 1)) := by
              simp [ids, hxe]
            rw [e0, m3 n acc (by
              rw [hb2]
              rw [hb1, hst] at hn
              simp only [openLen, if_true, List.map_cons, List.takeWhile_cons, decide_true,
                List.length_cons] at hn ⊢
              omega) (k1' acc hr), List.take_succ_cons, hfv, k1 acc hr]
            split <;> rfl
      by_cases hph : r.isPlaceholder = true
      · -- a placeholder
        obtain ⟨ms, ks, xsEnd, e1, e2, e3, e4⟩ := ih b' xs' prev hx' hp hl' ho' hca
        refine ⟨ms, ks, xsEnd, ?_, e2, ?_, ?_⟩
        · rw [provLoop, if_neg hab, hxs']
          simp only [Option.bind_some]
          rw [if_neg hass, if_pos hph]
          exact e1
        · intro hb; rw [e3 (hbf hb).1, (hbf hb).2]
        · intro h V hw ha
          obtain ⟨V', f1, f2, f3, f4, f5⟩ := e4 h V hw (ha.trans hpre)
          refine ⟨V', f1, f2, combine prev h V V V' hw ha ?_ ?_ (fun _ _ _ => rfl) f3 f4 f5⟩
          · intro l
            simp only [finalVal]; rw [if_neg hab, if_pos hph]
          · intro acc hr
            by_cases h1 : acc x = true
            · rw [if_pos h1]; exact hr h1
            · rw [if_neg h1]
      · have hph' : r.isPlaceholder = false := by simpa using hph
        have hv := not_ph hph'
        obtain ⟨ms, ks, xsEnd, e1, e2, e3, e4⟩ := ih b' xs' r.val hx' hv hl' ho' hca
        refine ⟨undoL g xs' prev ++ doL g xs' r.val ++ ms,
          (if throughTxn outer then [] else (undoL g xs' prev).map Msg.key) ++ ks, xsEnd, ?_, ?_, ?_, ?_⟩
        · rw [provLoop, if_neg hab, hxs']
          simp only [Option.bind_some]
          rw [if_neg hass, if_neg hph, undoMsgs_eq g xs' prev hp, doMsgs_eq g xs' r.val hv, e1]
          rfl
        · intro ht; rw [if_pos ht, e2 ht]; rfl
        · intro hb; rw [e3 (hbf hb).1, (hbf hb).2]
        · intro h V hw ha
          obtain ⟨V1, a1, a2, a3, a4, a5⟩ := level g hg h xs' x hx' hcx prev r.val V hw
          have ha1 : V1.pux.map (·.xid) <+: xs' := by
            rcases a5 with ⟨-, rfl⟩ | a5
            · exact ha.trans hpre
            · rw [a5]; exact List.prefix_refl _
          obtain ⟨V', f1, f2, f3, f4, f5⟩ := e4 h V1 a2 ha1
          refine ⟨V', ?_, f2, combine r.val h V V1 V' hw ha ?_ ?_ a4 f3 f4 f5⟩
          · rw [forKey_append, runMsgs_append, a1]; exact f1
          · intro l
            simp only [finalVal]; rw [if_neg hab, if_neg hph]
          · intro acc hr
            rw [a3 acc]
            cases hacc : acc x with
            | false => simp
            | true =>
              simp only [Bool.true_eq_false, or_false, if_true]
              split
              · rename_i hh
                rw [hr hacc, hh.1, hh.2]
              · rfl

end Verif.Hot
