import Verif.Roll.Exec
/-!
The invariant of rollback logs under recording an action, taking over the actions of a child, and giving nodes back.
-/
set_option linter.unusedVariables false
set_option linter.unusedSimpArgs false
namespace Verif.Roll
open Spec

variable {α : Type}

def upd {β : Type} (f : Nat → β) (p : Nat) (v : β) : Nat → β := fun x => if x = p then v else f x

@[simp] theorem upd_self {β : Type} (f : Nat → β) (p : Nat) (v : β) : upd f p v p = v := by simp [upd]
theorem upd_other {β : Type} (f : Nat → β) {p q : Nat} (v : β) (h : q ≠ p) : upd f p v q = f q := by simp [upd, h]
theorem upd_upd {β : Type} (f : Nat → β) (p : Nat) (v w : β) : upd (upd f p v) p w = upd f p w := by
  funext x; simp only [upd]; split <;> rfl
theorem upd_same {β : Type} {f : Nat → β} {p : Nat} {v : β} (h : f p = v) : upd f p v = f := by
  funext x; simp only [upd]; split
  · rename_i e; rw [e, h]
  · rfl

/-- What has to be checked if only the transaction `p` changes. -/
theorem Inv.change {nodes nodes' : Blk → Option (Node α)} {ring ring' : Ring} {gi : Tid → Option Info} {gh : Tid → Ghost α} {fl fl' : List Blk} (h : Inv nodes ring gi gh fl)
    (p : Tid) (oi : Option Info) (g' : Ghost α)
    (own : ∀ i, oi = some i → Own nodes' i g')
    (gone : oi = none → g'.blks = [])
    (nodup : g'.blks.Nodup)
    (flNodup : fl'.Nodup)
    (sub : ∀ b, b ∈ g'.blks ∨ b ∈ fl' ∨ b ∈ ring'.list → b ∈ (gh p).blks ∨ b ∈ fl ∨ b ∈ ring.list ∨ nodes b = none)
    (flDis : ∀ b ∈ fl', b ∉ g'.blks)
    (ringOk : ring'.Ok)
    (ringNodup : ring'.list.Nodup)
    (ringNodes : ∀ b ∈ ring'.list, b ≠ 0 ∧ nodes' b = some .unused)
    (ringDis : ∀ b ∈ ring'.list, b ∉ fl' ∧ b ∉ g'.blks)
    (frame : ∀ t b, t ≠ p → b ∈ (gh t).blks → nodes' b = nodes b)
    (cover : ∀ b, nodes' b ≠ none → b ∈ ring'.list ∨ b ∈ fl' ∨ b ∈ g'.blks ∨ ∃ t, t ≠ p ∧ b ∈ (gh t).blks)
    (bytes : ∀ b nd, nodes' b = some nd → nd.bytes = sizes nd.newest) :
    Inv nodes' ring' (upd gi p oi) (upd gh p g') fl' := by
  have hno : ∀ t, t ≠ p → ∀ b, b ∈ (gh t).blks → ¬ (b ∈ (gh p).blks ∨ b ∈ fl ∨ b ∈ ring.list ∨ nodes b = none) := by
    intro t ht b hb hh
    rcases hh with h1 | h1 | h1 | h1
    · exact h.disj t p b ht hb h1
    · exact h.flDisj t b h1 hb
    · exact h.ringDisj t b h1 hb
    · cases hg : gi t with
      | none => rw [h.gone t hg] at hb; cases hb
      | some i => exact ((h.own t i hg).there b hb).2 h1
  refine ⟨?_, ?_, ?_, ?_, flNodup, ?_, ringOk, ringNodup, ringNodes, fun b hb => (ringDis b hb).1, ?_, ?_, bytes⟩
  · intro t i hi
    by_cases ht : t = p
    · subst ht; rw [upd_self] at hi ⊢; exact own i hi
    · rw [upd_other _ _ ht] at hi ⊢; exact (h.own t i hi).frame fun b hb => frame t b ht hb
  · intro t hi
    by_cases ht : t = p
    · subst ht; rw [upd_self] at hi ⊢; exact gone hi
    · rw [upd_other _ _ ht] at hi ⊢; exact h.gone t hi
  · intro t
    by_cases ht : t = p
    · subst ht; rw [upd_self]; exact nodup
    · rw [upd_other _ _ ht]; exact h.nodup t
  · intro t u b hne hb
    by_cases ht : t = p
    · subst ht
      rw [upd_self] at hb
      rw [upd_other _ _ (Ne.symm hne)]
      exact fun hb' => hno u (Ne.symm hne) b hb' (sub b (.inl hb))
    · rw [upd_other _ _ ht] at hb
      by_cases hu : u = p
      · subst hu; rw [upd_self]; exact fun hb' => hno t ht b hb (sub b (.inl hb'))
      · rw [upd_other _ _ hu]; exact h.disj t u b hne hb
  · intro t b hb
    by_cases ht : t = p
    · subst ht; rw [upd_self]; exact flDis b hb
    · rw [upd_other _ _ ht]; exact fun hb' => hno t ht b hb' (sub b (.inr (.inl hb)))
  · intro t b hb
    by_cases ht : t = p
    · subst ht; rw [upd_self]; exact (ringDis b hb).2
    · rw [upd_other _ _ ht]; exact fun hb' => hno t ht b hb' (sub b (.inr (.inr hb)))
  · intro b hb
    rcases cover b hb with h1 | h1 | h1 | ⟨t, ht, h1⟩
    · exact .inl h1
    · exact .inr (.inl h1)
    · exact .inr (.inr ⟨p, by rw [upd_self]; exact h1⟩)
    · exact .inr (.inr ⟨t, by rw [upd_other _ _ ht]; exact h1⟩)

/-- The cover of a node, seen from the transaction `p`. -/
theorem Inv.cover' {nodes : Blk → Option (Node α)} {ring : Ring} {gi : Tid → Option Info} {gh : Tid → Ghost α} {fl : List Blk} (h : Inv nodes ring gi gh fl) (p : Tid) (b : Blk) (hb : nodes b ≠ none) :
    b ∈ ring.list ∨ b ∈ fl ∨ b ∈ (gh p).blks ∨ ∃ t, t ≠ p ∧ b ∈ (gh t).blks := by
  rcases h.cover b hb with h1 | h1 | ⟨t, h1⟩
  · exact .inl h1
  · exact .inr (.inl h1)
  · by_cases ht : t = p
    · exact .inr (.inr (.inl (ht ▸ h1)))
    · exact .inr (.inr (.inr ⟨t, ht, h1⟩))

/-- A node of a transaction is there. -/
theorem Inv.blks_there {nodes : Blk → Option (Node α)} {ring : Ring} {gi : Tid → Option Info} {gh : Tid → Ghost α} {fl : List Blk} (h : Inv nodes ring gi gh fl) {t : Tid} {b : Blk} (hb : b ∈ (gh t).blks) :
    nodes b ≠ none := by
  cases hg : gi t with
  | none => rw [h.gone t hg] at hb; cases hb
  | some i => exact ((h.own t i hg).there b hb).2

/-- The transaction `t` gives up its nodes. -/
theorem Inv.detach {nodes : Blk → Option (Node α)} {ring : Ring} {gi : Tid → Option Info} {gh : Tid → Ghost α} (h : Inv nodes ring gi gh []) (t : Tid) :
    Inv nodes ring (upd gi t none) (upd gh t ⟨[], [], 0⟩) (gh t).blks := by
  refine h.change t none ⟨[], [], 0⟩ (by intro i hi; cases hi) (fun _ => rfl) (by simp) (h.nodup t) ?_ (by simp) h.ringOk h.ringNodup h.ringNodes ?_ (fun _ _ _ _ => rfl) ?_ h.bytes
  · rintro b (hb | hb | hb)
    · cases hb
    · exact .inl hb
    · exact .inr (.inr (.inl hb))
  · intro b hb; exact ⟨h.ringDisj t b hb, by simp⟩
  · intro b hb
    rcases h.cover' t b hb with h1 | h1 | h1 | h1
    · exact .inl h1
    · cases h1
    · exact .inr (.inl h1)
    · exact .inr (.inr (.inr h1))

/-- A floating node goes to the ring, or is removed. -/
theorem Inv.give {s : St α} {gi : Tid → Option Info} {gh : Tid → Ghost α} {b : Blk} {fl : List Blk} (h : Inv s.nodes s.ring gi gh (b :: fl)) (hb0 : b ≠ 0) :
    Inv (s.giveOrRemove b).nodes (s.giveOrRemove b).ring gi gh fl := by
  obtain ⟨g, g1, g2, g3, g4, g5, g6, g7⟩ := giveOrRemove_ok h.ringOk b
  obtain ⟨hbf, hfn⟩ := List.nodup_cons.mp h.flNodup
  have hown : ∀ t, ∀ x ∈ (gh t).blks, x ≠ b := by rintro t x hx rfl; exact h.flDisj t x List.mem_cons_self hx
  have hnode : ∀ x, x ≠ b → (s.giveOrRemove b).nodes x = s.nodes x := by
    intro x hx
    rw [g5, if_neg, if_neg hx]
    intro hg; exact hx (g1 x hg)
  refine ⟨?_, h.gone, h.nodup, h.disj, hfn, fun t x hx => h.flDisj t x (List.mem_cons_of_mem _ hx), g3, ?_, ?_, ?_, ?_, ?_, ?_⟩
  · intro t i hi
    exact (h.own t i hi).frame fun x hx => hnode x (hown t x hx)
  · rw [g4]
    refine List.nodup_append.mpr ⟨h.ringNodup, g2, ?_⟩
    intro x hx y hy e
    subst e
    rw [g1 x hy] at hx
    exact h.ringFl b hx List.mem_cons_self
  · intro x hx
    rw [g4] at hx
    rcases List.mem_append.mp hx with hx | hx
    · obtain ⟨h1, h2⟩ := h.ringNodes x hx
      refine ⟨h1, ?_⟩
      rw [hnode x, h2]
      rintro rfl
      exact h.ringFl x hx List.mem_cons_self
    · refine ⟨(g1 x hx) ▸ hb0, ?_⟩
      rw [g5, if_pos hx]
  · intro x hx
    rw [g4] at hx
    rcases List.mem_append.mp hx with hx | hx
    · exact fun h' => h.ringFl x hx (List.mem_cons_of_mem _ h')
    · rw [g1 x hx]; exact hbf
  · intro t x hx
    rw [g4] at hx
    rcases List.mem_append.mp hx with hx | hx
    · exact h.ringDisj t x hx
    · rw [g1 x hx]; exact h.flDisj t b List.mem_cons_self
  · intro x hx
    rw [g4]
    rw [g5] at hx
    by_cases hg : x ∈ g
    · exact .inl (List.mem_append_right _ hg)
    · rw [if_neg hg] at hx
      by_cases hxb : x = b
      · rw [if_pos hxb] at hx; exact absurd rfl hx
      · rw [if_neg hxb] at hx
        rcases h.cover x hx with h1 | h1 | h1
        · exact .inl (List.mem_append_left _ h1)
        · rcases List.mem_cons.mp h1 with h1 | h1
          · exact absurd h1 hxb
          · exact .inr (.inl h1)
        · exact .inr (.inr h1)
  · intro x nd hx
    rw [g5] at hx
    by_cases hg : x ∈ g
    · rw [if_pos hg] at hx; cases hx; rfl
    · rw [if_neg hg] at hx
      by_cases hxb : x = b
      · rw [if_pos hxb] at hx; cases hx
      · rw [if_neg hxb] at hx; exact h.bytes x nd hx

/-- Entries are added to the current node of `p`; the nodes they use are not floating any more. -/
theorem Inv.prepend {nodes : Blk → Option (Node α)} {ring : Ring} {gi : Tid → Option Info} {gh : Tid → Ghost α} {fl1 fl2 : List Blk} {p : Tid} {i : Info} {pn : Node α} {l : List (Entry α)} {as : List α} {c : Nat}
    (h : Inv nodes ring gi gh (fl1 ++ fl2)) (hi : gi p = some i) (h0 : i.cur ≠ 0) (hn : nodes i.cur = some pn) (hl : Holds nodes (.items l) as fl1 c) :
    ∃ bl, Inv (upd nodes i.cur (some { pn with newest := l ++ pn.newest, bytes := pn.bytes + sizes l })) ring gi (upd gh p ⟨as ++ (gh p).acts, bl, c + (gh p).cnt⟩) fl2 := by
  obtain ⟨hf1, hf2, hfd⟩ := List.nodup_append.mp h.flNodup
  have hown := h.own p i hi
  have hnd := h.nodup p
  have hfl1 : ∀ x ∈ fl1, ∀ t, x ∉ (gh t).blks := fun x hx t => h.flDisj t x (List.mem_append_left _ hx)
  have hdis := fun t => h.disj t p
  generalize hg : gh p = g at hown hnd
  cases hown with
  | spilled e => exact absurd e h0
  | @current nd num as1 as2 bs1 bs2 c1 c2 _ hn' ho hs hm hp h1 h2 =>
    rw [hn] at hn'
    cases hn'
    have hcf : i.cur ∉ fl1 := fun hx => hfl1 _ hx p (by rw [hg]; exact List.mem_cons_self)
    obtain ⟨hc, hnd'⟩ := List.nodup_cons.mp hnd
    have hfr : ∀ (bs : List Blk) {j as c}, Holds nodes j as bs c → i.cur ∉ bs → Holds (upd nodes i.cur (some { pn with newest := l ++ pn.newest, bytes := pn.bytes + sizes l })) j as bs c :=
      fun bs _ _ _ hh hx => hh.frame fun b hb => upd_other _ _ (by rintro rfl; exact hx hb)
    have hmem : ∀ x, x ∈ i.cur :: ((fl1 ++ bs1) ++ bs2) ↔ x ∈ (gh p).blks ∨ x ∈ fl1 := by
      intro x; rw [hg]; simp only [List.mem_cons, List.mem_append]
      by_cases e1 : x = i.cur <;> by_cases e2 : x ∈ fl1 <;> simp [e1, e2]
    have hcp : i.cur ∈ (gh p).blks := by rw [hg]; exact List.mem_cons_self
    refine ⟨i.cur :: ((fl1 ++ bs1) ++ bs2), ?_⟩
    rw [← upd_same hi]
    refine h.change p (some i) _ ?_ (by intro e; cases e) ?_ hf2 ?_ ?_ h.ringOk h.ringNodup ?_ ?_ ?_ ?_ ?_
    · intro i' hi'
      cases hi'
      have := Own.current (nodes := upd nodes i.cur (some { pn with newest := l ++ pn.newest, bytes := pn.bytes + sizes l })) (i := i) (num := num) h0 (upd_self _ _ _) ho hs hm hp
        ((hfr _ hl hcf).append (hfr _ h1 (fun hx => hc (List.mem_append_left _ hx)))) (hfr _ h2 (fun hx => hc (List.mem_append_right _ hx)))
      rw [List.append_assoc, Nat.add_assoc] at this
      exact this
    · refine List.nodup_cons.mpr ⟨?_, ?_⟩
      · rw [List.append_assoc]
        exact fun hx => (List.mem_append.mp hx).elim hcf hc
      · rw [List.append_assoc]
        refine List.nodup_append.mpr ⟨hf1, hnd', ?_⟩
        intro x hx y hy e
        subst e
        exact hfl1 x hx p (by rw [hg]; exact List.mem_cons_of_mem _ hy)
    · rintro b (hb | hb | hb)
      · rcases (hmem b).mp hb with hb | hb
        · exact .inl hb
        · exact .inr (.inl (List.mem_append_left _ hb))
      · exact .inr (.inl (List.mem_append_right _ hb))
      · exact .inr (.inr (.inl hb))
    · intro b hb hb'
      rcases (hmem b).mp hb' with h' | h'
      · exact h.flDisj p b (List.mem_append_right _ hb) h'
      · exact hfd b h' b hb rfl
    · intro b hb
      obtain ⟨r1, r2⟩ := h.ringNodes b hb
      refine ⟨r1, ?_⟩
      rw [upd_other _ _, r2]
      rintro rfl
      exact h.ringDisj p _ hb hcp
    · intro b hb
      refine ⟨fun h' => h.ringFl b hb (List.mem_append_right _ h'), fun h' => ?_⟩
      rcases (hmem b).mp h' with h' | h'
      · exact h.ringDisj p b hb h'
      · exact h.ringFl b hb (List.mem_append_left _ h')
    · intro t b ht hb
      rw [upd_other]
      rintro rfl
      exact h.disj t p _ ht hb hcp
    · intro b hb
      have : nodes b ≠ none := by
        by_cases e : b = i.cur
        · rw [e, hn]; simp
        · rwa [upd_other _ _ e] at hb
      rcases h.cover' p b this with h' | h' | h' | h'
      · exact .inl h'
      · rcases List.mem_append.mp h' with h' | h'
        · exact .inr (.inr (.inl ((hmem b).mpr (.inr h'))))
        · exact .inr (.inl h')
      · exact .inr (.inr (.inl ((hmem b).mpr (.inl h'))))
      · exact .inr (.inr (.inr h'))
    · intro b nd hb
      by_cases e : b = i.cur
      · subst e
        rw [upd_self] at hb
        cases hb
        show pn.bytes + sizes l = sizes (l ++ pn.newest)
        rw [h.bytes _ _ hn]
        simp [sizes, Nat.add_comm]
      · rw [upd_other _ _ e] at hb; exact h.bytes b nd hb

/-- Only figures of a transaction change. -/
theorem Inv.figures {nodes : Blk → Option (Node α)} {ring : Ring} {gi : Tid → Option Info} {gh : Tid → Ghost α} {fl : List Blk} (h : Inv nodes ring gi gh fl) {p : Tid} {i i' : Info} (hi : gi p = some i)
    (hx : i'.xid = i.xid) (hn : i'.num = i.num) (hh : i'.head = i.head) (ht : i'.tail = i.tail) (hc : i'.cur = i.cur) : Inv nodes ring (upd gi p (some i')) gh fl := by
  refine ⟨?_, ?_, h.nodup, h.disj, h.flNodup, h.flDisj, h.ringOk, h.ringNodup, h.ringNodes, h.ringFl, h.ringDisj, h.cover, h.bytes⟩
  · intro t j hj
    by_cases hp : t = p
    · subst hp
      rw [upd_self] at hj
      cases hj
      have := h.own t i hi
      generalize gh t = g at this
      cases this with
      | spilled h0 hl => exact .spilled (hc.trans h0) (by rw [hx, hn, hh, ht]; exact hl)
      | current h0 hn' ho hs hm hp h1 h2 =>
        rw [← hc] at h0 hn'
        rw [← hc]
        exact .current h0 hn' (ho.trans hx.symm) hs (hn.trans hm) (hp.trans ht.symm) h1 (by rw [hx, hh, ht]; exact h2)
    · rw [upd_other _ _ hp] at hj; exact h.own t j hj
  · intro t hj
    by_cases hp : t = p
    · subst hp; rw [upd_self] at hj; cases hj
    · rw [upd_other _ _ hp] at hj; exact h.gone t hj

/-- The info after the current node is spilled. -/
def Info.spill (i : Info) : Info := { i with head := if i.tail = 0 then i.cur else i.head, tail := i.cur, cur := 0 }

/-- The current node of `p` is spilled. -/
theorem Inv.spill {nodes : Blk → Option (Node α)} {ring : Ring} {gi : Tid → Option Info} {gh : Tid → Ghost α} {fl : List Blk} (h : Inv nodes ring gi gh fl) {p : Tid} {i : Info} (hi : gi p = some i)
    (h0 : i.cur ≠ 0) : Inv nodes ring (upd gi p (some i.spill)) gh fl := by
  refine ⟨?_, ?_, h.nodup, h.disj, h.flNodup, h.flDisj, h.ringOk, h.ringNodup, h.ringNodes, h.ringFl, h.ringDisj, h.cover, h.bytes⟩
  · intro t j hj
    by_cases hp : t = p
    · subst hp
      rw [upd_self] at hj
      cases hj
      have := h.own t i hi
      generalize gh t = g at this
      cases this with
      | spilled e => exact absurd e h0
      | @current nd num as1 as2 bs1 bs2 c1 c2 _ hn' ho hs hm hp h1 h2 =>
        by_cases ht : i.tail = 0
        · rw [ht] at h2 hp
          obtain ⟨rfl, e2, rfl, rfl, rfl⟩ := Holds.chain_nil h2
          refine .spilled rfl ?_
          simp only [Info.spill, ht, if_true, hm, List.append_nil, Nat.add_zero]
          exact .first hn' h0 ho hs hp h1
        · obtain ⟨k, rfl⟩ := Holds.chain_pos h2 ht
          refine .spilled rfl ?_
          simp only [Info.spill, ht, if_false, hm]
          rw [← hp] at h2
          exact .more hn' h0 ho hs h1 h2
    · rw [upd_other _ _ hp] at hj; exact h.own t j hj
  · intro t hj
    by_cases hp : t = p
    · subst hp; rw [upd_self] at hj; cases hj
    · rw [upd_other _ _ hp] at hj; exact h.gone t hj

/-- A node for the transaction `p` that has no current node. -/
theorem Inv.node {nodes : Blk → Option (Node α)} {ring ring' : Ring} {gi : Tid → Option Info} {gh : Tid → Ghost α} {fl : List Blk} (h : Inv nodes ring gi gh fl) {p : Tid} {i : Info} (hi : gi p = some i)
    (h0 : i.cur = 0) (hfl : ∀ x ∈ fl, nodes x ≠ none) {b : Blk} (hb0 : b ≠ 0) (hb : nodes b = none ∧ ring' = ring ∨ ring.list = b :: ring'.list ∧ ring'.Ok) :
    Inv (upd nodes b (some (i.fresh i.tail))) ring' (upd gi p (some { i with num := i.num + 1, cur := b })) (upd gh p ⟨(gh p).acts, b :: (gh p).blks, (gh p).cnt⟩) fl ∧ b ∉ fl := by
  have hring : ∀ x, x ∈ ring'.list → x ∈ ring.list := by
    intro x hx
    rcases hb with ⟨_, rfl⟩ | ⟨e, _⟩
    · exact hx
    · rw [e]; exact List.mem_cons_of_mem _ hx
  have hrb : b ∉ ring'.list := by
    rcases hb with ⟨e, rfl⟩ | ⟨e, _⟩
    · intro hx; rw [(h.ringNodes b hx).2] at e; cases e
    · have := h.ringNodup
      rw [e] at this
      exact (List.nodup_cons.mp this).1
  have hblk : ∀ t, b ∉ (gh t).blks := by
    intro t
    rcases hb with ⟨e, rfl⟩ | ⟨e, _⟩
    · exact fun hx => h.blks_there hx e
    · exact h.ringDisj t b (by rw [e]; exact List.mem_cons_self)
  have hsub : b ∈ (gh p).blks ∨ b ∈ ring.list ∨ nodes b = none := by
    rcases hb with ⟨e, rfl⟩ | ⟨e, _⟩
    · exact .inr (.inr e)
    · exact .inr (.inl (by rw [e]; exact List.mem_cons_self))
  have hbf : b ∉ fl := by
    rcases hb with ⟨e, rfl⟩ | ⟨e, _⟩
    · exact fun hx => hfl b hx e
    · exact h.ringFl b (by rw [e]; exact List.mem_cons_self)
  refine ⟨h.change p _ _ ?_ (by intro e; cases e) ?_ h.flNodup ?_ ?_ ?_ ?_ ?_ ?_ ?_ ?_ ?_, hbf⟩
  · intro i' hi'
    cases hi'
    have := h.own p i hi
    generalize hg : gh p = g at this
    cases this with
    | @spilled as bs c _ hl =>
      have hl' : Holds (upd nodes b (some (i.fresh i.tail))) (.chain i.xid i.num i.head i.tail) as bs c := hl.frame fun x hx => upd_other _ _ (by rintro rfl; exact hblk p (by rw [hg]; exact hx))
      have := Own.current (nodes := upd nodes b (some (i.fresh i.tail))) (i := { i with num := i.num + 1, cur := b }) (num := i.num) hb0 (upd_self _ _ _) rfl rfl rfl rfl Holds.nil hl'
      simpa using this
    | current e => exact absurd h0 e
  · exact List.nodup_cons.mpr ⟨hblk p, h.nodup p⟩
  · rintro x (hx | hx | hx)
    · rcases List.mem_cons.mp hx with rfl | hx
      · rcases hsub with h' | h' | h'
        · exact .inl h'
        · exact .inr (.inr (.inl h'))
        · exact .inr (.inr (.inr h'))
      · exact .inl hx
    · exact .inr (.inl hx)
    · exact .inr (.inr (.inl (hring x hx)))
  · intro x hx hx'
    rcases List.mem_cons.mp hx' with rfl | hx'
    · exact hbf hx
    · exact h.flDisj p x hx hx'
  · rcases hb with ⟨_, rfl⟩ | ⟨_, e⟩
    · exact h.ringOk
    · exact e
  · rcases hb with ⟨_, rfl⟩ | ⟨e, _⟩
    · exact h.ringNodup
    · have := h.ringNodup
      rw [e] at this
      exact (List.nodup_cons.mp this).2
  · intro x hx
    rw [upd_other]
    · exact h.ringNodes x (hring x hx)
    · rintro rfl; exact hrb hx
  · intro x hx
    refine ⟨h.ringFl x (hring x hx), fun hx' => ?_⟩
    rcases List.mem_cons.mp hx' with rfl | hx'
    · exact hrb hx
    · exact h.ringDisj p x (hring x hx) hx'
  · intro t x ht hx
    rw [upd_other]
    rintro rfl
    exact hblk t hx
  · intro x hx
    by_cases e : x = b
    · exact .inr (.inr (.inl (by rw [e]; exact List.mem_cons_self)))
    · rw [upd_other _ _ e] at hx
      rcases h.cover' p x hx with h' | h' | h' | h'
      · refine .inl ?_
        rcases hb with ⟨_, rfl⟩ | ⟨e', _⟩
        · exact h'
        · rw [e'] at h'
          exact (List.mem_cons.mp h').resolve_left e
      · exact .inr (.inl h')
      · exact .inr (.inr (.inl (List.mem_cons_of_mem _ h')))
      · exact .inr (.inr (.inr h'))
  · intro x nd hx
    by_cases e : x = b
    · subst e; rw [upd_self] at hx; cases hx; rfl
    · rw [upd_other _ _ e] at hx; exact h.bytes x nd hx

/-- A node to record in. -/
theorem pinForNew_ok {s : St α} {gi : Tid → Option Info} {gh : Tid → Ghost α} {fl : List Blk} (h : Inv s.nodes s.ring gi gh fl) (hfl : ∀ x ∈ fl, s.nodes x ≠ none) {p : Tid} {i : Info}
    (hi : gi p = some i) (hsi : s.txns p = some i) {f : Blk} (hf0 : f ≠ 0) (hf : s.nodes f = none) :
    ∃ (s' : St α) (i' : Info) (bl : List Blk), s.pinForNew p f = .ok (s', i'.cur) ∧ i'.cur ≠ 0 ∧ s'.txns = upd s.txns p (some i') ∧ s'.cfg = s.cfg ∧
      i' = { i with num := i'.num, cur := i'.cur } ∧
      Inv s'.nodes s'.ring (upd gi p (some i')) (upd gh p ⟨(gh p).acts, bl, (gh p).cnt⟩) fl ∧ (∀ x ∈ fl, s'.nodes x = s.nodes x) ∧ (∀ x, x ≠ f → s.nodes x = none → s'.nodes x = none) := by
  by_cases hc : i.cur = 0
  · have key : ∀ (b : Blk) (ring' : Ring), b ≠ 0 → (s.nodes b = none ∧ ring' = s.ring ∨ s.ring.list = b :: ring'.list ∧ ring'.Ok) → (b ≠ f → s.nodes b ≠ none) → ring'.max = s.ring.max →
        ∃ (s' : St α) (i' : Info) (bl : List Blk), (.ok ((({ s with ring := ring' } : St α).setNode b (some (i.fresh i.tail))).setTxn p (some { i with num := i.num + 1, cur := b }), b) : R (St α × Blk)) = .ok (s', i'.cur) ∧
          i'.cur ≠ 0 ∧ s'.txns = upd s.txns p (some i') ∧ s'.cfg = s.cfg ∧ i' = { i with num := i'.num, cur := i'.cur } ∧
          Inv s'.nodes s'.ring (upd gi p (some i')) (upd gh p ⟨(gh p).acts, bl, (gh p).cnt⟩) fl ∧ (∀ x ∈ fl, s'.nodes x = s.nodes x) ∧ (∀ x, x ≠ f → s.nodes x = none → s'.nodes x = none) := by
      intro b ring' hb0 hb hbf hmx
      obtain ⟨hinv, hnf⟩ := h.node hi hc hfl hb0 hb
      refine ⟨_, { i with num := i.num + 1, cur := b }, b :: (gh p).blks, rfl, hb0, rfl, congrArg (Prod.mk s.limit) hmx, rfl, hinv, ?_, ?_⟩
      · intro x hx
        show (if x = b then _ else s.nodes x) = _
        rw [if_neg]; rintro rfl; exact hnf hx
      · intro x hx hx'
        show (if x = b then _ else s.nodes x) = _
        rw [if_neg, hx']
        rintro rfl
        exact hbf hx hx'
    have hnew := key f s.ring hf0 (.inl ⟨hf, rfl⟩) (fun e => absurd rfl e) rfl
    simp only [St.pinForNew, St.txn, hsi, bind, R.bind, hc, ne_eq, not_true_eq_false, if_false]
    by_cases ht : i.tail = 0
    · obtain ⟨hok, ⟨h1, h2, h3⟩ | ⟨b, h1, h2⟩⟩ := Ring.get_ok h.ringOk
      · simp only [ht, if_true, h1, ensure, hf0, not_false_eq_true, decide_true, if_true, pure]
        rw [ht] at hnew
        exact hnew
      · obtain ⟨hb0, hbn⟩ := h.ringNodes b (by rw [h2]; exact List.mem_cons_self)
        have := key b s.ring.get.2 hb0 (.inr ⟨h2, hok⟩) (fun _ => by rw [hbn]; simp) (Ring.get_max _)
        have hpin : s.pin b = .ok .unused := by simp only [St.pin, hbn]
        simp only [ht, if_true, h1, hb0, not_false_eq_true, hpin, ensure, Node.unused, decide_true, pure]
        rw [ht] at this
        exact this
    · simp only [ht, if_false, ensure, hf0, not_false_eq_true, decide_true, if_true, pure]
      exact hnew
  · have hown := h.own p i hi
    have hbl : (gh p) = ⟨(gh p).acts, (gh p).blks, (gh p).cnt⟩ := rfl
    refine ⟨s, i, (gh p).blks, ?_, hc, (upd_same hsi).symm, rfl, rfl, ?_, fun _ _ => rfl, fun _ _ e => e⟩
    · generalize gh p = g at hown
      cases hown with
      | spilled e => exact absurd e hc
      | @current nd num as1 as2 bs1 bs2 c1 c2 _ hn' ho hs hm hp h1 h2 =>
        simp only [St.pinForNew, St.txn, hsi, bind, R.bind, hc, ne_eq, not_false_eq_true, if_true, St.pin, hn', verify, ho, hs, hm, decide_true, Bool.and_self, ensure, pure]
    · rw [upd_same hi, ← hbl, upd_same rfl]; exact h

theorem Own.current_mem {nodes : Blk → Option (Node α)} {i : Info} {g : Ghost α} (h : Own nodes i g) (h0 : i.cur ≠ 0) : i.cur ∈ g.blks ∧ ∃ nd, nodes i.cur = some nd := by
  cases h with
  | spilled e => exact absurd e h0
  | current _ hn => exact ⟨List.mem_cons_self, _, hn⟩

theorem sizes_one (e : Entry α) : sizes [e] = e.size := by simp [sizes]

/-- Spilling the current node if it is too large. -/
theorem maybeSpill_ok {s : St α} {gi : Tid → Option Info} {gh : Tid → Ghost α} {fl : List Blk} (h : Inv s.nodes s.ring gi gh fl) {p : Tid} {i : Info} (hi : gi p = some i) (hsi : s.txns p = some i) (h0 : i.cur ≠ 0) :
    ∃ (s' : St α) (i' : Info), s.maybeSpill p i.cur = .ok s' ∧ s'.nodes = s.nodes ∧ s'.ring = s.ring ∧ s'.cfg = s.cfg ∧ s'.txns = upd s.txns p (some i') ∧
      Inv s.nodes s.ring (upd gi p (some i')) gh fl ∧ i'.total = i.total ∧ i'.parent = i.parent ∧ i'.done = i.done := by
  have hown := h.own p i hi
  obtain ⟨nd, hn⟩ : ∃ nd, s.nodes i.cur = some nd := by
    generalize gh p = g at hown
    cases hown with
    | spilled e => exact absurd e h0
    | current _ hn => exact ⟨_, hn⟩
  simp only [St.maybeSpill, St.pin, hn, bind, R.bind, pure]
  by_cases hb : nd.bytes > s.limit
  · rw [if_pos hb]
    simp only [St.txn, hsi, ensure, decide_true, if_true]
    exact ⟨_, i.spill, rfl, rfl, rfl, rfl, rfl, h.spill hi h0, rfl, rfl, rfl⟩
  · rw [if_neg hb]
    exact ⟨s, i, rfl, rfl, rfl, rfl, (upd_same hsi).symm, by rw [upd_same hi]; exact h, rfl, rfl, rfl⟩

/-- Recording one entry; the nodes it uses are not floating any more. -/
theorem save_ok {s : St α} {gi : Tid → Option Info} {gh : Tid → Ghost α} {fl1 fl2 : List Blk} (h : Inv s.nodes s.ring gi gh (fl1 ++ fl2)) (hfl : ∀ x ∈ fl1 ++ fl2, s.nodes x ≠ none) {p : Tid} {i : Info}
    (hi : gi p = some i) (hsi : s.txns p = some i) {e : Entry α} {as : List α} {c : Nat} (he : Holds s.nodes (.items [e]) as fl1 c) {f : Blk} (hf0 : f ≠ 0) (hf : s.nodes f = none) :
    ∃ (s' : St α) (i' : Info) (bl : List Blk), s.save p e f = .ok s' ∧ s'.txns = upd s.txns p (some i') ∧ s'.cfg = s.cfg ∧
      Inv s'.nodes s'.ring (upd gi p (some i')) (upd gh p ⟨as ++ (gh p).acts, bl, c + (gh p).cnt⟩) fl2 ∧ (∀ x ∈ fl2, s'.nodes x = s.nodes x) ∧ (∀ x, x ≠ f → s.nodes x = none → s'.nodes x = none) ∧
      i'.total = i.total + 1 ∧ i'.parent = i.parent ∧ i'.done = i.done := by
  obtain ⟨s1, i1, bl1, e1, hc1, ht1, hl1, hi1, hinv1, hf1, hn1⟩ := pinForNew_ok h hfl hi hsi hf0 hf
  have hown := hinv1.own p i1 (upd_self _ _ _)
  obtain ⟨hmem, nd, hn⟩ := hown.current_mem hc1
  have hcf : i1.cur ∉ fl1 ++ fl2 := fun hx => hinv1.flDisj p _ hx hmem
  obtain ⟨bl2, hinv2⟩ := hinv1.prepend (upd_self _ _ _) hc1 hn (he.frame fun x hx => hf1 x (List.mem_append_left _ hx))
  rw [upd_upd, sizes_one, upd_self] at hinv2
  have hinv3 := hinv2.figures (i' := { i1 with raw := i1.raw + e.size, total := i1.total + 1 }) (upd_self _ _ _) rfl rfl rfl rfl rfl
  rw [upd_upd] at hinv3
  obtain ⟨s4, i4, e4, hn4, hr4, hl4, ht4, hinv4, hi4⟩ := maybeSpill_ok (p := p)
    (s := (s1.setNode i1.cur (some { nd with newest := [e] ++ nd.newest, bytes := nd.bytes + e.size })).setTxn p (some { i1 with raw := i1.raw + e.size, total := i1.total + 1 })) hinv3 (upd_self _ _ _) (setTxn_self _ _ _) hc1
  rw [upd_upd] at hinv4
  have hs1 : s1.txns p = some i1 := by rw [ht1, upd_self]
  refine ⟨s4, i4, bl2, ?_, ?_, ?_, ?_, ?_, ?_, ?_⟩
  · simp only [St.save, e1, bind, R.bind, St.pin, hn, St.txn, hs1]
    exact e4
  · rw [ht4]
    show upd (upd s1.txns p _) p _ = _
    rw [upd_upd, ht1, upd_upd]
  · rw [hl4]; exact hl1
  · rw [hn4, hr4]; exact hinv4
  · intro x hx
    rw [hn4]
    show (if x = i1.cur then _ else s1.nodes x) = _
    rw [if_neg]
    · exact hf1 x (List.mem_append_right _ hx)
    · rintro rfl; exact hcf (List.mem_append_right _ hx)
  · intro x hx hx'
    rw [hn4]
    show (if x = i1.cur then _ else s1.nodes x) = _
    rw [if_neg]
    · exact hn1 x hx hx'
    · rintro rfl; rw [hn1 _ hx hx'] at hn; cases hn
  · obtain ⟨a1, a2, a3⟩ := hi4
    rw [hi1] at a1 a2 a3
    exact ⟨a1, a2, a3⟩

theorem Inv.reorder {nodes : Blk → Option (Node α)} {ring : Ring} {gi : Tid → Option Info} {gh : Tid → Ghost α} {fl fl' : List Blk} (h : Inv nodes ring gi gh fl) (hnd : fl'.Nodup) (hm : ∀ x, x ∈ fl' ↔ x ∈ fl) :
    Inv nodes ring gi gh fl' := by
  refine ⟨h.own, h.gone, h.nodup, h.disj, hnd, fun t b hb => h.flDisj t b ((hm b).mp hb), h.ringOk, h.ringNodup, h.ringNodes, fun b hb hx => h.ringFl b hb ((hm b).mp hx), h.ringDisj, ?_, h.bytes⟩
  intro b hb
  rcases h.cover b hb with h1 | h1 | h1
  · exact .inl h1
  · exact .inr (.inl ((hm b).mpr h1))
  · exact .inr (.inr h1)

theorem promoteCurrent_ok {s : St α} {gi : Tid → Option Info} {gh : Tid → Ghost α} {t p : Tid} {i pi : Info} {c : Node α} {as : List α} {bs : List Blk} {k : Nat} (hne : p ≠ t) (h : Inv s.nodes s.ring gi gh (bs ++ [i.cur]))
    (hpi : gi p = some pi) (hspi : s.txns p = some pi) (hsi : s.txns t = some i) (h0 : i.cur ≠ 0) (hn : s.nodes i.cur = some c) (ho : c.owner = i.xid) (hs : c.seq + 1 = i.num) (hb : c.bytes = sizes c.newest)
    (hl : Holds s.nodes (.items c.newest) as bs k) {f : Blk} (hf0 : f ≠ 0) (hf : s.nodes f = none) :
    ∃ (s' : St α) (pi' : Info) (bl : List Blk), s.promoteCurrent t p f = .ok s' ∧ s'.txns = upd (upd s.txns p (some pi')) t (some { i with cur := 0 }) ∧ s'.cfg = s.cfg ∧
      Inv s'.nodes s'.ring (upd gi p (some pi')) (upd gh p ⟨as ++ (gh p).acts, bl, k + (gh p).cnt⟩) [] ∧ pi'.total = pi.total ∧ pi'.parent = pi.parent ∧ pi'.done = pi.done := by
  have hfl : ∀ x ∈ bs ++ [i.cur], s.nodes x ≠ none := by
    intro x hx
    rcases List.mem_append.mp hx with hx | hx
    · exact (hl.there x hx).2
    · cases List.mem_singleton.mp hx; rw [hn]; simp
  obtain ⟨s1, i1, bl1, e1, hc1, ht1, hl1, hi1, hinv1, hf1, hn1⟩ := pinForNew_ok h hfl hpi hspi hf0 hf
  obtain ⟨hmem, pn, hpn⟩ := (hinv1.own p i1 (upd_self _ _ _)).current_mem hc1
  have hcf : i1.cur ∉ bs ++ [i.cur] := fun hx => hinv1.flDisj p _ hx hmem
  have hcc : s1.nodes i.cur = some c := (hf1 _ (List.mem_append_right _ (List.mem_singleton.mpr rfl))).trans hn
  have hne' : i.cur ≠ i1.cur := fun e => hcf (List.mem_append_right _ (List.mem_singleton.mpr e.symm))
  have hs1p : s1.txns p = some i1 := by rw [ht1, upd_self]
  -- what is added
  obtain ⟨s2, i2, bl2, hs2, hinv2, hi2, hc2, ht2, hl2, a1, a2, a3⟩ : ∃ (s2 : St α) (i2 : Info) (bl2 : List Blk),
      (if c.newest = [] then s1 else (s1.setNode i1.cur (some { pn with newest := c.newest ++ pn.newest, bytes := pn.bytes + c.bytes })).setTxn p (some { i1 with raw := i1.raw + i.raw })) = s2 ∧
      Inv s2.nodes s2.ring (upd gi p (some i2)) (upd gh p ⟨as ++ (gh p).acts, bl2, k + (gh p).cnt⟩) [i.cur] ∧ s2.txns p = some i2 ∧ i2.cur = i1.cur ∧ s2.txns = upd s.txns p (some i2) ∧ s2.cfg = s.cfg ∧
      i2.total = pi.total ∧ i2.parent = pi.parent ∧ i2.done = pi.done := by
    by_cases he : c.newest = []
    · rw [if_pos he]
      rw [he] at hl
      cases hl
      rw [List.nil_append] at hinv1
      refine ⟨s1, i1, bl1, rfl, ?_, hs1p, rfl, ht1, hl1, ?_⟩
      · simpa using hinv1
      · rw [hi1]; exact ⟨rfl, rfl, rfl⟩
    · rw [if_neg he]
      obtain ⟨bl2, hinv2⟩ := hinv1.prepend (upd_self _ _ _) hc1 hpn (hl.frame fun x hx => hf1 x (List.mem_append_left _ hx))
      rw [upd_upd, upd_self, ← hb] at hinv2
      have hinv3 := hinv2.figures (i' := { i1 with raw := i1.raw + i.raw }) (upd_self _ _ _) rfl rfl rfl rfl rfl
      rw [upd_upd] at hinv3
      refine ⟨_, { i1 with raw := i1.raw + i.raw }, bl2, rfl, hinv3, setTxn_self _ _ _, rfl, ?_, hl1, ?_⟩
      · show upd s1.txns p _ = _
        rw [ht1, upd_upd]
      · show i1.total = _ ∧ i1.parent = _ ∧ i1.done = _
        rw [hi1]; exact ⟨rfl, rfl, rfl⟩
  have hinv3 := hinv2.give h0
  obtain ⟨_, _, _, _, _, _, hgt, hgl⟩ := giveOrRemove_ok hinv2.ringOk i.cur
  obtain ⟨s4, i4, e4, hn4, hr4, hl4, ht4, hinv4, b1, b2, b3⟩ := maybeSpill_ok (p := p) (s := (s2.giveOrRemove i.cur).setTxn t (some { i with cur := 0 })) hinv3 (upd_self _ _ _)
    (by rw [setTxn_other _ hne, hgt]; exact hi2) (hc2 ▸ hc1)
  rw [upd_upd] at hinv4
  refine ⟨s4, i4, bl2, ?_, ?_, ?_, ?_, b1.trans a1, b2.trans a2, b3.trans a3⟩
  · have hv : verify c i.xid i.num = .ok () := by simp [verify, ensure, ho, hs]
    simp only [St.promoteCurrent, St.txn, hsi, bind, R.bind, h0, ne_eq, not_false_eq_true, if_true, e1, St.pin, hcc, hv, hpn, hs1p, hs2]
    rw [← hc2]
    exact e4
  · rw [ht4]
    show upd (upd (s2.giveOrRemove i.cur).txns t _) p _ = _
    rw [hgt, ht2]
    funext x
    simp only [upd]
    by_cases hx : x = p
    · simp [hx, hne]
    · simp [hx]
  · rw [hl4]
    show (s2.giveOrRemove i.cur).cfg = _
    rw [hgl, hl2]
  · rw [hn4, hr4]; exact hinv4


/-- Handing over to the parent. -/
theorem promote_ok {s : St α} {gh : Tid → Ghost α} {t p : Tid} {i pi : Info} (hne : p ≠ t) (h : Inv s.nodes s.ring s.txns gh []) (hi : s.txns t = some i) (hpi : s.txns p = some pi)
    (htot : i.total = (gh t).cnt) (hptot : pi.total = (gh p).cnt) {f1 f2 : Blk} (hf1 : f1 ≠ 0 ∧ s.nodes f1 = none) (hf2 : f2 ≠ 0 ∧ s.nodes f2 = none) (hff : f1 ≠ f2) :
    ∃ (s' : St α) (i' pi' : Info) (bl : List Blk), s.promote t p f1 f2 = .ok s' ∧ s'.txns = upd (upd s.txns p (some pi')) t (some i') ∧ s'.cfg = s.cfg ∧ i'.head = 0 ∧ i'.tail = 0 ∧ i'.cur = 0 ∧
      Inv s'.nodes s'.ring (upd (upd s.txns t none) p (some pi')) (upd (upd gh t ⟨[], [], 0⟩) p ⟨(gh t).acts ++ (gh p).acts, bl, pi'.total⟩) [] ∧ pi'.parent = pi.parent ∧ pi'.done = pi.done := by
  have hd := h.detach t
  have hown := h.own t i hi
  have hgp : (upd gh t ⟨[], [], 0⟩) p = gh p := upd_other _ _ hne
  have hip : (upd s.txns t none) p = some pi := (upd_other _ _ hne).trans hpi
  have fin : ∀ (s2 : St α) (i2 pi2 : Info) (bl : List Blk) (k : Nat), s2.txns = upd (upd s.txns p (some pi2)) t (some i2) → s2.cfg = s.cfg → i2.head = 0 → i2.tail = 0 → i2.cur = 0 →
      Inv s2.nodes s2.ring (upd (upd s.txns t none) p (some pi2)) (upd (upd gh t ⟨[], [], 0⟩) p ⟨(gh t).acts ++ (gh p).acts, bl, k⟩) [] → pi2.parent = pi.parent → pi2.done = pi.done → k = pi2.total + i2.total →
      ∃ (s' : St α) (i' pi' : Info) (bl : List Blk), (do
          let pi ← s2.txn p
          let i ← s2.txn t
          return s2.setTxn p (some { pi with total := pi.total + i.total })) = .ok s' ∧ s'.txns = upd (upd s.txns p (some pi')) t (some i') ∧ s'.cfg = s.cfg ∧ i'.head = 0 ∧ i'.tail = 0 ∧ i'.cur = 0 ∧
        Inv s'.nodes s'.ring (upd (upd s.txns t none) p (some pi')) (upd (upd gh t ⟨[], [], 0⟩) p ⟨(gh t).acts ++ (gh p).acts, bl, pi'.total⟩) [] ∧ pi'.parent = pi.parent ∧ pi'.done = pi.done := by
    intro s2 i2 pi2 bl k h1 h2 h3 h4 h5 h6 h7 h8 h9
    have hp2 : s2.txns p = some pi2 := by rw [h1, upd_other _ _ hne, upd_self]
    have ht2 : s2.txns t = some i2 := by rw [h1, upd_self]
    refine ⟨s2.setTxn p (some { pi2 with total := pi2.total + i2.total }), i2, { pi2 with total := pi2.total + i2.total }, bl, ?_, ?_, h2, h3, h4, h5, ?_, h7, h8⟩
    · simp only [St.txn, hp2, ht2, bind, R.bind, pure]
    · show upd s2.txns p _ = _
      rw [h1]
      funext x
      simp only [upd]
      by_cases hx : x = p
      · simp [hx, hne]
      · simp [hx]
    · have := h6.figures (i' := { pi2 with total := pi2.total + i2.total }) (upd_self _ _ _) rfl rfl rfl rfl rfl
      rw [upd_upd, h9] at this
      exact this
  have hnt : (upd gh t ⟨[], [], 0⟩ p).cnt = (gh p).cnt := by rw [hgp]
  generalize hg : gh t = g at hown hd htot fin
  cases hown with
  | @spilled as bs c h0 hl =>
    by_cases ht : i.tail = 0
    · -- nothing to hand over
      rw [ht] at hl
      obtain ⟨hn, hh, rfl, rfl, rfl⟩ := Holds.chain_nil hl
      have e1 : s.promoteSpilled t p f1 = .ok s := by simp only [St.promoteSpilled, St.txn, hi, bind, R.bind, ht, ne_eq, not_true_eq_false, if_false, pure]
      have e2 : s.promoteCurrent t p f2 = .ok s := by simp only [St.promoteCurrent, St.txn, hi, bind, R.bind, h0, ne_eq, not_true_eq_false, if_false, pure]
      simp only [St.promote, bind, R.bind, e1, e2]
      refine fin s i pi (gh p).blks (gh p).cnt ?_ rfl hh ht h0 ?_ rfl rfl ?_
      · rw [upd_same hpi, upd_same hi]
      · have : (⟨[] ++ (gh p).acts, (gh p).blks, (gh p).cnt⟩ : Ghost α) = gh p := rfl
        rw [this, upd_same hip, upd_same hgp]
        exact hd
      · show (gh p).cnt = pi.total + i.total
        rw [htot, hptot]
        rfl
    · have hl' : Holds s.nodes (.items [.incl i.xid i.num i.head i.tail]) as bs (c + 1) := by
        have := Holds.incl ht hl Holds.nil
        simpa using this
      have hd' : Inv s.nodes s.ring (upd s.txns t none) (upd gh t ⟨[], [], 0⟩) (bs ++ []) := by rw [List.append_nil]; exact hd
      obtain ⟨s1, pi1, bl, e1, ht1, hl1, hinv1, hk1, hn1, a1, a2, a3⟩ := save_ok hd' (by rw [List.append_nil]; exact fun x hx => (hl.there x hx).2) hip hpi hl' hf1.1 hf1.2
      have hi1 : s1.txns t = some i := by rw [ht1, upd_other _ _ (Ne.symm hne), hi]
      have e1 : s.promoteSpilled t p f1 = .ok (s1.setTxn t (some { i with head := 0, tail := 0 })) := by
        simp only [St.promoteSpilled, St.txn, hi, bind, R.bind, ht, ne_eq, not_false_eq_true, if_true, h0, not_true_eq_false, if_false, e1, pure]
      have e2 : (s1.setTxn t (some { i with head := 0, tail := 0 })).promoteCurrent t p f2 = .ok (s1.setTxn t (some { i with head := 0, tail := 0 })) := by
        simp only [St.promoteCurrent, St.txn, setTxn_self, bind, R.bind, h0, ne_eq, not_true_eq_false, if_false, pure]
      simp only [St.promote, bind, R.bind, e1, e2]
      refine fin _ { i with head := 0, tail := 0 } pi1 bl (c + 1 + (gh p).cnt) ?_ hl1 rfl rfl h0 ?_ a2 a3 ?_
      · show upd s1.txns t _ = _
        rw [ht1]
      · rw [hgp] at hinv1; exact hinv1
      · show c + 1 + (gh p).cnt = pi1.total + i.total
        rw [a1, htot, hptot]
        show c + 1 + (gh p).cnt = (gh p).cnt + 1 + c
        omega
  | @current nd num as1 as2 bs1 bs2 c1 c2 h0 hn ho hs hm hp h1 h2 =>
    have hby := h.bytes _ _ hn
    obtain ⟨hcm, hnd'⟩ := List.nodup_cons.mp hd.flNodup
    obtain ⟨hd1, hd2, hdis⟩ := List.nodup_append.mp hnd'
    by_cases ht : i.tail = 0
    · rw [ht] at h2
      obtain ⟨rfl, hh, rfl, rfl, rfl⟩ := Holds.chain_nil h2
      rw [List.append_nil] at hcm hnd'
      have hd' : Inv s.nodes s.ring (upd s.txns t none) (upd gh t ⟨[], [], 0⟩) (bs1 ++ [i.cur]) := by
        refine hd.reorder (List.nodup_append.mpr ⟨hd1, by simp, ?_⟩) ?_
        · intro x hx y hy e
          cases List.mem_singleton.mp hy
          subst e
          exact hcm hx
        · intro x; simp [or_comm]
      have e1 : s.promoteSpilled t p f1 = .ok s := by simp only [St.promoteSpilled, St.txn, hi, bind, R.bind, ht, ne_eq, not_true_eq_false, if_false, pure]
      obtain ⟨s2, pi2, bl, e2, ht2, hl2, hinv2, a1, a2, a3⟩ := promoteCurrent_ok hne hd' hip hpi hi h0 hn ho (by omega) hby h1 hf2.1 hf2.2
      simp only [St.promote, bind, R.bind, e1, e2]
      refine fin s2 { i with cur := 0 } pi2 bl (c1 + (gh p).cnt) ht2 hl2 hh ht rfl ?_ a2 a3 ?_
      · rw [hgp] at hinv2; rw [List.append_nil]; exact hinv2
      · show c1 + (gh p).cnt = pi2.total + i.total
        rw [a1, htot, hptot]
        show c1 + (gh p).cnt = (gh p).cnt + (c1 + 0)
        omega
    · have hl' : Holds s.nodes (.items [.incl i.xid num i.head i.tail]) as2 bs2 (c2 + 1) := by
        have := Holds.incl ht h2 Holds.nil
        simpa using this
      have hd' : Inv s.nodes s.ring (upd s.txns t none) (upd gh t ⟨[], [], 0⟩) (bs2 ++ (bs1 ++ [i.cur])) := by
        refine hd.reorder (List.nodup_append.mpr ⟨hd2, List.nodup_append.mpr ⟨hd1, by simp, ?_⟩, ?_⟩) ?_
        · intro x hx y hy e
          cases List.mem_singleton.mp hy
          subst e
          exact hcm (List.mem_append_left _ hx)
        · intro x hx y hy e
          subst e
          rcases List.mem_append.mp hy with hy | hy
          · exact hdis x hy x hx rfl
          · cases List.mem_singleton.mp hy
            exact hcm (List.mem_append_right _ hx)
        · intro x; simp only [List.mem_append, List.mem_cons, List.not_mem_nil, or_false]
          by_cases q1 : x = i.cur <;> by_cases q2 : x ∈ bs1 <;> simp [q1, q2]
      obtain ⟨s1, pi1, bl1, e1, ht1, hl1, hinv1, hk1, hn1, a1, a2, a3⟩ := save_ok hd' (by
        intro x hx
        rcases List.mem_append.mp hx with hx | hx
        · exact (h2.there x hx).2
        · rcases List.mem_append.mp hx with hx | hx
          · exact (h1.there x hx).2
          · cases List.mem_singleton.mp hx; rw [hn]; simp) hip hpi hl' hf1.1 hf1.2
      have hi1 : s1.txns t = some i := by rw [ht1, upd_other _ _ (Ne.symm hne), hi]
      have e1 : s.promoteSpilled t p f1 = .ok (s1.setTxn t (some { i with head := 0, tail := 0 })) := by
        have : i.num - 1 = num := by omega
        simp only [St.promoteSpilled, St.txn, hi, bind, R.bind, ht, ne_eq, not_false_eq_true, if_true, h0, this, e1, pure]
      obtain ⟨s2, pi2, bl, e2, ht2, hl2, hinv2, b1, b2, b3⟩ := promoteCurrent_ok (s := s1.setTxn t (some { i with head := 0, tail := 0 })) (i := { i with head := 0, tail := 0 }) (t := t) (p := p) (c := nd) (f := f2)
        hne hinv1 (upd_self _ _ _) (by rw [setTxn_other _ hne, ht1, upd_self]) (setTxn_self _ _ _) h0
        ((hk1 _ (List.mem_append_right _ (List.mem_singleton.mpr rfl))).trans hn) ho (by show nd.seq + 1 = i.num; omega) hby (h1.frame fun x hx => hk1 x (List.mem_append_left _ hx)) hf2.1 (hn1 f2 (Ne.symm hff) hf2.2)
      simp only [St.promote, bind, R.bind, e1, e2]
      refine fin s2 { i with head := 0, tail := 0, cur := 0 } pi2 bl (c1 + (c2 + 1 + (gh p).cnt)) ?_ (hl2.trans hl1) rfl rfl rfl ?_ (b2.trans a2) (b3.trans a3) ?_
      · rw [ht2]
        show upd (upd (upd s1.txns t _) p _) t _ = _
        rw [ht1]
        funext x
        simp only [upd]
        by_cases hx : x = t
        · simp [hx]
        · by_cases hx' : x = p <;> simp [hx, hx']
      · rw [upd_upd, upd_upd, upd_self, hgp] at hinv2
        rw [List.append_assoc]
        exact hinv2
      · show _ = pi2.total + i.total
        rw [b1, a1, htot, hptot]
        show c1 + (c2 + 1 + (gh p).cnt) = (gh p).cnt + 1 + (c1 + c2)
        omega

end Verif.Roll
