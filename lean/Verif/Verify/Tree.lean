import Verif.Verify.Lemmas

/-!
# What well-formed trees are good for
-/

namespace Verif.Verify

theorem segs_parts {lo hi} : ∀ {ps : List Nat} {xs : List Part}, xs.length = ps.length + 1 →
    (segs lo hi ps xs).map (·.2.2) = xs := by
  intro ps
  induction ps generalizing lo with
  | nil =>
    intro xs h
    match xs, h with
    | [x], _ => rfl
  | cons p ps ih =>
    intro xs h
    match xs, h with
    | x :: y :: xs, h =>
      show x :: (segs (some p) hi ps (y :: xs)).map (·.2.2) = _
      rw [ih (by simpa using h)]

theorem segs_mem {lo hi ps xs x} (h : xs.length = ps.length + 1) (hx : x ∈ xs) : ∃ l u, (l, u, x) ∈ segs lo hi ps xs := by
  rw [← segs_parts (lo := lo) (hi := hi) h] at hx
  obtain ⟨⟨l, u, y⟩, hy, e⟩ := List.mem_map.mp hx
  cases e
  exact ⟨l, u, hy⟩

theorem segs_mem' {lo hi ps xs l u x} (h : xs.length = ps.length + 1) (hx : (l, u, x) ∈ segs lo hi ps xs) : x ∈ xs := by
  rw [← segs_parts (lo := lo) (hi := hi) h]
  exact List.mem_map.mpr ⟨_, hx, rfl⟩

/-- A key between the pivots of a part is between the keys of the node, and is routed to the part. -/
theorem segs_route {hi k l u x} : ∀ {ps : List Nat} {lo xs}, xs.length = ps.length + 1 → ps.Pairwise (· < ·) →
    (∀ p ∈ ps, Within lo hi p) → (l, u, x) ∈ segs lo hi ps xs → Within l u k →
    Within lo hi k ∧ route k ps xs = some x := by
  intro ps
  induction ps with
  | nil =>
    intro lo xs h _ _ hm hk
    match xs, h with
    | [y], _ =>
      rcases List.mem_cons.mp hm with e | e
      · cases e; exact ⟨hk, rfl⟩
      · cases e
  | cons p ps ih =>
    intro lo xs h hs hp hm hk
    obtain ⟨s1, s2⟩ := List.pairwise_cons.mp hs
    match xs, h with
    | y :: z :: xs, h =>
      have hw := hp p List.mem_cons_self
      rcases List.mem_cons.mp hm with e | hm
      · cases e
        have hkp : k ≤ p := hk.2 p rfl
        refine ⟨⟨hk.1, fun v e => Nat.le_trans hkp (hw.2 v e)⟩, ?_⟩
        unfold route
        rw [if_pos hkp]
      · have hp' : ∀ q ∈ ps, Within (some p) hi q := fun q hq =>
          ⟨fun v e => by cases e; exact s1 q hq, (hp q (List.mem_cons_of_mem _ hq)).2⟩
        obtain ⟨w, r⟩ := ih (by simpa using h) s2 hp' hm hk
        have hkp : p < k := w.1 p rfl
        refine ⟨⟨fun v e => Nat.lt_trans (hw.1 v e) hkp, w.2⟩, ?_⟩
        unfold route
        rw [if_neg (by omega)]
        exact r

theorem route_mem {k x} : ∀ {ps : List Nat} {xs}, route k ps xs = some x → x ∈ xs
  | [], y :: xs, h => by
    have e : some y = some x := by cases xs <;> exact h
    cases e; exact List.mem_cons_self
  | _ :: _, [y], h => by cases h; exact List.mem_cons_self
  | p :: ps, y :: z :: xs, h => by
    unfold route at h
    by_cases hk : k ≤ p
    · rw [if_pos hk] at h; cases h; exact List.mem_cons_self
    · rw [if_neg hk] at h; exact List.mem_cons_of_mem _ (route_mem h)
  | [], [], h => by cases h
  | _ :: _, [], h => by cases h

/-- Lists that are in order and between the pivots of their parts make a list in order, between the keys of the node. -/
theorem segs_sorted {hi} {f : Part → List Nat} : ∀ {ps : List Nat} {lo xs}, xs.length = ps.length + 1 → ps.Pairwise (· < ·) →
    (∀ p ∈ ps, Within lo hi p) →
    (∀ l u x, (l, u, x) ∈ segs lo hi ps xs → (f x).Pairwise (· < ·) ∧ ∀ k ∈ f x, Within l u k) →
    (xs.flatMap f).Pairwise (· < ·) ∧ ∀ k ∈ xs.flatMap f, Within lo hi k := by
  intro ps
  induction ps with
  | nil =>
    intro lo xs h _ _ hm
    match xs, h with
    | [y], _ =>
      rw [List.flatMap_cons, List.flatMap_nil, List.append_nil]
      exact hm _ _ _ List.mem_cons_self
  | cons p ps ih =>
    intro lo xs h hs hp hm
    obtain ⟨s1, s2⟩ := List.pairwise_cons.mp hs
    match xs, h with
    | y :: z :: xs, h =>
      have hw := hp p List.mem_cons_self
      have hp' : ∀ q ∈ ps, Within (some p) hi q := fun q hq =>
        ⟨fun v e => by cases e; exact s1 q hq, (hp q (List.mem_cons_of_mem _ hq)).2⟩
      obtain ⟨a1, a2⟩ := hm lo (some p) y List.mem_cons_self
      obtain ⟨b1, b2⟩ := ih (by simpa using h) s2 hp' (fun l u x hx => hm l u x (List.mem_cons_of_mem _ hx))
      rw [List.flatMap_cons]
      refine ⟨List.pairwise_append.mpr ⟨a1, b1, fun i hi j hj => ?_⟩, fun k hk => ?_⟩
      · exact Nat.lt_of_le_of_lt ((a2 i hi).2 p rfl) ((b2 j hj).1 p rfl)
      · rcases List.mem_append.mp hk with hk | hk
        · exact ⟨(a2 k hk).1, fun v e => Nat.le_trans ((a2 k hk).2 p rfl) (hw.2 v e)⟩
        · exact ⟨fun v e => Nat.lt_trans (hw.1 v e) ((b2 k hk).1 p rfl), (b2 k hk).2⟩

theorem wf_sorted {T nodes root} (hs : Shaped nodes) : ∀ {h pmsn above b lo hi}, WF T nodes root h pmsn above b lo hi →
    (allKeys nodes h b).Pairwise (· < ·) ∧ ∀ k ∈ allKeys nodes h b, Within lo hi k := by
  intro h
  induction h with
  | zero =>
    rintro pmsn above b lo hi ⟨_, h2, h3, h4⟩
    exact segs_sorted (hs b) h2 h3 (fun l u x hx => ⟨(h4 l u x hx).1, (h4 l u x hx).2.1⟩)
  | succ h ih =>
    rintro pmsn above b lo hi ⟨_, h2, h3, _, h4⟩
    exact segs_sorted (hs b) h2 h3 (fun l u x hx => ih (h4 l u x hx).2)

theorem search_sound {nodes : Nat → Node} {k} : ∀ {h b}, search nodes k h b = true → k ∈ allKeys nodes h b := by
  intro h
  induction h with
  | zero =>
    intro b hk
    unfold search at hk
    split at hk
    · next x hx => exact List.mem_flatMap.mpr ⟨x, route_mem hx, List.contains_iff_mem.mp hk⟩
    · cases hk
  | succ h ih =>
    intro b hk
    unfold search at hk
    split at hk
    · next x hx => exact List.mem_flatMap.mpr ⟨x, route_mem hx, ih hk⟩
    · cases hk

theorem search_complete {T nodes root k} (hs : Shaped nodes) : ∀ {h pmsn above b lo hi}, WF T nodes root h pmsn above b lo hi →
    k ∈ allKeys nodes h b → search nodes k h b = true := by
  intro h
  induction h with
  | zero =>
    rintro pmsn above b lo hi ⟨_, h2, h3, h4⟩ hk
    obtain ⟨x, hx, hk⟩ := List.mem_flatMap.mp hk
    obtain ⟨l, u, hm⟩ := segs_mem (lo := lo) (hi := hi) (hs b) hx
    obtain ⟨_, r⟩ := segs_route (hs b) h2 h3 hm ((h4 l u x hm).2.1 k hk)
    unfold search
    rw [r]
    exact List.contains_iff_mem.mpr hk
  | succ h ih =>
    rintro pmsn above b lo hi ⟨_, h2, h3, _, h4⟩ hk
    obtain ⟨x, hx, hk⟩ := List.mem_flatMap.mp hk
    obtain ⟨l, u, hm⟩ := segs_mem (lo := lo) (hi := hi) (hs b) hx
    have hw := (h4 l u x hm).2
    obtain ⟨_, r⟩ := segs_route (hs b) h2 h3 hm ((wf_sorted hs hw).2 k hk)
    unfold search
    rw [r]
    exact ih hw hk

/-- Nodes of a well-formed tree are well-formed, and keys between their keys are looked up through them. -/
theorem wf_below {T nodes root} (hs : Shaped nodes) {h b h' b'} (hb : Below nodes h b h' b') : ∀ {pmsn above lo hi},
    WF T nodes root h pmsn above b lo hi →
    ∃ pmsn' above' lo' hi', WF T nodes root h' pmsn' above' b' lo' hi' ∧
      ∀ k, Within lo' hi' k → Within lo hi k ∧ OnPath nodes k h b h' b' := by
  induction hb with
  | self => exact fun {pmsn above lo hi} hw => ⟨pmsn, above, lo, hi, hw, fun k hk => ⟨hk, .self⟩⟩
  | @child h b h' b' x hx _ ih =>
    rintro pmsn above lo hi ⟨_, h2, h3, _, h4⟩
    obtain ⟨l, u, hm⟩ := segs_mem (lo := lo) (hi := hi) (hs b) hx
    obtain ⟨pm, ab, l', u', w, q⟩ := ih (h4 l u x hm).2
    refine ⟨pm, ab, l', u', w, fun k hk => ?_⟩
    obtain ⟨q1, q2⟩ := q k hk
    obtain ⟨w1, r⟩ := segs_route (hs b) h2 h3 hm q1
    exact ⟨w1, .child r q2⟩

theorem wf_height {T nodes root h pmsn above b lo hi} (hw : WF T nodes root h pmsn above b lo hi) : (nodes b).height = h := by
  cases h with
  | zero => exact hw.1
  | succ h => exact hw.1

theorem MsgsOk.mono {T T' lo hi max ms} (hT : ∀ t, T' t = true → T t = true) (h : MsgsOk T lo hi max ms) :
    MsgsOk T' lo hi max ms := ⟨fun m hm ht => h.place m hm (hT _ ht), h.order, h.range⟩

theorem wf_mono {T T' nodes root} (hT : ∀ t, T' t = true → T t = true) : ∀ {h pmsn above b lo hi},
    WF T nodes root h pmsn above b lo hi → WF T' nodes root h pmsn above b lo hi := by
  intro h
  induction h with
  | zero => exact fun hw => hw
  | succ h ih =>
    rintro pmsn above b lo hi ⟨h1, h2, h3, h5, h4⟩
    exact ⟨h1, h2, h3, h5, fun l u x hx => ⟨(h4 l u x hx).1.mono hT, ih (h4 l u x hx).2⟩⟩

theorem ask_cons {n c cbs} : ask (n + 1) (c :: cbs) = if c = 0 then ask n cbs else (.user c, cbs) := rfl

theorem ask_add {n m} : ∀ {cbs}, ask (n + m) cbs =
    match ask n cbs with
    | (.ok, cbs) => ask m cbs
    | r => r := by
  induction n with
  | zero => intro cbs; rw [Nat.zero_add]; rfl
  | succ n ih =>
    intro cbs
    rw [Nat.add_right_comm]
    cases cbs with
    | nil => cases m <;> rfl
    | cons c cbs =>
      rw [ask_cons, ask_cons]
      by_cases hc : c = 0
      · rw [if_pos hc, if_pos hc]; exact ih
      · rw [if_neg hc, if_neg hc]

theorem ask_one {cbs} : ask 1 cbs = finish .ok cbs := by
  cases cbs with
  | nil => rfl
  | cons c cbs =>
    unfold ask finish
    by_cases hc : c = 0
    · simp only [if_pos hc, ask]
    · simp only [if_neg hc]

theorem ask_not {n cbs} : (ask n cbs).1 ≠ .repair ∧ (ask n cbs).1 ≠ .crash := by
  induction n generalizing cbs with
  | zero => exact ⟨fun h => (by cases h), fun h => (by cases h)⟩
  | succ n ih =>
    cases cbs with
    | nil => exact ⟨fun h => (by cases h), fun h => (by cases h)⟩
    | cons c cbs =>
      unfold ask
      by_cases hc : c = 0
      · rw [if_pos hc]; exact ih
      · rw [if_neg hc]; exact ⟨fun h => (by cases h), fun h => (by cases h)⟩

theorem children_ask {kg} {f : Option Nat × Option Nat × Part → List Nat → V × List Nat} {g : Part → Nat} :
    ∀ {xs cbs}, (∀ x ∈ xs, ∀ cbs, f x cbs = ask (g x.2.2) cbs) →
    children kg f xs .ok cbs = ask ((xs.map (·.2.2)).map g).sum cbs := by
  intro xs
  induction xs with
  | nil => intro cbs _; rfl
  | cons x xs ih =>
    intro cbs h
    have h1 := h x List.mem_cons_self cbs
    have h2 := fun cbs => ih (cbs := cbs) (fun y hy => h y (List.mem_cons_of_mem _ hy))
    unfold children
    rw [List.map_cons, List.map_cons, List.sum_cons, ask_add, h1]
    have hn := ask_not (n := g x.2.2) (cbs := cbs)
    cases ha : ask (g x.2.2) cbs with
    | mk r cbs' =>
      rw [ha] at hn
      cases r with
      | ok => exact h2 cbs'
      | repair => exact absurd rfl hn.1
      | user c => rfl
      | crash => exact absurd rfl hn.2

/-- In a well-formed tree only the callback ends the visit early. -/
theorem verify_ask {nodes kg root} (hs : Shaped nodes) : ∀ {h pmsn above b lo hi cbs}, WF bounded nodes root h pmsn above b lo hi →
    verify nodes kg root h pmsn above b lo hi cbs = ask (count nodes h b) cbs := by
  intro h
  induction h with
  | zero =>
    intro pmsn above b lo hi cbs hw
    have hn := nodeB_iff.mpr ((nodeP_zero rfl hw.1).mpr hw)
    unfold verify count
    simp only []
    rw [if_neg (fun e => e hw.1), if_pos hn, ask_one]
  | succ h ih =>
    intro pmsn above b lo hi cbs hw
    obtain ⟨h1, h2, h3, h5, h4⟩ := hw
    have hn : nodeB root pmsn above (nodes b) lo hi = true :=
      nodeB_iff.mpr ⟨fun _ => h5, h2, h3, fun l u x hx => ⟨fun _ => (h4 l u x hx).1, fun e => by omega⟩⟩
    unfold verify count
    simp only []
    rw [if_neg (fun e => e h1), if_pos hn, if_neg (fun x => by cases x.1), ask_add]
    have hc := children_ask (kg := kg) (f := fun x => verify nodes kg root h (if x.2.2.msgs.isEmpty = true then pmsn else (nodes b).msn)
        (above || !x.2.2.msgs.isEmpty) x.2.2.child x.1 x.2.1) (g := fun x => count nodes h x.child)
        (xs := segs lo hi (nodes b).pivots (nodes b).parts) (cbs := cbs) (by
          rintro ⟨l, u, x⟩ hx cbs
          have := (h4 l u x hx).2
          rw [← isEmpty_if] at this
          exact ih this)
    rw [segs_parts (hs b)] at hc
    rw [hc]
    have hn := ask_not (n := ((nodes b).parts.map fun x => count nodes h x.child).sum) (cbs := cbs)
    cases ha : ask ((nodes b).parts.map fun x => count nodes h x.child).sum cbs with
    | mk r cbs' =>
      rw [ha] at hn
      cases r with
      | ok => exact ask_one.symm
      | repair => exact absurd rfl hn.1
      | user c => rfl
      | crash => exact absurd rfl hn.2

theorem finish_user {r cbs c} (h : (finish r cbs).1 = .user c) : (r = .user c) ∨ (c ≠ 0 ∧ c ∈ cbs) := by
  unfold finish at h
  split at h
  · next d cbs =>
    by_cases hd : d = 0
    · rw [if_pos hd] at h; cases h
    · rw [if_neg hd] at h; cases h; exact .inr ⟨hd, List.mem_cons_self⟩
  · exact .inl h

theorem finish_sub {r cbs c} (h : c ∈ (finish r cbs).2) : c ∈ cbs := by
  unfold finish at h
  split at h
  · exact List.mem_cons_of_mem _ h
  · exact h

theorem finish_crash {r cbs} (h : (finish r cbs).1 = .crash) : r = .crash := by
  unfold finish at h
  split at h
  · split at h <;> cases h
  · exact h

theorem children_user {kg f} : ∀ {xs res cbs}, (∀ x ∈ xs, ∀ cbs, (∀ c ∈ (f x cbs).2, c ∈ cbs) ∧
      ∀ c, (f x cbs).1 = .user c → c ≠ 0 ∧ c ∈ cbs) →
    (∀ c ∈ (children kg f xs res cbs).2, c ∈ cbs) ∧
    ∀ c, (children kg f xs res cbs).1 = .user c → res = .user c ∨ (c ≠ 0 ∧ c ∈ cbs) := by
  intro xs
  induction xs with
  | nil => intro res cbs _; exact ⟨fun _ h => h, fun c h => .inl h⟩
  | cons x xs ih =>
    intro res cbs h
    obtain ⟨a1, a2⟩ := h x List.mem_cons_self cbs
    unfold children
    cases hf : f x cbs with
    | mk r d =>
      rw [hf] at a1 a2
      have ih' := fun res => ih (res := res) (cbs := d) (fun y hy => h y (List.mem_cons_of_mem _ hy))
      cases r with
      | ok =>
        obtain ⟨i1, i2⟩ := ih' res
        exact ⟨fun c hc => a1 c (i1 c hc), fun c hc => (i2 c hc).imp id (fun e => ⟨e.1, a1 c e.2⟩)⟩
      | repair =>
        cases kg with
        | true =>
          obtain ⟨i1, i2⟩ := ih' .repair
          refine ⟨fun c hc => a1 c (i1 c hc), fun c hc => ?_⟩
          rcases i2 c hc with e | e
          · cases e
          · exact .inr ⟨e.1, a1 c e.2⟩
        | false => exact ⟨a1, fun c hc => (by cases hc)⟩
      | user e => exact ⟨a1, fun c hc => .inr (a2 c hc)⟩
      | crash => exact ⟨a1, fun c hc => (by cases hc)⟩

/-- A number other than the library's is an answer of the callback. -/
theorem verify_user {nodes kg root} : ∀ {h pmsn above b lo hi cbs},
    (∀ c ∈ (verify nodes kg root h pmsn above b lo hi cbs).2, c ∈ cbs) ∧
    ∀ c, (verify nodes kg root h pmsn above b lo hi cbs).1 = .user c → c ≠ 0 ∧ c ∈ cbs := by
  intro h
  induction h with
  | zero =>
    intro pmsn above b lo hi cbs
    unfold verify
    simp only []
    split
    · exact ⟨fun _ h => h, fun c h => (by cases h)⟩
    · refine ⟨fun c hc => finish_sub hc, fun c hc => ?_⟩
      rcases finish_user hc with e | e
      · split at e <;> cases e
      · exact e
  | succ h ih =>
    intro pmsn above b lo hi cbs
    unfold verify
    simp only []
    split
    · exact ⟨fun _ h => h, fun c h => (by cases h)⟩
    · have hru : ∀ c, (if nodeB root pmsn above (nodes b) lo hi = true then V.ok else V.repair) ≠ .user c := by
        intro c e; split at e <;> cases e
      generalize (if nodeB root pmsn above (nodes b) lo hi = true then V.ok else V.repair) = r at hru ⊢
      by_cases hr : r = .repair ∧ kg = false
      · simp only [if_pos hr]
        exact ⟨fun _ h => h, fun c h => absurd h (hru c)⟩
      · simp only [if_neg hr]
        have hc := children_user (kg := kg) (f := fun x => verify nodes kg root h (if x.2.2.msgs.isEmpty = true then pmsn else (nodes b).msn)
          (above || !x.2.2.msgs.isEmpty) x.2.2.child x.1 x.2.1) (xs := segs lo hi (nodes b).pivots (nodes b).parts) (res := r) (cbs := cbs)
          (fun _ _ _ => ih)
        refine ⟨fun c hm => hc.1 c (finish_sub hm), fun c hm => ?_⟩
        rcases finish_user hm with e | e
        · exact (hc.2 c e).resolve_left (hru c)
        · exact ⟨e.1, hc.1 c e.2⟩

theorem children_crash {kg f} : ∀ {xs res cbs}, (children kg f xs res cbs).1 = .crash →
    res = .crash ∨ ∃ x ∈ xs, ∃ cbs, (f x cbs).1 = .crash := by
  intro xs
  induction xs with
  | nil => intro res cbs h; exact .inl h
  | cons x xs ih =>
    intro res cbs h
    unfold children at h
    have lift : (∃ y ∈ xs, ∃ cbs, (f y cbs).1 = .crash) → ∃ y ∈ x :: xs, ∃ cbs, (f y cbs).1 = .crash :=
      fun ⟨y, hy, e⟩ => ⟨y, List.mem_cons_of_mem _ hy, e⟩
    cases hf : f x cbs with
    | mk r d =>
      rw [hf] at h
      cases r with
      | ok => exact (ih h).imp id lift
      | repair =>
        cases kg with
        | true =>
          rcases ih h with e | e
          · cases e
          · exact .inr (lift e)
        | false => cases h
      | user e => cases h
      | crash => exact .inr ⟨x, List.mem_cons_self, cbs, by rw [hf]⟩

/-- An assertion fails only on a node of the wrong height. -/
theorem verify_crash {nodes kg root} (hs : Shaped nodes) : ∀ {h pmsn above b lo hi cbs},
    (verify nodes kg root h pmsn above b lo hi cbs).1 = .crash →
    ∃ h' b', Below nodes h b h' b' ∧ (nodes b').height ≠ h' := by
  intro h
  induction h with
  | zero =>
    intro pmsn above b lo hi cbs
    unfold verify
    simp only []
    split
    · next hh => exact fun _ => ⟨0, b, .self, hh⟩
    · intro e
      have := finish_crash e
      split at this <;> cases this
  | succ h ih =>
    intro pmsn above b lo hi cbs
    unfold verify
    simp only []
    split
    · next hh => exact fun _ => ⟨h + 1, b, .self, hh⟩
    · have hru : (if nodeB root pmsn above (nodes b) lo hi = true then V.ok else V.repair) ≠ .crash := by
        intro e; split at e <;> cases e
      generalize (if nodeB root pmsn above (nodes b) lo hi = true then V.ok else V.repair) = r at hru ⊢
      by_cases hr : r = .repair ∧ kg = false
      · rw [if_pos hr]
        exact fun h => absurd h hru
      · rw [if_neg hr]
        intro e
        rcases children_crash (finish_crash e) with e | ⟨⟨l, u, x⟩, hx, cbs, e⟩
        · exact absurd e hru
        · obtain ⟨h', b', hb, e⟩ := ih e
          exact ⟨h', b', .child (segs_mem' (hs b) hx) hb, e⟩

end Verif.Verify
