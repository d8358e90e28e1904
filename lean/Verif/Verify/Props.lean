import Verif.Verify.Tree

/-!
# C89: verifying a dictionary
-/

namespace Verif.Verify

theorem bounded_eq : bounded = checked := by
  funext t
  cases t <;> rfl

/-- Partial: for updates see `C89_update_refuted`.  When verification of a dictionary returns 0, with any callback and whether or
not it was to go on after a problem:
the keys in the leaves are in strictly ascending order (so none occurs twice);
looking up a key by the pivots finds exactly the keys in the leaves;
all leaves are at the same depth, and each node's height is its distance from them;
every message to one key that is not an update waits on the path of its key, in the buffer of the child next on that path;
the messages in a buffer are in the order of their numbers, and no number is greater than its node's. -/
theorem C89_verified_partial {nodes : Nat → Node} {kg max root cbs} (hs : Shaped nodes)
    (hv : verifyFt nodes kg max root cbs = .ok) (hc : ∀ c ∈ cbs, c = 0) :
    (allKeys nodes (nodes root).height root).Pairwise (· < ·) ∧
    (∀ k, search nodes k (nodes root).height root = true ↔ k ∈ allKeys nodes (nodes root).height root) ∧
    (∀ h b, Below nodes (nodes root).height root h b → (nodes b).height = h) ∧
    (∀ h b x m, Below nodes (nodes root).height root (h + 1) b → x ∈ (nodes b).parts → m ∈ x.msgs →
      m.ty ≠ .update → m.ty ≠ .toAll →
      OnPath nodes m.key (nodes root).height root (h + 1) b ∧ route m.key (nodes b).pivots (nodes b).parts = some x) ∧
    (∀ h b x, Below nodes (nodes root).height root (h + 1) b → x ∈ (nodes b).parts →
      x.msgs.Pairwise (·.msn < ·.msn) ∧ ∀ m ∈ x.msgs, 0 < m.msn ∧ m.msn ≤ (nodes b).msn) := by
  unfold verifyFt at hv
  rw [verify_zero.2 cbs [] hc (fun _ h => by cases h), verify_iff] at hv
  refine ⟨(wf_sorted hs hv).1, fun k => ⟨search_sound, search_complete hs hv⟩, fun h b hb => ?_, fun h b x m hb hx hm t1 t2 => ?_,
    fun h b x hb hx => ?_⟩
  · obtain ⟨_, _, _, _, w, _⟩ := wf_below hs hb hv
    exact wf_height w
  · have ht : bounded m.ty = true := by
      rw [bounded_eq]
      cases he : m.ty <;> first | rfl | exact absurd he t1 | exact absurd he t2
    obtain ⟨_, _, lo, hi, ⟨_, h2, h3, _, h4⟩, q⟩ := wf_below hs hb hv
    obtain ⟨l, u, hx⟩ := segs_mem (lo := lo) (hi := hi) (hs b) hx
    obtain ⟨w, r⟩ := segs_route (hs b) h2 h3 hx ((h4 l u x hx).1.place m hm ht)
    exact ⟨(q _ w).2, r⟩
  · obtain ⟨_, _, lo, hi, ⟨_, h2, h3, _, h4⟩, q⟩ := wf_below hs hb hv
    obtain ⟨l, u, hx⟩ := segs_mem (lo := lo) (hi := hi) (hs b) hx
    exact ⟨(h4 l u x hx).1.order, (h4 l u x hx).1.range⟩

/-- Verification returns 0 exactly for the well-formed dictionaries (as to the kinds of messages that are checked). -/
theorem C89_exact {nodes : Nat → Node} {kg max root cbs} (hc : ∀ c ∈ cbs, c = 0) :
    verifyFt nodes kg max root cbs = .ok ↔ WF checked nodes max (nodes root).height max false root none none := by
  unfold verifyFt
  rw [verify_zero.2 cbs [] hc (fun _ h => by cases h), verify_iff, bounded_eq]

/-- A dictionary with nothing wrong is never reported as damaged. -/
theorem C89_no_false_alarm {nodes : Nat → Node} {kg max root cbs} (hc : ∀ c ∈ cbs, c = 0)
    (hw : WF onePlace nodes max (nodes root).height max false root none none) : verifyFt nodes kg max root cbs = .ok := by
  rw [C89_exact hc]
  exact wf_mono (by intro t; cases t <;> exact fun h => by first | rfl | cases h) hw

/-- Going on after a problem does not turn a damaged dictionary into a sound one, or the other way round. -/
theorem C89_keep_going {nodes : Nat → Node} {max root cbs} (hc : ∀ c ∈ cbs, c = 0) :
    verifyFt nodes true max root cbs = .ok ↔ verifyFt nodes false max root cbs = .ok := by
  rw [C89_exact hc, C89_exact hc]

/-- In a well-formed dictionary the callback is asked once for each node until it answers something else than 0, which is then
the result; with answers 0 to all nodes the result is 0. -/
theorem C89_callback {nodes : Nat → Node} {kg max root cbs} (hs : Shaped nodes)
    (hw : WF checked nodes max (nodes root).height max false root none none) :
    verifyFt nodes kg max root cbs = (ask (count nodes (nodes root).height root) cbs).1 := by
  unfold verifyFt
  rw [verify_ask hs (bounded_eq ▸ hw)]

/-- In any dictionary, a result that is neither 0 nor TOKUDB_NEEDS_REPAIR is a nonzero answer of the callback. -/
theorem C89_result {nodes : Nat → Node} {kg max root cbs c} (h : verifyFt nodes kg max root cbs = .user c) :
    c ≠ 0 ∧ c ∈ cbs := verify_user.2 c h

/-- Verification reports damage instead of failing an assertion, except for a node of the wrong height. -/
theorem C89_crash {nodes : Nat → Node} {kg max root cbs} (hs : Shaped nodes)
    (hh : ∀ h b, Below nodes (nodes root).height root h b → (nodes b).height = h) : verifyFt nodes kg max root cbs ≠ .crash := by
  intro e
  obtain ⟨h, b, hb, hn⟩ := verify_crash hs e
  exact hn (hh h b hb)

/-- A dictionary with a root over two leaves, and an update to the key `k` in the left buffer. -/
def twoLeaves (k : Nat) : Nat → Node
  | 0 => ⟨1, 9, [10], [⟨1, [⟨4, 7, .insert⟩, ⟨k, 8, .update⟩], []⟩, ⟨2, [], []⟩]⟩
  | 1 => ⟨0, 6, [3], [⟨0, [], [1, 3]⟩, ⟨0, [], [4, 10]⟩]⟩
  | _ => ⟨0, 5, [], [⟨0, [], [11, 20]⟩]⟩

theorem twoLeaves_shaped {k} : Shaped (twoLeaves k) := by
  intro b
  match b with
  | 0 => rfl
  | 1 => rfl
  | _ + 2 => rfl

/-- An update waiting in the buffer of the wrong child is not noticed: verification returns 0, though the update is not on the
path of its key (a query for key 20 goes to the other child). -/
theorem C89_update_refuted : ∃ nodes : Nat → Node, Shaped nodes ∧ verifyFt nodes false 9 0 [] = .ok ∧
    ∃ x m, x ∈ (nodes 0).parts ∧ m ∈ x.msgs ∧ m.ty = .update ∧ route m.key (nodes 0).pivots (nodes 0).parts ≠ some x :=
  ⟨twoLeaves 20, twoLeaves_shaped, by decide +kernel,
    ⟨1, [⟨4, 7, .insert⟩, ⟨20, 8, .update⟩], []⟩, ⟨20, 8, .update⟩, by decide +kernel, by decide +kernel, rfl, by decide +kernel⟩

/-- The update on its path: verified, keys in order, lookups. -/
example : verifyFt (twoLeaves 2) true 9 0 [0, 0, 0] = .ok ∧ allKeys (twoLeaves 2) 1 0 = [1, 3, 4, 10, 11, 20] ∧
    search (twoLeaves 2) 11 1 0 = true ∧ search (twoLeaves 2) 12 1 0 = false := by decide +kernel

/-- The callback gives up at the second node. -/
example : verifyFt (twoLeaves 2) true 9 0 [0, 5, 0] = .user 5 ∧ count (twoLeaves 2) 1 0 = 3 := by decide +kernel

/-- A leaf with a key beyond its pivot, and one with keys out of order. -/
def damaged : Nat → Node
  | 0 => ⟨1, 9, [10], [⟨1, [⟨4, 7, .insert⟩], []⟩, ⟨2, [], []⟩]⟩
  | 1 => ⟨0, 6, [3], [⟨0, [], [1, 3]⟩, ⟨0, [], [4, 12]⟩]⟩
  | _ => ⟨0, 5, [], [⟨0, [], [20, 11]⟩]⟩

example : verifyFt damaged true 9 0 [] = .repair ∧ verifyFt damaged false 9 0 [] = .repair := by decide +kernel

end Verif.Verify
