import Verif.Node.DiskRead
import Verif.Node.DiskRun
import Verif.Node.BnProps
import Verif.Node.PivotProps
import Verif.Ser.MsgBufProps
/-!
C53: a node comes back from disk as it was written, whichever way it is compressed and whichever parts of it are read when.
-/
set_option linter.unusedVariables false
set_option linter.unusedSimpArgs false
namespace Verif.Node
open Verif.Ser NodeSpec

variable {cmp : List Nat → List Nat → Ordering} [Std.TransCmp cmp]

/-! ### What can be seen of a node -/

/-- A partition in memory, read with this message number, shows this. -/
def Shown (cmp : List Nat → List Nat → Ordering) (msn : Nat) : Verif.Node.Part → NodeSpec.Part → Prop
  | .leaf b m, .rows l => m = msn ∧ b.num = l.length ∧ ∀ i, b.fetch i = .ok l[i]?
  | .inner c, .msgs l => MsgBufSpec.Shows cmp c l
  | _, _ => False

/-- The fields of a node, its keys and the blocks of its children. -/
structure FieldsShown (f : Fields) (s : Node) : Prop where
  original : f.original = s.original
  msn : f.msn = s.msn
  flags : f.flags = s.flags
  height : f.height = s.height
  oldest : f.oldest = s.oldest
  blocks : f.blocks = s.children
  keyCount : f.pivots.num = s.keys.length
  keys : ∀ (i : Nat) (k : PivotSpec.Key), s.keys[i]? = some k → f.pivots.get i = .ok k

/-- A node in memory. -/
structure NodeShown (cmp : List Nat → List Nat → Ordering) (n : FNode) (s : Node) : Prop where
  fields : FieldsShown n.f s
  count : n.parts.length = s.parts.length
  parts : ∀ (i : Nat) (p : NodeSpec.Part), s.parts[i]? = some p → ∃ x, n.parts[i]? = some x ∧ Shown cmp n.f.msn x p

/-- A node in the cache: whatever part of it is available is right. -/
structure CacheShown (cmp : List Nat → List Nat → Ordering) (c : Cached) (s : Node) : Prop where
  fields : FieldsShown c.f s
  count : c.slots.length = s.parts.length
  parts : ∀ (i : Nat) (x : Verif.Node.Part) (p : NodeSpec.Part), c.slots[i]? = some (.avail x) → s.parts[i]? = some p → Shown cmp c.f.msn x p

/-- What is asked of a trip of a node of `n` partitions: the build is a number of 32 bits, the block starts at a multiple of 512 bytes
(where the allocator puts it), and the partitions that are not wanted are fetched later. -/
structure Trip.Ok (t : Trip) (n : Nat) : Prop where
  build : t.build < 2 ^ 32
  start : t.pre.length % 512 = 0
  order : ∀ i ∈ t.order, i < n
  every : ∀ i, i < n → t.wanted i = true ∨ i ∈ t.order

/-! ### Content and specification -/

/-- The content is what the specification says. -/
inductive Means (cmp : List Nat → List Nat → Ordering) : Content → NodeSpec.Part → Prop
  | rows {l : List BnSpec.Row} : Means cmp (.rows l) (.rows l)
  | msgs {c : Bnc} {offs : List Nat} {l : List MsgBufSpec.Slot} (h : BncInv cmp c offs l) : Means cmp (.msgs (rowsOf l) c.fresh c.stale c.bcast) (.msgs l)

theorem shows_congr {c d : Bnc} {l : List MsgBufSpec.Slot} (h : MsgBufSpec.Shows cmp c l) (hm : d.b.mem = c.b.mem) (hn : d.b.n = c.b.n) (h1 : d.fresh = c.fresh) (h2 : d.stale = c.stale)
    (h3 : d.bcast = c.bcast) : MsgBufSpec.Shows cmp d l := by
  have hr : ∀ os, MsgBufSpec.readAll d.b os = MsgBufSpec.readAll c.b os := by
    intro os
    induction os with
    | nil => rfl
    | cons o os ih => rw [MsgBufSpec.readAll, MsgBufSpec.readAll, get_congr hm, ih]
  refine ⟨?_, by rw [hn]; exact h.count, ?_, ?_, ?_⟩
  · rw [iter_congr hm]; exact h.all
  · rw [h1, hr]; exact h.fresh
  · rw [h2, hr]; exact h.stale
  · rw [h3, hr]; exact h.bcast

theorem shown_of {h msn : Nat} {x : Verif.Node.Part} {ct : Content} {p : NodeSpec.Part} (hx : x.Has h ct) (hs : x.Stamped msn) (hm : Means cmp ct p) : Shown cmp msn x p := by
  cases hx with
  | leaf hb => cases hm; exact ⟨hs, hb.num, hb.fetch⟩
  | inner hh h1 h2 h3 h4 h5 =>
    cases hm with
    | msgs hi =>
      have hl : ∀ l : List MsgBufSpec.Slot, (rowsOf l).length = l.length := fun l => by simp [rowsOf]
      exact shows_congr (inv_shows hi) (h1.trans hi.mem.symm) (by rw [h2, hi.n, hl]) h3 h4 h5

theorem sum_slots (l : List MsgBufSpec.Slot) : ((msgsOf l).map Msg.memsize).sum + 12 * l.length = (l.map fun x => 31 + 8 * x.m.xids.length + x.m.key.length + x.m.val.length).sum := by
  induction l with
  | nil => rfl
  | cons x l ih =>
    simp only [msgsOf, List.map_cons, List.sum_cons, List.length_cons] at *
    have : x.m.memsize = 19 + 8 * x.m.xids.length + x.m.key.length + x.m.val.length := by unfold Msg.memsize; omega
    omega

theorem means_size {ct : Content} {p : NodeSpec.Part} (hm : Means cmp ct p) : ct.size ≤ p.size := by
  cases hm with
  | rows => exact Nat.le_refl _
  | msgs hi =>
    rename_i c offs l
    have hs := (inv_sizes hi).lengths
    have := sum_slots l
    simp only [Content.size, NodeSpec.Part.size]
    rw [memOf_length, rowsOf_fst]
    omega

theorem means_ok {ct : Content} {p : NodeSpec.Part} (hm : Means cmp ct p) (hf : ∀ l, p = .rows l → BnSpec.Fits l) : ct.Ok := by
  cases hm with
  | rows => exact .rows (hf _ rfl)
  | msgs hi =>
    rename_i c offs l
    have hs := inv_sizes hi
    have hc := hs.count
    have hm := hs.mem
    have hl := hs.lengths
    have hrl : (rowsOf l).length = l.length := by simp [rowsOf]
    exact .msgs hi.fit.good hs.fresh hs.stale hs.bcast (by omega) (by omega)

theorem makePart_ok {r : PartPlan} {h : Nat} {p : NodeSpec.Part} (hl : r.Legal cmp) (hp : r.meant h = some p) :
    ∃ x ct, r.make cmp = .ok x ∧ x.Has h ct ∧ Means cmp ct p ∧ ct.Ok := by
  cases r with
  | leaf ops o msn =>
    rw [PartPlan.meant] at hp
    split at hp
    · rename_i h0
      subst h0
      cases hs : BnSpec.run [] ops with
      | none => rw [hs] at hp; simp at hp
      | some s =>
        rw [hs] at hp
        simp only [Option.bind_some] at hp
        cases ho : s[o]? with
        | none => rw [ho] at hp; simp at hp
        | some l =>
          rw [ho] at hp
          simp only [Option.map_some, Option.some.injEq] at hp
          subst hp
          obtain ⟨hp', e, hh⟩ := brun_holds (h := []) ⟨rfl, by simp, by simp⟩ hl hs
          obtain ⟨b, hb, hr⟩ := hh.get ho
          refine ⟨.leaf b msn, .rows l, ?_, .leaf hr, .rows, .rows (hh.fits l (List.mem_of_getElem? ho))⟩
          rw [PartPlan.make, e, R.bind_ok, hb, R.bind_ok]
          rfl
    · simp at hp
  | inner ops =>
    rw [PartPlan.meant] at hp
    split at hp
    · rename_i h0
      cases hp
      obtain ⟨c, offs, e, hi⟩ := bufferAfter_ok hl
      have hrl : (rowsOf (MsgBufSpec.run ops)).length = (MsgBufSpec.run ops).length := by simp [rowsOf]
      refine ⟨.inner c, _, ?_, .inner h0 hi.mem (by rw [hrl]; exact hi.n) rfl rfl rfl, .msgs hi, means_ok (.msgs hi) (by simp)⟩
      rw [PartPlan.make, e, R.bind_ok]
      rfl
    · simp at hp

theorem makeParts_ok {rs : List PartPlan} {h : Nat} {ps : List NodeSpec.Part} (hl : ∀ r ∈ rs, r.Legal cmp) (hp : partsMeant h rs = some ps) :
    ∃ xs cts, makeParts cmp rs = .ok xs ∧ All2 (Verif.Node.Part.Has h) xs cts ∧ All2 (Means cmp) cts ps ∧ ∀ ct ∈ cts, ct.Ok := by
  induction rs generalizing ps with
  | nil => cases hp; exact ⟨[], [], rfl, .nil, .nil, by simp⟩
  | cons r rs ih =>
    rw [partsMeant] at hp
    cases h1 : r.meant h with
    | none => rw [h1] at hp; simp at hp
    | some p =>
      rw [h1] at hp
      simp only [Option.bind_some] at hp
      cases h2 : partsMeant h rs with
      | none => rw [h2] at hp; simp at hp
      | some ps' =>
        rw [h2] at hp
        simp only [Option.map_some, Option.some.injEq] at hp
        subst hp
        obtain ⟨x, ct, a1, a2, a3, a4⟩ := makePart_ok (hl r (by simp)) h1
        obtain ⟨xs, cts, b1, b2, b3, b4⟩ := ih (fun r hr => hl r (List.mem_cons_of_mem _ hr)) h2
        refine ⟨x :: xs, ct :: cts, ?_, .cons a2 b2, .cons a3 b3, fun c hc => ?_⟩
        · rw [makeParts, a1, R.bind_ok, b1, R.bind_ok]; rfl
        · rcases List.mem_cons.mp hc with rfl | hc
          · exact a4
          · exact b4 c hc

theorem total_le {cts : List Content} {ps : List NodeSpec.Part} (h : All2 (Means cmp) cts ps) : total cts ≤ (ps.map NodeSpec.Part.size).sum := by
  induction h with
  | nil => exact Nat.le_refl _
  | cons hm t ih =>
    have := means_size hm
    simp only [total, List.map_cons, List.sum_cons] at *
    omega

/-- Everything the proofs need of a node. -/
structure Good (cmp : List Nat → List Nat → Ordering) (s : Node) (cts : List Content) (n : FNode) : Prop where
  has : n.Has s.keys cts
  means : All2 (Means cmp) cts s.parts
  original : n.f.original = s.original
  msn : n.f.msn = s.msn
  flags : n.f.flags = s.flags
  height : n.f.height = s.height
  oldest : n.f.oldest = s.oldest
  blocks : n.f.blocks = s.children

theorem make_ok {r : Plan} {s : Node} (hl : ∀ p ∈ r.parts, p.Legal cmp) (hs : r.meant = some s) (ho : NodeSpec.Ok s) : ∃ n cts, r.make cmp = .ok n ∧ Good cmp s cts n := by
  rw [Plan.meant] at hs
  cases h1 : PivotSpec.run [] r.pivotOps with
  | none => rw [h1] at hs; simp at hs
  | some ss =>
    rw [h1] at hs
    simp only [Option.bind_some] at hs
    cases h2 : ss[r.pivots]? with
    | none => rw [h2] at hs; simp at hs
    | some ks =>
      rw [h2] at hs
      simp only [Option.bind_some] at hs
      cases h3 : partsMeant r.height r.parts with
      | none => rw [h3] at hs; simp at hs
      | some ps =>
        rw [h3] at hs
        simp only [Option.map_some, Option.some.injEq] at hs
        subst hs
        obtain ⟨hp, e1, hh⟩ := run_holds (h := []) ⟨rfl, by simp, by simp⟩ h1
        obtain ⟨p, hp', hr⟩ := hh.get h2
        obtain ⟨xs, cts, e2, b2, b3, b4⟩ := makeParts_ok hl h3
        have hlen : cts.length = ps.length := b3.length
        have hcount := ho.count
        have hfew := ho.few
        have hsm := ho.parts
        have hk := ho.keys
        simp only at hcount hfew hsm hk
        have htl := total_le b3
        refine ⟨⟨⟨r.original, r.build, r.msn, r.flags, r.height, r.oldest, p, r.children⟩, xs⟩, cts, ?_, ⟨⟨⟨hr, fun k hk => hh.ok ks (List.mem_of_getElem? h2) k hk, show ks.length + 1 = cts.length by omega, by omega, hk, ho.original, ho.msn,
          ho.flags, ho.height, ho.oldest, ?_, ho.children⟩, b2, b4, by omega⟩, b3, rfl, rfl, rfl, rfl, rfl, rfl⟩⟩
        · rw [Plan.make, e1, R.bind_ok, hp', R.bind_ok, e2, R.bind_ok]; rfl
        · have hlf := ho.leaf
          have hin := ho.inner
          simp only at hlf hin ⊢
          split
          · rw [hin (by assumption), hlen]
          · rw [hlf (by omega)]; rfl

theorem fields_shown {s : Node} {cts : List Content} {n : FNode} (h : Good cmp s cts n) {f : Fields} (hf : ∃ (q : Pk) (build : Nat), f = { n.f with build := build, pivots := q } ∧ q.Rep s.keys) :
    FieldsShown f s := by
  obtain ⟨q, build, rfl, hr⟩ := hf
  exact ⟨h.original, h.msn, h.flags, h.height, h.oldest, h.blocks, hr.num, fun i k hk => hr.get hk⟩

theorem collect_ok {L : Lib} {g : Fields} {ss : List Slot} {cts : List Content} (h : All2 (Slot.Has L g) ss cts) (ha : ∀ i, i < cts.length → ∃ p, ss[i]? = some (.avail p)) :
    ∃ ps, collectParts ss = .ok ps ∧ All2 (Verif.Node.Part.Has g.height) ps cts ∧ ∀ p ∈ ps, p.Stamped g.msn := by
  induction h with
  | nil => exact ⟨[], rfl, .nil, by simp⟩
  | cons hp t ih =>
    obtain ⟨ps, e, h1, h2⟩ := ih fun i hi => by
      obtain ⟨p, hp⟩ := ha (i + 1) (by simpa using hi)
      exact ⟨p, by simpa using hp⟩
    obtain ⟨p, hp0⟩ := ha 0 (by simp)
    simp only [List.getElem?_cons_zero, Option.some.injEq] at hp0
    subst hp0
    refine ⟨p :: ps, by rw [collectParts, e, R.bind_ok]; rfl, .cons hp.1 h1, fun x hx => ?_⟩
    rcases List.mem_cons.mp hx with rfl | hx
    · exact hp.2
    · exact h2 x hx

theorem trip_ok {L : Lib} (hL : L.Ok) {s : Node} {cts : List Content} {n : FNode} (h : Good cmp s cts n) {t : Trip} (ht : t.Ok s.parts.length) :
    ∃ n', n.trip L t = .ok n' ∧ Good cmp s cts n' ∧ ∀ p ∈ n'.parts, p.Stamped n'.f.msn := by
  obtain ⟨ps', pls, block, body, rest, un, e1, h1, hi⟩ := h.has.write hL t.method t.build
  obtain ⟨c, e2, h2, h3⟩ := load_ok hi h.has.fields ht.build ht.start t.post t.all t.wanted
  have hlen : cts.length = s.parts.length := h.means.length
  obtain ⟨c', e3, g1, g2, g3⟩ := fetchAll_ok (post := t.post) hi.placed ht.start hi.whole h2 (is := t.order) (fun i hi => by rw [hlen]; exact ht.order i hi)
  obtain ⟨ps, e4, k1, k2⟩ := collect_ok g1.slots fun i hi => by
    rcases ht.every i (by omega) with hw | hw
    · exact g3 i (h3 i hi hw)
    · exact g2 i hw
  obtain ⟨q, hq, hr⟩ := g1.f
  have hf := h.has.fields
  refine ⟨⟨c'.f, ps⟩, ?_, ⟨⟨?_, k1, h.has.ok, h.has.small⟩, h.means, ?_, ?_, ?_, ?_, ?_, ?_⟩, k2⟩
  · rw [FNode.trip, e1, R.bind_ok]
    simp only
    rw [e2, R.bind_ok]
    simp only
    rw [e3, R.bind_ok, e4, R.bind_ok]
    rfl
  · simp only
    rw [hq]
    exact ⟨hr, hf.keys, hf.count, hf.few, hf.small, hf.original, hf.msn, hf.flags, hf.height, hf.oldest, hf.blocks, hf.range⟩
  · simp only; rw [hq]; exact h.original
  · simp only; rw [hq]; exact h.msn
  · simp only; rw [hq]; exact h.flags
  · simp only; rw [hq]; exact h.height
  · simp only; rw [hq]; exact h.oldest
  · simp only; rw [hq]; exact h.blocks

theorem node_shown {s : Node} {cts : List Content} {n : FNode} (h : Good cmp s cts n) (hs : ∀ p ∈ n.parts, p.Stamped n.f.msn) : NodeShown cmp n s := by
  refine ⟨fields_shown h ⟨n.f.pivots, n.f.build, rfl, h.has.fields.rep⟩, ?_, fun i p hp => ?_⟩
  · rw [h.has.parts.length, h.means.length]
  · obtain ⟨ct, hct, hm⟩ := h.means.get hp
    obtain ⟨x, hx, hh⟩ := h.has.parts.get hct
    exact ⟨x, hx, shown_of hh (hs x (List.mem_of_getElem? hx)) hm⟩

theorem trips_ok {L : Lib} (hL : L.Ok) {s : Node} {cts : List Content} {ts : List Trip} {n : FNode} (h : Good cmp s cts n) (hs : ∀ p ∈ n.parts, p.Stamped n.f.msn) (ht : ∀ t ∈ ts, t.Ok s.parts.length) :
    ∃ n', n.trips L ts = .ok n' ∧ Good cmp s cts n' ∧ ∀ p ∈ n'.parts, p.Stamped n'.f.msn := by
  induction ts generalizing n with
  | nil => exact ⟨n, rfl, h, hs⟩
  | cons t ts ih =>
    obtain ⟨n1, e1, h1, h2⟩ := trip_ok hL h (ht t (by simp))
    obtain ⟨n2, e2, h3⟩ := ih h1 h2 fun t hx => ht t (List.mem_cons_of_mem _ hx)
    exact ⟨n2, by rw [FNode.trips, e1, R.bind_ok, e2], h3⟩

/-- C53.  A node whose keys, rows and messages are the result of any calls, written and read again any number of times (at least once), each time
with any compression method, at any place of the file, read whole or from its front, with any partitions wanted at first and the others fetched in any
order, has the same fields, keys, children, rows and messages; each part of a leaf has the node's number of the last message applied.  No assertion
fires and nothing is read outside a buffer. -/
theorem C53_a_node_comes_back_from_disk {L : Lib} (hL : L.Ok) {r : Plan} {s : Node} (hl : ∀ p ∈ r.parts, p.Legal cmp) (hs : r.meant = some s) (ho : NodeSpec.Ok s) (t : Trip) (ts : List Trip)
    (ht : ∀ x ∈ t :: ts, x.Ok s.parts.length) : ∃ n n', r.make cmp = .ok n ∧ n.trips L (t :: ts) = .ok n' ∧ NodeShown cmp n' s := by
  obtain ⟨n, cts, e, h⟩ := make_ok hl hs ho
  obtain ⟨n1, e1, h1, h2⟩ := trip_ok hL h (ht t (by simp))
  obtain ⟨n2, e2, h3, h4⟩ := trips_ok hL h1 h2 fun x hx => ht x (List.mem_cons_of_mem _ hx)
  exact ⟨n, n2, e, by rw [FNode.trips, e1, R.bind_ok, e2], node_shown h3 h4⟩

/-! ### In the cache -/

theorem squeeze_ok {L : Lib} (hL : L.Ok) (m : Method) {h : Nat} {p : Verif.Node.Part} {ct : Content} (hp : p.Has h ct) (ho : ct.Ok) :
    ∃ body un, p.squeeze L m h = .ok (.compressed body un) ∧ Expands L h body un ct := by
  obtain ⟨h1, p', data, h2, h3, h4, h5, h6⟩ := hp.round ho
  have := ho.size_lt
  obtain ⟨c0, body, c1, c2, c3⟩ := compress_ok hL m h5 (by omega)
  rw [h4] at c1 c3
  refine ⟨body, ct.size, ?_, fun f hf => ?_⟩
  · rw [Verif.Node.Part.squeeze, h1, R.bind_ok, h2, R.bind_ok]
    simp only
    rw [c1, R.bind_ok]
    rfl
  · obtain ⟨q, hq, q1, q2⟩ := h6 f hf
    exact ⟨q, by rw [expand, c3, R.bind_ok, hq], q1, q2⟩

theorem evict_ok {L : Lib} (hL : L.Ok) {build : Nat} {f : Fields} {ks : List PivotSpec.Key} {cts : List Content} {pls : List (Nat × Nat)} {c : Cached} (hc : c.Has L build f ks cts pls) (hok : ∀ ct ∈ cts, ct.Ok)
    (keep : Bool) {i : Nat} (hi : i < cts.length) : ∃ c', c.evict L keep i = .ok c' ∧ c'.Has L build f ks cts pls := by
  have hct := List.getElem?_eq_getElem hi
  obtain ⟨s, hs, hsh⟩ := hc.slots.get hct
  have gone : ({ c with slots := c.slots.set i .onDisk } : Cached).Has L build f ks cts pls := ⟨hc.f, hc.places, hc.slots.set hct trivial⟩
  cases s with
  | avail p =>
    by_cases hk : 0 < c.f.height ∧ keep = true
    · obtain ⟨body, un, e, he⟩ := squeeze_ok hL .quicklz hsh.1 (hok _ (List.mem_of_getElem? hct))
      refine ⟨{ c with slots := c.slots.set i (.compressed body un) }, ?_, ⟨hc.f, hc.places, hc.slots.set hct (he c.f rfl)⟩⟩
      rw [Cached.evict, hs]
      simp only
      rw [if_pos hk, e, R.bind_ok]
      rfl
    · refine ⟨_, ?_, gone⟩
      rw [Cached.evict, hs]
      simp only
      rw [if_neg hk]
  | compressed body un =>
    by_cases hk : 0 < c.f.height
    · refine ⟨c, ?_, hc⟩
      rw [Cached.evict, hs]
      simp only
      rw [if_pos hk]
    · refine ⟨_, ?_, gone⟩
      rw [Cached.evict, hs]
      simp only
      rw [if_neg hk]
  | onDisk => exact ⟨c, by rw [Cached.evict, hs], hc⟩

theorem run_cache_ok {L : Lib} (hL : L.Ok) {build : Nat} {f : Fields} {ks : List PivotSpec.Key} {cts : List Content} {pre block post : List Nat} {pls : List (Nat × Nat)}
    (hpl : All2 (Placed L f.height block) pls cts) (hp : pre.length % 512 = 0) (hb : block.length % 512 = 0) (hok : ∀ ct ∈ cts, ct.Ok) {ops : List CacheOp} {c : Cached} (hc : c.Has L build f ks cts pls)
    (hi : ∀ op ∈ ops, op.index < cts.length) : ∃ c', c.run L (pre ++ (block ++ post)) pre.length ops = .ok c' ∧ c'.Has L build f ks cts pls := by
  induction ops generalizing c with
  | nil => exact ⟨c, rfl, hc⟩
  | cons op ops ih =>
    have hop := hi op (by simp)
    cases op with
    | fetch i =>
      obtain ⟨c1, e1, h1, _⟩ := fetch_ok (post := post) (i := i) hpl hp hb hc hop
      obtain ⟨c2, e2, h2⟩ := ih h1 fun op ho => hi op (List.mem_cons_of_mem _ ho)
      exact ⟨c2, by rw [Cached.run, e1, R.bind_ok, e2], h2⟩
    | evict keep i =>
      obtain ⟨c1, e1, h1⟩ := evict_ok (i := i) hL hc hok keep hop
      obtain ⟨c2, e2, h2⟩ := ih h1 fun op ho => hi op (List.mem_cons_of_mem _ ho)
      exact ⟨c2, by rw [Cached.run, e1, R.bind_ok, e2], h2⟩

theorem cache_shown {L : Lib} {s : Node} {cts : List Content} {n : FNode} (h : Good cmp s cts n) {build : Nat} {pls : List (Nat × Nat)} {c : Cached} (hc : c.Has L build n.f s.keys cts pls) :
    CacheShown cmp c s := by
  obtain ⟨q, hq, hr⟩ := hc.f
  refine ⟨fields_shown h ⟨q, build, hq, hr⟩, by rw [hc.slots.length, h.means.length], fun i x p hx hp => ?_⟩
  obtain ⟨ct, hct, hm⟩ := h.means.get hp
  have := hc.slots.get' hx hct
  exact shown_of this.1 this.2 hm

/-- C53, part by part.  The block of a node is a multiple of 512 bytes.  When it is read, in either way, the wanted partitions are there; after any
sequence of fetches and evictions whatever is there is right, and each partition that is not there can be fetched and is then right. -/
theorem C53_parts_come_and_go {L : Lib} (hL : L.Ok) {r : Plan} {s : Node} (hl : ∀ p ∈ r.parts, p.Legal cmp) (hs : r.meant = some s) (ho : NodeSpec.Ok s) (m : Method) (build : Nat) (hb : build < 2 ^ 32)
    (pre post : List Nat) (hp : pre.length % 512 = 0) (all : Bool) (wanted : Nat → Bool) (ops : List CacheOp) (hops : ∀ op ∈ ops, op.index < s.parts.length) :
    ∃ n n' pls block c, r.make cmp = .ok n ∧ n.toMemory L m build = .ok (n', pls, block) ∧ block.length % 512 = 0 ∧
      load L (pre ++ (block ++ post)) pre.length block.length all wanted = .ok (some c) ∧ CacheShown cmp c s ∧
      (∀ i, i < s.parts.length → wanted i = true → ∃ x, c.slots[i]? = some (.avail x)) ∧
      ∃ c', c.run L (pre ++ (block ++ post)) pre.length ops = .ok c' ∧ CacheShown cmp c' s ∧
        ∀ i, i < s.parts.length → ∃ c'' x, c'.fetch L (pre ++ (block ++ post)) pre.length i = .ok c'' ∧ c''.slots[i]? = some (.avail x) ∧ CacheShown cmp c'' s := by
  obtain ⟨n, cts, e, h⟩ := make_ok hl hs ho
  have hlen : cts.length = s.parts.length := h.means.length
  obtain ⟨ps', pls, block, body, rest, un, e1, h1, hi⟩ := h.has.write hL m build
  obtain ⟨c, e2, h2, h3⟩ := load_ok hi h.has.fields hb hp post all wanted
  obtain ⟨c', e3, h4⟩ := run_cache_ok hL (post := post) hi.placed hp hi.whole h.has.ok h2 (ops := ops) (fun op ho => by rw [hlen]; exact hops op ho)
  refine ⟨n, _, pls, block, c, e, e1, hi.whole, e2, cache_shown h h2, fun i hi' hw => h3 i (by omega) hw, c', e3, cache_shown h h4, fun i hi' => ?_⟩
  obtain ⟨c'', e4, h5, ⟨x, hx⟩, _⟩ := fetch_ok (post := post) hi.placed hp hi.whole h4 (i := i) (by omega)
  exact ⟨c'', x, e4, hx, cache_shown h h5⟩

/-! ### Concrete cases -/

/-- A library that puts one byte before what it is given. -/
def plainLib : Lib where
  enc _ src := 8 :: src
  dec _ bs := some (bs.drop 1)
  bound _ n := n + 1

example : plainLib.Ok where
  back _ _ _ _ _ := rfl
  fits m src _ := by show (8 :: src).length ≤ if m = .quicklz then src.length + 400 else src.length + 1; rw [List.length_cons]; split <;> omega
  bound _ n := by show n + 1 ≤ _; omega
  tag src := ⟨8, src, rfl, rfl⟩
  more _ _ _ _ := by simp [plainLib]

/-- A leaf of three parts. -/
def leafPlan : Plan :=
  ⟨29, 1, 77, 0, 0, 5, [.create [[1, 2], [3]], .insert 0 2 [9]], 0, [], [.leaf sampleBnOps 0 70, .leaf sampleBnOps 5 71, .leaf sampleBnOps 6 60, .leaf [.new] 0 0]⟩

/-- An internal node of two children. -/
def innerPlan : Plan := ⟨29, 1, 77, 0, 1, 5, [.create [[1, 2]]], 0, [100, 2 ^ 40], [.inner someOps, .inner []]⟩

example : leafPlan.meant = some ⟨29, 77, 0, 0, 5, [[1, 2], [3], [9]], [], [.rows [([1, 1], stacked), ([5, 5], plain [9, 9, 9, 9]), ([7, 7], plain [1, 2, 3])], .rows [],
    .rows [([7, 7], plain [1, 2, 3]), ([8], plain [8])], .rows []]⟩ := by decide +kernel

theorem leafPlan_legal : ∀ p ∈ leafPlan.parts, p.Legal byteCmp := by
  intro p hp
  simp only [leafPlan, List.mem_cons, List.not_mem_nil, or_false] at hp
  rcases hp with rfl | rfl | rfl | rfl
  · exact sampleBnOps_stored
  · exact sampleBnOps_stored
  · exact sampleBnOps_stored
  · intro op hop l hl
    simp only [List.mem_singleton] at hop
    subst hop
    simp [BnSpec.records] at hl

theorem innerPlan_legal : ∀ p ∈ innerPlan.parts, p.Legal byteCmp := by
  intro p hp
  simp only [innerPlan, List.mem_cons, List.not_mem_nil, or_false] at hp
  rcases hp with rfl | rfl
  · exact someOps_legal
  · exact ⟨by simp [MsgBufSpec.added], by simp [MsgBufSpec.added], by simp [MsgBufSpec.added]⟩

example : ∃ s, leafPlan.meant = some s ∧ NodeSpec.Ok s :=
  ⟨_, rfl, by decide +kernel, by decide +kernel, by decide +kernel, by decide +kernel, by decide +kernel, by decide +kernel, by decide +kernel, by decide +kernel, by decide +kernel, by decide +kernel,
    by decide +kernel, by decide +kernel⟩

example : ∃ s, innerPlan.meant = some s ∧ NodeSpec.Ok s :=
  ⟨_, rfl, by decide +kernel, by decide +kernel, by decide +kernel, by decide +kernel, by decide +kernel, by decide +kernel, by decide +kernel, by decide +kernel, by decide +kernel, by decide +kernel,
    by decide +kernel, by decide +kernel⟩

example : Trip.Ok ⟨.default, 7, [], [3], false, fun i => i == 1, [3, 0, 2]⟩ 4 :=
  ⟨by decide, by decide, by decide, by decide⟩

end Verif.Node
