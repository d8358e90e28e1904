import Verif.Ule.Xids
import Verif.Mvcc.Stored

/-!
C07, C08, C12: what is stored for a row, and for a transaction chain, and reading it back.

`Packable` (Pack.lean) is what the format can hold.  `C07_every_reachable_row_is_storable` shows that every
row any schedule can produce satisfies it, up to the machine limits (2^64 ids, 2^32 versions of a row).
-/
namespace Verif.Ule
open Verif.Codec (le ofLe P ret fail andThen num skip rep each Reads le_length)
open Verif.Mvcc (M MEv)

/-- A row with two committed versions and three nested provisional records, the middle one a placeholder. -/
def sample : Ule :=
  ⟨[⟨7, .insert [1, 2, 3]⟩, ⟨5, .delete⟩, ⟨0, .insert [9]⟩], [⟨11, .insert []⟩, ⟨12, .placeholder⟩, ⟨13, .insert [4, 4]⟩]⟩

theorem sample_packable : Packable sample :=
  ⟨⟨_, rfl, rfl⟩, by decide, by simp [sample], by decide, by decide, by decide, by decide⟩

/-- C07: if the row holds any value, it is stored as some bytes; reading the bytes back, whatever follows
them, yields exactly the row and stops exactly at their end. -/
theorem C07_round_trip (u : Ule) (h : Packable u) (hi : HasInsert u) :
    ∃ bs, pack u = some (some bs) ∧ ∀ rest, unpack (bs ++ rest) = some (u, rest) := by
  rcases clean_or_mv h hi with ⟨v, hv⟩ | hm
  · refine ⟨_, pack_clean h hv, ?_⟩
    have := unpack_clean (v := v) (by simpa [XrVal.vallen] using h.vlen ⟨0, .insert v⟩ (by simp [hv]))
    rw [← hv] at this
    exact this
  · exact ⟨_, pack_mvcc h hi hm, unpack_mvcc h⟩

/-- C07: a row in which no version anywhere holds a value is stored as absent. -/
theorem C07_no_value_is_absent (u : Ule) (h : Packable u) (hn : ¬ HasInsert u) : pack u = some none :=
  pack_none h hn

/-- C07: the encoding is injective, so no two different rows share bytes. -/
theorem C07_injective (u v : Ule) (hu : Packable u) (hv : Packable v) (bs : Bytes)
    (h1 : pack u = some (some bs)) (h2 : pack v = some (some bs)) : u = v := by
  have key : ∀ w, Packable w → pack w = some (some bs) → unpack bs = some (w, []) := by
    intro w hw h
    by_cases hi : HasInsert w
    · obtain ⟨b, hb, hr⟩ := C07_round_trip w hw hi
      rw [hb] at h
      simp only [Option.some.injEq] at h
      subst h
      simpa using hr []
    · rw [pack_none hw hi] at h; simp at h
  have := (key u hu h1).symm.trans (key v hv h2)
  simpa using this

/-- C07: the size computed before packing is the number of bytes packed (`le_pack` writes into a buffer of
that size and asserts it is filled exactly). -/
theorem C07_size (u : Ule) (h : Packable u) (hi : HasInsert u) :
    ∃ bs, pack u = some (some bs) ∧ memsizeFromUle u = some bs.length := by
  rcases clean_or_mv h hi with ⟨v, hv⟩ | hm
  · exact ⟨_, pack_clean h hv, memsize_clean hv⟩
  · exact ⟨_, pack_mvcc h hi hm, memsize_mvcc h hm⟩

/-- C07: whatever the schedule, the row it leaves can be stored and read back (as long as ids fit in 64
bits and the row has fewer than 2^32 versions). -/
theorem C07_every_reachable_row_is_storable (last : Txnid) (init : Option Bytes)
    (hinit : (init.getD []).length < 2 ^ 31) (es : List MEv) (m : M)
    (hm : (M.init last init).run init es = .ok m)
    (hver : m.leaf.cux.length < 2 ^ 32) (hids : ∀ r ∈ m.leaf.cux ++ m.leaf.pux, r.xid < 2 ^ 64) :
    (∃ bs, pack m.leaf = some (some bs) ∧ ∀ rest, unpack (bs ++ rest) = some (m.leaf, rest)) ∨
    (pack m.leaf = some none ∧ ∀ acc, Txn.snapshotRead acc m.leaf = none) := by
  have hI := (Mvcc.minv_run (Mvcc.minv_init last init) es).2 m hm
  have hS := Mvcc.solid_run (Mvcc.minv_init last init) (Mvcc.solid_init last init hinit) es hm
  have hp := Mvcc.packable_of hI.rel.wf hS hver hids
  by_cases hi : HasInsert m.leaf
  · exact Or.inl (C07_round_trip _ hp hi)
  · refine Or.inr ⟨pack_none hp hi, fun acc => ?_⟩
    exact (Mvcc.noInsert_of _ (by rw [← hasInsert_iff]; exact hi)).read hp.cne acc

example : HasInsert sample := ⟨⟨7, .insert [1, 2, 3]⟩, by decide, rfl⟩
example : ((pack sample).bind id).map (fun bs => (unpack (bs ++ [1, 2]), bs.length)) =
    some (some (sample, [1, 2]), 74) := by decide +kernel
example : pack emptyUle = some none := by decide +kernel

/-! ### C08 -/

/-- C08: on the stored bytes of a row, each accessor gives the answer computed from the row: the newest
value, its presence, its length; the id of the uncommitted transaction (0 if none); the total size. -/
theorem C08_latest (u : Ule) (h : Packable u) (bs : Bytes) (hb : pack u = some (some bs)) :
    leLatestVal bs = some (latest u) ∧
    leLatestIsDel bs = some (latest u).isNone ∧
    leLatestVallen bs = some ((latest u).getD []).length ∧
    leOutermostXid bs = some (u.pux.head?.elim 0 (·.xid)) ∧
    memsize bs = some bs.length := by
  by_cases hi : HasInsert u
  · rcases clean_or_mv h hi with ⟨v, hv⟩ | hm
    · rw [pack_clean h hv] at hb
      simp only [Option.some.injEq] at hb
      have hlt : v.length < 2 ^ 31 := by simpa [XrVal.vallen] using h.vlen ⟨0, .insert v⟩ (by simp [hv])
      have h4 : Reads (num 4) (le 4 v.length) v.length := Reads.num (by omega)
      have hl : latest u = some v := by subst hv; rfl
      have hp : u.pux = [] := by subst hv; rfl
      rw [hl, hp]
      subst hb
      refine ⟨?_, ?_, ?_, ?_, ?_⟩
      · unfold leLatestVal
        rw [reads_zero.run, if_pos rfl, h4.run]
        have := (Reads.take v).run (fun v => ret (some v)) []
        rw [List.append_nil] at this
        rw [this]; rfl
      · unfold leLatestIsDel; rw [reads_zero.run, if_pos rfl]; rfl
      · unfold leLatestVallen; rw [reads_zero.run, if_pos rfl, h4]; rfl
      · unfold leOutermostXid; rw [reads_zero.run, if_pos rfl]; rfl
      · unfold memsize; rw [reads_zero.run, if_pos rfl, h4.run]; simp [ret]; omega
    · rw [pack_mvcc h hi hm] at hb
      simp only [Option.some.injEq] at hb
      subst hb
      exact ⟨latestVal_mvcc h, latestIsDel_mvcc h, latestVallen_mvcc h, outermost_mvcc h, memsizeP_mvcc h⟩
  · rw [pack_none h hi] at hb; simp at hb

/-- C08: reading the stored bytes with any acceptance rule (snapshot, read-committed, …) gives what the
rule selects from the row, and the is-deleted query agrees. -/
theorem C08_iterate (u : Ule) (h : Packable u) (bs : Bytes) (hb : pack u = some (some bs))
    (f : Bool → Txnid → Bool) :
    leIterateVal f bs = some (readWith f u) ∧ leIterateIsDel f bs = some (readWith f u).isNone := by
  by_cases hi : HasInsert u
  · rcases clean_or_mv h hi with ⟨v, hv⟩ | hm
    · rw [pack_clean h hv] at hb
      simp only [Option.some.injEq] at hb
      have hlt : v.length < 2 ^ 31 := by simpa [XrVal.vallen] using h.vlen ⟨0, .insert v⟩ (by simp [hv])
      have h4 : Reads (num 4) (le 4 v.length) v.length := Reads.num (by omega)
      have hl : readWith f u = some v := by subst hv; rfl
      rw [hl]
      subst hb
      refine ⟨?_, ?_⟩
      · unfold leIterateVal
        rw [reads_zero.run, if_pos rfl, h4.run]
        have := (Reads.take v).run (fun v => ret (some v)) []
        rw [List.append_nil] at this
        rw [this]; rfl
      · unfold leIterateIsDel; rw [reads_zero.run, if_pos rfl]; rfl
    · rw [pack_mvcc h hi hm] at hb
      simp only [Option.some.injEq] at hb
      subst hb
      exact ⟨iterateVal_mvcc h f, iterateIsDel_mvcc h f⟩
  · rw [pack_none h hi] at hb; simp at hb

/-- C08: a snapshot read of the stored bytes is the snapshot read used in C03–C06. -/
theorem C08_snapshot (u : Ule) (h : Packable u) (bs : Bytes) (hb : pack u = some (some bs))
    (acc : Txnid → Bool) : leIterateVal (fun _ => acc) bs = some (Txn.snapshotRead acc u) := by
  rw [(C08_iterate u h bs hb _).1]
  unfold readWith Txn.snapshotRead
  rfl

/-- C08: the read-committed rule (ft/ule.cc:2240-2249: reject exactly the provisional record) reads the
newest committed version from the stored bytes. -/
theorem C08_read_committed (u : Ule) (h : Packable u) (bs : Bytes) (hb : pack u = some (some bs)) :
    leIterateVal (fun prov _ => !prov) bs = some (u.cux.head?.bind fun r => r.val.read) := by
  rw [(C08_iterate u h bs hb _).1]
  have hc : Txn.readCommitted (fun _ => true) u.cux = u.cux.head? := by
    cases hc : u.cux with
    | nil => rfl
    | cons c cs => cases cs <;> simp [Txn.readCommitted]
  unfold readWith
  cases u.pux <;> simp [hc]

/-- C08: the check "does this row carry uncommitted data of my transaction" asks about the right one. -/
theorem C08_has_xids (u : Ule) (h : Packable u) (bs : Bytes) (hb : pack u = some (some bs))
    (x : Txnid) (xs : Xids) (hx : x ≠ 0) :
    leHasXids bs (x :: xs) = some (decide (u.pux.head?.map (·.xid) = some x)) := by
  unfold leHasXids
  simp only
  rw [if_neg (by simpa [txnidNone] using hx), (C08_latest u h bs hb).2.2.2.1]
  cases u.pux with
  | nil => simp; exact fun h => hx h.symm
  | cons o os => simp

/-- C08: the quick test for "garbage collection could shorten this row" looks at the same row. -/
theorem C08_worth_collecting (u : Ule) (h : Packable u) (bs : Bytes) (hb : pack u = some (some bs)) (o : Txnid) :
    leWorthGc bs o = some (decide (1 < u.cux.length ∨ ∃ r, u.pux.head? = some r ∧ r.xid < o)) := by
  by_cases hi : HasInsert u
  · rcases clean_or_mv h hi with ⟨v, hv⟩ | hm
    · rw [pack_clean h hv] at hb
      simp only [Option.some.injEq] at hb
      subst hb
      unfold leWorthGc
      rw [reads_zero.run, if_pos (by decide)]
      subst hv
      simp [ret]
    · rw [pack_mvcc h hi hm] at hb
      simp only [Option.some.injEq] at hb
      subst hb
      exact worthGc_mvcc h o
  · rw [pack_none h hi] at hb; simp at hb

example : ((pack sample).bind id).map (fun bs => (leLatestVal bs, leIterateVal (fun p _ => !p) bs)) =
    some (some (some [4, 4]), some (some [1, 2, 3])) := by decide +kernel
example : ((pack sample).bind id).map (fun bs => (leIterateVal (fun _ x => x ≤ 5) bs,
    leIterateVal (fun _ x => x ≤ 4) bs)) = some (some none, some (some [9])) := by decide +kernel
example : ((pack sample).bind id).map (fun bs => (leOutermostXid bs, memsize bs, leHasXids bs [11, 12])) =
    some (some 11, some 74, some true) := by decide +kernel

/-! ### C12 -/

theorem canCreateChild_eq (xs : Xids) (h : xs.length ≤ 253) : canCreateChild xs = some (decide (xs.length < 253)) := by
  unfold canCreateChild
  rw [if_pos (show xs.length < maxTransactionRecords by unfold maxTransactionRecords; omega)]
  congr 1
  rw [decide_eq_decide]
  unfold maxTransactionRecords
  omega

theorem appendXid_eq (xs : Xids) (h : xs.length < 253) (x : Txnid) : appendXid xs x = some (xs ++ [x]) := by
  unfold appendXid
  rw [if_pos (show xs.length + 1 < maxTransactionRecords by unfold maxTransactionRecords; omega)]

theorem beginNested_some (p : Xids) (hp : p.length ≤ 253) (hne : p ≠ []) (k : Nat) (ids : List Txnid) :
    beginNested (some p) k ids =
      some (some (p ++ ids.take (253 - p.length)), k + (ids.length - (253 - p.length))) := by
  induction ids generalizing p k with
  | nil => simp [beginNested]
  | cons x ids ih =>
    simp only [beginNested, beginXids, canCreateChild_eq p hp, Option.bind_some]
    by_cases h : p.length = 253
    · rw [if_neg (by simp; omega)]
      simp only [Option.bind_some]
      rw [ih p hp hne]
      simp [h]; omega
    · rw [if_pos (by simp; omega)]
      rw [appendXid_eq p (by omega)]
      simp only [Option.map_some, Option.bind_some]
      rw [ih (p ++ [x]) (by simp; omega) (by simp)]
      have e : 253 - p.length = (253 - (p ++ [x]).length) + 1 := by simp; omega
      rw [e, List.take_succ_cons]
      simp

/-- C12: begin transactions each nested in the previous one, starting from a root transaction.  Exactly the
first 253 succeed, each adding its id at the end of the chain; every further attempt fails with EINVAL and
leaves the chain as it was. -/
theorem C12_nesting_limit (ids : List Txnid) (hne : ids ≠ []) :
    beginNested none 0 ids = some (some (ids.take 253), ids.length - 253) := by
  cases ids with
  | nil => exact absurd rfl hne
  | cons x ids =>
    simp only [beginNested, beginXids]
    rw [appendXid_eq [] (by simp)]
    simp only [Option.map_some, Option.bind_some, List.nil_append]
    rw [beginNested_some [x] (by simp) (by simp)]
    simp

/-- C12: the API used by the loader and the indexer to extend a chain: fails with EINVAL iff the chain
already has 253 levels. -/
theorem C12_create_child (xs : Xids) (h : xs.length ≤ 253) (x : Txnid) :
    createChild xs x = some (if xs.length < 253 then some (xs ++ [x]) else none) := by
  simp only [createChild, canCreateChild_eq xs h, Option.bind_some]
  by_cases h1 : xs.length < 253
  · rw [if_pos (by simpa using h1), appendXid_eq xs h1, if_pos h1]; rfl
  · rw [if_neg (by simpa using h1), if_neg h1]

/-- C12: a chain of at most 253 ids written with a message is read back exactly, whatever follows it, and
takes the number of bytes announced. -/
theorem C12_codec (xs : Xids) (h : xs.length ≤ 253) (hx : ∀ x ∈ xs, x < 2 ^ 64) :
    (∀ rest, xidsDecode (xidsEncode xs ++ rest) = some (xs, rest)) ∧ (xidsEncode xs).length = xidsSerializeSize xs := by
  refine ⟨?_, ?_⟩
  · have hr := Reads.rep (p := num 8) (enc := le 8) (val := id) xs (fun x hm => Reads.num (by simpa using hx x hm))
    rw [List.map_id] at hr
    have : Reads xidsDecode (xidsEncode xs) xs := by
      unfold xidsDecode xidsEncode
      refine (Reads.num (n := 1) (v := xs.length) (by omega)).andThen ?_
      rw [if_pos (by unfold maxTransactionRecords; omega)]
      exact hr
    exact this
  · unfold xidsEncode xidsSerializeSize
    rw [List.length_append, le_length, flatMap_const _ _ 8 (fun x => le_length ..)]

example : beginNested none 0 ((List.range 255).map (· + 1)) =
    some (some ((List.range 253).map (· + 1)), 2) := by
  rw [C12_nesting_limit _ (by simp), ← List.map_take, List.take_range]; simp
example : xidsDecode (xidsEncode [5, 2 ^ 63, 9] ++ [7]) = some ([5, 2 ^ 63, 9], [7]) := by decide +kernel

end Verif.Ule
