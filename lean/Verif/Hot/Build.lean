import Mathlib.Order.Defs.LinearOrder

/-! Building an index while clients write: the builder's position, the clients' decision whether to write to the
index, and the estimate that lets them skip the indexer's lock.

Model of `build_index` (src/indexer.cc:531-585), `toku_le_cursor_next` / `..._is_key_greater_or_equal` /
`..._update_estimate` (ft/le-cursor.cc:91-140), `toku_indexer_may_insert`, `toku_indexer_update_estimate`,
`toku_indexer_should_insert_key` (src/indexer.cc:174-207, 343-353) and of the clients: `env_put_multiple`,
`env_del_multiple`, `env_update_multiple` with `do_put_multiple`, `do_del_multiple`
(src/ydb_write.cc:405-441, 481-592, 602-770, 783-1050).

Every step of the relation `Step` below is one thing a thread does; the theorems are about all interleavings.
Simplifications: one version per row (`Verif.Hot.Model` is about the versions); all indexes being built are one
dictionary (make the index part of the key); keys that compare equal are equal; the writes to one dictionary in one
call are one step; no call fails half way. -/
namespace Verif.Hot.Build

variable {K H V W : Type} [LinearOrder K] [DecidableEq H]

/-- Where the builder's cursor is (`le_cursor`'s two flags and the cursor's key, ft/le-cursor.cc:44-48): it starts
above all keys and moves down. -/
inductive Pos (K : Type) where
  | start
  | at (k : K)
  | done

/-- `toku_indexer_should_insert_key` / `toku_le_cursor_is_key_greater_or_equal`, ft/le-cursor.cc:107-126. -/
def shouldInsert : Pos K → K → Bool
  | .done, _ => true
  | .start, _ => false
  | .at p, k => p ≤ k

/-- `toku_le_cursor_update_estimate`, ft/le-cursor.cc:128-140: nothing at the two ends. -/
def updateEstimate : Pos K → Option K → Option K
  | .at p, _ => some p
  | _, est => est

/-- `toku_indexer_may_insert`, src/indexer.cc:181-203. -/
def mayInsert (est : Option K) (k : K) : Bool :=
  match est with
  | none => false
  | some e => e < k

/-- One part of a client's call: the source dictionary, or the index with the source key the decision is made on. -/
inductive Act (K H V W : Type) where
  | src (k : K) (v : Option V)
  | idx (guard : K) (rows : List (H × Option W))

/-- How a client runs: it was told by the estimate that everything it does belongs in the index; or it holds the
indexer's lock; or neither, when the call names another source dictionary than the indexer's
(`src_same` is false, src/ydb_write.cc:562-574). -/
inductive Mode where
  | shortcut | locked | bare
  deriving DecidableEq

/-- A client in the middle of a call: what is left to do, and the source rows it has locked. -/
structure Client (K H V W : Type) where
  acts : List (Act K H V W)
  keys : List K
  mode : Mode

/-- Who holds the indexer's lock (`toku_indexer_lock`, src/indexer.cc:164-172). -/
inductive Holder (K V : Type) where
  | free
  | client
  | builder (k : K) (v : Option V)

/-- The two dictionaries. -/
structure Data (K H V W : Type) where
  src : K → Option V
  idx : H → Option W

structure World (K H V W : Type) where
  data : Data K H V W
  pos : Pos K
  est : Option K
  holder : Holder K V
  clients : List (Client K H V W)

/-- Write rows to the index, in order. -/
def writeIdx (idx : H → Option W) : List (H × Option W) → H → Option W
  | [] => idx
  | r :: rs => writeIdx (fun h => if h = r.1 then r.2 else idx h) rs

/-- One act: writing to the source, or writing to the index if `here` says so. -/
def doAct (here : K → Bool) (d : Data K H V W) : Act K H V W → Data K H V W
  | .src k v => { d with src := fun k' => if k' = k then v else d.src k' }
  | .idx g rows => if here g then { d with idx := writeIdx d.idx rows } else d

/-- The rows of one source row: the user's `generate_row_for_put`, and the keys of `generate_row_for_del`. -/
abbrev Gen (K H V W : Type) := K → V → List (H × W)

/-- The puts of all rows. -/
def puts (gen : Gen K H V W) (k : K) (v : V) : List (H × Option W) := (gen k v).map fun r => (r.1, some r.2)
/-- The puts for a leaf entry: nothing if it has no row (`indexer_undo_do`). -/
def rowPuts (gen : Gen K H V W) (k : K) : Option V → List (H × Option W)
  | some v => puts gen k v
  | none => []
/-- The deletes of all rows. -/
def dels (gen : Gen K H V W) (k : K) (v : V) : List (H × Option W) := (gen k v).map fun r => (r.1, none)
/-- `env_update_multiple` with the source key unchanged, src/ydb_write.cc:905-1000: old keys that are not among the
new ones are deleted ... -/
def updDels (gen : Gen K H V W) (k : K) (vo vn : V) : List (H × Option W) :=
  ((gen k vo).filter fun r => ((gen k vn).map Prod.fst).contains r.1 = false).map fun r => (r.1, none)
/-- ... and the new rows that were not there in the same form are put. -/
def updPuts [DecidableEq W] (gen : Gen K H V W) (k : K) (vo vn : V) : List (H × Option W) :=
  ((gen k vn).filter fun r => (gen k vo).contains r = false).map fun r => (r.1, some r.2)

/-- A call and what it does, dictionary by dictionary in the order of the caller's array.  The caller knows the row
(`src`): puts are for keys that are not there, deletes and updates name the row that is there. -/
inductive Call [DecidableEq W] (gen : Gen K H V W) (src : K → Option V) : List K → List (Act K H V W) → Prop where
  | put (k : K) (v : V) : src k = none → ∀ acts,
      acts = [.src k (some v), .idx k (puts gen k v)] ∨ acts = [.idx k (puts gen k v), .src k (some v)] →
      Call gen src [k] acts
  | del (k : K) (v : V) : src k = some v → ∀ acts,
      acts = [.src k none, .idx k (dels gen k v)] ∨ acts = [.idx k (dels gen k v), .src k none] →
      Call gen src [k] acts
  | upd (k : K) (vo vn : V) : src k = some vo → ∀ acts,
      acts = [.src k (some vn), .idx k (updPuts gen k vo vn)] ∨
      acts = [.idx k (updPuts gen k vo vn), .src k (some vn)] →
      Call gen src [k] (.idx k (updDels gen k vo vn) :: acts)
  | move (ko kn : K) (vo vn : V) : ko ≠ kn → src ko = some vo → src kn = none → ∀ a1 a2,
      a1 = [.src ko none, .idx ko (dels gen ko vo)] ∨ a1 = [.idx ko (dels gen ko vo), .src ko none] →
      a2 = [.src kn (some vn), .idx kn (puts gen kn vn)] ∨ a2 = [.idx kn (puts gen kn vn), .src kn (some vn)] →
      Call gen src [ko, kn] (a1 ++ a2)

/-- Does this client write to the index for this source key?  `do_put`/`do_delete`, src/ydb_write.cc:414-433,
613-630. -/
def writesHere (w : World K H V W) (c : Client K H V W) (k : K) : Bool :=
  c.mode = .shortcut || shouldInsert w.pos k

/-- The estimate after an act: a client that does not take the shortcut refreshes it when it writes to the index
(src/ydb_write.cc:432, 629). -/
def estAfter (w : World K H V W) (c : Client K H V W) : Act K H V W → Option K
  | .src _ _ => w.est
  | .idx _ _ => if c.mode = .shortcut then w.est else updateEstimate w.pos w.est

/-- No row of the call is locked by another client. -/
def unlocked (w : World K H V W) (keys : List K) : Prop := ∀ c ∈ w.clients, ∀ k ∈ keys, k ∉ c.keys

/-- One step of one thread.  `other`: are there calls that name another source dictionary? -/
inductive Step [DecidableEq W] (gen : Gen K H V W) (other : Bool) : World K H V W → World K H V W → Prop where
  /-- src/ydb_write.cc:565-572: the cheap check says yes -/
  | beginShortcut (w) (keys acts) : Call gen w.data.src keys acts → unlocked w keys →
      (∀ k ∈ keys, mayInsert w.est k = true) →
      Step gen other w { w with clients := ⟨acts, keys, .shortcut⟩ :: w.clients }
  /-- ... or it does not, and the lock is taken -/
  | beginLocked (w) (keys acts) : Call gen w.data.src keys acts → unlocked w keys →
      (¬ ∀ k ∈ keys, mayInsert w.est k = true) → w.holder = .free →
      Step gen other w { w with holder := .client, clients := ⟨acts, keys, .locked⟩ :: w.clients }
  /-- `src_same` is false: neither -/
  | beginBare (w) (keys acts) : other = true → Call gen w.data.src keys acts → unlocked w keys →
      Step gen other w { w with clients := ⟨acts, keys, .bare⟩ :: w.clients }
  /-- the next dictionary of a call -/
  | act (w) (l1 l2) (c : Client K H V W) (a rest) : w.clients = l1 ++ c :: l2 → c.acts = a :: rest →
      Step gen other w { w with data := doAct (writesHere w c) w.data a, est := estAfter w c a,
                                clients := l1 ++ { c with acts := rest } :: l2 }
  /-- the end of a call -/
  | finish (w) (l1 l2) (c : Client K H V W) : w.clients = l1 ++ c :: l2 → c.acts = [] →
      Step gen other w { w with holder := if c.mode = .locked then .free else w.holder, clients := l1 ++ l2 }
  /-- the builder, with the lock, moves to the next leaf entry down and reads it; there may be leaf entries
  without a row (deleted ones) -/
  | builderRead (w) (k) : w.holder = .free → shouldInsert w.pos k = false →
      (∀ k', k < k' → shouldInsert w.pos k' = false → w.data.src k' = none) →
      Step gen other w { w with pos := .at k, holder := .builder k (w.data.src k) }
  /-- the builder sends the rows and gives up the lock -/
  | builderWrite (w) (k v) : w.holder = .builder k v →
      Step gen other w { w with
        data := { w.data with idx := writeIdx w.data.idx (rowPuts gen k v) },
        holder := .free }
  /-- the builder finds nothing further down -/
  | builderEnd (w) : w.holder = .free → (∀ k, shouldInsert w.pos k = false → w.data.src k = none) →
      Step gen other w { w with pos := .done }

/-- `toku_indexer_create_indexer`: the index is empty, the cursor above all keys, no estimate. -/
def begin_ (src : K → Option V) : World K H V W := ⟨⟨src, fun _ => none⟩, .start, none, .free, []⟩

/-- What can be reached. -/
inductive Reach [DecidableEq W] (gen : Gen K H V W) (other : Bool) (src : K → Option V) : World K H V W → Prop where
  | start : Reach gen other src (begin_ src)
  | step (w w') : Reach gen other src w → Step gen other w w' → Reach gen other src w'

end Verif.Hot.Build
