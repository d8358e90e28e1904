import Verif.Ser.Buf
/-!
The pivot keys of a node, ft/pivotkeys.cc.  Bytes are numbers below 256.  `R.abort` is a failed `invariant`; a read of memory
the object does not own is `R.outside`.
-/
namespace Verif.Node
open Verif.Ser

/-- `_align4`, ft/node.h:104-106. -/
def align4 (n : Nat) : Nat := (n + 3) / 4 * 4

/-- `class ftnode_pivot_keys`, ft/node.h:66-158: keys of one length packed at multiples of the aligned length (`mem` is
`_fixed_keys`, `keylen` is `_fixed_keylen`), or an array of keys.  `_fixed_format()` (115-117) is the constructor; `n` is
`_num_pivots` and `total` is `_total_size`. -/
inductive Pk where
  | fixed (mem : List Nat) (keylen n total : Nat)
  | dbts (keys : List (List Nat)) (total : Nat)
deriving Repr, DecidableEq

/-- `create_empty`, pivotkeys.cc:46-53. -/
def Pk.empty : Pk := .dbts [] 0

/-- A key at a slot of the packed array: the key and the bytes up to the aligned length.  These are uninitialised in the
code (pivotkeys.cc:244-245); here they are 0. -/
def slotOf (key : List Nat) : List Nat := key ++ List.replicate (align4 key.length - key.length) 0

/-- The test that every key has the length of the one before it, pivotkeys.cc:60-66 and 189-192. -/
def sameSize : List (List Nat) → Bool
  | a :: b :: ks => b.length == a.length && sameSize (b :: ks)
  | _ => true

/-- `_num_pivots`. -/
def Pk.num : Pk → Nat
  | .fixed _ _ n _ => n
  | .dbts keys _ => keys.length

/-- `total_size`, pivotkeys.cc:411-415. -/
def Pk.totalSize : Pk → Nat
  | .fixed _ _ _ t => t
  | .dbts _ t => t

/-- `serialized_size`, pivotkeys.cc:417-421. -/
def Pk.serializedSize : Pk → Nat
  | .fixed _ k n _ => n * k
  | .dbts _ t => t

/-- `sanity_check`, pivotkeys.cc:423-437. -/
def Pk.sanity (p : Pk) : R Pk :=
  match p with
  | .fixed _ k n t => if n * k ≤ t ∧ n * align4 k = t then .ok p else .abort
  | .dbts keys t => if (keys.map List.length).sum = t then .ok p else .abort

/-- The copies of keys into a packed array, with the `invariant` that each has the length of the first:
pivotkeys.cc:74-77 and 137-140. -/
def packKeys (keylen : Nat) : List (List Nat) → R (List Nat)
  | [] => .ok []
  | k :: ks => if k.length = keylen then do let m ← packKeys keylen ks; pure (slotOf k ++ m) else .abort

/-- The packed form of an array of keys: pivotkeys.cc:68-77 and 129-151 (`_convert_to_fixed_format`). -/
def toFixed (keys : List (List Nat)) : R Pk :=
  match keys with
  | [] => .outside
  | k :: _ => do
    let m ← packKeys k.length keys
    (Pk.fixed m k.length keys.length (align4 k.length * keys.length)).sanity

/-- `create_from_dbts`, pivotkeys.cc:55-89. -/
def Pk.fromDbts (keys : List (List Nat)) : R Pk :=
  if sameSize keys ∧ 0 < keys.length then toFixed keys
  else (Pk.dbts keys (keys.map List.length).sum).sanity

/-- The bytes of slot `i` of a packed array, `_fixed_key(i)` (ft/node.h:111-113) read for `keylen` bytes. -/
def fixedKey (mem : List Nat) (keylen i : Nat) : R (List Nat) :=
  if i * align4 keylen + keylen ≤ mem.length then .ok ((mem.drop (i * align4 keylen)).take keylen) else .outside

/-- The first `n` slots from slot `i`, in order. -/
def fixedKeys (mem : List Nat) (keylen : Nat) : Nat → Nat → R (List (List Nat))
  | _, 0 => .ok []
  | i, n + 1 => do
    let k ← fixedKey mem keylen i
    let ks ← fixedKeys mem keylen (i + 1) n
    pure (k :: ks)

/-- `_convert_to_dbt_format`, pivotkeys.cc:153-172. -/
def Pk.toDbts (p : Pk) : R Pk :=
  match p with
  | .dbts _ _ => .abort
  | .fixed mem k n _ => do
    let ks ← fixedKeys mem k 0 n
    (Pk.dbts ks (n * k)).sanity

/-- `create_from_pivot_keys`, pivotkeys.cc:101-109, with `_create_from_fixed_keys`, 91-98 (the copy has exactly
`_total_size` bytes). -/
def Pk.clone (p : Pk) : R Pk :=
  match p with
  | .fixed mem k n _ =>
    if align4 k * n ≤ mem.length then (Pk.fixed (mem.take (align4 k * n)) k n (align4 k * n)).sanity else .outside
  | .dbts keys _ => do let q ← Pk.fromDbts keys; q.sanity

/-- `get_pivot`, pivotkeys.cc:202-212, and `fill_pivot`, 214-222. -/
def Pk.get (p : Pk) (i : Nat) : R (List Nat) :=
  match p with
  | .fixed mem k _ _ => fixedKey mem k i
  | .dbts keys _ => match keys[i]? with
    | some k => .ok k
    | none => .outside

/-- The two `_insert_at` functions, pivotkeys.cc:235-249. -/
def Pk.insertIn (p : Pk) (key : List Nat) (i : Nat) : R Pk :=
  match p with
  | .fixed mem k n t =>
    if n * align4 k ≤ mem.length then
      .ok (.fixed (mem.take (i * align4 k) ++ (slotOf key ++ (mem.drop (i * align4 k)).take ((n - i) * align4 k))) k (n + 1) (t + align4 k))
    else .outside
  | .dbts keys t => .ok (.dbts (keys.take i ++ key :: keys.drop i) (t + key.length))

/-- `insert_at`, pivotkeys.cc:251-267. -/
def Pk.insertAt (p : Pk) (key : List Nat) (i : Nat) : R Pk :=
  if i ≤ p.num then do
    let p ← match p with
      | .fixed _ k _ _ => if key.length ≠ k then p.toDbts else pure p
      | .dbts _ _ => pure p
    let p ← p.insertIn key i
    if p.totalSize > 0 then pure p else .abort
  else .abort

/-- The keys of an object read one by one, as `_append_dbt` reads the other object's. -/
def Pk.all (p : Pk) : R (List (List Nat)) :=
  match p with
  | .fixed mem k n _ => fixedKeys mem k 0 n
  | .dbts keys _ => .ok keys

/-- `_append_dbt`, pivotkeys.cc:269-281. -/
def Pk.appendDbt (p q : Pk) : R Pk :=
  match p with
  | .fixed _ _ _ _ => .outside
  | .dbts keys t => do
    let ks ← q.all
    pure (.dbts (keys ++ ks) (t + (ks.map List.length).sum))

/-- A packed array after its memory was resized to `mem`, and the `sanity_check` that follows.  Resizing to nothing frees the
memory and leaves a null pointer (`realloc` of glibc, called at portability/os_malloc.cc:244), so the object is then an array
of keys with no array, which `sanity_check` (pivotkeys.cc:430) allows only with no pivots. -/
def Pk.resized (mem : List Nat) (k n t : Nat) : R Pk :=
  if mem.length = 0 then (if n = 0 then (Pk.dbts [] t).sanity else .abort) else (Pk.fixed mem k n t).sanity

/-- `append`, pivotkeys.cc:296-305, with `_append_fixed`, 283-294. -/
def Pk.append (p q : Pk) : R Pk :=
  match p, q with
  | .fixed mem k n t, .fixed mem' k' n' t' =>
    if k' = k then
      if n * align4 k ≤ mem.length ∧ t' ≤ mem'.length then
        Pk.resized (mem.take (n * align4 k) ++ mem'.take t') k (n + n') (t + t')
      else .outside
    else do let p ← (Pk.fixed mem k n t).toDbts; let p ← p.appendDbt (.fixed mem' k' n' t'); p.sanity
  | .fixed mem k n t, q => do let p ← (Pk.fixed mem k n t).toDbts; let p ← p.appendDbt q; p.sanity
  | p, q => do let p ← p.appendDbt q; p.sanity

/-- `_replace_at_dbt`, pivotkeys.cc:307-310, with the `invariant` of `_destroy_key_dbt`, 229-233. -/
def Pk.replaceDbt (p : Pk) (key : List Nat) (i : Nat) : R Pk :=
  match p with
  | .fixed _ _ _ _ => .outside
  | .dbts keys t => match keys[i]? with
    | some k => if k.length ≤ t then .ok (.dbts (keys.set i key) (t - k.length + key.length)) else .abort
    | none => .outside

/-- The two branches of `replace_at`, pivotkeys.cc:323-332, with `_replace_at_fixed`, 312-320. -/
def Pk.replaceIn (p : Pk) (key : List Nat) (i : Nat) : R Pk :=
  if i < p.num then
    match p with
    | .fixed mem k n t =>
      if key.length = k then
        if i * align4 k + k ≤ mem.length then
          .ok (.fixed (mem.take (i * align4 k) ++ (key ++ mem.drop (i * align4 k + k))) k n t)
        else .outside
      else do let p ← (Pk.fixed mem k n t).toDbts; p.replaceDbt key i
    | .dbts keys t => (Pk.dbts keys t).replaceDbt key i
  else if i = p.num then p.insertAt key i
  else .abort

/-- `replace_at`, pivotkeys.cc:322-334. -/
def Pk.replaceAt (p : Pk) (key : List Nat) (i : Nat) : R Pk := do
  let p ← p.replaceIn key i
  if p.totalSize > 0 then pure p else .abort

/-- `delete_at`, pivotkeys.cc:348-358, with `_delete_at_fixed`, 336-339, and `_delete_at_dbt`, 341-346. -/
def Pk.deleteAt (p : Pk) (i : Nat) : R Pk :=
  if i < p.num then
    match p with
    | .fixed mem k n t =>
      if n * align4 k ≤ mem.length ∧ align4 k ≤ t then
        .ok (.fixed (mem.take (i * align4 k) ++ (mem.drop ((i + 1) * align4 k)).take ((n - 1 - i) * align4 k)) k (n - 1) (t - align4 k))
      else .outside
    | .dbts keys t => match keys[i]? with
      | some k => if k.length ≤ t then .ok (.dbts (keys.eraseIdx i) (t - k.length)) else .abort
      | none => .outside
  else .abort

/-- The loop of `_destroy_key_dbt`, pivotkeys.cc:374-376. -/
def destroyKeys : List (List Nat) → Nat → R Nat
  | [], t => .ok t
  | k :: ks, t => if k.length ≤ t then destroyKeys ks (t - k.length) else .abort

/-- `split_at`, pivotkeys.cc:380-391, with `_split_at_fixed`, 360-367, and `_split_at_dbt`, 369-378: this object, and the
other one if it was made (it is left as it was when `i` is not below the number of pivots). -/
def Pk.splitAt (p : Pk) (i : Nat) : R (Pk × Option Pk) :=
  if i < p.num then
    match p with
    | .fixed mem k n _ =>
      if n * align4 k ≤ mem.length then do
        let q := Pk.fixed ((mem.drop (i * align4 k)).take (align4 k * (n - i))) k (n - i) (align4 k * (n - i))
        let p ← Pk.resized (mem.take (i * align4 k)) k i (i * align4 k)
        pure (p, some q)
      else .outside
    | .dbts keys t => do
      let q ← Pk.fromDbts (keys.drop i)
      let t ← destroyKeys (keys.drop i) t
      let p ← (Pk.dbts (keys.take i) t).sanity
      pure (p, some q)
  else do let p ← p.sanity; pure (p, none)

/-- The loop of `serialize_to_wbuf`, pivotkeys.cc:396-401: the bytes written so far are counted. -/
def writeKeys : List (List Nat) → W → R (Nat × W)
  | [], w => .ok (0, w)
  | k :: ks, w =>
    if k.length ≠ 0 then do
      let w ← w.bytes0 k
      let (n, w) ← writeKeys ks w
      pure (k.length + n, w)
    else .abort

/-- `serialize_to_wbuf`, pivotkeys.cc:393-403. -/
def Pk.serialize (p : Pk) (w : W) : R W := do
  let ks ← p.all
  let (n, w) ← writeKeys ks w
  if n = p.serializedSize then pure w else .abort

/-- The loop of `deserialize_from_rbuf`, pivotkeys.cc:183-193. -/
def readKeys : Nat → Rd → R (List (List Nat) × Rd)
  | 0, r => .ok ([], r)
  | n + 1, r => do
    let (k, r) ← r.bytes
    let (ks, r) ← readKeys n r
    pure (k :: ks, r)

/-- `deserialize_from_rbuf`, pivotkeys.cc:174-200. -/
def Pk.deserialize (r : Rd) (n : Nat) : R (Pk × Rd) := do
  let (ks, r) ← readKeys n r
  let p ← if sameSize ks ∧ 0 < ks.length then do let p ← toFixed ks; p.sanity
    else (Pk.dbts ks (ks.map List.length).sum).sanity
  pure (p, r)

end Verif.Node
