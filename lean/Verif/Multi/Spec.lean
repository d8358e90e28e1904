import Verif.Multi.Model

/-!
# What a caller of the multiple-dictionary operations relies on

The caller has a table: a list of source rows.  Every dictionary of the family shows
exactly the rows computed from the table.  After a crash, every dictionary shows what
it showed before.
-/

namespace Verif.Multi

/-- The comparator of every dictionary calls keys equal in a consistent way. -/
structure Lawful (E : Env) : Prop where
  refl : ∀ d a, E.same d a a = true
  symm : ∀ d a b, E.same d a b = true → E.same d b a = true
  trans : ∀ d a b c, E.same d a b = true → E.same d b c = true → E.same d a c = true

/-- The two callbacks compute the same keys. -/
def GenAgree (E : Env) : Prop :=
  ∀ d src k v, E.genDel d src k v = (E.genPut d src k v).map (fun rows => rows.map Prod.fst)

/-- Every dictionary shows one value for all spellings of a key. -/
def Respects (E : Env) (s : State) : Prop :=
  ∀ d a b, E.same d a b = true → s d a = s d b

/-- The rows that belong in dictionary `d` for the source row `(k, v)`. -/
def rowsOf (E : Env) (src : Option Db) (d : Db) (k v : Bytes) : Option (List Row) :=
  if src = some d then some [(k, v)] else E.genPut d src k v

/-- No two of the keys are equal. -/
def Distinct (E : Env) (d : Db) (keys : List Bytes) : Prop :=
  keys.Pairwise fun a b => E.same d a b = false

/-! ## The dictionaries and the table -/

/-- Dictionary `d` shows the rows computed from the table and nothing else. -/
def Shows (E : Env) (src d : Db) (table : List Row) (s : State) : Prop :=
  ∀ x y, s d x = some y ↔
    ∃ row ∈ table, ∃ rows, rowsOf E (some src) d row.1 row.2 = some rows ∧
      ∃ r ∈ rows, E.same d x r.1 = true ∧ r.2 = y

/-- Every dictionary of the family does. -/
def InStep (E : Env) (src : Db) (fam : List Db) (table : List Row) (s : State) : Prop :=
  ∀ d ∈ fam, Shows E src d table s

/-- No key computed for the one source row is a key computed for the other. -/
def Apart (E : Env) (src d : Db) (a b : Row) : Prop :=
  ∀ ra rb, rowsOf E (some src) d a.1 a.2 = some ra → rowsOf E (some src) d b.1 b.2 = some rb →
    ∀ x ∈ ra, ∀ y ∈ rb, E.same d x.1 y.1 = false

/-- The new row can join the table: its keys are different from each other and from
    those of the rows of the table. -/
def CanJoin (E : Env) (src : Db) (fam : List Db) (table : List Row) (row : Row) : Prop :=
  ∀ d ∈ fam, (∀ rows, rowsOf E (some src) d row.1 row.2 = some rows →
      Distinct E d (rows.map Prod.fst)) ∧
    ∀ other ∈ table, Apart E src d row other

/-- A row computed for the new source row with an empty value, under a key that was
    there for the old one, had an empty value there too (the comment before
    `env_update_multiple`, `src/ydb_write.cc:780`). -/
def EmptyStays (E : Env) (src : Option Db) (d : Db) (old new : Row) : Prop :=
  ∀ ro rn, rowsOf E src d old.1 old.2 = some ro → rowsOf E src d new.1 new.2 = some rn →
    ∀ r ∈ rn, r.2 = [] → r.1 ∈ ro.map Prod.fst → (r.1, []) ∈ ro

/-- What the caller does, said of the table. -/
def tableAfter (table : List Row) : Call → List Row
  | .put _ _ k v _ => (k, v) :: table
  | .del _ _ k v _ => table.erase (k, v)
  | .update _ _ ok ov nk nv _ _ _ => (nk, nv) :: table.erase (ok, ov)

/-- The call names every dictionary of the family once and no other, and names the
    source. -/
def Names (src : Db) (fam : List Db) (s : Option Db) (targets : List Target) : Prop :=
  s = some src ∧ (targets.map Target.db).Nodup ∧ ∀ d, d ∈ targets.map Target.db ↔ d ∈ fam

/-- The caller keeps to the rules: a row that is put can join the table, a row that is
    deleted or changed is in it. -/
def Proper (E : Env) (src : Db) (fam : List Db) (table : List Row) : Call → Prop
  | .put _ s k v ts => Names src fam s ts ∧ CanJoin E src fam table (k, v)
  | .del _ s k v ts => Names src fam s ts ∧ (k, v) ∈ table
  | .update _ s ok ov nk nv _ _ ts =>
    Names src fam s ts ∧ (ok, ov) ∈ table ∧
      CanJoin E src fam (table.erase (ok, ov)) (nk, nv) ∧
      ∀ d ∈ fam, EmptyStays E (some src) d (ok, ov) (nk, nv)

/-- The rows of a table do not get into each other's way. -/
def Good (E : Env) (src : Db) (fam : List Db) (table : List Row) : Prop :=
  (∀ row ∈ table, ∀ d ∈ fam, ∃ rows, rowsOf E (some src) d row.1 row.2 = some rows ∧
      Distinct E d (rows.map Prod.fst)) ∧
    table.Pairwise fun a b => ∀ d ∈ fam, Apart E src d a b

/-! ## Failed puts

A `put_multiple` that fails may have written to some of the dictionaries.  The caller
has to abort the transaction. -/

/-- One of the two codes that can come after the first write. -/
def Outcome.afterWrite : Outcome → Bool
  | .err .keyExist => true
  | .err .einval => true
  | _ => false

/-- The call is a `put_multiple` that ended with such a code. -/
def spoils (E : Env) (s : State) : Call → Bool
  | .put grant src k v ts => (putMultiple E s grant src k v ts).2.2.afterWrite
  | _ => false

/-- One mark for each open transaction, innermost first: such a call was made in it. -/
def mark (E : Env) (w : World) : List Bool → Ev → List Bool
  | fs, .begin => false :: fs
  | fs, .commit => fs.tail
  | fs, .abort => fs.tail
  | f :: fs, .call c => (f || spoils E w.cur c) :: fs
  | [], .call _ => []

/-- No open transaction is marked. -/
def clean (fs : List Bool) : Prop := ∀ f ∈ fs, f = false

/-! ## The rules over a history -/

/-- The tables: the current one and one for each open transaction. -/
structure Tables where
  cur : List Row
  saved : List (List Row)

/-- The table after an event; a call that does not return 0 changes nothing. -/
def Tables.after (E : Env) (w : World) (t : Tables) : Ev → Tables
  | .begin => ⟨t.cur, t.cur :: t.saved⟩
  | .commit => ⟨t.cur, t.saved.tail⟩
  | .abort =>
    match t.saved with
    | [] => t
    | x :: up => ⟨x, up⟩
  | .call c =>
    match t.saved, (c.run E w.cur).2.2 with
    | _ :: _, .ok => ⟨tableAfter t.cur c, t.saved⟩
    | _, _ => t

/-- Along the history the caller keeps to the rules, and commits no transaction in which
    a `put_multiple` failed after it began to write. -/
def Follows (E : Env) (src : Db) (fam : List Db) : World → Tables → List Bool → List Ev → Prop
  | _, _, _, [] => True
  | w, t, fs, e :: es =>
    (match e with
      | .commit => fs.head? ≠ some true
      | .call c => clean fs → Proper E src fam t.cur c
      | _ => True) ∧
    ∀ w' recs, step E w e = some (w', recs) →
      Follows E src fam w' (t.after E w e) (mark E w fs e) es

/-- The tables after a history. -/
def tablesAfter (E : Env) : World → Tables → List Ev → Tables
  | _, t, [] => t
  | w, t, e :: es =>
    match step E w e with
    | none => t
    | some (w', _) => tablesAfter E w' (t.after E w e) es

/-- The marks after a history. -/
def marksAfter (E : Env) : World → List Bool → List Ev → List Bool
  | _, fs, [] => fs
  | w, fs, e :: es =>
    match step E w e with
    | none => fs
    | some (w', _) => marksAfter E w' (mark E w fs e) es

/-! ## Recovery -/

/-- What recovery needs of a call to `update_multiple`: no dictionary is named twice,
    the keys computed for one dictionary are different from each other, and a row with
    an empty value under a key of the old row is there already. -/
def Tidy (E : Env) (s : State) : Call → Prop
  | .update _ src ok ov nk nv _ _ ts =>
    (ts.map Target.db).Nodup ∧ ∀ t ∈ ts, ∀ ro rn,
      rowsOf E src t.db ok ov = some ro → rowsOf E src t.db nk nv = some rn →
      Distinct E t.db (ro.map Prod.fst) ∧ Distinct E t.db (rn.map Prod.fst) ∧
        ∀ r ∈ rn, r.2 = [] → r.1 ∈ ro.map Prod.fst → s t.db r.1 = some []
  | _ => True

/-- The source that a call names. -/
def Call.src : Call → Option Db
  | .put _ src _ _ _ => src
  | .del _ src _ _ _ => src
  | .update _ src _ _ _ _ _ _ _ => src

/-- The file of the source, if the call names one, is there when recovery runs. -/
def SourceFound (here : Db → Bool) (src : Option Db) : Prop := ∀ d, src = some d → here d = true

/-- Along the history: the files of the sources are there when recovery runs, calls to
    `update_multiple` are tidy, and no transaction in which a `put_multiple` failed after
    it began to write commits. -/
def Replayable (E : Env) (here : Db → Bool) : World → List Bool → List Ev → Prop
  | _, _, [] => True
  | w, fs, e :: es =>
    (match e with
      | .commit => fs.head? ≠ some true
      | .call c => SourceFound here c.src ∧ (clean fs → Tidy E w.cur c)
      | _ => True) ∧
    ∀ w' recs, step E w e = some (w', recs) → Replayable E here w' (mark E w fs e) es

end Verif.Multi
