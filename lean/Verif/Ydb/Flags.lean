/-!
The transaction flags of the client API: their bit values in the `db.h` the build generates.
-/

namespace Verif.Ydb

/-- A C `uint32_t` flag word. -/
abbrev Word := BitVec 32

/-- buildheader/db-4.6.19.h 224; copied to the generated db.h by buildheader/make_tdb.cc 178. -/
def DB_TXN_NOSYNC : Word := 0x0000200#32
/-- buildheader/db-4.6.19.h 225; make_tdb.cc 266. -/
def DB_TXN_NOWAIT : Word := 0x0000400#32
/-- buildheader/db-4.6.19.h 227; make_tdb.cc 265. -/
def DB_TXN_WRITE_NOSYNC : Word := 0x0001000#32
/-- buildheader/db-4.6.19.h 318; make_tdb.cc 267. -/
def DB_TXN_SYNC : Word := 0x0004000#32
/-- buildheader/db-4.6.19.h 255; make_tdb.cc 275. -/
def DB_READ_COMMITTED : Word := 0x04000000#32
/-- buildheader/db-4.6.19.h 258; make_tdb.cc 272. -/
def DB_READ_UNCOMMITTED : Word := 0x08000000#32
/-- buildheader/db-4.6.19.h 261; make_tdb.cc 269. -/
def DB_TXN_SNAPSHOT : Word := 0x10000000#32

/-- `dodefine_from_track`, buildheader/make_tdb.cc 107-118: the lowest bit not used by the flags
already defined (the build stops when there is none). -/
def fromTrack (used : Word) : Word :=
  match (List.range 32).find? (fun i => !used.getLsbD i) with
  | some i => 1#32 <<< i
  | none => 0#32

/-- buildheader/make_tdb.cc 263-276: the flags tracked before the four that Berkeley DB lacks. -/
def tracked0 : Word := DB_TXN_WRITE_NOSYNC ||| DB_TXN_NOWAIT ||| DB_TXN_SYNC ||| DB_TXN_SNAPSHOT |||
  DB_READ_UNCOMMITTED ||| DB_READ_COMMITTED
/-- buildheader/make_tdb.cc 288. -/
def DB_INHERIT_ISOLATION : Word := fromTrack tracked0
/-- buildheader/make_tdb.cc 289. -/
def DB_SERIALIZABLE : Word := fromTrack (tracked0 ||| DB_INHERIT_ISOLATION)
/-- buildheader/make_tdb.cc 290. -/
def DB_TXN_READ_ONLY : Word := fromTrack (tracked0 ||| DB_INHERIT_ISOLATION ||| DB_SERIALIZABLE)
/-- buildheader/make_tdb.cc 291. -/
def DB_READ_COMMITTED_ALWAYS : Word :=
  fromTrack (tracked0 ||| DB_INHERIT_ISOLATION ||| DB_SERIALIZABLE ||| DB_TXN_READ_ONLY)

/-- `DB_ISOLATION_FLAGS`, src/ydb-internal.h 203. -/
def DB_ISOLATION_FLAGS : Word := DB_READ_COMMITTED ||| DB_READ_COMMITTED_ALWAYS |||
  DB_READ_UNCOMMITTED ||| DB_TXN_SNAPSHOT ||| DB_SERIALIZABLE ||| DB_INHERIT_ISOLATION

/-- `TOKU_ISOLATION`, src/ydb-internal.h 194-200. -/
inductive Iso where
  | serializable | snapshot | readCommitted | readUncommitted | readCommittedAlways
  deriving DecidableEq, Repr

/-- `TXN_SNAPSHOT_TYPE`, ft/txn/txn.h: which snapshot a transaction takes. -/
inductive SnapType where
  | none | root | child | copies
  deriving DecidableEq, Repr

end Verif.Ydb
