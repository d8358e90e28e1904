/-! Names of files (`iname`) made from names of dictionaries (`dname`).

Model of `create_iname_hint`, `create_iname`, `generate_iname_for_rename_or_open`, `load_inames` (src/ydb_db.cc:86-203,
1195-1260), and of `env_dbrename_subdb` (src/ydb.cc:3244-3263).  Characters are those of the C locale; the directory in front of
the name (`data_dir`), the same for all, is left out. -/
namespace Verif.Names

/-- `isalnum` in the C locale. -/
def alnum (c : Char) : Bool :=
  ('0' ≤ c && c ≤ '9') || ('a' ≤ c && c ≤ 'z') || ('A' ≤ c && c ≤ 'Z')

/-- `create_iname_hint` without `dir_per_db` (src/ydb_db.cc:119-135): a run of other characters becomes one underscore. -/
def hintGo (underscored : Bool) : List Char → List Char
  | [] => []
  | c :: s => if alnum c then c :: hintGo false s else if underscored then hintGo true s else '_' :: hintGo true s

/-- ... with it (src/ydb_db.cc:96-118): up to the first `/` characters are copied, after it as above; `parsed` says that the
`/` has been seen. -/
def hintDir (underscored parsed : Bool) : List Char → List Char
  | [] => []
  | c :: s =>
    if alnum c || (c == '/' && !parsed) then c :: hintDir false (parsed || c == '/') s
    else if !parsed then c :: hintDir underscored false s
    else if underscored then hintDir true true s else '_' :: hintDir true true s

/-- A leading `.` and then a leading `/` are dropped (src/ydb_db.cc:92-95). -/
def dropLead (c : Char) : List Char → List Char
  | d :: s => if d = c then s else d :: s
  | [] => []

/-- `create_iname_hint` (src/ydb_db.cc:86-136); a name is absolute if it begins with `/`
(portability/portability.cc `toku_os_is_absolute_name`). -/
def hint (dirPerDb : Bool) (s : List Char) : List Char :=
  if dirPerDb && !(s.head? == some '/') then hintDir false false (dropLead '/' (dropLead '.' s)) else hintGo false s

/-- A digit of `%x`. -/
def hexDigit (n : Nat) : Char := ['0', '1', '2', '3', '4', '5', '6', '7', '8', '9', 'a', 'b', 'c', 'd', 'e', 'f'].getD n '0'

/-- `%x`; the first argument bounds the number of digits. -/
def hexGo : Nat → Nat → List Char
  | 0, n => [hexDigit (n % 16)]
  | b + 1, n => if n < 16 then [hexDigit n] else hexGo b (n / 16) ++ [hexDigit (n % 16)]

/-- Sixteen digits are enough for 64 bits. -/
def hex (n : Nat) : List Char := hexGo 15 n

/-- What `create_iname` is asked for: two ids, and for the loader a mark (`B` or `P`) and a number. -/
structure Ids where
  id1 : Nat
  id2 : Nat
  deriving DecidableEq

inductive Mark where
  | B
  | P
  deriving DecidableEq

def Mark.char : Mark → Char
  | .B => 'B'
  | .P => 'P'

/-- `FT_LAYOUT_VERSION` (ft/serialize/ft_layout_version.h:71-73). -/
def version : Nat := 29

/-- `.tokudb` -/
def product : List Char := ['.', 't', 'o', 'k', 'u', 'd', 'b']

/-- `create_iname` (src/ydb_db.cc:141-173). -/
def iname (x : Ids) (h : List Char) : Option (Mark × Nat) → List Char
  | none => h ++ ('_' :: hex x.id1) ++ ('_' :: hex x.id2) ++ ('_' :: hex version) ++ product
  | some (m, n) => h ++ ('_' :: hex x.id1) ++ ('_' :: hex x.id2) ++ ('_' :: hex version) ++ ('_' :: [m.char]) ++ ('_' :: hex n) ++ product

/-- The buffer (src/ydb_db.cc:148-153), less the byte for the end: one name is asserted to fit. -/
def room (h : List Char) : Nat := h.length + 8 + 24 + 8 + 7 + 6 - 1

/-- A call that makes names, with the ids of its own transaction: a create or a rename makes one, a loader one for each of its
dictionaries. -/
inductive Call where
  | one (x : Ids) (dname : List Char)
  | load (x : Ids) (m : Mark) (dnames : List (List Char))

def Call.ids : Call → Ids
  | .one x _ => x
  | .load x _ _ => x

/-- The names a call makes (src/ydb_db.cc:177-203, 1228-1236). -/
def Call.names (b : Bool) : Call → List (List Char)
  | .one x d => [iname x (hint b d) none]
  | .load x m ds => ds.zipIdx.map fun (d, i) => iname x (hint b d) (some (m, i))

/-! Without transactions -/

/-- The directory, and the counter of this process (src/ydb_db.cc:175). -/
structure Env where
  dir : List (List Char × List Char)
  next : Nat

def Env.get (e : Env) (d : List Char) : Option (List Char) := (e.dir.find? (·.1 == d)).map (·.2)

/-- Open, creating if there is none (src/ydb_db.cc:346-372). -/
def Env.open (e : Env) (d : List Char) : Env :=
  match e.get d with
  | some _ => e
  | none => ⟨(d, iname ⟨e.next, 0⟩ (hint false d) none) :: e.dir, e.next + 1⟩

/-- Rename, keeping the file (src/ydb.cc:3300-3345). -/
def Env.rename (e : Env) (d d' : List Char) : Env :=
  match e.get d, e.get d' with
  | some i, none => ⟨(d', i) :: e.dir.filter (·.1 != d), e.next⟩
  | _, _ => e

/-- Remove. -/
def Env.remove (e : Env) (d : List Char) : Env := ⟨e.dir.filter (·.1 != d), e.next⟩

/-- The process ends, and another begins: the counter is 0 again. -/
def Env.restart (e : Env) : Env := ⟨e.dir, 0⟩

inductive Op where
  | open (d : List Char)
  | rename (d d' : List Char)
  | remove (d : List Char)
  | restart

def Env.op (e : Env) : Op → Env
  | .open d => e.open d
  | .rename d d' => e.rename d d'
  | .remove d => e.remove d
  | .restart => e.restart

def Env.run (e : Env) (l : List Op) : Env := l.foldl Env.op e

/-! A dictionary in a dictionary -/

/-- `fname/dbname` -/
def sub (fname dbname : List Char) : List Char := fname ++ '/' :: dbname

/-- What `env_dbrename_subdb` asks for: the old name and the new (src/ydb.cc:3249-3260). -/
def renameSub (fname dbname _newname : List Char) : List Char × List Char := (sub fname dbname, sub fname dbname)

end Verif.Names
