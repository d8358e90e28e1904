/-!
# Names of files

How the name of a file is put together from the directory of the environment, the data directory and the name of the file, and what a rename with
`dir_per_db` does with it.  Simplified: a file system is a function from names to contents; two different names are two different files (no links, no
`..`); allocation does not fail; how the base of a name is made from the name of the dictionary is C69.
-/

namespace Verif.Paths

/-- A string of C, without its 0. -/
abbrev Path := List Char

/-- `toku_os_is_absolute_name`, portability/portability.cc:260-262. -/
def isAbs (p : Path) : Bool := p.head? == some '/'

/-- `snprintf` into a buffer of `n` bytes: what does not fit is cut, and a 0 is put behind. -/
def snprintf (n : Nat) (p : Path) : Path := p.take (n - 1)

/-- The loop of `toku_construct_full_name`, cachetable.cc:2984-2996: `n` the bytes counted, `name` the name so far. -/
def fullLoop (n : Nat) (name : Option Path) : List (Option Path) → Option Path
  | [] => name
  | none :: args => fullLoop n name args
  | some arg :: args =>
    let n' := n + (1 + arg.length + 1)
    let newname := match name with
      | some nm => if !isAbs arg then snprintf n' (nm ++ '/' :: arg) else snprintf n' arg
      | none => snprintf n' arg
    fullLoop n' (some newname) args

/-- `toku_construct_full_name`, cachetable.cc:2977-3000. -/
def fullName (args : List (Option Path)) : Option Path := fullLoop 0 none args

/-- `fullName` of two names that are there (`assert(path)` of the callers). -/
def fullName2 (a b : Path) : Path := (fullName [some a, some b]).getD []

/-- `env->i->dir` and `env->i->data_dir` (`set_data_dir`, ydb.cc:1603-1620). -/
structure Env where
  dir : Path
  dataDir : Option Path
deriving DecidableEq, Repr

/-- `env_setup_real_data_dir`, ydb.cc:376-391; also what `get_data_dir` returns, ydb.cc:1368-1370. -/
def Env.realDataDir (e : Env) : Path := match e.dataDir with
  | some d => fullName2 e.dir d
  | none => e.dir

/-- The end of `create_iname`, ydb_db.cc:166-173: the name of the file that is put into the directory of dictionaries. -/
def Env.iname (e : Env) (base : Path) : Path := match e.dataDir with
  | some d => fullName2 d base
  | none => (fullName [some base]).getD []

/-- `toku_cachetable_get_fname_in_cwd`, cachetable.cc:3002-3005: where a file is opened, made and removed. -/
def Env.openPath (e : Env) (iname : Path) : Path := fullName2 e.dir iname

/-- `new_iname_full`, `old_iname_full` of `toku_ft_rename_iname`, ft-ops.cc:5100-5101, with the `data_dir` of the call, ydb.cc:3326-3330; the same in
`toku_recover_frename`, recover.cc:944-955. -/
def Env.renamePath (e : Env) (iname : Path) : Path := fullName2 e.realDataDir iname

abbrev Fs := Path → Option Nat

/-- `rename(2)`: the error (ENOENT is 2) and the files after it. -/
def osRename (fs : Fs) (a b : Path) : Nat × Fs := match fs a with
  | none => (2, fs)
  | some x => (0, fun p => if p = b then some x else if p = a then none else fs p)

/-- The files and the directory of dictionaries (names to inames). -/
structure St where
  fs : Fs
  names : Path → Option Path

/-- The file work of `toku_ft_rename_iname`, ft-ops.cc:5131-5137. -/
def renameIname (e : Env) (fs : Fs) (old new : Path) : Nat × Fs := osRename fs (e.renamePath old) (e.renamePath new)

/-- `env_dbrename`, ydb.cc:3298-3338, with `dir_per_db`, no handles open, no locks refused: what it returns and what it leaves.  The result of
`toku_ft_rename_iname` is overwritten by that of `toku_db_put`. EEXIST is 17. -/
def dbrename (e : Env) (s : St) (dname newname base : Path) : Nat × St := match s.names dname with
  | none => (2, s)
  | some iname => match s.names newname with
    | some _ => (17, s)
    | none =>
      let newIname := e.iname base
      let r := renameIname e s.fs iname newIname
      (0, ⟨r.2, fun d => if d = newname then some newIname else if d = dname then none else s.names d⟩)

/-- What an open without `DB_CREATE` finds: the file of the iname in the directory of dictionaries, `toku_db_open`, ydb_db.cc:330-420, to
ft-ops.cc:2977. -/
def contents (e : Env) (s : St) (dname : Path) : Option Nat := (s.names dname).bind fun i => s.fs (e.openPath i)

end Verif.Paths
