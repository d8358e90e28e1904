/-!
# Errors of a bulk load: what put and close return, and what the error callback is told

`src/loader.cc` and `ft/loader/callbacks.cc`.  What the stages of the load do is left out (C44, C81): that they fail, when, and with which code is
free.
-/

namespace Verif.LoadErr

/-- DB_KEYEXIST of Berkeley DB; only that it is not 0 matters. -/
def keyExist : Int := -30995

/-- EINVAL. -/
def inval : Int := 22

/-- What the error callback is told: index of the dictionary, code, key. -/
structure Told where
  which : Nat
  code : Int
  key : Option Nat
deriving DecidableEq, Repr

/-- `struct error_callback_s`, loader-internal.h:133-143; `fn`: there is a function; `log`: what it was told. -/
structure Ce where
  error : Int
  which : Nat
  key : Option Nat
  fn : Bool
  did : Bool
  log : List Told

/-- `ft_loader_init_error_callback`, callbacks.cc:58-63. -/
def Ce.init : Ce := ⟨0, 0, none, false, false, []⟩

/-- `ft_loader_set_error`, callbacks.cc:84-103; the result is 0 if the error was noted. -/
def Ce.set (c : Ce) (e : Int) (which : Nat) (key : Option Nat) : Ce × Bool :=
  if c.error ≠ 0 then (c, false) else ({ c with error := e, which := which, key := key }, true)

/-- `ft_loader_call_error_function`, callbacks.cc:105-120; the result is `error`. -/
def Ce.call (c : Ce) : Ce :=
  if c.error ≠ 0 ∧ c.fn = true ∧ c.did = false then { c with did := true, log := c.log ++ [⟨c.which, c.error, c.key⟩] } else c

/-- `ft_loader_set_error_and_callback`, callbacks.cc:122-127, and `ft_loader_set_panic` with `callback`, loader.cc:653-661. -/
def Ce.setCall (c : Ce) (e : Int) (which : Nat) (key : Option Nat) : Ce :=
  if (c.set e which key).2 then (c.set e which key).1.call else (c.set e which key).1

/-- A stage fails.  `dup`: equal keys in a row set, found by `merge_row_arrays_base`, loader.cc:1362-1367, 1408-1413, and noted only if there is
a function; then `ft_loader_set_panic` without key and call, loader.cc:1095, 1103, 1308 (in the first two for dictionary 0: `at`).  `fail`: other
failures of the extractor.  `merge`: equal keys in a merge, pqueue.cc:90-99.  `panic`: failures in writing the tree, loader.cc:2115, 2510, 2545,
2555, 3073, 3296. -/
inductive Fail where
  | dup (which at_ : Nat) (key : Nat)
  | fail (e : Int) (at_ : Nat)
  | merge (which : Nat) (key : Nat)
  | panic (e : Int) (which : Nat)
deriving DecidableEq, Repr

def Ce.fails (c : Ce) : Fail → Ce
  | .dup w a k => ((if c.fn then (c.set keyExist w (some k)).1 else c).set keyExist a none).1
  | .fail e a => (c.set e a none).1
  | .merge w k => c.setCall keyExist w (some k)
  | .panic e w => c.setCall e w none

/-- `struct __toku_loader_internal`, loader.cc:87-118: whether puts are disallowed, whether there is an error callback, the error of a put. -/
structure L where
  dis : Bool
  user : Bool
  errno : Int
  key : Option Nat
  ce : Ce

/-- A loader that was just created, loader.cc:205-330. -/
def L.init (dis user : Bool) : L := ⟨dis, user, 0, none, .init⟩

/-- `toku_loader_put`, loader.cc:363-406, with `toku_ft_loader_put`, ft/loader/loader.cc:1322-1331; `own`: the result of `loader_do_put`. -/
def L.put (l : L) (key : Nat) (own : Int) : L × Int :=
  if l.errno ≠ 0 then (l, -1)
  else if l.dis then (l, inval)
  else
    let r := if l.ce.error ≠ 0 then inval else own
    if r ≠ 0 then ({ l with errno := r, key := some key }, -1) else (l, 0)

/-- What happens before close: a put, or a failure in the extractor thread. -/
inductive Ev where
  | put (key : Nat) (own : Int)
  | bg (f : Fail)
deriving DecidableEq, Repr

/-- A history: the loader and the results of the puts. -/
def L.run (l : L) : List Ev → L × List Int
  | [] => (l, [])
  | .put k own :: es => (((l.put k own).1.run es).1, (l.put k own).2 :: ((l.put k own).1.run es).2)
  | .bg f :: es => ({ l with ce := l.ce.fails f }.run es)

/-- What happens in close: failures while the extractor finishes, the result of closing the temporary files, failures of the merges and of the
writing, its result, and that of the redirection. -/
structure Close where
  bg : List Fail
  files : Int
  late : List Fail
  work : Int
  redirect : Int

/-- `toku_ft_loader_close`, ft/loader/loader.cc:2892-2931, with `finish_extractor`, 1138-1172, which does not look at noted errors. -/
def ftClose (c : Ce) (user : Bool) (x : Close) : Ce × Int :=
  let c := x.bg.foldl Ce.fails { c with fn := user }
  if x.files ≠ 0 then (c, x.files)
  else if c.call.error ≠ 0 then (c.call, c.call.error)
  else (x.late.foldl Ce.fails c.call, x.work)

/-- Result of close: the value returned, whether the dictionaries hold the load, what the error callback was told. -/
structure Res where
  ret : Int
  loaded : Bool
  told : List Told
deriving DecidableEq, Repr

/-- `toku_loader_close`, loader.cc:426-458, with `toku_ft_loader_abort`, ft/loader/loader.cc:2944-2962, and `ft_loader_close_and_redirect`,
163-182.  (A loader that disallows puts has been redirected to empty dictionaries when it was created.) -/
def L.close (l : L) (x : Close) : Res :=
  if l.errno ≠ 0 then
    let told := if l.user then l.ce.log ++ [⟨0, l.errno, l.key⟩] else l.ce.log
    if l.dis then ⟨l.errno, false, told⟩ else ⟨x.files, false, told⟩
  else if l.dis then ⟨0, true, l.ce.log⟩
  else
    let t := ftClose l.ce l.user x
    let r := if t.2 = 0 then x.redirect else t.2
    ⟨r, decide (r = 0), t.1.log⟩

end Verif.LoadErr
