/-!
# Files that are closed and opened again

Model of the list of cachefiles (ft/cachetable/cachetable.cc:350-570, 4755-5010): open files by file number and by
file id (device and inode), and files that were closed but whose pages are still in memory ("stale").  Opening,
closing and the beginning of a checkpoint exclude each other by the open-close lock (ft/ft-ops.cc:2967,
ft/ft.cc:933), so opening and closing are one step each; the evictor works on stale files without that lock, in two
steps.  A page is a key with a value; what a page holds is modelled elsewhere.
-/

namespace Verif.Stale

/-- Change a function in one place. -/
def upd {β : Type} (f : Nat → β) (a : Nat) (b : β) : Nat → β := fun x => if x = a then b else f x

/-- FILENUM_NONE, ft/logger/logger.h:101: UINT32_MAX. -/
def none32 : Nat := 4294967295

/-- A page in memory: struct ctpair, ft/cachetable/cachetable-internal.h:172 (key, value_data, dirty). -/
structure Page where
  key : Nat
  val : Nat
  dirty : Bool
deriving DecidableEq, Repr

/-- struct cachefile, ft/cachetable/cachetable-internal.h:126; the tree header hangs off it (`userdata`).  `id` names the
object in memory; `num` is FILENUM_NONE while the file is closed. -/
structure Cf where
  id : Nat
  ino : Nat
  num : Nat
  name : Nat
  pages : List Page
  unlink : Bool
deriving DecidableEq, Repr

/-- `dir`: the directory, names with inodes; `content`: what is on disk, by inode and key.  `freed`: objects whose
memory was given back, with their tree headers.  `evicting`: the evictor is between the two halves of
evict_some_stale_pair, with a page of this object, the last one or not. -/
structure S where
  dir : List (Nat × Nat)
  content : Nat → Nat → Nat
  active : List Cf
  stale : List Cf
  next : Nat
  nextId : Nat
  freed : List Nat
  evicting : Option (Nat × Bool)

/-- cachefile_list::init, ft/cachetable/cachetable.cc:4759-4766: nothing open, next_filenum_to_use 0. -/
def start : S := ⟨[], fun _ _ => 0, [], [], 0, 0, [], none⟩

/-- What the operating system finds under a name (open and toku_os_get_unique_file_id in ft/cachetable/cachetable.cc:398-425, 474-486). -/
def nameOf (dir : List (Nat × Nat)) (n : Nat) : Option Nat := (dir.find? (fun p => p.1 == n)).map (·.2)

/-- cachefile_list::reserve_filenum, ft/cachetable/cachetable.cc:4889-4913; the loop of the code has no bound, `fuel`
bounds it here (one more than the number of open files and the reserved value: see `C83_reserve`). -/
def reserveFrom (used : List Nat) : Nat → Nat → Option (Nat × Nat)
  | 0, _ => none
  | fuel + 1, n =>
    if n ∈ used then reserveFrom used fuel ((n + 1) % 4294967296)
    else if n = none32 then reserveFrom used fuel 0
    else some (n, (n + 1) % 4294967296)

/-- The keys of m_active_filenum, ft/cachetable/cachetable.cc:4889-4913. -/
def S.used (s : S) : List Nat := s.active.map Cf.num

/-- reserve_filenum with enough tries; the code has no bound. -/
def S.reserve (s : S) : Option (Nat × Nat) := reserveFrom s.used (s.used.length + 2) s.next

/-- The calls, and the steps of the evictor. -/
inductive Ev
  /-- A file is made; the operating system picks an inode that no name and no open file has. -/
  | create (name ino : Nat)
  /-- ft_handle_open: with a number from the log in recovery, or a new one. -/
  | open (name : Nat) (want : Option Nat)
  | put (num key val : Nat)
  | get (num key : Nat)
  /-- The evictor drops a page of an open file. -/
  | drop (num key : Nat)
  /-- toku_cachefile_unlink_on_close. -/
  | mark (num : Nat)
  /-- toku_cachefile_close. -/
  | close (num : Nat)
  /-- toku_rollback_load. -/
  | rollbackLoad (name : Nat)
  /-- evict_some_stale_pair up to the end of the lock; the code takes the file with the smallest file id. -/
  | evBegin (i : Nat)
  /-- Its rest. -/
  | evEnd
  /-- toku_cachetable_close. -/
  | shutdown
deriving DecidableEq, Repr

/-- What a call gives back. -/
inductive Ans
  | done
  | noent
  | opened (num : Nat) (wasOpen : Bool)
  | val (v : Nat)
  /-- Memory was used after it was given back. -/
  | bad
deriving DecidableEq, Repr

/-- pair_list::find_pair, ft/cachetable/cachetable.cc:3439: a page of the file by key. -/
def Cf.look (c : Cf) (k : Nat) : Option Page := c.pages.find? (fun p => p.key == k)

/-- The pages after one is removed (cachetable_remove_pair, ft/cachetable/cachetable.cc:608). -/
def Cf.without (c : Cf) (k : Nat) : List Page := c.pages.filter (fun p => p.key != k)

/-- What is on disk after the dirty ones of some pages are written (cachetable_flush_cachefile,
ft/cachetable/cachetable.cc:2409-2443). -/
def flush (content : Nat → Nat) (pages : List Page) : Nat → Nat := fun k =>
  match pages.find? (fun p => p.key == k) with
  | some p => if p.dirty then p.val else content k
  | none => content k

/-- A page after it was written (cachetable_only_write_locked_data, ft/cachetable/cachetable.cc:641: dirty is cleared). -/
def Page.clean (p : Page) : Page := { p with dirty := false }

/-- One open file changes. -/
def S.change (s : S) (num : Nat) (g : Cf → Cf) : S :=
  { s with active := s.active.map (fun c => if c.num = num then g c else c) }

/-- cachefile_list::cachefile_of_filenum, ft/cachetable/cachetable.cc:4831-4844. -/
def S.byNum (s : S) (num : Nat) : Option Cf := s.active.find? (fun c => c.num == num)

/-- One step; `none`: not possible now; `some none`: an assertion fails. -/
def act (s : S) : Ev → Option (Option (S × Ans))
  | .create name ino =>
    if s.dir.all (fun p => p.1 != name && p.2 != ino) && s.active.all (fun c => c.ino != ino) then
      some (some ({ s with dir := (name, ino) :: s.dir, content := upd s.content ino (fun _ => 0) }, .done))
    else none
  -- toku_cachetable_openfd_with_filenum, ft/cachetable/cachetable.cc:398-469
  | .open name want =>
    match nameOf s.dir name with
    | none => some (some (s, .noent))
    | some ino =>
      match s.active.find? (fun c => c.ino == ino) with
      | some c => if c.unlink then some none else some (some (s, .opened c.num true))
      | none =>
        let r := match want with
          | some n => some (n, s.next)
          | none => s.reserve
        match r with
        | none => none
        | some (num, next) =>
          if num = none32 ∨ num ∈ s.used then some none
          else
            match s.stale.find? (fun c => c.ino == ino) with
            | some c =>
              if c.unlink then some none
              else some (some ({ s with
                active := { c with num := num, name := name } :: s.active
                stale := s.stale.filter (fun d => d.ino != ino)
                next := next }, .opened num false))
            | none =>
              some (some ({ s with
                active := { id := s.nextId, ino := ino, num := num, name := name, pages := [], unlink := false } ::
                  s.active
                next := next
                nextId := s.nextId + 1 }, .opened num false))
  | .put num key val =>
    match s.byNum num with
    | some _ => some (some (s.change num (fun c => { c with pages := ⟨key, val, true⟩ :: c.without key }), .done))
    | none => none
  | .get num key =>
    match s.byNum num with
    | some c =>
      match c.look key with
      | some p => some (some (s, .val p.val))
      | none =>
        some (some (s.change num (fun c => { c with pages := ⟨key, s.content c.ino key, false⟩ :: c.pages }),
          .val (s.content c.ino key)))
    | none => none
  -- cachetable_evicter / try_evict_pair: written if dirty, then dropped
  | .drop num key =>
    match s.byNum num with
    | some c =>
      some (some ({ (s.change num (fun c => { c with pages := c.without key })) with
        content := upd s.content c.ino (fun k => if k = key then flush (s.content c.ino) c.pages k else s.content c.ino k) }, .done))
    | none => none
  -- ft/cachetable/cachetable.cc:2947-2950
  | .mark num =>
    match s.byNum num with
    | some c => if c.unlink then some none else some (some (s.change num (fun c => { c with unlink := true }), .done))
    | none => none
  -- ft/cachetable/cachetable.cc:511-570
  | .close num =>
    match s.byNum num with
    | some c =>
      let s' := { s with
        content := upd s.content c.ino (flush (s.content c.ino) c.pages)
        active := s.active.filter (fun d => d.num != num) }
      if c.unlink then
        if (nameOf s.dir c.name).isNone then some none
        else some (some ({ s' with dir := s.dir.filter (fun p => p.1 != c.name), freed := c.id :: s.freed }, .done))
      else if c.pages = [] then some (some ({ s' with freed := c.id :: s.freed }, .done))
      else some (some ({ s' with stale := { c with num := none32, pages := c.pages.map Page.clean } :: s.stale }, .done))
    | none => none
  -- ft/txn/roll.cc:566-593
  | .rollbackLoad name =>
    match s.active.find? (fun c => c.name == name) with
    | some c => if c.unlink then some none else some (some (s.change c.num (fun c => { c with unlink := true }), .done))
    | none => some (some ({ s with dir := s.dir.filter (fun p => p.1 != name) }, .done))
  -- ft/cachetable/cachetable.cc:4945-4972
  | .evBegin i =>
    match s.evicting, s.stale[i]? with
    | none, some c =>
      match c.pages with
      | [] => some none
      | _ :: ps =>
        some (some ({ s with
          stale := if ps = [] then s.stale.eraseIdx i else s.stale.set i { c with pages := ps }
          evicting := some (c.id, ps.isEmpty) }, .done))
    | _, _ => none
  -- 4974-4979: cachetable_free_pair calls back into the tree, which uses the tree header (ft/ft-ops.cc:744-753)
  | .evEnd =>
    match s.evicting with
    | some (id, last) =>
      if id ∈ s.freed then some (some ({ s with evicting := none }, .bad))
      else some (some ({ s with evicting := none, freed := if last then id :: s.freed else s.freed }, .done))
    | none => none
  -- ft/cachetable/cachetable.cc:2515-2520, 4982-5006; the evictor thread is ended after this (2521)
  | .shutdown =>
    if s.active = [] then some (some ({ s with stale := [], freed := s.stale.map Cf.id ++ s.freed }, .done)) else none

/-- Any number of steps, with the answers. -/
def run (s : S) : List Ev → Option (Option (S × List Ans))
  | [] => some (some (s, []))
  | e :: es =>
    match act s e with
    | none => none
    | some none => some none
    | some (some (s', a)) =>
      match run s' es with
      | some (some (r, as)) => some (some (r, a :: as))
      | x => x

end Verif.Stale
