import Verif.Browser.History

/-
The whole browser file system: directories, files and the thread that serves the calls (browser/src/web_cache_fs.rs 22-295, browser/src/sync_fs.rs
82-180), and the files and directories that SQLite sees (browser/src/vfs.rs).

Simplified: the maps are functions; a handle (`SyncDir`, `SyncFile`) is the names it holds. The thread takes the calls from a queue and
finishes one before it takes the next (browser/src/web_cache_fs.rs 159-259), so the calls of all threads of the program are one list here. Only
one `WebCacheFs` runs at a time.

What is assumed of the browser, beyond `Verif/Browser/File.lean`: `caches.open` gives the cache of the name or a new empty one;
`caches.delete` takes a cache away from its name, but who holds the cache can go on using it; `cache.delete` with `ignoreSearch`
removes all entries whose URL has the given path.
-/

namespace Radix.Browser

/-- `(WebCacheDir, BTreeMap<SharedStr, WebCacheFile>)` (browser/src/web_cache_fs.rs 23, 261-265): which cache it is, and the chunks of the open
files. -/
structure Dir where
  cache : Nat
  files : Name → Option (List Chunk)

/-- The browser and the thread of the file system. `caches` are all caches that were ever made, `next` their number, `storage` is the `CacheStorage` of
the browser; `dirs` is the state of the thread (browser/src/web_cache_fs.rs 22-25), `none` if there is no thread. -/
structure Fs where
  caches : Nat → Cache
  next : Nat
  storage : Name → Option Nat
  dirs : Option (Name → Option Dir)

/-- A browser without any data, before the page is loaded. For browser/src/web_cache_fs.rs 22-41. -/
def Fs.init : Fs := ⟨fun _ => [], 0, fun _ => none, none⟩

/-- Calls of the program (browser/src/sync_fs.rs 94-175, 184-268), each with what happens to its cache operations. `load` is loading the page, with
`WebCacheFs::new` (browser/src/web_cache_fs.rs 30-41), also after it was closed at any time. `call` is a call on a file. -/
inductive Cmd where
  | load
  | unmount
  | openDir (d : Name) (evs : List Ev)
  | deleteDir (d : Name) (evs : List Ev)
  | openFile (d f : Name) (evs : List Ev)
  | fileExists (d f : Name) (evs : List Ev)
  | deleteFile (d f : Name) (evs : List Ev)
  | sync (d f : Name)
  | call (d f : Name) (c : Call)
  deriving DecidableEq

/-- What the program sees. `closed`: there is no thread that answers, the call returns an error. `file` is the result of a call on a file. For browser/src/sync_fs.rs 89-228. -/
inductive Ans where
  | closed
  | unit (r : Out Unit)
  | bool (r : Out Bool)
  | file (s : Seen)
  deriving DecidableEq

/-- Function update. The changed entry of a map, for browser/src/web_cache_fs.rs 23, 43-59. -/
def upd {α β : Type} [DecidableEq α] (f : α → β) (a : α) (b : β) : α → β := fun x => if x = a then b else f x

/-- The thread is gone: a panic, or the page was closed. For browser/src/web_cache_fs.rs 159-260. -/
def Fs.stop (s : Fs) : Fs := { s with dirs := none }

/-- One operation of the browser with the effect `f`: the result of the call is `r`, and `g` is what the thread does to its state afterwards. For browser/src/web_cache_fs.rs 43-117. -/
def Fs.browserOp {α : Type} (s : Fs) (evs : List Ev) (f : Fs → Fs) (r : α) (g : Fs → Fs) : Out α × Fs :=
  match evs.headD .ok with
  | .ok => (.ok r, g (f s))
  | .fail => (.err, s)
  | .crash true => (.crash, (f s).stop)
  | .crash false => (.crash, s.stop)

/-- `caches.open` (browser/src/web_cache_fs.rs 269-273): makes an empty cache if there is none. -/
def Fs.make (s : Fs) (d : Name) : Fs :=
  match s.storage d with
  | some _ => s
  | none => { s with caches := upd s.caches s.next [], next := s.next + 1, storage := upd s.storage d (some s.next) }

/-- The end of `open_dir` (browser/src/web_cache_fs.rs 47): a directory without open files. -/
def Fs.addDir (s : Fs) (d : Name) : Fs :=
  { s with dirs := s.dirs.map fun dirs => upd dirs d ((s.storage d).map fun a => ⟨a, fun _ => none⟩) }

/-- The entries with the path of the URL `/{file_name}` (browser/src/web_cache_fs.rs 286-290). -/
def Cache.delPath (cache : Cache) (f : Name) : Cache :=
  cache.filter fun e => e.1.takeWhile (· ≠ '?') ≠ ('/' :: f).takeWhile (· ≠ '?')

/-- Whether there is one. For browser/src/web_cache_fs.rs 284-296. -/
def Cache.hasPath (cache : Cache) (f : Name) : Bool :=
  cache.any fun e => e.1.takeWhile (· ≠ '?') = ('/' :: f).takeWhile (· ≠ '?')

/-- `self.dirs` with other chunks for an open file, or with a file that is not open (browser/src/web_cache_fs.rs 56, 109). -/
def Fs.setFile (s : Fs) (d f : Name) (cs : Option (List Chunk)) : Fs :=
  { s with dirs := s.dirs.map fun dirs => upd dirs d ((dirs d).map fun x => { x with files := upd x.files f cs }) }

/-- The chunks of a file in the cache of its directory (browser/src/web_cache_fs.rs 547-556). -/
def Fs.chunks (s : Fs) (x : Dir) (f : Name) : List Chunk := chunksOf (s.caches x.cache) f

/-- `WebCacheFs::open_dir` (browser/src/web_cache_fs.rs 43-50). -/
def Fs.openDir (s : Fs) (dirs : Name → Option Dir) (d : Name) (evs : List Ev) : Out Unit × Fs :=
  match dirs d with
  | some _ => (.ok (), s)
  | none => s.browserOp evs (·.make d) () (·.addDir d)

/-- `WebCacheFs::delete_dir` (browser/src/web_cache_fs.rs 113-117). `self.dirs` is not changed. -/
def Fs.deleteDir (s : Fs) (d : Name) (evs : List Ev) : Out Bool × Fs :=
  s.browserOp evs (fun s => { s with storage := upd s.storage d none }) (s.storage d).isSome id

/-- `WebCacheFs::open_file` (browser/src/web_cache_fs.rs 52-59, 275-277, 309-319). -/
def Fs.openFile (s : Fs) (dirs : Name → Option Dir) (d f : Name) (evs : List Ev) : Out Unit × Fs :=
  match dirs d with
  | none => (.err, s)
  | some x =>
    match x.files f with
    | some _ => (.ok (), s)
    | none => s.browserOp evs id () fun s => s.setFile d f (some (s.chunks x f))

/-- `WebCacheFs::file_exists` (browser/src/web_cache_fs.rs 61-72, 279-282). -/
def Fs.fileExists (s : Fs) (dirs : Name → Option Dir) (d f : Name) (evs : List Ev) : Out Bool × Fs :=
  match dirs d with
  | none => (.err, s)
  | some x =>
    match x.files f with
    | some _ => (.ok true, s)
    | none => s.browserOp evs id (!(s.chunks x f).isEmpty) id

/-- `WebCacheFs::delete_file` (browser/src/web_cache_fs.rs 102-111, 284-294). -/
def Fs.deleteFile (s : Fs) (dirs : Name → Option Dir) (d f : Name) (evs : List Ev) : Out Bool × Fs :=
  match dirs d with
  | none => (.err, s)
  | some x =>
    s.browserOp evs (fun s => { s with caches := upd s.caches x.cache ((s.caches x.cache).delPath f) }) ((s.caches x.cache).hasPath f)
      fun s => s.setFile d f none

/-- `WebCacheFs::flush_file` (browser/src/web_cache_fs.rs 85-89, 325-328): nothing to do. -/
def Fs.sync (s : Fs) (dirs : Name → Option Dir) (d f : Name) : Out Unit × Fs :=
  match dirs d with
  | none => (.err, s)
  | some x => (if (x.files f).isSome then .ok () else .err, s)

/-- What a call on a file that is not open returns: the error "dir not open" or "file not open" (browser/src/web_cache_fs.rs 80-81). -/
def notOpen : Call → Seen
  | .reopen => .closed
  | .write _ _ _ => .done .err
  | .truncate _ _ => .done .err
  | .read _ _ _ => .bytes .err
  | .length => .closed
  | .put _ _ => .bytes .err
  | .get _ _ => .bytes .err

/-- The other calls on a file (browser/src/web_cache_fs.rs 74-100, 119-157): those of `WebCacheFile`, as in `Verif/Browser/History.lean`. There is no call
`reopen` on a file. For `length` an error is `closed`. -/
def Fs.call (s : Fs) (dirs : Name → Option Dir) (d f : Name) (c : Call) : Seen × Fs :=
  match dirs d with
  | none => (notOpen c, s)
  | some x =>
    match x.files f with
    | none => (notOpen c, s)
    | some cs =>
      if c = .reopen then (.closed, s)
      else
        let r := Browser.step ⟨s.caches x.cache, f, some cs⟩ c
        let s' : Fs := { s with caches := upd s.caches x.cache r.2.cache }
        match r.2.handle with
        | some cs' => (r.1, s'.setFile d f (some cs'))
        | none => (r.1, s'.stop)

/-- One call (browser/src/web_cache_fs.rs 159-259; `Shutdown`: 252-258). -/
def Fs.step (s : Fs) : Cmd → Ans × Fs
  | .load => (.unit (.ok ()), { s with dirs := some fun _ => none })
  | .unmount => (.unit (.ok ()), s.stop)
  | cmd =>
    match s.dirs with
    | none => (.closed, s)
    | some dirs =>
      match cmd with
      | .openDir d evs => let r := s.openDir dirs d evs; (.unit r.1, r.2)
      | .deleteDir d evs => let r := s.deleteDir d evs; (.bool r.1, r.2)
      | .openFile d f evs => let r := s.openFile dirs d f evs; (.unit r.1, r.2)
      | .fileExists d f evs => let r := s.fileExists dirs d f evs; (.bool r.1, r.2)
      | .deleteFile d f evs => let r := s.deleteFile dirs d f evs; (.bool r.1, r.2)
      | .sync d f => let r := s.sync dirs d f; (.unit r.1, r.2)
      | .call d f c => let r := s.call dirs d f c; (.file r.1, r.2)
      | _ => (.closed, s)

/-- What is seen of a history of calls. For browser/src/sync_fs.rs 85-228. -/
def Fs.log : Fs → List Cmd → List (Cmd × Ans)
  | _, [] => []
  | s, c :: cs => (c, (s.step c).1) :: Fs.log (s.step c).2 cs

/-- The state after a history of calls. For browser/src/sync_fs.rs 85-228. -/
def Fs.run : Fs → List Cmd → Fs
  | s, [] => s
  | s, c :: cs => Fs.run (s.step c).2 cs

/-! ### SQLite -/

/-- `DatabaseFile::read` (browser/src/vfs.rs 21-32): the bytes that are put at the front of the buffer of `n` bytes; their number is returned. The calls `length`
and `read` are made one after the other. -/
def vfsRead (w : World) (start n : Nat) (evs : List Ev) : Out Bytes × World :=
  match step w .length with
  | (.num len, w) =>
    if start + n < 2 ^ 64 then
      let stop := min len (start + n)
      match step w (.read start stop evs) with
      | (.bytes (.ok data), w) => if stop - start ≤ data.length ∧ stop - start ≤ n then (.ok (data.take (stop - start)), w) else (.panic, w)
      | (.bytes .err, w) => (.err, w)
      | (.bytes .panic, w) => (.err, w)
      | (.bytes .crash, w) => (.crash, w)
      | (_, w) => (.err, w)
    else (.panic, w)
  | (_, w) => (.err, w)

end Radix.Browser
