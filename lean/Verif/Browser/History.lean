import Verif.Browser.File

/-
Histories of calls on one file of the browser file system.
-/

namespace Radix.Browser

/-- A call on a file, and what happens to the cache operations it makes. `reopen` opens the file again, as after the page was closed.
`put` and `get` are `write` and `read` of `impl BlobStore for SyncFile` (browser/src/sync_fs.rs 230-268), the others are the methods of
`SyncFile` (184-228). -/
inductive Call where
  | reopen
  | write (offset : Nat) (data : Bytes) (evs : List Ev)
  | truncate (size : Nat) (evs : List Ev)
  | read (start stop : Nat) (evs : List Ev)
  | length
  | put (data : Bytes) (evs : List Ev)
  | get (id : Bytes) (evs : List Ev)
  deriving DecidableEq

/-- What the user sees of a call. `closed`: the page (or the thread of the file system) is gone, or the file was never opened. For browser/src/sync_fs.rs 178-268. -/
inductive Seen where
  | opened
  | done (r : Out Unit)
  | num (n : Nat)
  | bytes (r : Out Bytes)
  | closed
  deriving DecidableEq

/-- The cache of the directory, the name of the file, and the chunks in memory if the file is open. For browser/src/web_cache_fs.rs 299-306. -/
structure World where
  cache : Cache
  name : Name
  handle : Option (List Chunk)

/-- A crash or a panic ends the thread that runs the file system (`WebCacheFs::run`, browser/src/web_cache_fs.rs 159-259); otherwise the
file stays open. -/
def after {α : Type} (r : Out α × File) : World :=
  match r.1 with
  | .crash => ⟨r.2.cache, r.2.name, none⟩
  | .panic => ⟨r.2.cache, r.2.name, none⟩
  | _ => ⟨r.2.cache, r.2.name, some r.2.chunks⟩

/-- `Out.map`. For browser/src/web_cache_fs.rs 308-432. -/
def Out.map {α β : Type} (f : α → β) : Out α → Out β
  | .ok a => .ok (f a)
  | .err => .err
  | .panic => .panic
  | .crash => .crash

/-- One call. Opening fails only if the browser does (`cache.keys()`), which then leaves no file to call. For browser/src/web_cache_fs.rs 308-432. -/
def step (w : World) : Call → Seen × World
  | .reopen => (.opened, ⟨w.cache, w.name, some (openFile w.cache w.name).chunks⟩)
  | .write offset data evs =>
    match w.handle with
    | none => (.closed, w)
    | some cs => let r := write offset data ⟨w.cache, w.name, cs, evs⟩; (.done r.1, after r)
  | .truncate size evs =>
    match w.handle with
    | none => (.closed, w)
    | some cs => let r := truncate size ⟨w.cache, w.name, cs, evs⟩; (.done r.1, after r)
  | .read a b evs =>
    match w.handle with
    | none => (.closed, w)
    | some cs => let r := read (a, b) ⟨w.cache, w.name, cs, evs⟩; (.bytes r.1, after r)
  | .length =>
    match w.handle with
    | none => (.closed, w)
    | some cs => (.num (length ⟨w.cache, w.name, cs, []⟩), w)
  | .put data evs =>
    match w.handle with
    | none => (.closed, w)
    | some cs => let r := appendPrefixed data ⟨w.cache, w.name, cs, evs⟩; (.bytes (r.1.map (toBE 8)), after r)
  | .get id evs =>
    match w.handle with
    | none => (.closed, w)
    | some cs =>
      if id.length = 8 then let r := loadPrefixed (ofBE id) ⟨w.cache, w.name, cs, evs⟩; (.bytes r.1, after r)
      else (.bytes .err, w)

/-- The log of a history of calls: what was called and what came back. For browser/src/web_cache_fs.rs 308-432. -/
def log : World → List Call → List (Call × Seen)
  | _, [] => []
  | w, c :: cs => let r := step w c; (c, r.1) :: log r.2 cs

/-- The world after a history of calls. For browser/src/web_cache_fs.rs 308-432. -/
def run : World → List Call → World
  | w, [] => w
  | w, c :: cs => run (step w c).2 cs

/-- Before the first call: a cache without entries for the file (it can have entries of other files). For browser/src/web_cache_fs.rs 309-319. -/
def fresh (cache : Cache) (name : Name) : World := ⟨cache, name, none⟩

end Radix.Browser
