import Verif.Browser.Chunk

/-
Model of the files of the browser file system (browser/src/web_cache_fs.rs 298-556): chunks of a file are entries of the cache
that the browser provides (the Cache API).

What is assumed of the browser: operations on a cache are atomic, take effect in program order and keep what was written when the page
is closed at any point; an operation that reports an error has had no effect; `keys`, `match`, `put` and `delete` mean what
their specification says.
-/

namespace Radix.Browser

/-- What happens to one operation on the cache: it succeeds; or it returns an error without effect; or the page is closed
before the operation (`crash false`) or just after it (`crash true`). For browser/src/web_cache_fs.rs 410-415, 489-557. -/
inductive Ev where
  | ok
  | fail
  | crash (done : Bool)
  deriving DecidableEq

/-- `web_sys::Cache`: the URLs (without the origin) and the bodies of the responses. For browser/src/web_cache_fs.rs 299-306. -/
abbrev Cache := List (List Char × Bytes)

/-- `cache.match(url)`. For browser/src/web_cache_fs.rs 489-521. -/
def Cache.get (cache : Cache) (url : List Char) : Option Bytes := (cache.find? fun e => e.1 = url).map (·.2)

/-- `cache.delete(url)`. For browser/src/web_cache_fs.rs 523-533. -/
def Cache.del (cache : Cache) (url : List Char) : Cache := cache.filter fun e => e.1 ≠ url

/-- `cache.put(url, data)`. For browser/src/web_cache_fs.rs 535-545. -/
def Cache.set (cache : Cache) (url : List Char) (data : Bytes) : Cache := cache.del url ++ [(url, data)]

/-- `WebCacheFile` (browser/src/web_cache_fs.rs 298-306). `evs` is not in the code: it is what will happen to the coming cache
operations (`ok` when the list is used up). -/
structure File where
  cache : Cache
  name : Name
  chunks : List Chunk
  evs : List Ev

/-- Calls with `&mut self`. For browser/src/web_cache_fs.rs 308-432. -/
def M (α : Type) := File → Out α × File

/-- The value itself. For browser/src/web_cache_fs.rs 308-432. -/
def M.pure {α : Type} (a : α) : M α := fun w => (.ok a, w)

/-- The `?` operator: errors, panics and crashes end the call. For browser/src/web_cache_fs.rs 308-432. -/
def M.bind {α β : Type} (x : M α) (f : α → M β) : M β := fun w =>
  match x w with
  | (.ok a, w) => f a w
  | (.err, w) => (.err, w)
  | (.panic, w) => (.panic, w)
  | (.crash, w) => (.crash, w)

/-- Monad of the calls in browser/src/web_cache_fs.rs 308-432. -/
instance : Monad M where
  pure := M.pure
  bind := M.bind

/-- A pure computation. For browser/src/web_cache_fs.rs 308-432. -/
def lift {α : Type} (x : Out α) : M α := fun w => (x, w)

/-- `anyhow::ensure!`. For browser/src/web_cache_fs.rs 372, 381. -/
def ensure (b : Bool) : M Unit := lift (if b then .ok () else .err)

/-- `self`. For browser/src/web_cache_fs.rs 308-432. -/
def self : M File := fun w => (.ok w, w)

/-- Assignment to fields of `self`. For browser/src/web_cache_fs.rs 308-432, 444-470. -/
def update (f : File → File) : M Unit := fun w => (.ok (), f w)

/-- What happens to the next cache operation. For browser/src/web_cache_fs.rs 489-557. -/
def nextEv : M Ev := fun w =>
  match w.evs with
  | [] => (.ok .ok, w)
  | e :: evs => (.ok e, { w with evs := evs })

/-- An operation on the cache with effect `f`. For browser/src/web_cache_fs.rs 489-557. -/
def cacheOp (f : Cache → Cache) : M Unit := do
  match ← nextEv with
  | .ok => update fun w => { w with cache := f w.cache }
  | .fail => lift .err
  | .crash done => do
    if done then update fun w => { w with cache := f w.cache }
    lift .crash

/-- `write_chunk` (browser/src/web_cache_fs.rs 535-545). -/
def writeChunk (c : Chunk) (data : Bytes) : M Unit := do
  let w ← self
  cacheOp fun cache => cache.set (c.request w.name) data

/-- `cache.delete_with_str` in `execute_plan` (browser/src/web_cache_fs.rs 454-455). -/
def deleteChunk (c : Chunk) : M Unit := do
  let w ← self
  cacheOp fun cache => cache.del (c.request w.name)

/-- `load_range` (browser/src/web_cache_fs.rs 489-521). Without an entry, `match` gives no response and the conversion fails. The slice of
a JavaScript `Blob` is clamped to its size. The three steps (match, blob, arrayBuffer) are one operation here. -/
def loadRange (c : Chunk) (range : Range) : M Bytes := do
  cacheOp id
  let w ← self
  match w.cache.get (c.request w.name) with
  | none => lift .err
  | some d => do
    let a ← lift (toI32 range.1)
    let b ← lift (toI32 range.2)
    return (d.take b).drop a

/-- `data.copy_to(&mut res[tr])` (js_sys): both must have the same length. For browser/src/web_cache_fs.rs 472-521. -/
def copyTo (data res : Bytes) (tr : Range) : Out Bytes :=
  if tr.1 ≤ tr.2 ∧ tr.2 ≤ res.length ∧ data.length = tr.2 - tr.1 then .ok (res.take tr.1 ++ data ++ res.drop tr.2) else .panic

/-- `intersecting_chunks` (browser/src/web_cache_fs.rs 434-441). -/
def intersecting (cs : List Chunk) (range : Range) : List Chunk := cs.filter fun c => overlap c.range range

/-- The loop that fills a buffer from chunks (browser/src/web_cache_fs.rs 354-360, 386-390, 481-485). -/
def fill (range : Range) : List Chunk → Bytes → M Bytes
  | [], res => pure res
  | c :: cs, res => do
    let (sr, tr) ← lift (ranges c.range range)
    let data ← loadRange c sr
    let res ← lift (copyTo data res tr)
    fill range cs res

/-- The buffer `vec![0u8; len]` for a range, with the conversion of its length (browser/src/web_cache_fs.rs 352-353, 379-380 and 385,
478-480). More than `isize::MAX` bytes are a capacity overflow. -/
def buffer (range : Range) : Out Bytes := do
  let len ← toUsize (range.2 - range.1 : Nat)
  if len < 2 ^ 31 then .ok (List.replicate len 0) else .panic

/-- The function `read` (browser/src/web_cache_fs.rs 472-487). -/
def readRange (range : Range) : M Bytes := do
  let res ← lift (buffer range)
  fill range (intersecting (← self).chunks range) res

/-- One step of `execute_plan` (browser/src/web_cache_fs.rs 452-467). -/
def execOp : Op → M Unit
  | .delete c => do
    deleteChunk c
    update fun w => { w with chunks := remove c w.chunks }
  | .write c data => do
    writeChunk c data
    update fun w => { w with chunks := insert c w.chunks }
  | .rewrite c => do
    let data ← readRange c.range
    writeChunk c data
    update fun w => { w with chunks := insert c w.chunks }

/-- `execute_plan` (browser/src/web_cache_fs.rs 444-470). -/
def exec : List Op → M Unit
  | [] => pure ()
  | op :: ops => do
    execOp op
    exec ops

/-- `chunks` (browser/src/web_cache_fs.rs 547-556): the chunks of the file in the cache, as a sorted set. -/
def chunksOf (cache : Cache) (name : Name) : List Chunk :=
  (cache.filterMap fun e => parseRequest e.1 name).foldl (fun cs c => insert c cs) []

/-- `WebCacheFile::new` (browser/src/web_cache_fs.rs 309-319). -/
def openFile (cache : Cache) (name : Name) : File := ⟨cache, name, chunksOf cache name, []⟩

/-- `WebCacheFile::prev` (browser/src/web_cache_fs.rs 321-323). -/
def prev (w : File) : Chunk := w.chunks.getLast?.getD ⟨0, 0, 0⟩

/-- `WebCacheFile::write` (browser/src/web_cache_fs.rs 394-398). -/
def write (offset : Nat) (data : Bytes) : M Unit := do
  let plan ← lift (add (← self).chunks offset data)
  exec plan

/-- `WebCacheFile::append` (browser/src/web_cache_fs.rs 330-336). -/
def append (data : Bytes) : M Nat := do
  let offset := (prev (← self)).range.2
  let plan ← lift (add (← self).chunks offset data)
  exec plan
  return offset

/-- `WebCacheFile::append_length_prefixed` (browser/src/web_cache_fs.rs 338-344). -/
def appendPrefixed (data : Bytes) : M Nat := do
  if data.length < 2 ^ 32 then append (toBE 4 data.length ++ data) else lift .panic

/-- `WebCacheFile::load_chunks` (browser/src/web_cache_fs.rs 346-363). -/
def loadChunks (range : Range) (cs : List Chunk) : M Bytes := do
  let res ← lift (buffer range)
  fill range cs res

/-- `WebCacheFile::load_length_prefixed` (browser/src/web_cache_fs.rs 365-376). `res[0..4]` panics if there are less
than 4 bytes; `len + 4` can overflow a `usize`. -/
def loadPrefixed (start : Nat) : M Bytes := do
  if start + 4 < 2 ^ 64 then pure () else lift .panic
  let cs := intersecting (← self).chunks (start, start + 4)
  let fin :=
    match cs.map (·.range.2) with
    | [] => start
    | e :: es => es.foldl max e
  let res ← loadChunks (start, fin) cs
  if res.length < 4 then lift .panic
  let len := ofBE (res.take 4)
  if len + 4 < 2 ^ 32 then pure () else lift .panic
  ensure (len + 4 ≤ res.length)
  return (res.drop 4).take len

/-- `WebCacheFile::read` (browser/src/web_cache_fs.rs 378-392). -/
def read (range : Range) : M Bytes := do
  let _ ← lift (toUsize (range.2 - range.1 : Nat))
  ensure (range.2 ≤ (prev (← self)).range.2)
  let res ← lift (buffer range)
  fill range (intersecting (← self).chunks range) res

/-- `WebCacheFile::length` (browser/src/web_cache_fs.rs 400-402). -/
def length (w : File) : Nat := (prev w).range.2

/-- `WebCacheFile::truncate` (browser/src/web_cache_fs.rs 404-408). -/
def truncate (offset : Nat) : M Unit := do
  let plan ← lift (truncatePlan (← self).chunks offset)
  exec plan

end Radix.Browser
