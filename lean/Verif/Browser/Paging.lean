import Verif.Browser.History

/-
Model of `PagingFile` (browser/src/paging_file.rs): a store that keeps the current page of a file of the browser file system in memory.

Overflow of `u64` is a panic, as in `Verif.Browser.Chunk`. The lock around the state is not modelled: calls happen one after the other.
-/

namespace Radix.Browser.Paging
open Radix.Browser

/-- `PagingFileInner` (browser/src/paging_file.rs 15-26). `file` is the file that it wraps; `coming` is not in the code: it is what will happen
to the cache operations of the coming calls on that file (nothing bad when the list is used up). `fullPages` is a `BTreeMap`: at most one entry for each
page counts, the first. -/
structure Inner where
  file : World
  coming : List (List Ev)
  fullPages : List (Nat × Bytes)
  lastPage : Bytes
  pageSize : Nat
  length : Nat

/-- Calls with `&mut self`. For browser/src/paging_file.rs 28-137. -/
def P (α : Type) := Inner → Out α × Inner

/-- The value itself. For browser/src/paging_file.rs 28-137. -/
def P.pure {α : Type} (a : α) : P α := fun w => (.ok a, w)

/-- The `?` operator: errors, panics and crashes end the call. For browser/src/paging_file.rs 28-137. -/
def P.bind {α β : Type} (x : P α) (f : α → P β) : P β := fun w =>
  match x w with
  | (.ok a, w) => f a w
  | (.err, w) => (.err, w)
  | (.panic, w) => (.panic, w)
  | (.crash, w) => (.crash, w)

/-- Monad of the calls in browser/src/paging_file.rs 28-137. -/
instance : Monad P where
  pure := P.pure
  bind := P.bind

/-- A pure computation. For browser/src/paging_file.rs 28-137. -/
def lift {α : Type} (x : Out α) : P α := fun w => (x, w)

/-- `anyhow::ensure!`. For browser/src/paging_file.rs 82, 125, 133, 135. -/
def ensure (b : Bool) : P Unit := lift (if b then .ok () else .err)

/-- `self`. For browser/src/paging_file.rs 28-137. -/
def self : P Inner := fun w => (.ok w, w)

/-- Assignment to fields of `self`. For browser/src/paging_file.rs 28-137. -/
def update (f : Inner → Inner) : P Unit := fun w => (.ok (), f w)

/-- A number that is computed as a `u64`. -/
def u64 (n : Nat) : Out Nat := if n < 2 ^ 64 then .ok n else .panic

/-- A call on the wrapped file (browser/src/sync_fs.rs 184-228). -/
def call (f : List Ev → Call) : P Seen := fun w =>
  let r := step w.file (f (w.coming.headD []))
  (.ok r.1, { w with file := r.2, coming := w.coming.tail })

/-- `SyncFile::write` (browser/src/sync_fs.rs 206-216). If the thread of the file system is gone or goes, the call never returns: this is `crash` for the
caller. -/
def fileWrite (offset : Nat) (data : Bytes) : P Unit := do
  match ← call (.write offset data) with
  | .done (.ok ()) => return ()
  | .done .err => lift .err
  | _ => lift .crash

/-- `SyncFile::read` (browser/src/sync_fs.rs 195-204). -/
def fileRead (range : Range) : P Bytes := do
  match ← call (.read range.1 range.2) with
  | .bytes (.ok b) => return b
  | .bytes .err => lift .err
  | _ => lift .crash

/-- `SyncFile::length` (browser/src/sync_fs.rs 185-193). -/
def fileLength : P Nat := do
  match ← call (fun _ => .length) with
  | .num n => return n
  | _ => lift .crash

/-- `page_num` (browser/src/paging_file.rs 177-179). -/
def pageNum (offset ps : Nat) : Out Nat := if ps = 0 then .panic else .ok (offset / ps)

/-- `page_range` (browser/src/paging_file.rs 182-187). -/
def pageRange (offset ps : Nat) : Out Range := do
  let page ← pageNum offset ps
  let start ← u64 (page * ps)
  let fin ← u64 (start + ps)
  return (start, fin)

/-- `offset_within_page` (browser/src/paging_file.rs 189-192). -/
def within (offset ps : Nat) : Out Nat := do
  let r ← pageRange offset ps
  if offset - r.1 < 2 ^ 32 then .ok (offset - r.1) else .panic

/-- `is_aligned` (browser/src/paging_file.rs 195-197). -/
def isAligned (offset alignment : Nat) : Bool := offset % alignment = 0

/-- The end of `align` (browser/src/paging_file.rs 200-208). -/
def alignEnd (offset alignment : Nat) : Out Nat :=
  if isAligned offset alignment then .ok offset else u64 (offset / alignment * alignment + alignment)

/-- `PagingFileInner::new` (browser/src/paging_file.rs 29-43), as a call on a state of which only `file`, `coming` and `pageSize` count. A page of more than
`isize::MAX` bytes is a capacity overflow. -/
def new : P Unit := do
  let w ← self
  let length ← fileLength
  let r ← lift (pageRange length w.pageSize)
  let last ← fileRead (r.1, length)
  if last.length + (r.2 - length) < 2 ^ 31 then
    update fun w => { w with lastPage := last ++ List.replicate (r.2 - length) 0, length := length, fullPages := [] }
  else lift .panic

/-- `BTreeMap::insert` (Rust std). For browser/src/paging_file.rs 19, 55, 129. -/
def Inner.insert (w : Inner) (p : Nat) (page : Bytes) : Inner := { w with fullPages := (p, page) :: w.fullPages }

/-- `BTreeMap::get` (Rust std). For browser/src/paging_file.rs 19, 110-137. -/
def Inner.get (w : Inner) (p : Nat) : Option Bytes := (w.fullPages.find? fun e => e.1 = p).map (·.2)

/-- `PagingFileInner::close_page` (browser/src/paging_file.rs 48-62). -/
def closePage : P Unit := do
  let w ← self
  let page0 ← lift (pageNum w.length w.pageSize)
  let r ← lift (pageRange w.length w.pageSize)
  fileWrite r.1 w.lastPage
  update fun v => { v.insert page0 w.lastPage with length := r.2, lastPage := List.replicate w.lastPage.length 0 }
  let page1 ← lift (pageNum r.2 w.pageSize)
  if page0 + 1 = page1 then pure () else lift .panic

/-- `PagingFileInner::sync` (browser/src/paging_file.rs 64-74). -/
def sync : P Unit := do
  let w ← self
  let _ ← lift (pageNum w.length w.pageSize)
  let r ← lift (pageRange w.length w.pageSize)
  let offset ← lift (within w.length w.pageSize)
  if offset ≤ w.lastPage.length then fileWrite r.1 (w.lastPage.take offset) else lift .panic

/-- `PagingFileInner::remaining` (browser/src/paging_file.rs 76-78). -/
def remaining (w : Inner) : Out Nat := do
  let r ← pageRange w.length w.pageSize
  return r.2 - w.length

/-- The alignment in `append` (browser/src/paging_file.rs 87-90): `length + 4` becomes a multiple of 8. -/
def alignLength : P Unit := do
  let w ← self
  let l4 ← lift (u64 (w.length + 4))
  if isAligned l4 8 then pure ()
  else do
    let e ← lift (alignEnd l4 8)
    update fun w => { w with length := w.length + (e - w.length - 4) }

/-- `PagingFileInner::append` (browser/src/paging_file.rs 80-99). -/
def append (data : Bytes) : P Nat := do
  ensure (data.length ≤ (← self).pageSize)
  let l8 ← lift (u64 (data.length + 8))
  let rem ← lift (remaining (← self))
  (if l8 > rem then closePage else pure () : P Unit)
  alignLength
  let w ← self
  let offset ← lift (within w.length w.pageSize)
  if offset + data.length ≤ w.lastPage.length then do
    let l ← lift (u64 (w.length + data.length))
    update fun w => { w with lastPage := w.lastPage.take offset ++ data ++ w.lastPage.drop (offset + data.length), length := l }
    return w.length
  else lift .panic

/-- `PagingFileInner::append_length_prefixed` (browser/src/paging_file.rs 101-108). -/
def appendPrefixed (data : Bytes) : P Nat := do
  if data.length < 2 ^ 32 then append (toBE 4 data.length ++ data) else lift .panic

/-- The page in `load_length_prefixed` (browser/src/paging_file.rs 112-131). -/
def loadPage (start : Nat) : P Bytes := do
  let w ← self
  let last ← lift (pageNum w.length w.pageSize)
  let p ← lift (pageNum start w.pageSize)
  if p = last then do
    let e ← lift (within w.length w.pageSize)
    if e ≤ w.lastPage.length then return w.lastPage.take e else lift .panic
  else
    match w.get p with
    | some page => return page
    | none => do
      ensure (p < last)
      let r ← lift (pageRange start w.pageSize)
      let page ← fileRead r
      update fun w => w.insert p page
      return page

/-- `PagingFileInner::load_length_prefixed` (browser/src/paging_file.rs 110-137). -/
def loadPrefixed (start : Nat) : P Bytes := do
  let offset ← lift (within start (← self).pageSize)
  let page ← loadPage start
  ensure (offset + 4 ≤ page.length)
  let len := ofBE ((page.drop offset).take 4)
  ensure (offset + 4 + len ≤ page.length)
  return (page.drop (offset + 4)).take len

/-! ### Sessions -/

/-- The calls on a `PagingFile` (browser/src/paging_file.rs 141-174). -/
inductive PCall where
  | put (data : Bytes)
  | get (id : Bytes)
  | sync
  deriving DecidableEq

/-- One call: `impl BlobStore for PagingFile` (browser/src/paging_file.rs 158-174). After a crash or panic the state is gone. -/
def pstep (w : Inner) : PCall → Seen × Option Inner
  | .put data =>
    match appendPrefixed data w with
    | (.ok n, w) => (.bytes (.ok (toBE 8 n)), some w)
    | (.err, w) => (.bytes .err, some w)
    | (.panic, _) => (.bytes .panic, none)
    | (.crash, _) => (.bytes .crash, none)
  | .get id =>
    if id.length = 8 then
      match loadPrefixed (ofBE id) w with
      | (.ok d, w) => (.bytes (.ok d), some w)
      | (.err, w) => (.bytes .err, some w)
      | (.panic, _) => (.bytes .panic, none)
      | (.crash, _) => (.bytes .crash, none)
    else (.bytes .err, some w)
  | .sync =>
    match sync w with
    | (.ok (), w) => (.done (.ok ()), some w)
    | (.err, w) => (.done .err, some w)
    | (.panic, _) => (.done .panic, none)
    | (.crash, _) => (.done .crash, none)

/-- The log of a session: what was called and what came back. For browser/src/paging_file.rs 158-175. -/
def plog : Inner → List PCall → List (PCall × Seen)
  | _, [] => []
  | w, c :: cs =>
    let r := pstep w c
    (c, r.1) :: (match r.2 with | some w => plog w cs | none => cs.map fun c => (c, .closed))

/-- The state after a session, if it is still there. For browser/src/paging_file.rs 158-175. -/
def prun : Inner → List PCall → Option Inner
  | w, [] => some w
  | w, c :: cs => (pstep w c).2.bind fun w => prun w cs

/-- `PagingFile::new` (browser/src/paging_file.rs 142-146) on an open file. -/
def openPaging (file : World) (coming : List (List Ev)) (ps : Nat) : Option Inner :=
  match new ⟨file, coming, [], [], ps, 0⟩ with
  | (.ok (), w) => some w
  | _ => none

end Radix.Browser.Paging
