import Verif.Blobs.Memory
import Verif.Browser.Paging

/-
The three stores of the repository with the objects that their tables refer to: `MemStore`, `PagedFileStore`, and `PagingFile` in the browser.

The parts that do not touch these tables (the files) are taken from the models without memory; only the tables and the blobs are modelled anew.
-/

namespace Radix.Blobs
open Radix.Paged (View)

/-- Outcome of a call. For src/store/blob_store.rs 12-34. -/
inductive Rs (α : Type) where
  | ok (a : α)
  | err
  | panic
  | crash

/-- Calls with `&mut self` of a store in memory. For src/store/mem_store.rs 26-50, src/store/paged_file_store.rs 121-256, browser/src/paging_file.rs 28-137. -/
def Act (τ α : Type) := τ → Mem → Option (Rs α × τ × Mem)

namespace Act
variable {τ α β : Type}

/-- The value itself. For src/store/paged_file_store.rs 121-256, browser/src/paging_file.rs 28-137. -/
def pure (a : α) : Act τ α := fun t m => some (.ok a, t, m)

/-- The `?` operator: errors, panics and crashes end the call. For src/store/paged_file_store.rs 121-256, browser/src/paging_file.rs 28-137. -/
def bind (x : Act τ α) (f : α → Act τ β) : Act τ β := fun t m =>
  match x t m with
  | none => none
  | some (.ok a, t, m) => f a t m
  | some (.err, t, m) => some (.err, t, m)
  | some (.panic, t, m) => some (.panic, t, m)
  | some (.crash, t, m) => some (.crash, t, m)

/-- Monad of the calls in src/store/paged_file_store.rs 121-256, browser/src/paging_file.rs 28-137. -/
instance : Monad (Act τ) where
  pure := Act.pure
  bind := Act.bind

/-- Return an error. For src/store/mem_store.rs 30-33, src/store/paged_file_store.rs 72-81, browser/src/paging_file.rs 82, 125-135. -/
def fail : Act τ α := fun t m => some (.err, t, m)

/-- `panic!`. For src/store/paged_file_store.rs 277. -/
def panic : Act τ α := fun t m => some (.panic, t, m)

/-- The process dies. For src/store/paged_file_store.rs 121-256. -/
def die : Act τ α := fun t m => some (.crash, t, m)

/-- `self`. For src/store/paged_file_store.rs 121-256. -/
def self : Act τ τ := fun t m => some (.ok t, t, m)

/-- An operation on memory. For src/store/blob_store.rs 36-40. -/
def mem (f : Mem → Option (α × Mem)) : Act τ α := fun t m => (f m).map fun r => (.ok r.1, t, r.2)

/-- `Arc::new` (Rust std). For src/store/mem_store.rs 42, src/store/paged_file_store.rs 66-70, browser/src/paging_file.rs 54, 128. -/
def alloc (x : Obj) : Act τ Nat := mem fun m => some (m.alloc x)

/-- `Arc::clone` (Rust std). For src/store/blob_store.rs 36, src/store/paged_file_store.rs 62, 72-81. -/
def inc (a : Nat) : Act τ Unit := mem fun m => (m.inc a).map fun m => ((), m)

/-- `Drop for Blob` (src/store/blob_store.rs 36-40). -/
def drop (b : Blob) : Act τ Unit := mem fun m => (b.drop m).map fun m => ((), m)

/-- The `Vec` behind an `Arc` (Rust std). For src/store/blob_store.rs 109-114. -/
def vec (a : Nat) : Act τ Bytes := mem fun m =>
  match m.get a with
  | some (.vec bs) => some (bs, m)
  | _ => none

/-- The bytes of a blob whose owner is a `Vec` (src/store/blob_store.rs 45-57). -/
def bytes (b : Blob) : Act τ Bytes := mem fun m =>
  match b.view m with
  | some (.own bs) => some (bs, m)
  | _ => none

/-- `Blob::slice(b..e)` (src/store/blob_store.rs 127-163). -/
def slice (x : Blob) (b e : Nat) : Act τ Blob :=
  if b ≤ e ∧ e ≤ x.len then mem fun m => x.sub m b e else panic

end Act

/-! ### `MemStore` -/

/-- The table of a `MemStore` (src/store/mem_store.rs 8-10): the id and the `Arc` of each value, newest first. -/
abbrev MemTable := List (Nat × Nat)

/-- `data.keys().next_back().cloned().unwrap_or(0)` (src/store/mem_store.rs 40). -/
def MemTable.max (t : MemTable) : Nat := t.foldl (fun m e => Nat.max m e.1) 0

/-- `data.get(&id)` (src/store/mem_store.rs 33), also for the tables of the other stores. -/
def find (t : List (Nat × Nat)) (id : Nat) : Option Nat := (t.find? fun e => e.1 == id).map (·.2)

/-- `MemStore::write` (src/store/mem_store.rs 38-45): the id is larger than all others, so nothing is replaced. -/
def memWrite (d : Bytes) : Act MemTable Bytes := do
  let id := (← Act.self).max + 1
  if id < 2 ^ 64 then do
    let a ← Act.alloc (.vec d)
    (fun t m => some (.ok (), (id, a) :: t, m) : Act MemTable Unit)
    return toBE 8 id
  else Act.panic

/-- `MemStore::read` (src/store/mem_store.rs 29-36). -/
def memRead (id : Bytes) : Act MemTable Blob :=
  if id.length = 8 then do
    match find (← Act.self) (ofBE id) with
    | some a => do
      let bs ← Act.vec a
      Act.inc a
      return Blob.ofArc a bs
    | none => Act.fail
  else Act.fail

/-- The answer to a call: after an error or panic the store is still there. For src/store/paged_file_store.rs 273-290, browser/src/paging_file.rs 158-175. -/
def answer {τ α : Type} (f : α → Ans Blob) (goesOn : Bool) : Rs α × τ × Mem → Ans Blob × Option τ × Mem
  | (.ok a, t, m) => (f a, some t, m)
  | (.err, t, m) => (.err, some t, m)
  | (.panic, t, m) => (.panic, if goesOn then some t else none, m)
  | (.crash, _, m) => (.crash, none, m)

/-- `MemStore` (src/store/mem_store.rs 11-50). -/
def memImpl : Impl MemTable MemOp where
  refs t := t.map (·.2)
  step t c m :=
    match c with
    | .write d => (memWrite d t m).map (answer .id true)
    | .read id => (memRead id t m).map (answer .blob true)
    | .count => some (.num t.length, some t, m)

/-! ### `PagedFileStore` -/

/-- `Inner` (src/store/paged_file_store.rs 30-36) with its tables: `pages` has the `Arc` of each mapped page, `recent` the blobs. The fields of the same name in `base`
are not used. -/
structure PState where
  base : Paged.Inner
  pages : List (Nat × Nat)
  recent : List (Nat × Blob)

/-- Parts of `PagedFileStore` that do not use the tables. (src/store/paged_file_store.rs 121-256.) -/
def ofM {α : Type} (x : Paged.M α) : Act PState α := fun t m =>
  let r := x t.base
  some (match r.1 with | .ok a => .ok a | .err => .err | .panic => .panic | .crash => .crash, { t with base := r.2 }, m)

/-- `self.pages.insert` (src/store/paged_file_store.rs 153-154): the old entry for this page, if there is one, is dropped. -/
def insertPage (p a : Nat) : Act PState Unit := fun t m =>
  (m.decs ((t.pages.filter fun e => e.1 = p).map (·.2))).map fun m =>
    (.ok (), { t with pages := (p, a) :: t.pages.filter fun e => e.1 ≠ p }, m)

/-- `self.recent.insert` (src/store/paged_file_store.rs 170-171, 250): the old entry, if there is one, is dropped. -/
def insertRecent (id : Nat) (b : Blob) : Act PState Unit := fun t m =>
  (m.decs ((t.recent.filter fun e => e.1 = id).flatMap fun e => e.2.refs)).map fun m =>
    (.ok (), { t with recent := (id, b) :: t.recent.filter fun e => e.1 ≠ id }, m)

/-- `self.recent.retain` (src/store/paged_file_store.rs 181-182): the other entries are dropped. -/
def retainRecent (ps current : Nat) : Act PState Unit := fun t m =>
  (m.decs ((t.recent.filter fun e => Paged.page e.1 ps = current).flatMap fun e => e.2.refs)).map fun m =>
    (.ok (), { t with recent := t.recent.filter fun e => Paged.page e.1 ps ≠ current }, m)

/-- `Inner::load_page` (src/store/paged_file_store.rs 145-156) with `Page::new` (64-68). -/
def loadPage (p : Nat) : Act PState Unit := do
  match ← ofM Paged.nextEv with
  | .ok => do
    let ps := (← Act.self).base.pageSize
    let a ← Act.alloc (.page (Paged.offsetOfPage p ps) ps)
    insertPage p a
  | .fail _ => Act.fail
  | .crash _ => Act.die

/-- `Page::bytes` (src/store/paged_file_store.rs 72-80): the slice is found as in `pageView`; the page becomes the owner of the blob. -/
def pageBlob (p a offset : Nat) : Act PState Blob := do
  match ← ofM (Paged.pageView p offset) with
  | .map start len => do
    let ps := (← Act.self).base.pageSize
    Act.inc a
    return .part a (start - Paged.offsetOfPage p ps) len
  | .own _ => Act.panic

/-- The bytes that `Inner::load_recent` reads (src/store/paged_file_store.rs 158-169), as in `Paged.loadRecent`. -/
def recentBytes (dbg : Bool) (id : Nat) : Paged.M Bytes := do
  Paged.ensure (4 ≤ id)
  let a ← Paged.add64 dbg id Paged.headerSize
  Paged.seekStart (← Paged.sub64 dbg a 4)
  let size := ofBE (← Paged.readExact 4)
  Paged.ensure (4 + size ≤ id)
  let a ← Paged.add64 dbg id Paged.headerSize
  let a ← Paged.sub64 dbg a 4
  Paged.seekStart (← Paged.sub64 dbg a size)
  let buf ← Paged.readExact size
  let _ ← Paged.seekEnd
  return buf

/-- `Inner::load_recent` (src/store/paged_file_store.rs 158-173). -/
def loadRecent (dbg : Bool) (id : Nat) : Act PState Unit := do
  let buf ← ofM (recentBytes dbg id)
  let b ← Act.mem fun m => some (Blob.copy m buf)
  insertRecent id b

/-- `Inner::close_page` (src/store/paged_file_store.rs 175-184). -/
def closePage (currentPage : Nat) : Act PState Unit := do
  let ps := (← Act.self).base.pageSize
  let start := Paged.offsetOfPage currentPage ps
  ofM (Paged.padTo (start + ps))
  let _ ← ofM Paged.commit
  loadPage currentPage
  retainRecent ps currentPage

/-- `self.recent.get` (src/store/paged_file_store.rs 214). -/
def findBlob (t : PState) (id : Nat) : Option Blob := (t.recent.find? fun e => e.1 = id).map (·.2)

/-- `Inner::bytes` (src/store/paged_file_store.rs 200-217). -/
def pagedBytes (dbg : Bool) (offset : Nat) : Act PState Blob := do
  let w := (← Act.self).base
  let lastPage := Paged.page w.lastId w.pageSize
  let pg := Paged.page (← ofM (Paged.sub64 dbg offset 1)) w.pageSize
  let pageOffset := Paged.offsetWithinPage offset w.pageSize
  if pg < lastPage then do
    (if (find (← Act.self).pages pg).isSome then pure () else loadPage pg)
    match find (← Act.self).pages pg with
    | some a => pageBlob pg a pageOffset
    | none => Act.panic
  else do
    (if (findBlob (← Act.self) offset).isSome then pure () else loadRecent dbg offset)
    match findBlob (← Act.self) offset with
    | some b => do
      Act.mem fun m => (b.clone m).map fun m => ((), m)
      return b
    | none => Act.panic

/-- `Inner::append` (src/store/paged_file_store.rs 226-255). -/
def pagedAppend (dbg : Bool) (data : Bytes) : Act PState Nat := do
  let ps := (← Act.self).base.pageSize
  let room ← ofM (Paged.sub64 dbg ps 8)
  ofM (Paged.ensure (data.length ≤ room))
  let len := data.length + 4
  let position ← ofM Paged.seekEnd
  if position < Paged.headerSize then Act.panic
  else do
    let offset := position - Paged.headerSize
    let fin := offset + len
    let currentPage := Paged.page offset ps
    let endPage := Paged.page fin ps
    (if endPage ≠ currentPage then closePage currentPage else pure ())
    ofM (Paged.writeAll data)
    ofM (Paged.writeAll (toBE 4 data.length))
    let id ← ofM Paged.commit
    ofM (Paged.update fun w => { w with lastId := id })
    let b ← Act.mem fun m => some (Blob.copy m data)
    insertRecent id b
    if id % ps < 4 then
      if id % 1024 > 4 then return id else Act.panic
    else return id

/-- A call of a `PagedFileStore`, and what happens to the file operations it makes. (src/store/paged_file_store.rs 258-290.) -/
inductive PagedOp where
  | write (data : Bytes) (evs : List Paged.Ev)
  | read (id : Bytes) (evs : List Paged.Ev)
  | lastId
  deriving DecidableEq

/-- `PagedFileStore` (src/store/paged_file_store.rs 258-289). -/
def pagedImpl (dbg : Bool) : Impl PState PagedOp where
  refs t := t.pages.map (·.2) ++ t.recent.flatMap fun e => e.2.refs
  step t c m :=
    match c with
    | .write d evs =>
      (pagedAppend dbg d { t with base := { t.base with evs := evs } } m).map (answer (fun n => .id (toBE 8 n)) true)
    | .read id evs =>
      let t : PState := { t with base := { t.base with evs := evs } }
      if id.length = 8 then (pagedBytes dbg (ofBE id) t m).map (answer .blob true) else some (.panic, some t, m)
    | .lastId => some ((match Paged.lastIdOf t.base with | some id => .id id | none => .unit), some t, m)

/-! ### `PagingFile` -/

/-- `PagingFileInner` (browser/src/paging_file.rs 15-26) with the `Arc`s of the full pages and of the last page. The fields for these in `base` are not
used. -/
structure BState where
  base : Browser.Paging.Inner
  full : List (Nat × Nat)
  last : Nat

/-- Parts of `PagingFile` that do not use the pages in memory. (browser/src/paging_file.rs 28-137.) -/
def ofP {α : Type} (x : Browser.Paging.P α) : Act BState α := fun t m =>
  let r := x t.base
  some (match r.1 with | .ok a => .ok a | .err => .err | .panic => .panic | .crash => .crash, { t with base := r.2 }, m)

/-- `self.full_pages.insert` (browser/src/paging_file.rs 55, 129): the old entry, if there is one, is dropped. -/
def insertFull (p a : Nat) : Act BState Unit := fun t m =>
  (m.decs ((t.full.filter fun e => e.1 = p).map (·.2))).map fun m =>
    (.ok (), { t with full := (p, a) :: t.full.filter fun e => e.1 ≠ p }, m)

/-- `Arc::make_mut(&mut self.last_page)` (browser/src/paging_file.rs 52, 91). -/
def makeMutLast : Act BState Unit := fun t m =>
  (m.makeMut t.last).map fun r => (.ok (), { t with last := r.1 }, r.2)

/-- A write to the last page in place (browser/src/paging_file.rs 58, 95). -/
def putLast (bs : Bytes) : Act BState Unit := fun t m =>
  (m.put t.last (.vec bs)).map fun m => (.ok (), t, m)

/-- `PagingFileInner::close_page` (browser/src/paging_file.rs 48-62). -/
def bClosePage : Act BState Unit := do
  let w := (← Act.self).base
  let page0 ← ofP (Browser.Paging.lift (Browser.Paging.pageNum w.length w.pageSize))
  let r ← ofP (Browser.Paging.lift (Browser.Paging.pageRange w.length w.pageSize))
  makeMutLast
  let bs ← Act.vec (← Act.self).last
  ofP (Browser.Paging.fileWrite r.1 bs)
  let a ← Act.alloc (.vec bs)
  insertFull page0 a
  ofP (Browser.Paging.update fun v => { v with length := r.2 })
  putLast (List.replicate bs.length 0)
  let page1 ← ofP (Browser.Paging.lift (Browser.Paging.pageNum r.2 w.pageSize))
  if page0 + 1 = page1 then pure () else Act.panic

/-- `PagingFileInner::sync` (browser/src/paging_file.rs 64-74). -/
def bSync : Act BState Unit := do
  let t ← Act.self
  let w := t.base
  let _ ← ofP (Browser.Paging.lift (Browser.Paging.pageNum w.length w.pageSize))
  let r ← ofP (Browser.Paging.lift (Browser.Paging.pageRange w.length w.pageSize))
  let offset ← ofP (Browser.Paging.lift (Browser.Paging.within w.length w.pageSize))
  let bs ← Act.vec t.last
  if offset ≤ bs.length then ofP (Browser.Paging.fileWrite r.1 (bs.take offset)) else Act.panic

/-- `PagingFileInner::append` (browser/src/paging_file.rs 80-99). -/
def bAppend (data : Bytes) : Act BState Nat := do
  ofP (Browser.Paging.ensure (data.length ≤ (← Act.self).base.pageSize))
  let l8 ← ofP (Browser.Paging.lift (Browser.Paging.u64 (data.length + 8)))
  let rem ← ofP (Browser.Paging.lift (Browser.Paging.remaining (← Act.self).base))
  (if l8 > rem then bClosePage else pure ())
  ofP Browser.Paging.alignLength
  makeMutLast
  let t ← Act.self
  let w := t.base
  let offset ← ofP (Browser.Paging.lift (Browser.Paging.within w.length w.pageSize))
  let bs ← Act.vec t.last
  if offset + data.length ≤ bs.length then do
    putLast (bs.take offset ++ data ++ bs.drop (offset + data.length))
    let l ← ofP (Browser.Paging.lift (Browser.Paging.u64 (w.length + data.length)))
    ofP (Browser.Paging.update fun w => { w with length := l })
    return w.length
  else Act.panic

/-- `PagingFileInner::append_length_prefixed` (browser/src/paging_file.rs 101-108). -/
def bAppendPrefixed (data : Bytes) : Act BState Nat :=
  if data.length < 2 ^ 32 then bAppend (toBE 4 data.length ++ data) else Act.panic

/-- The page in `load_length_prefixed` (browser/src/paging_file.rs 112-131). -/
def bLoadPage (start : Nat) : Act BState Blob := do
  let t ← Act.self
  let w := t.base
  let last ← ofP (Browser.Paging.lift (Browser.Paging.pageNum w.length w.pageSize))
  let p ← ofP (Browser.Paging.lift (Browser.Paging.pageNum start w.pageSize))
  if p = last then do
    let e ← ofP (Browser.Paging.lift (Browser.Paging.within w.length w.pageSize))
    let bs ← Act.vec t.last
    if e ≤ bs.length then do
      Act.inc t.last
      let whole := Blob.ofArc t.last bs
      let b ← Act.slice whole 0 e
      Act.drop whole
      return b
    else Act.panic
  else
    match find t.full p with
    | some a => do
      let bs ← Act.vec a
      Act.inc a
      return Blob.ofArc a bs
    | none => do
      ofP (Browser.Paging.ensure (p < last))
      let r ← ofP (Browser.Paging.lift (Browser.Paging.pageRange start w.pageSize))
      let bs ← ofP (Browser.Paging.fileRead r)
      let a ← Act.alloc (.vec bs)
      Act.inc a
      insertFull p a
      return Blob.ofArc a bs

/-- `PagingFileInner::load_length_prefixed` (browser/src/paging_file.rs 110-137). The blob of the page is dropped in the end, also if the call returns an error. -/
def bLoadPrefixed (start : Nat) : Act BState Blob := do
  let offset ← ofP (Browser.Paging.lift (Browser.Paging.within start (← Act.self).base.pageSize))
  let page ← bLoadPage start
  let bs ← Act.bytes page
  if offset + 4 ≤ page.len then do
    let len := ofBE ((bs.drop offset).take 4)
    if offset + 4 + len ≤ page.len then do
      let b ← Act.slice page (offset + 4) (offset + 4 + len)
      Act.drop page
      return b
    else do
      Act.drop page
      Act.fail
  else do
    Act.drop page
    Act.fail

/-- `PagingFile` (browser/src/paging_file.rs 141-174). As in `Browser.Paging.pstep`, a panic ends it. -/
def pagingImpl : Impl BState Browser.Paging.PCall where
  refs t := t.last :: t.full.map (·.2)
  step t c m :=
    match c with
    | .put data => (bAppendPrefixed data t m).map (answer (fun n => .id (toBE 8 n)) false)
    | .get id => if id.length = 8 then (bLoadPrefixed (ofBE id) t m).map (answer .blob false) else some (.err, some t, m)
    | .sync => (bSync t m).map (answer (fun _ => .unit) false)

/-! ### At the start -/

/-- A new `MemStore` (src/store/mem_store.rs 6-10). -/
def memStart : World MemTable := ⟨some [], [], []⟩

/-- A `PagedFileStore` that was just opened (src/store/paged_file_store.rs 122-143). -/
def pagedStart (s : Paged.Inner) : World PState := ⟨some ⟨s, [], []⟩, [], []⟩

/-- A `PagingFile` that was just made (browser/src/paging_file.rs 29-43): its last page is an object of its own. -/
def pagingStart (s : Browser.Paging.Inner) : World BState :=
  ⟨some ⟨{ s with lastPage := [] }, [], 0⟩, [], [some (1, .vec s.lastPage)]⟩

end Radix.Blobs
