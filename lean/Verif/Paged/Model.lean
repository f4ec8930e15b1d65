import Verif.Stored.Mem

/-
Model of `PagedFileStore` (src/store/paged_file_store.rs) on a file whose operations can fail or be interrupted by a crash
at any byte.

What is assumed of the operating system: operations of one process on a file take effect in program order, a crash keeps
a prefix of them (a write also in part, byte by byte from its first byte), `set_len` takes effect at once or not at all,
and a shared memory map of a file shows the bytes of the file. (The code never calls fsync, so this covers the death of
the process, not the loss of power.) The 64 bit platform: `usize` is `u64`.
-/

namespace Radix.Paged

/-- What happens to one operation on the file: it succeeds; or it returns an error, after writing the first `n` of its
bytes; or the process dies at that point. For src/store/paged_file_store.rs 106-256. -/
inductive Ev where
  | ok
  | fail (n : Nat)
  | crash (n : Nat)
  deriving DecidableEq

/-- Outcome of a call. For src/store/paged_file_store.rs 121-290. -/
inductive Out (α : Type) where
  | ok (a : α)
  | err
  | panic
  | crash
  deriving DecidableEq

/-- `Inner` (src/store/paged_file_store.rs 30-36). `data` and `pos` are the contents and the cursor of `file`. `pages` are the
numbers of the mapped pages: a map shows the current bytes of the file, so the bytes are not repeated here. `recent` is a hash
map, here an association list. `evs` is not in the code: it is what will happen to the coming file operations (`ok` when
the list is used up). -/
structure Inner where
  data : Bytes
  pos : Nat
  pageSize : Nat
  pages : List Nat
  recent : List (Nat × Bytes)
  lastId : Nat
  evs : List Ev

/-- Calls with `&mut self`. For src/store/paged_file_store.rs 121-256. -/
def M (α : Type) := Inner → Out α × Inner

/-- The value itself. For src/store/paged_file_store.rs 121-256. -/
def M.pure {α : Type} (a : α) : M α := fun w => (.ok a, w)

/-- The `?` operator: errors, panics and crashes end the call. For src/store/paged_file_store.rs 121-256. -/
def M.bind {α β : Type} (x : M α) (f : α → M β) : M β := fun w =>
  match x w with
  | (.ok a, w) => f a w
  | (.err, w) => (.err, w)
  | (.panic, w) => (.panic, w)
  | (.crash, w) => (.crash, w)

/-- Monad of the calls in src/store/paged_file_store.rs 121-256. -/
instance : Monad M where
  pure := M.pure
  bind := M.bind

/-- Return an error. For src/store/paged_file_store.rs 72-81, 121-256. -/
def fail {α : Type} : M α := fun w => (.err, w)

/-- `panic!`, a failed `assert!` or an index out of bounds. For src/store/paged_file_store.rs 72-81, 121-290. -/
def panic {α : Type} : M α := fun w => (.panic, w)

/-- `anyhow::ensure!`. For src/store/paged_file_store.rs 74, 76, 123, 159, 164, 227. -/
def ensure (b : Bool) : M Unit := if b then pure () else fail

/-- `self`. For src/store/paged_file_store.rs 121-256. -/
def self : M Inner := fun w => (.ok w, w)

/-- Assignment to fields of `self`. For src/store/paged_file_store.rs 121-256. -/
def update (f : Inner → Inner) : M Unit := fun w => (.ok (), f w)

/-- What happens to the next file operation. For src/store/paged_file_store.rs 106-256. -/
def nextEv : M Ev := fun w =>
  match w.evs with
  | [] => (.ok .ok, w)
  | e :: evs => (.ok e, { w with evs := evs })

/-- The process dies. For src/store/paged_file_store.rs 106-256. -/
def die {α : Type} : M α := fun w => (.crash, w)

/-! ### Files -/

/-- The largest offset in a file (`off_t` is a signed 64 bit number); seeking and writing beyond it is an error. -/
def maxFile : Nat := 2 ^ 63 - 1

/-- The contents of a file after writing `bs` at `pos`: a gap reads as zeros, writing nothing changes nothing. For src/store/paged_file_store.rs 114-119, 186-198, 246-247. -/
def writeAt (data : Bytes) (pos : Nat) (bs : Bytes) : Bytes :=
  if bs.isEmpty then data
  else data.take pos ++ List.replicate (pos - data.length) 0 ++ bs ++ data.drop (pos + bs.length)

/-- The bytes `bs` are written at the cursor and the cursor moves behind them. For src/store/paged_file_store.rs 114-119, 186-198, 246-247. -/
def put (bs : Bytes) : M Unit := update fun w => { w with data := writeAt w.data w.pos bs, pos := w.pos + bs.length }

/-- `file.write_all` (Rust std). For src/store/paged_file_store.rs 116, 192, 246-247. -/
def writeAll (bs : Bytes) : M Unit := do
  let w ← self
  match ← nextEv with
  | .ok => if w.pos + bs.length ≤ maxFile then put bs else fail
  | .fail n => do put (bs.take (min n (maxFile - w.pos))); fail
  | .crash n => do put (bs.take (min n (maxFile - w.pos))); die

/-- `file.set_len` (Rust std): the cursor does not move. For src/store/paged_file_store.rs 127, 134. -/
def setLen (n : Nat) : M Unit := do
  match ← nextEv with
  | .ok =>
    if n ≤ maxFile then update fun w => { w with data := w.data.take n ++ List.replicate (n - w.data.length) 0 } else fail
  | .fail _ => fail
  | .crash _ => die

/-- `file.read_exact` with a buffer of `n` bytes (Rust std). For src/store/paged_file_store.rs 109, 162, 168. -/
def readExact (n : Nat) : M Bytes := do
  let w ← self
  match ← nextEv with
  | .ok =>
    if w.pos + n ≤ w.data.length then do
      update fun w => { w with pos := w.pos + n }
      pure ((w.data.drop w.pos).take n)
    else fail
  | .fail _ => fail
  | .crash _ => die

/-- `file.seek(SeekFrom::Start(n))` (Rust std). For src/store/paged_file_store.rs 108, 115, 160, 166. -/
def seekStart (n : Nat) : M Unit := do
  ensure (n ≤ maxFile)
  update fun w => { w with pos := n }

/-- `file.seek(SeekFrom::End(0))` (Rust std): the length of the file. For src/store/paged_file_store.rs 110, 117, 124, 128, 135, 169, 220, 233. -/
def seekEnd : M Nat := do
  update fun w => { w with pos := w.data.length }
  return (← self).pos

/-- Addition of 64 bit numbers: overflow panics in builds with overflow checks, otherwise wraps around. -/
def add64 (dbg : Bool) (a b : Nat) : M Nat :=
  if a + b < 2 ^ 64 then pure (a + b) else if dbg then panic else pure ((a + b) % 2 ^ 64)

/-- Subtraction of 64 bit numbers: overflow panics in builds with overflow checks, otherwise wraps around. -/
def sub64 (dbg : Bool) (a b : Nat) : M Nat :=
  if b ≤ a then pure (a - b) else if dbg then panic else pure (2 ^ 64 - (b - a))

/-! ### The store -/

/-- `HEADER_SIZE` (src/store/paged_file_store.rs 39). -/
def headerSize : Nat := 4096

/-- `page` (src/store/paged_file_store.rs 94-96); page size 0 is excluded in the theorems. -/
def page (offset pageSize : Nat) : Nat := offset / pageSize

/-- `offset_within_page` (src/store/paged_file_store.rs 98-100). -/
def offsetWithinPage (offset pageSize : Nat) : Nat := offset % pageSize

/-- `offset_of_page` (src/store/paged_file_store.rs 102-104). Only called with pages that begin within the file, so there is no
overflow. -/
def offsetOfPage (page pageSize : Nat) : Nat := page * pageSize + headerSize

/-- `read_size` (src/store/paged_file_store.rs 106-112). -/
def readSize : M Nat := do
  seekStart 16
  let buf ← readExact 8
  let _ ← seekEnd
  return ofBE buf

/-- `write_size` (src/store/paged_file_store.rs 114-119). -/
def writeSize (size : Nat) : M Unit := do
  seekStart 16
  writeAll (toBE 8 size)
  let _ ← seekEnd

/-- `Inner::new` (src/store/paged_file_store.rs 122-143), run on an `Inner` that holds the file and the page size; at the end
the other fields are set. -/
def new (dbg : Bool) : M Unit := do
  ensure ((← self).pageSize % 8 = 0)
  let fin ← seekEnd
  if fin = 0 then do
    setLen headerSize
    let _ ← seekEnd
  else if fin < headerSize then fail
  let size ← readSize
  let len ← add64 dbg size headerSize
  setLen len
  let _ ← seekEnd
  update fun w => { w with pages := [], recent := [], lastId := size }

/-- `Inner::load_page` (src/store/paged_file_store.rs 145-156). Mapping can fail; a map that reaches beyond the end of the file
can be made, and kills the process when it is read there (see `pageBytes`). -/
def loadPage (page : Nat) : M Unit := do
  match ← nextEv with
  | .ok => update fun w => { w with pages := page :: w.pages }
  | .fail _ => fail
  | .crash _ => die

/-- The slice of `len` bytes that ends at `hi`: `&data[hi - len..hi]`; panics if it is out of bounds. For src/store/paged_file_store.rs 75, 77-79. -/
def sliceBefore (data : Bytes) (hi len : Nat) : M Bytes :=
  if len ≤ hi ∧ hi ≤ data.length then pure ((data.drop (hi - len)).take len) else panic

/-- `Page::bytes` (src/store/paged_file_store.rs 72-80). Reading a map beyond the end of the file counts as a panic. -/
def pageBytes (page offset : Nat) : M Bytes := do
  let w ← self
  let data := (w.data.drop (offsetOfPage page w.pageSize)).take w.pageSize
  ensure (4 ≤ offset)
  let length := ofBE (← sliceBefore data offset 4)
  ensure (length + 4 ≤ offset)
  sliceBefore data (offset - 4) length

/-- `self.recent.insert` (a hash map). For src/store/paged_file_store.rs 34, 170-171, 250. -/
def insertRecent (id : Nat) (d : Bytes) : M Unit :=
  update fun w => { w with recent := (id, d) :: w.recent.filter fun e => e.1 ≠ id }

/-- `self.recent.get` (a hash map). For src/store/paged_file_store.rs 34, 200-217. -/
def findRecent (w : Inner) (id : Nat) : Option Bytes := (w.recent.find? fun e => e.1 = id).map (·.2)

/-- `Inner::load_recent` (src/store/paged_file_store.rs 158-173). -/
def loadRecent (dbg : Bool) (id : Nat) : M Unit := do
  ensure (4 ≤ id)
  let a ← add64 dbg id headerSize
  seekStart (← sub64 dbg a 4)
  let size := ofBE (← readExact 4)
  ensure (4 + size ≤ id)
  let a ← add64 dbg id headerSize
  let a ← sub64 dbg a 4
  seekStart (← sub64 dbg a size)
  let buf ← readExact size
  let _ ← seekEnd
  insertRecent id buf

/-- The loop of `Inner::pad_to` (src/store/paged_file_store.rs 186-198). Each round writes at least one byte, so the given
number of rounds is enough. -/
def padLoop : Nat → Nat → M Unit
  | 0, _ => pure ()
  | n + 1, offset => do
    let pos := (← self).pos
    if pos < offset then do
      writeAll (List.replicate (min (offset - pos) 1024) 0)
      padLoop n offset
    else pure ()

/-- `Inner::pad_to` (src/store/paged_file_store.rs 186-198). -/
def padTo (offset : Nat) : M Unit := do padLoop (offset - (← self).pos) offset

/-- `Inner::commit` (src/store/paged_file_store.rs 219-224). The end of the file is never below the header (`append` checks
it), so the subtraction does not overflow. `flush` does nothing on a file. -/
def commit : M Nat := do
  let fin ← seekEnd
  let id := fin - headerSize
  writeSize id
  return id

/-- `Inner::close_page` (src/store/paged_file_store.rs 175-184). -/
def closePage (currentPage : Nat) : M Unit := do
  let ps := (← self).pageSize
  let start := offsetOfPage currentPage ps
  padTo (start + ps)
  let _ ← commit
  loadPage currentPage
  update fun w => { w with recent := w.recent.filter fun e => page e.1 ps ≠ currentPage }

/-- `Inner::bytes` (src/store/paged_file_store.rs 200-217). -/
def bytes (dbg : Bool) (offset : Nat) : M Bytes := do
  let w ← self
  let lastPage := page w.lastId w.pageSize
  let pg := page (← sub64 dbg offset 1) w.pageSize
  let pageOffset := offsetWithinPage offset w.pageSize
  if pg < lastPage then do
    unless w.pages.contains pg do loadPage pg
    pageBytes pg pageOffset
  else do
    unless (findRecent w offset).isSome do loadRecent dbg offset
    match findRecent (← self) offset with
    | some blob => pure blob
    | none => panic

/-- `Inner::append` (src/store/paged_file_store.rs 226-255). `data.len() as u64 + 4` and `offset + len` cannot overflow: a
slice has at most `2 ^ 63 - 1` bytes, as has a file. -/
def append (dbg : Bool) (data : Bytes) : M Nat := do
  let ps := (← self).pageSize
  ensure (data.length ≤ (← sub64 dbg ps 8))
  let len := data.length + 4
  let position ← seekEnd
  if position < headerSize then panic
  let offset := position - headerSize
  let fin := offset + len
  let currentPage := page offset ps
  let endPage := page fin ps
  if endPage ≠ currentPage then closePage currentPage
  writeAll data
  writeAll (toBE 4 data.length)
  let id ← commit
  update fun w => { w with lastId := id }
  insertRecent id data
  if id % ps < 4 then
    unless id % 1024 > 4 do panic
  return id

/-- `PagedFileStore::read` (src/store/paged_file_store.rs 276-279): `try_into().unwrap()` panics if the id does not have 8
bytes. -/
def read (dbg : Bool) (id : Bytes) : M Bytes := if id.length = 8 then bytes dbg (ofBE id) else panic

/-- `PagedFileStore::write` (src/store/paged_file_store.rs 281-284). -/
def write (dbg : Bool) (data : Bytes) : M Bytes := do return toBE 8 (← append dbg data)

/-- `PagedFileStore::last_id` (src/store/paged_file_store.rs 263-270). -/
def lastIdOf (w : Inner) : Option Bytes := if w.lastId = 0 then none else some (toBE 8 w.lastId)

/-! ### Histories -/

/-- The file system: the bytes of the file, and the store if it is open. For src/store/paged_file_store.rs 16, 30-39. -/
structure World where
  file : Bytes
  store : Option Inner

/-- A call, and what happens to the file operations it makes. `open` closes the store first if it is open: a restart of the
program. For src/store/paged_file_store.rs 258-290. -/
inductive Op where
  | open (evs : List Ev)
  | write (data : Bytes) (evs : List Ev)
  | read (id : Bytes) (evs : List Ev)
  | lastId
  deriving DecidableEq

/-- What the user sees of a call. `closed`: the call could not be made because the store is not open. For src/store/paged_file_store.rs 258-290. -/
inductive Seen where
  | opened (r : Out Unit)
  | bytes (r : Out Bytes)
  | lastId (r : Option Bytes)
  | closed
  deriving DecidableEq

/-- After a crash the store is gone; in all other cases it goes on. (The mutex is not poisoned by panics,
`parking_lot::Mutex`.) For src/store/paged_file_store.rs 258-290. -/
def after {α : Type} (r : Out α × Inner) : World :=
  match r.1 with
  | .crash => ⟨r.2.data, none⟩
  | _ => ⟨r.2.data, some r.2⟩

/-- One call on a store with this page size; `dbg` says if the build has overflow checks. For src/store/paged_file_store.rs 258-290. -/
def step (dbg : Bool) (ps : Nat) (w : World) : Op → Seen × World
  | .open evs =>
    let r := new dbg ⟨w.file, 0, ps, [], [], 0, evs⟩
    (.opened r.1, match r.1 with
      | .ok _ => ⟨r.2.data, some r.2⟩
      | _ => ⟨r.2.data, none⟩)
  | .write data evs =>
    match w.store with
    | none => (.closed, w)
    | some s => let r := write dbg data { s with evs := evs }; (.bytes r.1, after r)
  | .read id evs =>
    match w.store with
    | none => (.closed, w)
    | some s => let r := read dbg id { s with evs := evs }; (.bytes r.1, after r)
  | .lastId =>
    match w.store with
    | none => (.closed, w)
    | some s => (.lastId (lastIdOf s), w)

/-- The log of a history of calls: what was called, what came back, and the world after it. For src/store/paged_file_store.rs 258-290. -/
def log (dbg : Bool) (ps : Nat) : World → List Op → List (Op × Seen)
  | _, [] => []
  | w, op :: ops => let r := step dbg ps w op; (op, r.1) :: log dbg ps r.2 ops

/-- The world after a history of calls. For src/store/paged_file_store.rs 258-290. -/
def run (dbg : Bool) (ps : Nat) : World → List Op → World
  | w, [] => w
  | w, op :: ops => run dbg ps (step dbg ps w op).2 ops

/-- Before the first call: an empty file. For src/store/paged_file_store.rs 122-143. -/
def fresh : World := ⟨[], none⟩

end Radix.Paged
