import Verif.Paged.Model

/-
The blobs that `PagedFileStore` hands out, as what they are in memory: a copy of bytes, or a view of the memory map of a page.  `Model` has
the bytes that the caller sees at the moment of the call; here it is kept where they are.
-/

namespace Radix.Paged

/-- An `OwnedBlob` that a read returns (src/store/paged_file_store.rs 72-80, 200-217): bytes of its own (a clone of an entry of `recent`), or the slice of `len` bytes
of the file from `start` on, seen through the map of a page. The `Arc` of the page that the blob holds keeps the map alive. -/
inductive View where
  | own (bs : Bytes)
  | map (start len : Nat)
  deriving DecidableEq

/-- The bytes that the owner of the blob sees when the file has these bytes (a shared map shows the file). For src/store/paged_file_store.rs 41-81. -/
def View.bytes (file : Bytes) : View → Bytes
  | .own bs => bs
  | .map start len => (file.drop start).take len

/-- Memory that is mapped beyond the end of the file must not be read: the process is killed. For src/store/paged_file_store.rs 41-81. -/
def View.Valid (file : Bytes) : View → Prop
  | .own _ => True
  | .map start len => start + len ≤ file.length

/-- Decidable, for src/store/paged_file_store.rs 41-81. -/
instance (file : Bytes) (v : View) : Decidable (v.Valid file) := by
  cases v <;> unfold View.Valid <;> infer_instance

/-- `Page::bytes` (src/store/paged_file_store.rs 72-80): as `pageBytes`, but with the place of the slice. -/
def pageView (page offset : Nat) : M View := do
  let w ← self
  let data := (w.data.drop (offsetOfPage page w.pageSize)).take w.pageSize
  ensure (4 ≤ offset)
  let length := ofBE (← sliceBefore data offset 4)
  ensure (length + 4 ≤ offset)
  let _ ← sliceBefore data (offset - 4) length
  pure (.map (offsetOfPage page w.pageSize + (offset - 4 - length)) length)

/-- `Inner::bytes` (src/store/paged_file_store.rs 200-217): as `bytes`, but with the place of the slice. -/
def bytesView (dbg : Bool) (offset : Nat) : M View := do
  let w ← self
  let lastPage := page w.lastId w.pageSize
  let pg := page (← sub64 dbg offset 1) w.pageSize
  let pageOffset := offsetWithinPage offset w.pageSize
  if pg < lastPage then do
    unless w.pages.contains pg do loadPage pg
    pageView pg pageOffset
  else do
    unless (findRecent w offset).isSome do loadRecent dbg offset
    match findRecent (← self) offset with
    | some blob => pure (.own blob)
    | none => panic

/-- `PagedFileStore::read` (src/store/paged_file_store.rs 276-279). -/
def readView (dbg : Bool) (id : Bytes) : M View := if id.length = 8 then bytesView dbg (ofBE id) else panic

end Radix.Paged
