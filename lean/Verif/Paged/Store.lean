import Verif.Paged.Model

/-
`PagedFileStore` as the store of a tree.
-/

namespace Radix.Paged

/-- The state of the file and of the process that uses it, given by the calls that were made since the file was empty, and what
will happen to the file operations of the coming calls (nothing bad when the list is used up). For src/store/paged_file_store.rs 258-290. -/
structure Hist where
  ops : List Op
  coming : List (List Ev)

/-- The world after the calls. For src/store/paged_file_store.rs 258-290. -/
def Hist.world (dbg : Bool) (ps : Nat) (h : Hist) : World := run dbg ps fresh h.ops

/-- What the tree sees of a call. After a crash the tree is gone, and a store that is not open cannot be called; both count as errors
here. For src/store/paged_file_store.rs 273-290. -/
def Seen.toRes : Seen → Res Unit Bytes
  | .bytes (.ok b) => .ok b
  | .bytes .panic => .panic
  | _ => .err ()

/-- `impl BlobStore for PagedFileStore` (src/store/paged_file_store.rs 272-289). A read changes caches only, so it is not added to the
history. -/
def pagedStore (dbg : Bool) (ps : Nat) : BlobStore Hist Unit where
  read h id := ((step dbg ps (h.world dbg ps) (.read id (h.coming.headD []))).1).toRes
  write h d :=
    let op := Op.write d (h.coming.headD [])
    (((step dbg ps (h.world dbg ps) op).1).toRes, ⟨h.ops ++ [op], h.coming.tail⟩)
  ofAnyhow := .err ()

end Radix.Paged
