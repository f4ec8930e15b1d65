import Verif.Browser.History
import Verif.Stored.Store

/-
A file of the browser file system as the store of a tree.
-/

namespace Radix.Browser

/-- The call does not write except by `put`. For browser/src/sync_fs.rs 195-267. -/
def AppendOnly (c : Call) : Prop := (∀ n evs, c ≠ .truncate n evs) ∧ ∀ o d evs, c ≠ .write o d evs

/-- The state of a file that is only appended to, given by the calls that were made since it had no chunks, and what will happen to
the cache operations of the coming calls (nothing bad when the list is used up). For browser/src/sync_fs.rs 230-267. -/
structure FileHist where
  calls : List Call
  only : ∀ c ∈ calls, AppendOnly c
  coming : List (List Ev)

/-- More calls. For browser/src/sync_fs.rs 230-267. -/
def FileHist.more (h : FileHist) (cs : List Call) (hc : ∀ c ∈ cs, AppendOnly c) (coming : List (List Ev)) : FileHist :=
  ⟨h.calls ++ cs, fun c h' => (List.mem_append.1 h').elim (h.only c) (hc c), coming⟩

/-- What the tree sees of a call. After a crash the tree is gone. If the thread of the file system is gone, the call returns an error or never returns.
All count as errors here. For browser/src/sync_fs.rs 230-267. -/
def Seen.toRes : Seen → Res Unit Bytes
  | .bytes (.ok b) => .ok b
  | _ => .err ()

/-- `impl BlobStore for SyncFile` (browser/src/sync_fs.rs 230-268) on the file `name` in a directory with the given cache. A read changes
nothing, so it is not added to the history. -/
def fileStore (cache : Cache) (name : Name) : BlobStore FileHist Unit where
  read h id := ((step (run (fresh cache name) h.calls) (.get id (h.coming.headD []))).1).toRes
  write h d :=
    (((step (run (fresh cache name) h.calls) (.put d (h.coming.headD []))).1).toRes,
      h.more [.put d (h.coming.headD [])] (fun c hc => by rw [List.mem_singleton.1 hc]; exact ⟨by simp, by simp⟩) h.coming.tail)
  ofAnyhow := .err ()

end Radix.Browser
