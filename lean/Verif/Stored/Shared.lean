import Verif.Stored.Store

/-
A store that other clients write to while a call of one client is running (src/store/blob_store.rs 11-31: `read` and
`write` take `&self`, and `DynBlobStore`, 226-241, is shared by cloning an `Arc`).

The trees only call `read` and `write`. All stores here do a `write` under a mutex (src/store/mem_store.rs 38-45,
src/store/paged_file_store.rs 276-284), so whatever the threads do, the writes come one after the other; the model has
nothing finer. The only thing a client sees of the others is that the state has changed when it calls the store the next
time. `Sharing` is what the others do, for one run of one client; it is arbitrary, so it covers others that react to
what they see.
-/

namespace Radix

/-- What the other clients do: `before` lists what they write before the next call of `write`, before the one after it, and
so on; `during i` is what they have written, since the last `write` of the client, when it reads the blob `i`.
(Simplification: two reads of the same blob between two writes of the client see the same writes of others.) `log` is
everything that has been written so far, in this order, with `true` for the writes of the client itself. For src/store/blob_store.rs 12-34. -/
structure Sharing where
  log : List (Bool × Bytes)
  before : List (List Bytes)
  during : Bytes → List Bytes

/-- Nothing has been written yet, and this is what the others are going to do. For src/store/blob_store.rs 12-34. -/
def Sharing.start (before : List (List Bytes)) (during : Bytes → List Bytes) : Sharing := ⟨[], before, during⟩

/-- Writes of others. For src/store/blob_store.rs 22. -/
def others (ws : List Bytes) : List (Bool × Bytes) := ws.map fun d => (false, d)

/-- The state of the store `S`, at first `st`, after these calls of `BlobStore::write` (src/store/blob_store.rs 22), some of
which may have failed. -/
def world {σ ε : Type} (S : BlobStore σ ε) (st : σ) (log : List (Bool × Bytes)) : σ :=
  log.foldl (fun st w => (S.write st w.2).2) st

/-- The store `S` (src/store/blob_store.rs 11-31) as one client sees it while others write to it. -/
def shared {σ ε : Type} (S : BlobStore σ ε) (st : σ) : BlobStore Sharing ε where
  read s i := S.read (world S st (s.log ++ others (s.during i))) i
  write s d :=
    let log := s.log ++ others (s.before.headD [])
    ((S.write (world S st log) d).1, ⟨log ++ [(true, d)], s.before.tail, s.during⟩)
  ofAnyhow := S.ofAnyhow

end Radix
