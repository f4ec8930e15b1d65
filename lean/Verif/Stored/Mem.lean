import Verif.Stored.Record

/-
Model of `MemStore` (src/store/mem_store.rs) and of the `VecStore` of the tests (src/tests.rs 10-41), with the
big-endian integers they use as ids.
-/

namespace Radix

/-- `to_be_bytes` of an unsigned integer with `n` bytes (Rust std): the most significant byte first, modulo `256 ^ n`. -/
def toBE : Nat → Nat → Bytes
  | 0, _ => []
  | n + 1, x => toBE n (x / 256) ++ [UInt8.ofNat x]

/-- `from_be_bytes` (Rust std). For src/store/mem_store.rs 31. -/
def ofBE (bs : Bytes) : Nat := bs.foldl (fun acc b => acc * 256 + b.toNat) 0

/-- The contents of the `BTreeMap` of a `MemStore` (src/store/mem_store.rs 8-10), newest entry first. The mutex makes each
call atomic, so a history of calls of several clients is a sequence of calls. -/
abbrev MemState := List (Nat × Bytes)

/-- `data.keys().next_back().cloned().unwrap_or(0)` (src/store/mem_store.rs 40): the largest key. -/
def MemState.max (st : MemState) : Nat := st.foldl (fun m e => Nat.max m e.1) 0

/-- `data.get(&id)` (src/store/mem_store.rs 33). -/
def MemState.find (st : MemState) (id : Nat) : Option Bytes := (List.find? (fun e => e.1 == id) st).map (·.2)

/-- `MemStore` (src/store/mem_store.rs 26-50). `max + 1` overflows after `2 ^ 64 - 1` writes: in builds with overflow checks
that is a panic, as here; in builds without them the id wraps to 0 (see `memWriteWrap`). Errors are opaque. -/
def memStore : BlobStore MemState Unit where
  read st id :=
    if id.length = 8 then
      match st.find (ofBE id) with
      | some d => .ok d
      | none => .err ()
    else .err ()
  write st d :=
    let id := st.max + 1
    if id < 2 ^ 64 then (.ok (toBE 8 id), (id, d) :: st) else (.panic, st)
  ofAnyhow := .err ()

/-- `MemStore::write` without overflow checks (src/store/mem_store.rs 38-45). -/
def memWriteWrap (st : MemState) (d : Bytes) : Bytes × MemState :=
  let id := (st.max + 1) % 2 ^ 64
  (toBE 8 id, (id, d) :: st)

/-- A call of one of the clients of a `MemStore` (src/store/mem_store.rs 11-50). -/
inductive MemOp where
  | write (d : Bytes)
  | read (id : Bytes)
  | count
  deriving DecidableEq

/-- The observable outcome of a call. For src/store/mem_store.rs 26-50. -/
inductive MemOut where
  | bytes (r : Res Unit Bytes)
  | num (n : Nat)

/-- One call (src/store/mem_store.rs 12-14, 29-45). -/
def memStep (st : MemState) : MemOp → MemOut × MemState
  | .write d => let (r, st') := memStore.write st d; (.bytes r, st')
  | .read id => (.bytes (memStore.read st id), st)
  | .count => (.num st.length, st)

/-- The log of a history of calls: what was called, and what came back. For src/store/mem_store.rs 26-50. -/
def memLog : MemState → List MemOp → List (MemOp × MemOut)
  | _, [] => []
  | st, op :: ops => let (r, st') := memStep st op; (op, r) :: memLog st' ops

/-- `VecStore` of the tests (src/tests.rs 10-41): the data is followed by its length, the id is the end offset. -/
def vecStore : BlobStore Bytes Unit where
  read st id :=
    if id.length ≠ 8 then .err ()
    else
      let offset := ofBE id
      if 4 ≤ offset ∧ offset ≤ st.length then
        let len := ofBE ((st.drop (offset - 4)).take 4)
        if len ≤ offset - 4 then .ok ((st.drop (offset - 4 - len)).take len) else .err ()
      else .err ()
  write st d :=
    if d.length < 2 ^ 32 then
      let st' := st ++ d ++ toBE 4 d.length
      (.ok (toBE 8 st'.length), st')
    else (.err (), st ++ d)
  ofAnyhow := .err ()

end Radix
