import Verif.Stored.Blob
import Verif.Paged.View

/-
Blobs in memory: the objects that keep the bytes of blobs alive, with their reference counts, and a program that holds blobs while a store
is in use.

The outer `none` of every function is what must never happen: an object is used after it was freed, or changed while something else refers
to it.
-/

namespace Radix.Blobs
open Radix.Paged (View)

/-- What an `Arc` points to: the `Arc<Vec<u8>>` of a copied blob, of a value of `MemStore` and of a page of `PagingFile`
(src/store/blob_store.rs 104-114, src/store/mem_store.rs 8-10, browser/src/paging_file.rs 19-21), or the `Arc<PageInner>` with the memory map of a
page of a file (src/store/paged_file_store.rs 40-43, 61-69): `size` bytes of the file from `start` on. -/
inductive Obj where
  | vec (bs : Bytes)
  | page (start size : Nat)
  deriving DecidableEq

/-- The memory: what was allocated so far, with the strong count and the contents of each `Arc` (Rust std); `none` is an object that was freed. Addresses are
not used again, so a use of a freed object is always seen. For src/store/blob_store.rs 36-40, 109-125. -/
abbrev Mem := List (Option (Nat × Obj))

/-- The contents of an object that is alive (`Arc::deref`, Rust std). For src/store/blob_store.rs 45-57. -/
def Mem.get (m : Mem) (a : Nat) : Option Obj :=
  match m[a]? with
  | some (some (_, x)) => some x
  | _ => none

/-- `Arc::new` (Rust std). For src/store/blob_store.rs 105-107, src/store/mem_store.rs 42, browser/src/paging_file.rs 54, 128. -/
def Mem.alloc (m : Mem) (x : Obj) : Nat × Mem := (m.length, m ++ [some (1, x)])

/-- `Arc::clone` (Rust std). For src/store/blob_store.rs 36, 127-164, src/store/mem_store.rs 34, browser/src/paging_file.rs 120-129. -/
def Mem.inc (m : Mem) (a : Nat) : Option Mem :=
  match m[a]? with
  | some (some (c, x)) => some (m.set a (some (c + 1, x)))
  | _ => none

/-- `Drop for Arc` (Rust std): the last one frees the object. For src/store/blob_store.rs 36-40. -/
def Mem.dec (m : Mem) (a : Nat) : Option Mem :=
  match m[a]? with
  | some (some (c, x)) => some (m.set a (if c = 1 then none else some (c - 1, x)))
  | _ => none

/-- Drop several, one after the other. For src/store/paged_file_store.rs 181-182 and the stores that are dropped. -/
def Mem.decs (m : Mem) : List Nat → Option Mem
  | [] => some m
  | a :: as => (m.dec a).bind fun m => m.decs as

/-- `Arc::make_mut` (Rust std): the object itself if nobody else refers to it, otherwise a copy of it. For browser/src/paging_file.rs 52, 91. -/
def Mem.makeMut (m : Mem) (a : Nat) : Option (Nat × Mem) :=
  match m[a]? with
  | some (some (c, x)) =>
    if c = 1 then some (a, m)
    else
      let r := m.alloc x
      (r.2.dec a).map fun m => (r.1, m)
  | _ => none

/-- A write through the `&mut` that `Arc::make_mut` gives: undefined if anything else refers to the object. For browser/src/paging_file.rs 52, 91. -/
def Mem.put (m : Mem) (a : Nat) (x : Obj) : Option Mem :=
  match m[a]? with
  | some (some (c, _)) => if c = 1 then some (m.set a (some (1, x))) else none
  | _ => none

/-- `Blob` (src/store/blob_store.rs 36-40): a slice without an owner (bytes of the program itself), or `len` bytes from `start` on of the object at `a`, which is
its owner. -/
inductive Blob where
  | lit (bs : Bytes)
  | part (a start len : Nat)
  deriving DecidableEq

/-- The references that a blob holds (src/store/blob_store.rs 36-40). -/
def Blob.refs : Blob → List Nat
  | .lit _ => []
  | .part a _ _ => [a]

/-- The length of the slice (src/store/blob_store.rs 45-57). -/
def Blob.len : Blob → Nat
  | .lit bs => bs.length
  | .part _ _ len => len

/-- What the slice shows (src/store/blob_store.rs 45-57): bytes, or a part of a memory map. -/
def Blob.view (m : Mem) : Blob → Option View
  | .lit bs => some (.own bs)
  | .part a start len =>
    match m.get a with
    | some (.vec bs) => some (.own ((bs.drop start).take len))
    | some (.page s _) => some (.map (s + start) len)
    | none => none

/-- `#[derive(Clone)]` (src/store/blob_store.rs 36). -/
def Blob.clone (m : Mem) : Blob → Option Mem
  | .lit _ => some m
  | .part a _ _ => m.inc a

/-- A blob goes out of scope (src/store/blob_store.rs 36-40). -/
def Blob.drop (m : Mem) : Blob → Option Mem
  | .lit _ => some m
  | .part a _ _ => m.dec a

/-- `Blob::from_arc_vec` and `From<Arc<Vec<u8>>>` (src/store/blob_store.rs 109-114, 200-208): the reference `a` becomes the owner. -/
def Blob.ofArc (a : Nat) (bs : Bytes) : Blob := .part a 0 bs.length

/-- `Blob::copy_from_slice` (src/store/blob_store.rs 104-107). -/
def Blob.copy (m : Mem) (bs : Bytes) : Blob × Mem :=
  let r := m.alloc (.vec bs)
  (Blob.ofArc r.1 bs, r.2)

/-- `Blob::to_owned` (src/store/blob_store.rs 116-125): the slice of a blob without an owner is copied. -/
def Blob.toOwned (m : Mem) : Blob → Blob × Mem
  | .lit bs => Blob.copy m bs
  | .part a start len => (.part a start len, m)

/-- The range of `Blob::slice` (src/store/blob_store.rs 128-158) for a blob of this length; `none` is a failed `assert!` or `expect`, as in `blobSlice`. -/
def sliceRange (wordSize len : Nat) (s e : RBound) : Option (Nat × Nat) :=
  let begin? : Option Nat :=
    match s with
    | .included n => some n
    | .excluded n => if n + 1 < wordSize then some (n + 1) else none
    | .unbounded => some 0
  let end? : Option Nat :=
    match e with
    | .included n => if n + 1 < wordSize then some (n + 1) else none
    | .excluded n => some n
    | .unbounded => some len
  match begin?, end? with
  | some b, some e => if b ≤ e ∧ e ≤ len then some (b, e) else none
  | _, _ => none

/-- The result of `Blob::slice` (src/store/blob_store.rs 155-163) for a range within the blob: an empty blob has no owner. -/
def Blob.sub (m : Mem) (b : Nat) (e : Nat) : Blob → Option (Blob × Mem)
  | .lit bs => some (.lit ((bs.drop b).take (e - b)), m)
  | .part a start _ => if e = b then some (.lit [], m) else (m.inc a).map fun m => (.part a (start + b) (e - b), m)

/-! ### A program that holds blobs -/

/-- What a call of a store gives: a blob, the id of what was written, a number, nothing, or how it failed. For src/store/blob_store.rs 12-34. -/
inductive Ans (β : Type) where
  | blob (b : β)
  | id (bs : Bytes)
  | num (n : Nat)
  | unit
  | err
  | panic
  | crash
  deriving DecidableEq

/-- A store in memory: the references that it holds, and its calls. The new state is missing if the process does not go on. For src/store/blob_store.rs 12-34, src/store/mem_store.rs 8-50, src/store/paged_file_store.rs 16-290, browser/src/paging_file.rs 15-175. -/
structure Impl (τ κ : Type) where
  refs : τ → List Nat
  step : τ → κ → Mem → Option (Ans Blob × Option τ × Mem)

/-- What the program does: it calls the store; it makes a blob of static or of copied bytes (`Blob::new`, `Blob::copy_from_slice`), slices, clones, owns, drops or reads a
blob that it holds (src/store/blob_store.rs 99-163); it drops the store. Blobs that are made go to a new place in the list of blobs. -/
inductive Op (κ : Type) where
  | call (c : κ)
  | lit (d : Bytes)
  | copy (d : Bytes)
  | slice (i : Nat) (s e : RBound)
  | clone (i : Nat)
  | toOwned (i : Nat)
  | drop (i : Nat)
  | look (i : Nat)
  | close

/-- What the program sees. `absent`: there is no such blob or no store, nothing is done. `sees`: the bytes of a blob. For src/store/blob_store.rs 12-34, 45-57. -/
inductive Seen where
  | ans (a : Ans Unit)
  | sees (v : View)
  | panic
  | done
  | absent
  deriving DecidableEq

/-- The answer without the blob, which is a new blob of the program. For src/store/blob_store.rs 12-34. -/
def Ans.seen {β : Type} : Ans β → Ans Unit
  | .blob _ => .blob ()
  | .id bs => .id bs
  | .num n => .num n
  | .unit => .unit
  | .err => .err
  | .panic => .panic
  | .crash => .crash

/-- The blob in an answer. For src/store/blob_store.rs 17. -/
def Ans.blob? {β : Type} : Ans β → List β
  | .blob b => [b]
  | _ => []

/-- The store until it is dropped, the blobs of the program, and the memory. For src/store/blob_store.rs 12-40. -/
structure World (τ : Type) where
  store : Option τ
  slots : List (Option Blob)
  mem : Mem

/-- The blob at a place. For src/store/blob_store.rs 36-40. -/
def slot {β : Type} (slots : List (Option β)) (i : Nat) : Option β := (slots[i]?).bind id

/-- One step of the program. The new world is missing if the process does not go on. For src/store/blob_store.rs 12-198. -/
def step {τ κ : Type} (I : Impl τ κ) (wordSize : Nat) (w : World τ) : Op κ → Option (Seen × Option (World τ))
  | .call c =>
    match w.store with
    | none => some (.absent, some w)
    | some t => (I.step t c w.mem).map fun r =>
        (.ans r.1.seen, r.2.1.map fun t => ⟨some t, w.slots ++ r.1.blob?.map some, r.2.2⟩)
  | .lit d => some (.done, some { w with slots := w.slots ++ [some (.lit d)] })
  | .copy d =>
    let r := Blob.copy w.mem d
    some (.done, some { w with slots := w.slots ++ [some r.1], mem := r.2 })
  | .slice i s e =>
    match slot w.slots i with
    | none => some (.absent, some w)
    | some b =>
      match sliceRange wordSize b.len s e with
      | none => some (.panic, some w)
      | some r => (b.sub w.mem r.1 r.2).map fun x => (.done, some { w with slots := w.slots ++ [some x.1], mem := x.2 })
  | .clone i =>
    match slot w.slots i with
    | none => some (.absent, some w)
    | some b => (b.clone w.mem).map fun m => (.done, some { w with slots := w.slots ++ [some b], mem := m })
  | .toOwned i =>
    match slot w.slots i with
    | none => some (.absent, some w)
    | some b =>
      let r := b.toOwned w.mem
      some (.done, some { w with slots := w.slots.set i (some r.1), mem := r.2 })
  | .drop i =>
    match slot w.slots i with
    | none => some (.absent, some w)
    | some b => (b.drop w.mem).map fun m => (.done, some { w with slots := w.slots.set i none, mem := m })
  | .look i =>
    match slot w.slots i with
    | none => some (.absent, some w)
    | some b => (b.view w.mem).map fun v => (.sees v, some w)
  | .close =>
    match w.store with
    | none => some (.absent, some w)
    | some t => (w.mem.decs (I.refs t)).map fun m => (.done, some { w with store := none, mem := m })

/-- A program, from this world on: what it sees, and the world in the end if the process is still there. For src/store/blob_store.rs 12-198. -/
def run {τ κ : Type} (I : Impl τ κ) (wordSize : Nat) : World τ → List (Op κ) → Option (List Seen × Option (World τ))
  | w, [] => some ([], some w)
  | w, op :: ops =>
    match step I wordSize w op with
    | none => none
    | some (o, none) => some ([o], none)
    | some (o, some w) => (run I wordSize w ops).map fun r => (o :: r.1, r.2)

end Radix.Blobs
