import Verif.Stored.Blob
import Verif.Tree.Combine

/-
Model of detached tree nodes in memory: unions, headers and reference counts (src/node/mod.rs 23-218, 651-1139).

Memory is a list of cells, each an `Arc<Vec<u8>>` or an `Arc<Vec<TreeNode>>` with its strong count. Using a cell that was freed, reading
the wrong field of a union or a failed assertion gives no result at all (`none`), so a theorem that says that there is a result says that none of these happens.

Simplified:
* an exclusively owned vector of children that is borrowed mutably is taken out of its cell and put into a new cell afterwards (the code changes it in place;
  addresses cannot be observed);
* overflow of a strong count (the code aborts) and allocation failure are left out;
* ids do not occur (the trees are detached).
-/

set_option linter.unusedVariables false

namespace Radix.Heap

/-- The 8 bytes of the unions `CompactOwnedBlob` (src/node/mod.rs 31-34) and `ChildrenRef` (108-113). The model remembers which field was written. -/
inductive Word where
  | bytes (b : Bytes)
  | blob (a : Nat)
  | kids (a : Nat)
  deriving DecidableEq

/-- A header with its union: the fields of `TreeNode` (src/node/mod.rs 651-666), `Value` (556-560). -/
structure Fld where
  hdr : Hdr
  w : Word
  deriving DecidableEq

/-- `TreeNode` (src/node/mod.rs 651-666). -/
structure Raw where
  pfx : Fld
  val : Fld
  ch : Fld
  deriving DecidableEq

/-- A heap cell with its strong count: `Arc<Vec<u8>>` or `Arc<Vec<TreeNode>>` (src/node/mod.rs 32, 109-110). -/
inductive Cell where
  | blob (count : Nat) (data : Bytes)
  | kids (count : Nat) (nodes : List Raw)
  deriving DecidableEq

/-- Memory; the address is the index, `none` is a freed cell. For src/node/mod.rs 24-160. -/
abbrev Heap := List (Option Cell)

/-! ### Steps

A call is a sequence of steps, each of which is atomic. Other threads may do steps in between (`Verif/Heap/Threads.lean`). -/

/-- The steps: what `Arc` (Rust std) does to its strong count or with its contents. For src/node/mod.rs 24-160, 850-900. -/
inductive Act where
  | alloc (c : Cell)
  | readBlob (a : Nat)
  | readKids (a : Nat)
  | incBlob (a : Nat)
  | incKids (a : Nat)
  | decBlob (a : Nat)
  | decKids (a : Nat)
  | takeBlob (a : Nat)
  | takeKids (a : Nat)
  | size

/-- What a step (of `Arc`, Rust std) gives. For src/node/mod.rs 24-160, 850-900. -/
def Act.Res : Act → Type
  | .alloc _ => Nat
  | .readBlob _ => Bytes
  | .readKids _ => List Raw
  | .incBlob _ => Unit
  | .incKids _ => Unit
  | .decBlob _ => Unit
  | .decKids _ => List Raw
  | .takeBlob _ => Option Bytes
  | .takeKids _ => Option (List Raw)
  | .size => Nat

/-- Number of the nodes in all cells (not in the code; for the number of steps of `dropAll`). -/
def heapSize : Heap → Nat
  | [] => 0
  | some (.kids _ ns) :: h => ns.length + heapSize h
  | _ :: h => heapSize h

/-- What a step does to memory (`Arc`, Rust std); no result if the cell was freed or is of the other kind.
* `alloc`: `Arc::new`.
* `readBlob`, `readKids`: `Arc::deref`. The contents are read at once; the code reads them bit by bit, but they do not change in between.
* `incBlob`, `incKids`: `Arc::clone`.
* `decBlob`, `decKids`: `Arc::drop`, which frees the cell with the last reference; then the nodes that were in it have to be dropped.
* `takeBlob`, `takeKids`: the test of `Arc::make_mut` whether this is the only reference. If it is, the contents are taken out (simplified: the cell is
  freed, and a new one is made afterwards).
* `size`: not in the code; it bounds the number of steps of `dropAll`. -/
def Act.exec : (x : Act) → Heap → Option (x.Res × Heap)
  | .alloc c, h => some (h.length, h ++ [some c])
  | .readBlob a, h =>
    match h[a]? with
    | some (some (.blob _ d)) => some (d, h)
    | _ => none
  | .readKids a, h =>
    match h[a]? with
    | some (some (.kids _ ns)) => some (ns, h)
    | _ => none
  | .incBlob a, h =>
    match h[a]? with
    | some (some (.blob n d)) => some ((), h.set a (some (.blob (n + 1) d)))
    | _ => none
  | .incKids a, h =>
    match h[a]? with
    | some (some (.kids n ns)) => some ((), h.set a (some (.kids (n + 1) ns)))
    | _ => none
  | .decBlob a, h =>
    match h[a]? with
    | some (some (.blob (n + 1) d)) => some ((), h.set a (if n = 0 then none else some (.blob n d)))
    | _ => none
  | .decKids a, h =>
    match h[a]? with
    | some (some (.kids (n + 1) ns)) => some (if n = 0 then ns else [], h.set a (if n = 0 then none else some (.kids n ns)))
    | _ => none
  | .takeBlob a, h =>
    match h[a]? with
    | some (some (.blob n d)) => if n = 1 then some (some d, h.set a none) else some (none, h)
    | _ => none
  | .takeKids a, h =>
    match h[a]? with
    | some (some (.kids n ns)) => if n = 1 then some (some ns, h.set a none) else some (none, h)
    | _ => none
  | .size, h => some (heapSize h, h)

/-- Computations that use memory: a result, undefined behaviour or a panic (`stop`), or a step and what is done with what it gives. The functions of
src/node/mod.rs are computations. -/
inductive H (α : Type) : Type where
  | done (a : α)
  | stop
  | act (x : Act) (k : x.Res → H α)

/-- One after the other. For src/node/mod.rs 850-2960. -/
def H.bind {α β : Type} : H α → (α → H β) → H β
  | .done a, f => f a
  | .stop, _ => .stop
  | .act x k, f => .act x fun b => (k b).bind f

/-- Monad for src/node/mod.rs 850-2960. -/
instance : Monad H where
  pure := H.done
  bind := H.bind

/-- All steps of a computation one after the other, with nothing in between; no result means undefined behaviour or a panic. For src/node/mod.rs 850-2960. -/
def H.exec {α : Type} : H α → Heap → Option (α × Heap)
  | .done a, h => some (a, h)
  | .stop, _ => none
  | .act x k, h =>
    match x.exec h with
    | some (b, h) => (k b).exec h
    | none => none

/-- Undefined behaviour, or a panic. For src/node/mod.rs 850-2960. -/
def fail {α : Type} : H α := .stop

/-- A step (`Arc`, Rust std). For src/node/mod.rs 24-160, 850-900. -/
def Act.do (x : Act) : H x.Res := .act x .done

/-! ### `Arc` (Rust std) -/

/-- `Arc::new` (Rust std). For src/node/mod.rs 43, 134, 728, 861, 889. -/
def alloc (c : Cell) : H Nat := (Act.alloc c).do

/-- `Arc::deref` for `Arc<Vec<u8>>` (Rust std). For src/node/mod.rs 24-160. -/
def readBlob (a : Nat) : H Bytes := (Act.readBlob a).do

/-- `Arc::deref` for `Arc<Vec<TreeNode>>` (Rust std). For src/node/mod.rs 840-900. -/
def readKids (a : Nat) : H (List Raw) := (Act.readKids a).do

/-- `Arc::clone` for `Arc<Vec<u8>>` (Rust std). For src/node/mod.rs 24-160. -/
def incBlob (a : Nat) : H Unit := (Act.incBlob a).do

/-- `Arc::clone` for `Arc<Vec<TreeNode>>` (Rust std). For src/node/mod.rs 700-740. -/
def incKids (a : Nat) : H Unit := (Act.incKids a).do

/-- `Arc::drop` for `Arc<Vec<u8>>` (Rust std). For src/node/mod.rs 24-160. -/
def decBlob (a : Nat) : H Unit := (Act.decBlob a).do

/-- `Arc::drop` for `Arc<Vec<TreeNode>>` (Rust std), giving the nodes that have to be dropped next. For src/node/mod.rs 700-740. -/
def decKids (a : Nat) : H (List Raw) := (Act.decKids a).do

/-- The test of `Arc::make_mut` (Rust std) for `Arc<Vec<u8>>`. For src/node/mod.rs 2981, 2986. -/
def takeBlob (a : Nat) : H (Option Bytes) := (Act.takeBlob a).do

/-- The test of `Arc::make_mut` (Rust std) for `Arc<Vec<TreeNode>>`. For src/node/mod.rs 864, 898. -/
def takeKids (a : Nat) : H (Option (List Raw)) := (Act.takeKids a).do

/-- Not in the code (nothing in src/node/mod.rs counts nodes in memory): a bound for the number of steps of `dropAll`. -/
def memSize : H Nat := Act.size.do

/-! ### Blob fields -/

/-- Eight zero bytes. For src/node/mod.rs 24-60. -/
def zeros : Word := .bytes (List.replicate ptrSize 0)

/-- `Header::EMPTY` with `CompactOwnedBlob::EMPTY` (src/node/mod.rs 37-39, 338-341). -/
def Fld.empty : Fld := ⟨Hdr.empty, zeros⟩

/-- `Header::NONE` with `CompactOwnedBlob::EMPTY` or `ChildrenRef::EMPTY` (src/node/mod.rs 37-39, 116-118, 593-597). -/
def Fld.none : Fld := ⟨Hdr.none, zeros⟩

/-- `Header::data` with `CompactOwnedBlob::copy_from_slice` (src/node/mod.rs 41-52, 270-276). -/
def ofData (d : Bytes) : H Fld :=
  if d.length > ptrSize then do
    let a ← alloc (.blob 1 d)
    return ⟨Hdr.data d.length, .blob a⟩
  else return ⟨Hdr.data d.length, .bytes (d ++ List.replicate (ptrSize - d.length) 0)⟩

/-- `CompactOwnedBlob::slice` (src/node/mod.rs 62-70). -/
def Fld.slice (f : Fld) : H Bytes :=
  if f.hdr.isInline then
    match f.w with
    | .bytes b => return b.take f.hdr.len
    | _ => fail
  else
    match f.w with
    | .blob a => readBlob a
    | _ => fail

/-- `CompactOwnedBlob::manual_clone` (src/node/mod.rs 72-84) with the header. Copying the bytes of a pointer would be a reference that is
not counted. -/
def Fld.clone (f : Fld) : H Fld :=
  if f.hdr.isArc then
    match f.w with
    | .blob a => do incBlob a; return f
    | _ => fail
  else
    match f.w with
    | .bytes _ => return f
    | _ => fail

/-- `CompactOwnedBlob::manual_drop` (src/node/mod.rs 86-96). -/
def Fld.drop (f : Fld) : H Unit :=
  if f.hdr.isArc then
    match f.w with
    | .blob a => decBlob a
    | _ => fail
  else return ()

/-- `has_value` (src/node/mod.rs 1070-1072): the header is not `NONE`. -/
def Fld.isSome (f : Fld) : Bool := f.hdr != Hdr.none

/-! ### Children fields -/

/-- `get_children` (src/node/mod.rs 1043-1045, 151-165): the nodes in the `Arc`, or nothing for the empty id. -/
def Fld.children (f : Fld) : H (Option (List Raw)) :=
  if f.hdr.isId then (if f.hdr.len = 0 then return Option.none else fail)
  else if f.hdr.len > ptrSize then
    match f.w with
    | .kids a => do return some (← readKids a)
    | _ => fail
  else fail

/-- `ChildrenRef::manual_clone` (src/node/mod.rs 183-201). -/
def Fld.cloneKids (f : Fld) : H Fld :=
  if f.hdr.isArc then
    if f.hdr.isId then
      match f.w with
      | .blob a => do incBlob a; return f
      | _ => fail
    else
      match f.w with
      | .kids a => do incKids a; return f
      | _ => fail
  else
    match f.w with
    | .bytes _ => return f
    | _ => fail

/-- `ChildrenRef::manual_drop` (src/node/mod.rs 203-217), returning the nodes that have to be dropped next. -/
def Fld.dropKids (f : Fld) : H (List Raw) :=
  if f.hdr.isArc then
    if f.hdr.isId then
      match f.w with
      | .blob a => do decBlob a; return []
      | _ => fail
    else
      match f.w with
      | .kids a => decKids a
      | _ => fail
  else return []

/-- `set_children_arc(Arc::new(_))` (src/node/mod.rs 1051-1055) on a node whose children field is `NONE`. -/
def Raw.setKids (x : Raw) (cs : List Raw) : H Raw := do
  let a ← alloc (.kids 1 cs)
  return { x with ch := ⟨Hdr.arcData, .kids a⟩ }

/-! ### Nodes -/

/-- `TreeNode::EMPTY` (src/node/mod.rs 942-950). -/
def Raw.empty : Raw := ⟨Fld.empty, Fld.none, Fld.none⟩

/-- `impl Clone for TreeNode` (src/node/mod.rs 1127-1139). -/
def Raw.clone (x : Raw) : H Raw := do
  let p ← x.pfx.clone
  let v ← x.val.clone
  let c ← x.ch.cloneKids
  return ⟨p, v, c⟩

/-- One element after the other (a loop). For src/node/mod.rs 1780-1805. -/
def mapH {α β : Type} (f : α → H β) : List α → H (List β)
  | [] => return []
  | x :: xs => do
    let y ← f x
    let ys ← mapH f xs
    return y :: ys

/-- `impl Drop for TreeNode` (src/node/mod.rs 1119-1125) for a list of nodes, one after the other, each with what is below it. The first
argument bounds the number of steps. -/
def dropSteps : Nat → List Raw → H Unit
  | _, [] => return ()
  | 0, _ :: _ => fail
  | n + 1, x :: xs => do
    x.pfx.drop
    x.val.drop
    let cs ← x.ch.dropKids
    dropSteps n (cs ++ xs)

/-- Dropping nodes (src/node/mod.rs 1119-1125). -/
def dropAll (xs : List Raw) : H Unit := do
  let n ← memSize
  dropSteps (xs.length + n) xs

/-- `Arc::make_mut` (Rust std) for the vector of children, which is taken out: with a single reference the vector itself; otherwise a copy, with each
node cloned, and the reference is dropped (other threads may have dropped theirs in the meantime). For src/node/mod.rs 864, 898. -/
def takeMut (a : Nat) : H (List Raw) := do
  match ← takeKids a with
  | some ns => return ns
  | none => do
    let ns ← readKids a
    let cs ← mapH Raw.clone ns
    let old ← decKids a
    dropAll old
    return cs

/-- `load_children_mut` (src/node/mod.rs 853-865), taking the vector out. -/
def Raw.takeChildren (x : Raw) : H (List Raw) :=
  if x.ch.hdr.isId then (if x.ch.hdr.len = 0 then return [] else fail)
  else if x.ch.hdr.len > ptrSize then
    match x.ch.w with
    | .kids a => takeMut a
    | _ => fail
  else fail

/-- `set_prefix_slice` (src/node/mod.rs 993-997). -/
def Raw.setPrefix (x : Raw) (p : Bytes) : H Raw := do
  x.pfx.drop
  let f ← ofData p
  return { x with pfx := f }

/-- `set_value_slice(None)` (src/node/mod.rs 1032-1041). -/
def Raw.clearValue (x : Raw) : H Raw := do
  x.val.drop
  return { x with val := Fld.none }

/-- `set_children_arc_opt(None)` (src/node/mod.rs 1057-1068): the children are dropped. -/
def Raw.clearChildren (x : Raw) : H Raw := do
  let cs ← x.ch.dropKids
  dropAll cs
  return { x with ch := Fld.none }

/-- `TreeNode::single` (src/node/mod.rs 958-963). -/
def Raw.single (k v : Bytes) : H Raw := do
  let p ← ofData k
  let f ← ofData v
  return ⟨p, f, Fld.none⟩

/-- `TreeNode::is_empty` (src/node/mod.rs 983-985, 1100-1102). -/
def Raw.isEmpty (x : Raw) : Bool := !x.val.isSome && x.ch.hdr == Hdr.none

/-- `child_count` (src/node/mod.rs 1104-1116). -/
def Raw.childCount (x : Raw) : H Nat := do
  match ← x.ch.children with
  | some cs => return cs.length
  | none => return 0

/-- `load_children` (src/node/mod.rs 839-844, 1937-1943): nothing for an empty vector. -/
def Raw.loadChildren (x : Raw) : H (Option (List Raw)) := do
  match ← x.ch.children with
  | some (c :: cs) => return some (c :: cs)
  | _ => return none

/-- `clone_shortened` (src/node/mod.rs 867-872). -/
def Raw.cloneShortened (x : Raw) (n : Nat) : H Raw := do
  let p ← x.pfx.slice
  let y ← x.clone
  y.setPrefix (p.drop n)

/-- `split` (src/node/mod.rs 874-891). -/
def Raw.split (x : Raw) (n : Nat) : H Raw := do
  let p ← x.pfx.slice
  let c ← ofData (p.drop n)
  let y ← x.setPrefix (p.take n)
  Raw.setKids ⟨y.pfx, Fld.none, Fld.none⟩ [⟨c, y.val, y.ch⟩]

/-- The first part of `canonicalize` (src/node/mod.rs 895-912): the only child becomes the node. The vector without its only child is dropped at
the end. -/
def Raw.merge (x : Raw) : H Raw := do
  let cc ← x.childCount
  if !x.val.isSome && cc == 1 then do
    let cs ← x.takeChildren
    match cs with
    | [c] => do
      let p ← x.pfx.slice
      let q ← c.pfx.slice
      let y ← x.setPrefix (p ++ q)
      c.pfx.drop
      return ⟨y.pfx, c.val, c.ch⟩
    | _ => fail
  else return x

/-- `canonicalize` (src/node/mod.rs 893-918). The children field is overwritten at the end without being dropped. -/
def Raw.canonicalize (x : Raw) : H Raw := do
  let y ← x.merge
  let cc ← y.childCount
  if !y.val.isSome && cc == 0 then do
    y.pfx.drop
    return ⟨Fld.empty, y.val, Fld.none⟩
  else return y

/-- `downcast` (src/node/mod.rs 686-689) of a temporary: a clone, and the temporary is dropped. -/
def Raw.downcast (x : Raw) : H Raw := do
  let y ← x.clone
  dropAll [x]
  return y

/-- The value part of `detached` (src/node/mod.rs 722, 928-938, 1024-1041): a copy. -/
def Fld.copyValue (f : Fld) : H Fld :=
  if f.isSome then do
    let d ← f.slice
    ofData d
  else return Fld.none

/-- `TreeNode::detached` (src/node/mod.rs 719-731): a copy of everything. The first argument bounds the depth. -/
def Raw.detached : Nat → Raw → H Raw
  | 0, _ => fail
  | n + 1, x => do
    let p ← x.pfx.slice
    let pf ← ofData p
    let vf ← x.val.copyValue
    match ← x.loadChildren with
    | some cs => do
      let ds ← mapH (Raw.detached n) cs
      Raw.setKids ⟨pf, vf, Fld.none⟩ ds
    | none => return ⟨pf, vf, Fld.none⟩

/-- `NodeConverter::convert_node` (src/node/mod.rs 1601-1607, 1629-1631, 1653-1655). -/
def convNode (n : Nat) : Conv → Raw → H Raw
  | .downcast, x => x.clone
  | .identity, x => x.clone
  | .detach, x => do
    let y ← x.detached n
    y.downcast

/-- `NodeConverter::convert_node_shortened` (src/node/mod.rs 1609-1616, 1633-1640, 1659-1667). -/
def convShortened (n : Nat) : Conv → Raw → Nat → H Raw
  | .downcast, x, m => do
    let y ← x.cloneShortened m
    y.downcast
  | .identity, x, m => x.cloneShortened m
  | .detach, x, m => do
    let y ← x.cloneShortened m
    let z ← convNode n .detach y
    let r ← z.downcast
    dropAll [y]
    return r

/-! ### Children in order -/

/-- The rank of `first_prefix_byte` (src/node/mod.rs 979-981). -/
def Raw.rank (x : Raw) : H Nat := do
  let p ← x.pfx.slice
  return Node.rank p.head?

/-- Nodes with the ranks of their first bytes. The code reads the first bytes when it needs them; they do not change in between. For src/node/mod.rs 2168, 2190-2215. -/
def ranked (xs : List Raw) : H (List (Nat × Raw)) := mapH (fun x => do return (← x.rank, x)) xs

/-- The steps of the in-place loops (src/node/mod.rs 1743-1755) and of `OuterJoin` (1670-1741). -/
def joinR : List (Nat × Raw) → List (Nat × Raw) → List (Option Raw × Option Raw)
  | [], [] => []
  | a :: as, [] => (some a.2, none) :: joinR as []
  | [], b :: bs => (none, some b.2) :: joinR [] bs
  | a :: as, b :: bs =>
    if a.1 < b.1 then (some a.2, none) :: joinR as (b :: bs)
    else if b.1 < a.1 then (none, some b.2) :: joinR (a :: as) bs
    else (some a.2, some b.2) :: joinR as bs
termination_by as bs => as.length + bs.length
decreasing_by all_goals simp only [List.length_cons]; omega

/-- The pairs of the in-place loops (src/node/mod.rs 1743-1755). -/
def join (as bs : List Raw) : H (List (Option Raw × Option Raw)) := do
  let ra ← ranked as
  let rb ← ranked bs
  return joinR ra rb

/-- Insertion step of a stable sort. For src/node/mod.rs 2168. -/
def insertR (x : Nat × Raw) : List (Nat × Raw) → List (Nat × Raw)
  | [] => [x]
  | y :: ys => if x.1 ≤ y.1 then x :: y :: ys else y :: insertR x ys

/-- `sort_by_key` (src/node/mod.rs 2168). -/
def sortR : List (Nat × Raw) → List (Nat × Raw)
  | [] => []
  | x :: xs => insertR x (sortR xs)

/-- `ac.sort_by_key(|x| x.first_prefix_byte())` (src/node/mod.rs 2168). -/
def sortByFirst (xs : List Raw) : H (List Raw) := do
  let r ← ranked xs
  return (sortR r).map (·.2)

/-- `consume(1, non_empty)` after an in-place call (src/node/mod.rs 2208-2210): an empty child is dropped. -/
def keepNonEmpty (x : Raw) : H (List Raw) :=
  if x.isEmpty then do dropAll [x]; return [] else return [x]

/-- The loop over the pairs (src/node/mod.rs 2196-2219): `both` for `Equal`, `onlyA` for `Less`, `onlyB` for `Greater`. -/
def loop (both : Raw → Raw → H Raw) (onlyA onlyB : Raw → H (List Raw)) : List (Option Raw × Option Raw) → H (List Raw)
  | [] => return []
  | (some a, some b) :: ps => do
    let r ← both a b
    let k ← keepNonEmpty r
    let rest ← loop both onlyA onlyB ps
    return k ++ rest
  | (some a, none) :: ps => do
    let k ← onlyA a
    let rest ← loop both onlyA onlyB ps
    return k ++ rest
  | (none, some b) :: ps => do
    let k ← onlyB b
    let rest ← loop both onlyA onlyB ps
    return k ++ rest
  | (none, none) :: ps => loop both onlyA onlyB ps

/-- `consume(1, true)`: kept as it is. For src/node/mod.rs 2201, 2746, 2945. -/
def keepIt (x : Raw) : H (List Raw) := return [x]

/-- `consume(1, false)`: dropped. For src/node/mod.rs 2471, 2843. -/
def dropIt (x : Raw) : H (List Raw) := do dropAll [x]; return []

/-- Skipping an element of the other tree, which is only borrowed (src/node/mod.rs 2482-2485). -/
def skipIt (x : Raw) : H (List Raw) := return []

/-! ### In-place operations -/

/-- What a user function does to a value: it gets a `&mut Value` and a `&ValueRef` (src/node/mod.rs 2134). -/
abbrev ValFn := Fld → Fld → H Fld

/-- `f(&mut av, &bv)?; a.set_value_owned(av.as_value_ref().0)` (src/node/mod.rs 2146-2148): the value is cloned into the node, and `av` is dropped at
the end of its scope. -/
def applyFn (f : ValFn) (av bv : Fld) : H Fld := do
  let r ← f av bv
  let v ← r.clone
  r.drop
  return v

/-- `NodeConverter::convert_value` (src/node/mod.rs 1618-1620, 1642-1644, 1656-1658) and `set_value_owned` (999-1003): all converters clone data;
`downcast` of the result only changes its type. -/
def convValue (bv : Fld) : H Fld := do
  let av ← bv.clone
  let v ← av.clone
  av.drop
  return v

/-- The value in `outer_combine_with` (src/node/mod.rs 2145-2153). -/
def outerValue (f : ValFn) (av bv : Fld) : H Fld :=
  if bv.isSome then (if av.isSome then applyFn f av bv else convValue bv) else return av

mutual
/-- `outer_combine_with` (src/node/mod.rs 2121-2172). The first argument bounds the depth. -/
def outerCombineWith (n : Nat) (c : Conv) (f : ValFn) (a b : Raw) : H Raw :=
  match n with
  | 0 => fail
  | n + 1 => do
    let ap ← a.pfx.slice
    let bp ← b.pfx.slice
    let m := commonPrefix ap bp
    let r ← (if m = bp.length then do
        let a ← (if m ≠ ap.length then a.split m else pure a : H Raw)
        let v ← outerValue f a.val b.val
        let ac ← a.takeChildren
        let bc ← b.loadChildren
        let cs ← outerChildrenWith n c f ac bc
        Raw.setKids ⟨a.pfx, v, Fld.none⟩ cs
      else if m = ap.length then do
        let ac ← a.takeChildren
        let t ← b.cloneShortened m
        let cs ← outerChildrenWith n c f ac (some [t])
        dropAll [t]
        Raw.setKids ⟨a.pfx, a.val, Fld.none⟩ cs
      else do
        let a ← a.split m
        let ac ← a.takeChildren
        let t ← convShortened (n + 1) c b m
        let cs ← sortByFirst (ac ++ [t])
        Raw.setKids ⟨a.pfx, a.val, Fld.none⟩ cs : H Raw)
    r.canonicalize
termination_by 2 * n

/-- `outer_combine_children_with` (src/node/mod.rs 2174-2222). -/
def outerChildrenWith (n : Nat) (c : Conv) (f : ValFn) (ac : List Raw) (bc : Option (List Raw)) : H (List Raw) :=
  match bc with
  | none => return ac
  | some bc =>
    if ac.isEmpty then mapH (convNode (n + 1) c) bc
    else do
      let ps ← join ac bc
      loop (outerCombineWith n c f) keepIt (fun b => do return [← convNode (n + 1) c b]) ps
termination_by 2 * n + 1
end

/-- The value in `inner_combine_with` (src/node/mod.rs 2418-2421): the value of `a` is taken out; without a value of `b` it is dropped. -/
def innerValue (f : ValFn) (av bv : Fld) : H Fld :=
  if av.isSome then (if bv.isSome then applyFn f av bv else do av.drop; return Fld.none) else return av

mutual
/-- `inner_combine_with` (src/node/mod.rs 2398-2445). -/
def innerCombineWith (n : Nat) (f : ValFn) (a b : Raw) : H Raw :=
  match n with
  | 0 => fail
  | n + 1 => do
    let ap ← a.pfx.slice
    let bp ← b.pfx.slice
    let m := commonPrefix ap bp
    let r ← (if m = ap.length ∧ m = bp.length then do
        let v ← innerValue f a.val b.val
        let ac ← a.takeChildren
        let bc ← b.loadChildren
        let cs ← innerChildrenWith n f ac bc
        Raw.setKids ⟨a.pfx, v, Fld.none⟩ cs
      else if m = ap.length then do
        let a ← a.clearValue
        let ac ← a.takeChildren
        let t ← b.cloneShortened m
        let cs ← innerChildrenWith n f ac (some [t])
        dropAll [t]
        Raw.setKids ⟨a.pfx, a.val, Fld.none⟩ cs
      else if m = bp.length then do
        let a ← a.split m
        let ac ← a.takeChildren
        let bc ← b.loadChildren
        let cs ← innerChildrenWith n f ac bc
        Raw.setKids ⟨a.pfx, a.val, Fld.none⟩ cs
      else do
        let a ← a.clearValue
        a.clearChildren : H Raw)
    r.canonicalize
termination_by 2 * n

/-- `inner_combine_children_with` (src/node/mod.rs 2447-2492). -/
def innerChildrenWith (n : Nat) (f : ValFn) (ac : List Raw) (bc : Option (List Raw)) : H (List Raw) :=
  match bc with
  | none => do dropAll ac; return []
  | some bc =>
    if ac.isEmpty then return ac
    else do
      let ps ← join ac bc
      loop (innerCombineWith n f) dropIt skipIt ps
termination_by 2 * n + 1
end

/-- The value in `left_combine_with` (src/node/mod.rs 2695-2700). -/
def leftValue (f : ValFn) (av bv : Fld) : H Fld :=
  if bv.isSome then (if av.isSome then applyFn f av bv else return av) else return av

mutual
/-- `left_combine_with` (src/node/mod.rs 2675-2720). -/
def leftCombineWith (n : Nat) (f : ValFn) (a b : Raw) : H Raw :=
  match n with
  | 0 => fail
  | n + 1 => do
    let ap ← a.pfx.slice
    let bp ← b.pfx.slice
    let m := commonPrefix ap bp
    let r ← (if m = ap.length ∧ m = bp.length then do
        let v ← leftValue f a.val b.val
        let ac ← a.takeChildren
        let bc ← b.loadChildren
        let cs ← leftChildrenWith n f ac bc
        Raw.setKids ⟨a.pfx, v, Fld.none⟩ cs
      else if m = ap.length then do
        let ac ← a.takeChildren
        let t ← b.cloneShortened m
        let cs ← leftChildrenWith n f ac (some [t])
        dropAll [t]
        Raw.setKids ⟨a.pfx, a.val, Fld.none⟩ cs
      else if m = bp.length then do
        let a ← a.split m
        let ac ← a.takeChildren
        let bc ← b.loadChildren
        let cs ← leftChildrenWith n f ac bc
        Raw.setKids ⟨a.pfx, a.val, Fld.none⟩ cs
      else return a : H Raw)
    r.canonicalize
termination_by 2 * n

/-- `left_combine_children_with` (src/node/mod.rs 2722-2765). -/
def leftChildrenWith (n : Nat) (f : ValFn) (ac : List Raw) (bc : Option (List Raw)) : H (List Raw) :=
  match bc with
  | none => return ac
  | some bc =>
    if ac.isEmpty then return ac
    else do
      let ps ← join ac bc
      loop (leftCombineWith n f) keepIt skipIt ps
termination_by 2 * n + 1
end

/-- A predicate of the user on a value of the other tree (src/node/mod.rs 2781). -/
def applyPred (f : Bytes → Bool) (bv : Fld) : H Bool := do
  let d ← bv.slice
  return f d

/-- `b.value_opt().is_some() && f(..)` (src/node/mod.rs 2789, 2888). -/
def selected (f : Bytes → Bool) (bv : Fld) : H Bool :=
  if bv.isSome then applyPred f bv else return false

mutual
/-- `retain_prefix_with` (src/node/mod.rs 2771-2819). -/
def retainPrefixWith (n : Nat) (f : Bytes → Bool) (a b : Raw) : H Raw :=
  match n with
  | 0 => fail
  | n + 1 => do
    let ap ← a.pfx.slice
    let bp ← b.pfx.slice
    let m := commonPrefix ap bp
    let r ← (if m = ap.length ∧ m = bp.length then do
        let s ← selected f b.val
        (if s then pure a
        else do
          let a ← a.clearValue
          let ac ← a.takeChildren
          let bc ← b.loadChildren
          let cs ← retainChildrenWith n f ac bc
          Raw.setKids ⟨a.pfx, a.val, Fld.none⟩ cs)
      else if m = bp.length then do
        if b.val.isSome then do
          let s ← applyPred f b.val
          (if s then pure a
          else do
            let a ← a.clearValue
            a.clearChildren)
        else do
          let a ← a.split m
          let ac ← a.takeChildren
          let bc ← b.loadChildren
          let cs ← retainChildrenWith n f ac bc
          Raw.setKids ⟨a.pfx, a.val, Fld.none⟩ cs
      else if m = ap.length then do
        let a ← a.clearValue
        let ac ← a.takeChildren
        let t ← b.cloneShortened m
        let cs ← retainChildrenWith n f ac (some [t])
        dropAll [t]
        Raw.setKids ⟨a.pfx, a.val, Fld.none⟩ cs
      else do
        let a ← a.clearValue
        a.clearChildren : H Raw)
    r.canonicalize
termination_by 2 * n

/-- `retain_prefix_children_with` (src/node/mod.rs 2821-2864). -/
def retainChildrenWith (n : Nat) (f : Bytes → Bool) (ac : List Raw) (bc : Option (List Raw)) : H (List Raw) :=
  match bc with
  | none => do dropAll ac; return []
  | some bc =>
    if ac.isEmpty then return ac
    else do
      let ps ← join ac bc
      loop (retainPrefixWith n f) dropIt skipIt ps
termination_by 2 * n + 1
end

mutual
/-- `remove_prefix_with` (src/node/mod.rs 2870-2921). -/
def removePrefixWith (n : Nat) (f : Bytes → Bool) (a b : Raw) : H Raw :=
  match n with
  | 0 => fail
  | n + 1 => do
    let ap ← a.pfx.slice
    let bp ← b.pfx.slice
    let m := commonPrefix ap bp
    let r ← (if m = ap.length ∧ m = bp.length then do
        let s ← selected f b.val
        (if s then do
          let a ← a.clearValue
          a.clearChildren
        else do
          let ac ← a.takeChildren
          let bc ← b.loadChildren
          let cs ← removeChildrenWith n f ac bc
          Raw.setKids ⟨a.pfx, a.val, Fld.none⟩ cs)
      else if m = bp.length then do
        let s ← selected f b.val
        (if s then do
          let a ← a.clearValue
          a.clearChildren
        else do
          let a ← a.split m
          let ac ← a.takeChildren
          let bc ← b.loadChildren
          let cs ← removeChildrenWith n f ac bc
          Raw.setKids ⟨a.pfx, a.val, Fld.none⟩ cs)
      else if m = ap.length then do
        let ac ← a.takeChildren
        let t ← b.cloneShortened m
        let cs ← removeChildrenWith n f ac (some [t])
        dropAll [t]
        Raw.setKids ⟨a.pfx, a.val, Fld.none⟩ cs
      else return a : H Raw)
    r.canonicalize
termination_by 2 * n

/-- `remove_prefix_children_with` (src/node/mod.rs 2923-2964). -/
def removeChildrenWith (n : Nat) (f : Bytes → Bool) (ac : List Raw) (bc : Option (List Raw)) : H (List Raw) :=
  match bc with
  | none => return ac
  | some bc =>
    if ac.isEmpty then return ac
    else do
      let ps ← join ac bc
      loop (removePrefixWith n f) keepIt skipIt ps
termination_by 2 * n + 1
end

end Radix.Heap
