import Verif.Heap.Api
import Verif.Stored.Update

/-
Model of tree nodes in memory that may refer to a store: unions, headers and reference counts with ids (src/node/mod.rs 23-218, 651-1139, 1148-1429,
1576-1668, 2120-2222, 2397-2492, 2674-2964, 3406-3540), on top of `Verif/Heap/Model.lean`.

Simplified, besides what `Verif/Heap/Model.lean` says:
* the bytes that a store gives are plain values: the buffers behind them (`OwnedBlob`) and the nodes and values that are borrowed from such buffers are
  not in memory here;
* debug assertions are not compiled in (with them a call does the same or panics);
* a panic has no result, as undefined behaviour has none.
-/

set_option linter.unusedVariables false

namespace Radix.Heap.Att

section
variable {σ τ ε : Type}

/-- What a store or a decoder gives (src/store/blob_store.rs 11-31). -/
def ofRes {α : Type} : Res ε α → H (Except ε α)
  | .ok a => return .ok a
  | .err e => return .error e
  | .panic => fail
  | .deep => fail

/-- The `?` operator in a function that changes something (`ρ`) in place: what it left stays (src/node/mod.rs 2137-2169). -/
def seq {α β ρ : Type} (x : H (Except ε α × ρ)) (k : α → ρ → H (Except ε β × ρ)) : H (Except ε β × ρ) := do
  let (r, a) ← x
  match r with
  | .ok v => k v a
  | .error e => return (.error e, a)

/-- A step that does not change what is changed in place (src/node/mod.rs 2137-2138). -/
def keepN {α ρ : Type} (x : H (Except ε α)) (a : ρ) : H (Except ε α × ρ) := do
  let r ← x
  return (r, a)

/-! ### Fields -/

/-- The bytes of a field with the bit of its header that says whether they are an id: `OwnedBlobRef::read`, `is_id` (src/node/mod.rs 345-361), and
`ChildrenRef::deref` for ids (151-165). -/
def blobV (f : Fld) : H BlobV := do
  let d ← f.slice
  return if f.hdr.isId then .id d else .data d

/-- A copy of a borrowed blob, with its header: `set_prefix_borrowed`, `set_value_borrowed` (src/node/mod.rs 1005-1015), `ValueRef::to_owned` (470-479),
`set_children_id` with `id_from_slice` (1064-1068, 131-143). -/
def ofBlobV (b : BlobV) : H Fld :=
  if b.slice.length > ptrSize then do
    let a ← alloc (.blob 1 b.slice)
    return ⟨b.hdr, .blob a⟩
  else return ⟨b.hdr, .bytes (b.slice ++ List.replicate (ptrSize - b.slice.length) 0)⟩

/-- `load_prefix` (src/node/mod.rs 920-926). -/
def loadPrefix (S : BlobStore σ ε) (st : σ) (f : Fld) : H (Except ε Bytes) := do
  let b ← blobV f
  ofRes (Radix.loadPrefix S st b)

/-- `load_value` (src/node/mod.rs 928-938). -/
def loadValue (S : BlobStore σ ε) (st : σ) (f : Fld) : H (Except ε (Option Bytes)) := do
  let b ← blobV f
  ofRes (Radix.loadValue S st b)

/-! ### Borrowed nodes and values -/

/-- `ValueRef` (src/node/mod.rs 441-444): a value in memory or in a buffer. -/
inductive HVal where
  | owned (f : Fld)
  | borrowed (b : BlobV)

/-- The bytes of a value (src/node/mod.rs 491-517). -/
def HVal.blobV : HVal → H BlobV
  | owned f => Att.blobV f
  | borrowed b => return b

/-- `ValueRef::to_owned` (src/node/mod.rs 470-479). -/
def HVal.toOwned : HVal → H Fld
  | owned f => f.clone
  | borrowed b => ofBlobV b

/-- `TreeNodeRef` (src/node/mod.rs 1334-1338): a node in memory or in a buffer. -/
inductive HRef where
  | owned (x : Raw)
  | borrowed (r : Rec)

/-- `TreeNodeIter` (src/node/mod.rs 1921-1924) as `TIter`. -/
inductive HIter where
  | owned (l : List Raw)
  | borrowed (bs : Bytes)

/-- `BorrowedTreeNode::to_owned` (src/node/mod.rs 1206-1212): `unwrap_err` panics if the children field is data. -/
def recToOwned (r : Rec) : H Raw := do
  let p ← ofBlobV r.pfx
  let v ← ofBlobV r.val
  match r.ch with
  | .id i => do
    let c ← ofBlobV (.id i)
    return ⟨p, v, c⟩
  | .data _ => fail

/-- `TreeNodeRef::to_owned` (src/node/mod.rs 1380-1385). -/
def HRef.toOwned : HRef → H Raw
  | owned x => x.clone
  | borrowed r => recToOwned r

/-- `TreeNodeRef::load_prefix` (src/node/mod.rs 1394-1399). -/
def HRef.loadPrefix (S : BlobStore σ ε) (st : σ) : HRef → H (Except ε Bytes)
  | owned x => Att.loadPrefix S st x.pfx
  | borrowed r => ofRes (Radix.loadPrefix S st r.pfx)

/-- `TreeNodeRef::value_opt` (src/node/mod.rs 1415-1420). -/
def HRef.valueOpt : HRef → Option HVal
  | owned x => if x.val.isSome then some (.owned x.val) else none
  | borrowed r => r.val.valueOpt.map .borrowed

/-- The first byte of a node, for comparing (src/node/mod.rs 979-981, 1239-1241). -/
def HRef.rank : HRef → H Nat
  | owned x => x.rank
  | borrowed r => return Node.rank r.pfx.firstByte

/-- `TreeNodeIter::from_slice` (src/node/mod.rs 1937-1943). -/
def fromSlice (l : List Raw) : Option HIter := if l.isEmpty then none else some (.owned l)

/-- What `loadIter` gives, which is never a vector in memory (src/node/mod.rs 1844-1856). -/
def ofTIter : TIter → H HIter
  | .borrowed bs => return .borrowed bs
  | .owned _ => fail

/-- `TreeNodeIter::load` (src/node/mod.rs 1933-1935). -/
def loadIter (S : BlobStore σ ε) (st : σ) (i : Bytes) : H (Except ε (Option HIter)) := do
  match ← ofRes (Radix.loadIter S st i) with
  | .ok (some it) => do
    let it ← ofTIter it
    return .ok (some it)
  | .ok none => return .ok none
  | .error e => return .error e

/-- `TreeNode::load_children` (src/node/mod.rs 839-844). -/
def loadChildrenRaw (S : BlobStore σ ε) (st : σ) (x : Raw) : H (Except ε (Option HIter)) :=
  if x.ch.hdr.isId then do
    let i ← x.ch.slice
    loadIter S st i
  else do
    match ← x.ch.children with
    | some l => return .ok (fromSlice l)
    | none => fail

/-- `TreeNodeRef::load_children` (src/node/mod.rs 1401-1406); for a borrowed node `BorrowedTreeNode::load_children` (1277-1288). -/
def HRef.loadChildren (S : BlobStore σ ε) (st : σ) : HRef → H (Except ε (Option HIter))
  | owned x => loadChildrenRaw S st x
  | borrowed r =>
    match r.ch with
    | .id [] => return .ok none
    | .id i => loadIter S st i
    | .data _ => fail

/-- `TreeNodeIter::next` (src/node/mod.rs 1973-1978). -/
def HIter.next : HIter → Option (HRef × HIter)
  | owned [] => none
  | owned (x :: l) => some (.owned x, .owned l)
  | borrowed bs => (readOne bs).map fun (r, rest) => (.borrowed r, .borrowed rest)

/-- Number of elements or bytes left (termination measure). Of the model only, for the loops over children such as src/node/mod.rs 2190-2215. -/
def HIter.size : HIter → Nat
  | owned l => l.length
  | borrowed bs => bs.length

theorem HIter.next_size {it it' : HIter} {r : HRef} (h : it.next = some (r, it')) : it'.size < it.size := by
  cases it with
  | owned l => cases l <;> simp [HIter.next] at h; rw [← h.2]; simp [HIter.size]
  | borrowed bs =>
    simp only [HIter.next, Option.map_eq_some_iff, Prod.exists] at h
    obtain ⟨x, rest, h1, h2⟩ := h
    cases h2
    exact readOne_lt h1

/-! ### One node -/

/-- The loop of `load_children_mut` (src/node/mod.rs 857-859) over a buffer. -/
def collect (bs : Bytes) : H (List Raw) :=
  match h : readOne bs with
  | none => return []
  | some (r, rest) => do
    let x ← recToOwned r
    let l ← collect rest
    return x :: l
termination_by bs.length
decreasing_by exact readOne_lt h

/-- The same for what `TreeNodeIter::load` gives (src/node/mod.rs 855-860). -/
def collectOpt : Option HIter → H (List Raw)
  | none => return []
  | some (.borrowed bs) => collect bs
  | some (.owned _) => fail

/-- `load_children_mut` (src/node/mod.rs 853-865), taking the vector out; the node is left without children until they are put back. If the store
fails, the node stays as it is. -/
def takeChildren (S : BlobStore σ ε) (st : σ) (x : Raw) : H (Except ε (List Raw) × Raw) :=
  if x.ch.hdr.isId then do
    let i ← x.ch.slice
    match ← loadIter S st i with
    | .ok o => do
      let cs ← collectOpt o
      x.ch.drop
      return (.ok cs, { x with ch := Fld.none })
    | .error e => return (.error e, x)
  else do
    let cs ← Raw.takeChildren x
    return (.ok cs, { x with ch := Fld.none })

/-- `TreeNode::clone_shortened` (src/node/mod.rs 867-872). -/
def cloneShortenedRaw (S : BlobStore σ ε) (st : σ) (x : Raw) (n : Nat) : H (Except ε Raw) := do
  match ← loadPrefix S st x.pfx with
  | .ok p => do
    let y ← x.clone
    let z ← y.setPrefix (p.drop n)
    return .ok z
  | .error e => return .error e

/-- `TreeNodeRef::clone_shortened` (src/node/mod.rs 1423-1428): `todo!()` for a borrowed node. -/
def HRef.cloneShortened (S : BlobStore σ ε) (st : σ) (n : Nat) : HRef → H (Except ε Raw)
  | owned x => cloneShortenedRaw S st x n
  | borrowed _ => fail

/-- `split` (src/node/mod.rs 874-891). -/
def split (S : BlobStore σ ε) (st : σ) (n : Nat) (x : Raw) : H (Except ε Unit × Raw) :=
  seq (keepN (loadPrefix S st x.pfx) x) fun p x => do
    let c ← ofData (p.drop n)
    let y ← x.setPrefix (p.take n)
    let z ← Raw.setKids ⟨y.pfx, Fld.none, Fld.none⟩ [⟨c, y.val, y.ch⟩]
    return (.ok (), z)

/-- `child_count` (src/node/mod.rs 1104-1116): 2 for children that are not loaded. -/
def childCount (x : Raw) : H Nat :=
  if x.ch.hdr.isId then do
    let i ← x.ch.slice
    return if i.isEmpty then 0 else 2
  else x.childCount

/-- The first part of `canonicalize` (src/node/mod.rs 895-912). The two prefixes are concatenated as they are, also if they are ids. -/
def merge (x : Raw) : H Raw := do
  let cc ← childCount x
  if !x.val.isSome && cc == 1 then do
    let cs ← Raw.takeChildren x
    match cs with
    | [c] => do
      let p ← x.pfx.slice
      let q ← c.pfx.slice
      let y ← x.setPrefix (p ++ q)
      c.pfx.drop
      return ⟨y.pfx, c.val, c.ch⟩
    | _ => fail
  else return x

/-- `canonicalize` (src/node/mod.rs 893-918) without debug assertions. The children field is overwritten at the end without being dropped. -/
def canonicalize (x : Raw) : H Raw := do
  let y ← merge x
  let cc ← childCount y
  if !y.val.isSome && cc == 0 then do
    y.pfx.drop
    return ⟨Fld.empty, y.val, Fld.none⟩
  else return y

/-- `canonicalize` at the end of an operation (src/node/mod.rs 2170-2171). -/
def finish (x : Raw) : H (Except ε Unit × Raw) := do
  let y ← canonicalize x
  return (.ok (), y)

/-! ### Detaching -/

/-- A result in progress is dropped if something fails (`?` with values that own memory, src/node/mod.rs 719-731). -/
def orDrop {α β : Type} (done : List Raw) (x : H (Except ε α)) (k : α → H (Except ε β)) : H (Except ε β) := do
  match ← x with
  | .ok a => k a
  | .error e => do
    dropAll done
    return .error e

/-- The loop of `TreeNode::detached` (src/node/mod.rs 726-728). A node in a buffer is first copied (1214-1219), and the copy is dropped. -/
def detachedLoop (f : Raw → H (Except ε Raw)) (done : List Raw) (it : HIter) : H (Except ε (List Raw)) :=
  match h : it.next with
  | none => return .ok done
  | some (.owned x, it') => orDrop done (f x) fun y => detachedLoop f (done ++ [y]) it'
  | some (.borrowed r, it') => do
    let t ← recToOwned r
    let o ← f t
    dropAll [t]
    orDrop done (return o) fun y => detachedLoop f (done ++ [y]) it'
termination_by it.size
decreasing_by all_goals exact HIter.next_size h

/-- `set_value` on an empty node (src/node/mod.rs 722, 1024-1041). -/
def ofOptData : Option Bytes → H Fld
  | some d => ofData d
  | none => return Fld.none

/-- `TreeNode::detached` (src/node/mod.rs 719-731): a copy of everything. The first argument bounds the depth. -/
def detached (S : BlobStore σ ε) (st : σ) : Nat → Raw → H (Except ε Raw)
  | 0, _ => fail
  | n + 1, x => do
    match ← loadPrefix S st x.pfx with
    | .error e => return .error e
    | .ok p => do
      let pf ← ofData p
      orDrop [⟨pf, Fld.none, Fld.none⟩] (loadValue S st x.val) fun v => do
        let vf ← ofOptData v
        orDrop [⟨pf, vf, Fld.none⟩] (loadChildrenRaw S st x) fun o =>
          match o with
          | none => return .ok ⟨pf, vf, Fld.none⟩
          | some it => orDrop [⟨pf, vf, Fld.none⟩] (detachedLoop (detached S st n) [] it) fun ds => do
            let y ← Raw.setKids ⟨pf, vf, Fld.none⟩ ds
            return .ok y

/-- `TreeNodeRef::detached` (src/node/mod.rs 1367-1372, 1214-1219). -/
def HRef.detached (S : BlobStore σ ε) (st : σ) (n : Nat) : HRef → H (Except ε Raw)
  | owned x => Att.detached S st n x
  | borrowed r => do
    let t ← recToOwned r
    let o ← Att.detached S st n t
    dropAll [t]
    return o

/-! ### Converters -/

/-- `Result::map(|x| x.downcast())` (src/node/mod.rs 1616, 1654): a clone, and the argument is dropped. -/
def downcastE (o : Except ε Raw) : H (Except ε Raw) :=
  match o with
  | .ok x => do
    let y ← x.downcast
    return .ok y
  | .error e => return .error e

/-- `NodeConverter::convert_node` (src/node/mod.rs 1601-1607, 1629-1631, 1653-1655); `unreachable!()` for a borrowed node in `TreeNodeRef::downcast`
(1349-1356). -/
def convNode (S : BlobStore σ ε) (st : σ) (n : Nat) : Conv → HRef → H (Except ε Raw)
  | .downcast, .owned x => do
    let y ← x.clone
    return .ok y
  | .downcast, .borrowed _ => fail
  | .identity, b => do
    let y ← b.toOwned
    return .ok y
  | .detach, b => do
    let o ← b.detached S st n
    downcastE o

/-- `NodeConverter::convert_node_shortened` (src/node/mod.rs 1609-1616, 1633-1640, 1659-1667). -/
def convShortened (S : BlobStore σ ε) (st : σ) (n : Nat) (c : Conv) (b : HRef) (m : Nat) : H (Except ε Raw) := do
  match ← b.cloneShortened S st m with
  | .error e => return .error e
  | .ok y =>
    match c with
    | .downcast => do
      let z ← y.downcast
      return .ok z
    | .identity => return .ok y
    | .detach => do
      let o ← convNode S st n .detach (.owned y)
      let r ← downcastE o
      dropAll [y]
      return r

/-- `NodeConverter::convert_value` (src/node/mod.rs 1618-1620, 1642-1644, 1656-1658): `ValueRef::detached` is `todo!()` for an id (480-489). -/
def convValue (c : Conv) (v : HVal) : H Fld := do
  match c with
  | .detach => do
    let b ← v.blobV
    if b.isId then fail else v.toOwned
  | _ => v.toOwned

/-! ### Children -/

/-- What an in-place operation works with, as `UEnv`. `mask` says which elements an `InPlaceVecBuilder` (crate `inplace-vec-builder`, whose source is not part
of /repo; used in src/node/mod.rs 2196) keeps when it is dropped with so many elements of the result and of the source left. -/
structure HEnv (σ τ ε : Type) where
  SA : BlobStore σ ε
  stA : σ
  SB : BlobStore τ ε
  stB : τ
  mask : Nat → Nat → List Bool

/-- The elements where the mask is `true` (`InPlaceVecBuilder`, used in src/node/mod.rs 2196). -/
def pick {α : Type} : List Bool → List α → List α
  | b :: bs, x :: xs => if b then x :: pick bs xs else pick bs xs
  | _, _ => []

/-- The elements where it is not. For src/node/mod.rs 2190-2215. -/
def unpick {α : Type} : List Bool → List α → List α
  | b :: bs, x :: xs => if b then unpick bs xs else x :: unpick bs xs
  | _, xs => xs

/-- What is left of a vector of children on plain values when an in-place operation fails in the middle (`InPlaceVecBuilder`, used in src/node/mod.rs 2196). -/
def maskAb (mask : Nat → Nat → List Bool) (done src : List SNode) : List SNode := pick (mask done.length src.length) (done ++ src)

/-- The same environment for plain values; see `UEnv`. For src/node/mod.rs 2150-2960. -/
def HEnv.toU (e : HEnv σ τ ε) : UEnv σ τ ε :=
  ⟨e.SA, e.stA, e.SB, e.stB, false, fun done src => pick (e.mask done.length src.length) (done ++ src)⟩

/-- Dropping an `InPlaceVecBuilder` (used in src/node/mod.rs 2196) before it is finished: some elements stay in the vector, the others are dropped. -/
def abandon (mask : Nat → Nat → List Bool) (done src : List Raw) : H (List Raw) := do
  dropAll (unpick (mask done.length src.length) (done ++ src))
  return pick (mask done.length src.length) (done ++ src)

/-- The loop over `cmp` (src/node/mod.rs 1743-1755) that all in-place operations share (2196-2219, 2466-2487, 2741-2762, 2838-2859, 2940-2961), as `loopS`. -/
def loop (rec : Raw → HRef → H (Except ε Unit × Raw)) (keep : Bool) (greater : HRef → H (Except ε (Option Raw)))
    (mask : Nat → Nat → List Bool) (done src : List Raw) (it : HIter) : H (Except ε Unit × List Raw) :=
  match src, h : it.next with
  | [], none => return (.ok (), done)
  | a :: src, none =>
    if keep then loop rec keep greater mask (done ++ [a]) src it
    else do
      dropAll [a]
      loop rec keep greater mask done src it
  | [], some (b, it') => do
    match ← greater b with
    | .ok o => loop rec keep greater mask (done ++ o.toList) [] it'
    | .error e => do
      let l ← abandon mask done []
      return (.error e, l)
  | a :: src, some (b, it') => do
    let ra ← a.rank
    let rb ← b.rank
    if ra < rb then
      if keep then loop rec keep greater mask (done ++ [a]) src it
      else do
        dropAll [a]
        loop rec keep greater mask done src it
    else if rb < ra then do
      match ← greater b with
      | .ok o => loop rec keep greater mask (done ++ o.toList) (a :: src) it'
      | .error e => do
        let l ← abandon mask done (a :: src)
        return (.error e, l)
    else do
      let (r, a') ← rec a b
      match r with
      | .ok _ =>
        if a'.isEmpty then do
          dropAll [a']
          loop rec keep greater mask done src it'
        else loop rec keep greater mask (done ++ [a']) src it'
      | .error e => do
        let l ← abandon mask done (a' :: src)
        return (.error e, l)
termination_by src.length + it.size
decreasing_by
  all_goals try have := HIter.next_size h
  all_goals simp only [List.length_cons, List.length_nil]; omega

/-- The loop of `outer_combine_children_with` for an empty target (src/node/mod.rs 2191-2193). -/
def pushAll (f : HRef → H (Except ε Raw)) (done : List Raw) (it : HIter) : H (Except ε Unit × List Raw) :=
  match h : it.next with
  | none => return (.ok (), done)
  | some (b, it') => do
    match ← f b with
    | .ok x => pushAll f (done ++ [x]) it'
    | .error e => return (.error e, done)
termination_by it.size
decreasing_by exact HIter.next_size h

/-- A node that is pushed (src/node/mod.rs 2214-2216). -/
def pushIt (f : HRef → H (Except ε Raw)) (b : HRef) : H (Except ε (Option Raw)) := do
  match ← f b with
  | .ok x => return .ok (some x)
  | .error e => return .error e

/-- `outer_combine_children_with` (src/node/mod.rs 2174-2222). -/
def outerChildren (mask : Nat → Nat → List Bool) (conv : HRef → H (Except ε Raw)) (rec : Raw → HRef → H (Except ε Unit × Raw)) (ac : List Raw)
    (bc : Option HIter) : H (Except ε Unit × List Raw) :=
  match bc with
  | some bc => if ac.isEmpty then pushAll conv ac bc else loop rec true (pushIt conv) mask [] ac bc
  | none => return (.ok (), ac)

/-- `inner_combine_children_with`, `retain_prefix_children_with` (src/node/mod.rs 2447-2492, 2821-2864). -/
def innerChildren (mask : Nat → Nat → List Bool) (rec : Raw → HRef → H (Except ε Unit × Raw)) (ac : List Raw) (bc : Option HIter) :
    H (Except ε Unit × List Raw) :=
  match bc with
  | some bc => if ac.isEmpty then return (.ok (), ac) else loop rec false (fun _ => return .ok none) mask [] ac bc
  | none => do
    dropAll ac
    return (.ok (), [])

/-- `left_combine_children_with`, `remove_prefix_children_with` (src/node/mod.rs 2722-2765, 2923-2964). -/
def leftChildren (mask : Nat → Nat → List Bool) (rec : Raw → HRef → H (Except ε Unit × Raw)) (ac : List Raw) (bc : Option HIter) :
    H (Except ε Unit × List Raw) :=
  match bc with
  | some bc => if ac.isEmpty then return (.ok (), ac) else loop rec true (fun _ => return .ok none) mask [] ac bc
  | none => return (.ok (), ac)

/-- The vector is put back, whether the operation on it failed or not (the code changes it in place, src/node/mod.rs 2154-2156). -/
def putBack (x : Raw) (y : H (Except ε Unit × List Raw)) : H (Except ε Unit × Raw) := do
  let (r, cs) ← y
  let z ← Raw.setKids ⟨x.pfx, x.val, Fld.none⟩ cs
  return (r, z)

/-- `let ac = a.load_children_mut(&ab)?; let bc = b.load_children(&bb)?; ...` (src/node/mod.rs 2154-2156, ...). -/
def childrenBoth (e : HEnv σ τ ε) (k : List Raw → Option HIter → H (Except ε Unit × List Raw)) (x : Raw) (b : HRef) : H (Except ε Unit × Raw) :=
  seq (takeChildren e.SA e.stA x) fun ac x =>
  putBack x (do
    match ← b.loadChildren e.SB e.stB with
    | .ok bc => k ac bc
    | .error e => return (.error e, ac))

/-- `let ac = a.load_children_mut(&ab)?; let bc = [b.clone_shortened(&bb, n)?]; ...` (src/node/mod.rs 2160-2162, ...); the shortened node is dropped at the
end. -/
def childrenShort (e : HEnv σ τ ε) (k : List Raw → Option HIter → H (Except ε Unit × List Raw)) (n : Nat) (x : Raw) (b : HRef) :
    H (Except ε Unit × Raw) :=
  seq (takeChildren e.SA e.stA x) fun ac x =>
  putBack x (do
    match ← b.cloneShortened e.SB e.stB n with
    | .ok t => do
      let r ← k ac (fromSlice [t])
      dropAll [t]
      return r
    | .error e => return (.error e, ac))

/-! ### The in-place operations -/

/-- What a user function does to a value: it gets a `&mut Value` and a `&ValueRef` and may fail (src/node/mod.rs 2134). -/
abbrev ValFn (ε : Type) := Fld → HVal → H (Except ε Unit × Fld)

/-- `a.take_value_opt()`, `f(&mut av, &bv)?; a.set_value_owned(av.as_value_ref().0)` (src/node/mod.rs 2146-2148): if `f` fails, `av` is dropped and the
node has no value. -/
def applyFn (f : ValFn ε) (x : Raw) (bv : HVal) : H (Except ε Unit × Raw) := do
  let (r, av) ← f x.val bv
  match r with
  | .ok _ => do
    let v ← av.clone
    av.drop
    return (.ok (), ⟨x.pfx, v, x.ch⟩)
  | .error e => do
    av.drop
    return (.error e, ⟨x.pfx, Fld.none, x.ch⟩)

/-- `let av = c.convert_value(&bv, &bb)?; a.set_value_owned(av.as_value_ref().0)` (src/node/mod.rs 2150-2151). -/
def setConv (c : Conv) (x : Raw) (bv : HVal) : H (Except ε Unit × Raw) := do
  let av ← convValue c bv
  let v ← av.clone
  av.drop
  return (.ok (), ⟨x.pfx, v, x.ch⟩)

/-- Both `set_value_slice(None)` and `set_children_arc_opt(None)` (src/node/mod.rs 1057-1068, 1032-1041). -/
def clear (x : Raw) : H Raw := do
  let y ← x.clearValue
  y.clearChildren

/-- `outer_combine_with` (src/node/mod.rs 2121-2172). The third argument bounds the depth. -/
def outerCombineWith (e : HEnv σ τ ε) (c : Conv) (f : ValFn ε) (m : Nat) : Nat → Raw → HRef → H (Except ε Unit × Raw)
  | 0, _, _ => fail
  | fuel + 1, a, b =>
    seq (keepN (loadPrefix e.SA e.stA a.pfx) a) fun ap a =>
    seq (keepN (b.loadPrefix e.SB e.stB) a) fun bp a =>
    let n := commonPrefix ap bp
    seq (
      if n = bp.length then
        seq (if n ≠ ap.length then split e.SA e.stA n a else return (.ok (), a)) fun _ a =>
        seq (
          match b.valueOpt with
          | some bv => if a.val.isSome then applyFn f a bv else setConv c a bv
          | none => return (.ok (), a)) fun _ a =>
        childrenBoth e (outerChildren e.mask (convNode e.SB e.stB m c) (outerCombineWith e c f m fuel)) a b
      else if n = ap.length then
        childrenShort e (outerChildren e.mask (convNode e.SB e.stB m c) (outerCombineWith e c f m fuel)) n a b
      else
        seq (split e.SA e.stA n a) fun _ a =>
        seq (takeChildren e.SA e.stA a) fun ac a =>
        putBack a (do
          match ← convShortened e.SB e.stB m c b n with
          | .ok t => do
            let cs ← sortByFirst (ac ++ [t])
            return (.ok (), cs)
          | .error e => return (.error e, ac))) fun _ a =>
    finish a

/-- `inner_combine_with` (src/node/mod.rs 2398-2445). -/
def innerCombineWith (e : HEnv σ τ ε) (f : ValFn ε) : Nat → Raw → HRef → H (Except ε Unit × Raw)
  | 0, _, _ => fail
  | fuel + 1, a, b =>
    seq (keepN (loadPrefix e.SA e.stA a.pfx) a) fun ap a =>
    seq (keepN (b.loadPrefix e.SB e.stB) a) fun bp a =>
    let n := commonPrefix ap bp
    seq (
      if n = ap.length ∧ n = bp.length then
        seq (
          match b.valueOpt with
          | some bv => if a.val.isSome then applyFn f a bv else return (.ok (), a)
          | none => do
            let a ← a.clearValue
            return (.ok (), a)) fun _ a =>
        childrenBoth e (innerChildren e.mask (innerCombineWith e f fuel)) a b
      else if n = ap.length then do
        let a ← a.clearValue
        childrenShort e (innerChildren e.mask (innerCombineWith e f fuel)) n a b
      else if n = bp.length then
        seq (split e.SA e.stA n a) fun _ a =>
        childrenBoth e (innerChildren e.mask (innerCombineWith e f fuel)) a b
      else do
        let a ← clear a
        return (.ok (), a)) fun _ a =>
    finish a

/-- `left_combine_with` (src/node/mod.rs 2675-2720). -/
def leftCombineWith (e : HEnv σ τ ε) (f : ValFn ε) : Nat → Raw → HRef → H (Except ε Unit × Raw)
  | 0, _, _ => fail
  | fuel + 1, a, b =>
    seq (keepN (loadPrefix e.SA e.stA a.pfx) a) fun ap a =>
    seq (keepN (b.loadPrefix e.SB e.stB) a) fun bp a =>
    let n := commonPrefix ap bp
    seq (
      if n = ap.length ∧ n = bp.length then
        seq (
          match b.valueOpt with
          | some bv => if a.val.isSome then applyFn f a bv else return (.ok (), a)
          | none => return (.ok (), a)) fun _ a =>
        childrenBoth e (leftChildren e.mask (leftCombineWith e f fuel)) a b
      else if n = ap.length then
        childrenShort e (leftChildren e.mask (leftCombineWith e f fuel)) n a b
      else if n = bp.length then
        seq (split e.SA e.stA n a) fun _ a =>
        childrenBoth e (leftChildren e.mask (leftCombineWith e f fuel)) a b
      else return (.ok (), a)) fun _ a =>
    finish a

/-- A predicate of the user on a value of the other tree, which may fail (src/node/mod.rs 2781). -/
def applyPred (f : BlobV → Except ε Bool) (v : HVal) : H (Except ε Bool) := do
  let b ← v.blobV
  return f b

/-- `retain_prefix_with` (src/node/mod.rs 2771-2819). -/
def retainPrefixWith (e : HEnv σ τ ε) (f : BlobV → Except ε Bool) : Nat → Raw → HRef → H (Except ε Unit × Raw)
  | 0, _, _ => fail
  | fuel + 1, a, b =>
    seq (keepN (loadPrefix e.SA e.stA a.pfx) a) fun ap a =>
    seq (keepN (b.loadPrefix e.SB e.stB) a) fun bp a =>
    let n := commonPrefix ap bp
    seq (
      if n = ap.length ∧ n = bp.length then
        seq (
          match b.valueOpt with
          | none => return (.ok false, a)
          | some bv => keepN (applyPred f bv) a) fun keep a =>
        if keep then return (.ok (), a)
        else do
          let a ← a.clearValue
          childrenBoth e (innerChildren e.mask (retainPrefixWith e f fuel)) a b
      else if n = bp.length then
        match b.valueOpt with
        | none =>
          seq (split e.SA e.stA n a) fun _ a =>
          childrenBoth e (innerChildren e.mask (retainPrefixWith e f fuel)) a b
        | some bv =>
          seq (keepN (applyPred f bv) a) fun keep a =>
          if keep then return (.ok (), a)
          else do
            let a ← clear a
            return (.ok (), a)
      else if n = ap.length then do
        let a ← a.clearValue
        childrenShort e (innerChildren e.mask (retainPrefixWith e f fuel)) n a b
      else do
        let a ← clear a
        return (.ok (), a)) fun _ a =>
    finish a

/-- `remove_prefix_with` (src/node/mod.rs 2870-2921). -/
def removePrefixWith (e : HEnv σ τ ε) (f : BlobV → Except ε Bool) : Nat → Raw → HRef → H (Except ε Unit × Raw)
  | 0, _, _ => fail
  | fuel + 1, a, b =>
    seq (keepN (loadPrefix e.SA e.stA a.pfx) a) fun ap a =>
    seq (keepN (b.loadPrefix e.SB e.stB) a) fun bp a =>
    let n := commonPrefix ap bp
    seq (
      if n = bp.length then
        seq (
          match b.valueOpt with
          | none => return (.ok false, a)
          | some bv => keepN (applyPred f bv) a) fun nuke a =>
        if nuke then do
          let a ← clear a
          return (.ok (), a)
        else
          seq (if n ≠ ap.length then split e.SA e.stA n a else return (.ok (), a)) fun _ a =>
          childrenBoth e (leftChildren e.mask (removePrefixWith e f fuel)) a b
      else if n = ap.length then
        childrenShort e (leftChildren e.mask (removePrefixWith e f fuel)) n a b
      else return (.ok (), a)) fun _ a =>
    finish a

/-! ### User functions -/

/-- A user function on values: it looks at both, and keeps the first, deletes it, or replaces it by the second with `Value::set` (src/node/mod.rs 616-632), or
fails. -/
def setFn (ch : BlobV → BlobV → Except ε Choice) : ValFn ε := fun a b => do
  let x ← blobV a
  let y ← b.blobV
  match ch x y with
  | .error e => return (.error e, a)
  | .ok .keep => return (.ok (), a)
  | .ok .clear => do
    a.drop
    return (.ok (), Fld.none)
  | .ok .take => do
    a.drop
    let v ← b.toOwned
    return (.ok (), v)

/-- The same function on plain values (`Value::set`, src/node/mod.rs 616-632). -/
def setFnS (ch : BlobV → BlobV → Except ε Choice) (a b : BlobV) : Res ε BlobV :=
  match ch a b with
  | .error e => .err e
  | .ok .keep => .ok a
  | .ok .clear => .ok .none
  | .ok .take => .ok b

/-- A predicate on plain values, as a function that may fail (src/node/mod.rs 2781). -/
def predS (f : BlobV → Except ε Bool) (b : BlobV) : Res ε Bool :=
  match f b with
  | .ok x => .ok x
  | .error e => .err e

/-! ### The API -/

/-- The environment of an operation with a detached tree as the other operand (`RadixTree::single`, src/node/mod.rs 3514, 3524, 3535). -/
def singleEnv (S : BlobStore σ ε) (st : σ) (mask : Nat → Nat → List Bool) : HEnv σ Unit ε := ⟨S, st, detachedStore ε, (), mask⟩

/-- An operation with a temporary tree `single(k, v)`, which is dropped at the end (src/node/mod.rs 3514, 3524, 3535). -/
def withSingle (k v : Bytes) (op : HRef → H (Except ε Unit × Raw)) : H (Except ε Unit × Raw) := do
  let b ← Raw.single k v
  let r ← op (.owned b)
  dropAll [b]
  return r

/-- `try_insert` (src/node/mod.rs 3518-3531). -/
def insert (S : BlobStore σ ε) (st : σ) (mask : Nat → Nat → List Bool) (fuel : Nat) (x : Raw) (k v : Bytes) : H (Except ε Unit × Raw) :=
  withSingle k v (outerCombineWith (singleEnv S st mask) .downcast (setFn fun _ _ => .ok .take) fuel fuel x)

/-- `try_remove` (src/node/mod.rs 3534-3539). -/
def remove (S : BlobStore σ ε) (st : σ) (mask : Nat → Nat → List Bool) (fuel : Nat) (x : Raw) (k : Bytes) : H (Except ε Unit × Raw) :=
  withSingle k [] (leftCombineWith (singleEnv S st mask) (setFn fun _ _ => .ok .clear) fuel x)

/-- `try_remove_prefix` (src/node/mod.rs 3513-3515). -/
def removePrefix (S : BlobStore σ ε) (st : σ) (mask : Nat → Nat → List Bool) (fuel : Nat) (x : Raw) (p : Bytes) : H (Except ε Unit × Raw) :=
  withSingle p [] (removePrefixWith (singleEnv S st mask) (fun _ => .ok true) fuel x)

end

end Radix.Heap.Att
