import Verif.Heap.AttRead

/-
Model of iterators over trees in memory that may refer to a store (src/node/mod.rs 846-851, 1277-1288, 1408-1413, 1761-1768, 1827-1829, 1896-1931, 1988-2009,
2966-3220, 3542-3584), on top of `Verif/Heap/AttRead.lean`.

Simplified: as in `Verif/Heap/Attached.lean`, the buffer of a block that was read from the store is a plain value.
-/

set_option linter.unusedVariables false

namespace Radix.Heap.Att

section
variable {σ ε : Type}

/-- `TreeNodeIter<'static>` (src/node/mod.rs 1921-1931): an `Arc` with a position (`OwnedTreeNodeIter`, 1761-1768), or what is left of a block
(`BorrowedTreeNodeIter`, 1836-1841). -/
inductive AIt where
  | kids (i : KidsIter)
  | buf (bs : Bytes)

/-- `TreeNodeIter::next` (src/node/mod.rs 1973-1978, 1827-1829, 1896-1903): the node is borrowed. -/
def AIt.next : AIt → H (Option (HRef × AIt))
  | kids i => do
    let o ← i.next
    return o.map fun x => (.owned x, .kids ⟨i.owner, i.pos + 1⟩)
  | buf bs => return (readOne bs).map fun (r, rest) => (.borrowed r, .buf rest)

/-- Dropping an iterator (src/node/mod.rs 1761, 1836-1841). -/
def AIt.drop : AIt → H Unit
  | kids i => dropArc i.owner
  | buf _ => return ()

/-- What `TreeNodeIter::load` gives, kept in an iterator (src/node/mod.rs 1933-1935); it is never a vector in memory. -/
def keepBuf : Option HIter → H (Except ε (Option AIt))
  | none => return .ok none
  | some (.borrowed bs) => return .ok (some (.buf bs))
  | some (.owned _) => fail

/-- `TreeNodeRef::load_children_owned` (src/node/mod.rs 1408-1413, 846-851, 1277-1288). -/
def HRef.loadChildrenOwned (S : BlobStore σ ε) (st : σ) : HRef → H (Except ε (Option AIt))
  | owned x =>
    if x.ch.hdr.isId then do
      let i ← x.ch.slice
      andThen (loadIter S st i) keepBuf
    else
      match x.ch.w with
      | .kids a => do
        incKids a
        let i ← fromArc a
        return .ok (some (.kids i))
      | _ => fail
  | borrowed r => andThen ((HRef.borrowed r).loadChildren S st) keepBuf

/-- `KeyValueIter` and `GroupBy` (src/node/mod.rs 3076-3080, 3142-3147), top of the stack first. -/
structure AKV where
  path : Nat
  stack : List (Nat × Option AIt)

/-- A value that is not given out because of an error is dropped (src/node/mod.rs 3105-3108). -/
def dropOpt : Option Fld → H Unit
  | some f => f.drop
  | none => return ()

/-- `KeyValueIter::next0` (src/node/mod.rs 3099-3123). The third argument bounds the number of steps. -/
def AKV.next0 (S : BlobStore σ ε) (st : σ) : Nat → AKV → H (Except ε (Option (Nat × Fld)) × AKV)
  | 0, _ => fail
  | n + 1, s =>
    match s.stack with
    | [] => return (.ok none, s)
    | (plen, some it) :: rest => do
      match ← it.next with
      | some (node, it) => do
        let value ← ownValue node.valueOpt
        match ← node.loadPrefix S st with
        | .error e => do
          dropOpt value
          return (.error e, ⟨s.path, (plen, some it) :: rest⟩)
        | .ok p => do
          match ← node.loadChildrenOwned S st with
          | .error e => do
            dropOpt value
            return (.error e, ⟨s.path, (plen, some it) :: rest⟩)
          | .ok cs => do
            let path ← keyAppend s.path p
            let s' : AKV := ⟨path, (p.length, cs) :: (plen, some it) :: rest⟩
            match value with
            | some v => do
              incBlob path
              return (.ok (some (path, v)), s')
            | none => AKV.next0 S st n s'
      | none => do
        it.drop
        AKV.next0 S st n ⟨s.path, (plen, none) :: rest⟩
    | (plen, none) :: rest => do
      let path ← keyPop s.path plen
      AKV.next0 S st n ⟨path, rest⟩

/-- Dropping what is on the stack of an iterator (`Vec::clear`, src/node/mod.rs 3135). -/
def dropStack : List (Nat × Option AIt) → H Unit
  | [] => return ()
  | (_, some it) :: st => do
    it.drop
    dropStack st
  | (_, none) :: st => dropStack st

/-- An error ends the iteration (src/node/mod.rs 3126-3140, 3203-3220). -/
def AKV.finish {α : Type} (x : H (Except ε (Option α) × AKV)) : H (Option (Except ε α) × AKV) := do
  let (r, s) ← x
  match r with
  | .ok (some a) => return (some (.ok a), s)
  | .ok none => return (none, s)
  | .error e => do
    dropStack s.stack
    return (some (.error e), ⟨s.path, []⟩)

/-- `Iterator::next` for `KeyValueIter` (src/node/mod.rs 3126-3140). -/
def AKV.next (S : BlobStore σ ε) (st : σ) (n : Nat) (s : AKV) : H (Option (Except ε (Nat × Fld)) × AKV) := AKV.finish (AKV.next0 S st n s)

/-- `KeyValueIter::new` (src/node/mod.rs 3091-3097) with `TreeNodeIter::from_arc` (1926-1931) over one node, which the iterator owns. -/
def AKV.new (x : Raw) (p : Bytes) : H AKV := do
  let a ← alloc (.kids 1 [x])
  let it ← fromArc a
  let k ← alloc (.blob 1 p)
  return ⟨k, [(0, some (.kids it))]⟩

/-- `RadixTree::try_iter` and `try_group_by` (src/node/mod.rs 3542-3548, 3568-3584). -/
def iter (x : Raw) : H AKV := do
  let y ← x.clone
  AKV.new y []

/-- An iterator over a copy of a node (src/node/mod.rs 1996-2004). -/
def iterOf (u : HRef) (p : Bytes) : H (Except ε AKV) := do
  let y ← u.toOwned
  let s ← AKV.new y p
  return .ok s

/-- `scan_prefix` (src/node/mod.rs 1988-2009). -/
def scanPrefix (S : BlobStore σ ε) (st : σ) (n : Nat) (x : Raw) (p : Bytes) : H (Except ε AKV) :=
  andThen (find S st n (.owned x) p) fun
    | .found u => iterOf u p
    | .pre u m => iterOf u (p.take (p.length - m))
    | .notFound => do
      let k ← alloc (.blob 1 [])
      return .ok ⟨k, []⟩

/-- Dropping a `KeyValueIter` (src/node/mod.rs 3076-3080). -/
def AKV.drop (s : AKV) : H Unit := do
  decBlob s.path
  dropStack s.stack

/-- The node that `GroupBy` gives (src/node/mod.rs 3172-3177, 3187-3188). -/
def groupNode (node : HRef) (p : Bytes) (alone : Bool) : H Raw := do
  let r ← node.toOwned
  let r ← r.setPrefix p
  if alone then r.clearChildren else return r

/-- `GroupBy::next0` (src/node/mod.rs 3159-3201). `descend` sees the path; the node it is also given has no public methods that read it. -/
def AKV.nextGroup0 (S : BlobStore σ ε) (st : σ) (descend : Bytes → Except ε Bool) : Nat → AKV → H (Except ε (Option Raw) × AKV)
  | 0, _ => fail
  | n + 1, s =>
    match s.stack with
    | [] => return (.ok none, s)
    | (plen, some it) :: rest => do
      match ← it.next with
      | some (node, it) => do
        match ← node.loadPrefix S st with
        | .error e => return (.error e, ⟨s.path, (plen, some it) :: rest⟩)
        | .ok p => do
          let path ← keyAppend s.path p
          let pb ← readBlob path
          match descend pb with
          | .error e => return (.error e, ⟨path, (plen, some it) :: rest⟩)
          | .ok true => do
            match ← node.loadChildrenOwned S st with
            | .error e => return (.error e, ⟨path, (plen, some it) :: rest⟩)
            | .ok cs =>
              if node.valueOpt.isSome then do
                let r ← groupNode node pb true
                return (.ok (some r), ⟨path, (p.length, cs) :: (plen, some it) :: rest⟩)
              else AKV.nextGroup0 S st descend n ⟨path, (p.length, cs) :: (plen, some it) :: rest⟩
          | .ok false => do
            let r ← groupNode node pb false
            let path ← keyPop path p.length
            return (.ok (some r), ⟨path, (plen, some it) :: rest⟩)
      | none => do
        it.drop
        AKV.nextGroup0 S st descend n ⟨s.path, (plen, none) :: rest⟩
    | (plen, none) :: rest => do
      let path ← keyPop s.path plen
      AKV.nextGroup0 S st descend n ⟨path, rest⟩

/-- `Iterator::next` for `GroupBy` (src/node/mod.rs 3203-3220). -/
def AKV.nextGroup (S : BlobStore σ ε) (st : σ) (descend : Bytes → Except ε Bool) (n : Nat) (s : AKV) : H (Option (Except ε Raw) × AKV) :=
  AKV.finish (AKV.nextGroup0 S st descend n s)

/-- `ValueIter::next0` (src/node/mod.rs 3038-3053); the state is the stack, top first. -/
def valNext0 (S : BlobStore σ ε) (st : σ) : Nat → List AIt → H (Except ε (Option Fld) × List AIt)
  | 0, _ => fail
  | n + 1, s =>
    match s with
    | [] => return (.ok none, [])
    | it :: rest => do
      match ← it.next with
      | some (node, it) => do
        let value ← ownValue node.valueOpt
        match ← node.loadChildrenOwned S st with
        | .error e => do
          dropOpt value
          return (.error e, it :: rest)
        | .ok cs =>
          match value with
          | some v => return (.ok (some v), cs.toList ++ it :: rest)
          | none => valNext0 S st n (cs.toList ++ it :: rest)
      | none => do
        it.drop
        valNext0 S st n rest

/-- Dropping a `ValueIter` (src/node/mod.rs 3018-3021), and `Vec::clear` (3066). -/
def dropVals : List AIt → H Unit
  | [] => return ()
  | it :: st => do
    it.drop
    dropVals st

/-- `Iterator::next` for `ValueIter` (src/node/mod.rs 3056-3070). -/
def valNext (S : BlobStore σ ε) (st : σ) (n : Nat) (s : List AIt) : H (Option (Except ε Fld) × List AIt) := do
  let (r, s) ← valNext0 S st n s
  match r with
  | .ok (some a) => return (some (.ok a), s)
  | .ok none => return (none, s)
  | .error e => do
    dropVals s
    return (some (.error e), [])

/-- `RadixTree::try_values` (src/node/mod.rs 3551-3556). -/
def values (x : Raw) : H (List AIt) := do
  let y ← x.clone
  let a ← alloc (.kids 1 [y])
  let it ← fromArc a
  return [.kids it]

/-! ### On plain values -/

/-- A user function that decides whether to descend (src/node/mod.rs 3568-3584), on plain values. -/
def descendS (d : Bytes → Except ε Bool) : Bytes → Radix.Ref → Res ε Bool := fun p _ =>
  match d p with
  | .ok b => .ok b
  | .error e => .err e

end

end Radix.Heap.Att
