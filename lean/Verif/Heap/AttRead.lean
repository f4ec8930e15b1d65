import Verif.Heap.Attached
import Verif.Stored.Read

/-
Model of lookups in trees in memory that may refer to a store, and of writing such trees to a store and loading them (src/node/mod.rs 363-381, 606-614, 691-695,
761-851, 1431-1567, 1811-1918, 3406-3428, 3813-3819), on top of `Verif/Heap/Attached.lean`.
-/

set_option linter.unusedVariables false

namespace Radix.Heap.Att

section
variable {σ ε : Type}

/-- The `?` operator, with nothing to drop (src/node/mod.rs 1454). -/
def andThen {α β : Type} (x : H (Except ε α)) (k : α → H (Except ε β)) : H (Except ε β) := do
  match ← x with
  | .ok a => k a
  | .error e => return .error e

/-! ### Lookup -/

/-- `TreeNodeIter::find` (src/node/mod.rs 1959-1964, 1811-1821, 1875-1890). -/
def HIter.find : HIter → UInt8 → H (Option HRef)
  | owned l, c => do
    let o ← findChild l c
    return o.map .owned
  | borrowed bs, c => return (findBorrowed bs c).map .borrowed

/-- `TreeNodeIter::last` (src/node/mod.rs 1980-1985, 1831-1833, 1905-1918). -/
def HIter.last : HIter → Option HRef
  | owned l => l.getLast?.map .owned
  | borrowed bs => (lastBorrowed bs none).map .borrowed

/-- `FindResult` (src/node/mod.rs 1431-1443). -/
inductive HFound where
  | found (x : HRef)
  | pre (x : HRef) (matching : Nat)
  | notFound

/-- `find` (src/node/mod.rs 1449-1485). The third argument bounds the depth. -/
def find (S : BlobStore σ ε) (st : σ) : Nat → HRef → Bytes → H (Except ε HFound)
  | 0, _, _ => fail
  | n + 1, x, p =>
    andThen (x.loadPrefix S st) fun tp =>
    let m := commonPrefix tp p
    let rt := tp.length - m
    let rp := p.length - m
    if rp = 0 ∧ rt = 0 then return .ok (.found x)
    else if rp = 0 then return .ok (.pre x m)
    else if rt = 0 then
      match p.drop m with
      | [] => fail
      | c :: rest =>
        andThen (x.loadChildren S st) fun
          | none => return .ok .notFound
          | some cs => do
            match ← cs.find c with
            | none => return .ok .notFound
            | some child => find S st n child (c :: rest)
    else return .ok .notFound

/-- `value_opt().map(|x| x.to_owned())` (src/node/mod.rs 1415-1420, 470-479). -/
def ownValue : Option HVal → H (Option Fld)
  | some v => do
    let f ← v.toOwned
    return some f
  | none => return none

/-- `TreeNode::get` (src/node/mod.rs 828-837). -/
def get (S : BlobStore σ ε) (st : σ) (n : Nat) (x : Raw) (k : Bytes) : H (Except ε (Option Fld)) :=
  andThen (find S st n (.owned x) k) fun
    | .found u => do
      let v ← ownValue u.valueOpt
      return .ok v
    | _ => return .ok none

/-- `TreeNode::contains_key` (src/node/mod.rs 805-814). -/
def containsKey (S : BlobStore σ ε) (st : σ) (n : Nat) (x : Raw) (k : Bytes) : H (Except ε Bool) :=
  andThen (find S st n (.owned x) k) fun
    | .found u => return .ok u.valueOpt.isSome
    | _ => return .ok false

/-- `TreeNode::has_prefix` (src/node/mod.rs 817-826). -/
def hasPrefix (S : BlobStore σ ε) (st : σ) (n : Nat) (x : Raw) (p : Bytes) : H (Except ε Bool) :=
  andThen (find S st n (.owned x) p) fun
    | .notFound => return .ok false
    | _ => return .ok true

/-- A copy of a node with another prefix (src/node/mod.rs 1498-1501). -/
def withPrefix (u : HRef) (p : Bytes) : H (Except ε Raw) := do
  let r ← u.toOwned
  let r ← r.setPrefix p
  return .ok r

/-- `filter_prefix` (src/node/mod.rs 1488-1513). -/
def filterPrefix (S : BlobStore σ ε) (st : σ) (n : Nat) (x : Raw) (p subst : Bytes) : H (Except ε Raw) :=
  andThen (find S st n (.owned x) p) fun
    | .found u => withPrefix u subst
    | .pre u m => andThen (u.loadPrefix S st) fun tp => withPrefix u (subst ++ tp.drop m)
    | .notFound => return .ok Raw.empty

/-- `first_value` (src/node/mod.rs 1516-1527). -/
def firstValue (S : BlobStore σ ε) (st : σ) : Nat → HRef → H (Except ε (Option Fld))
  | 0, _ => fail
  | n + 1, x =>
    match x.valueOpt with
    | some v => do
      let f ← v.toOwned
      return .ok (some f)
    | none =>
      andThen (x.loadChildren S st) fun
        | none => return .ok none
        | some cs =>
          match cs.next with
          | none => fail
          | some (c, _) => firstValue S st n c

/-- `last_value` (src/node/mod.rs 1530-1538). -/
def lastValue (S : BlobStore σ ε) (st : σ) : Nat → HRef → H (Except ε (Option Fld))
  | 0, _ => fail
  | n + 1, x =>
    andThen (x.loadChildren S st) fun
      | none => do
        let v ← ownValue x.valueOpt
        return .ok v
      | some cs =>
        match cs.last with
        | none => fail
        | some c => lastValue S st n c

/-- `first_entry` (src/node/mod.rs 1541-1554). -/
def firstEntry (S : BlobStore σ ε) (st : σ) : Nat → Bytes → HRef → H (Except ε (Option (Bytes × Fld)))
  | 0, _, _ => fail
  | n + 1, pre, x =>
    andThen (x.loadPrefix S st) fun p =>
    match x.valueOpt with
    | some v => do
      let f ← v.toOwned
      return .ok (some (pre ++ p, f))
    | none =>
      andThen (x.loadChildren S st) fun
        | none => return .ok none
        | some cs =>
          match cs.next with
          | none => fail
          | some (c, _) => firstEntry S st n (pre ++ p) c

/-- A value with its key (src/node/mod.rs 1562-1565). -/
def ownEntry (k : Bytes) : Option HVal → H (Option (Bytes × Fld))
  | some v => do
    let f ← v.toOwned
    return some (k, f)
  | none => return none

/-- `last_entry` (src/node/mod.rs 1557-1567). -/
def lastEntry (S : BlobStore σ ε) (st : σ) : Nat → Bytes → HRef → H (Except ε (Option (Bytes × Fld)))
  | 0, _, _ => fail
  | n + 1, pre, x =>
    andThen (x.loadPrefix S st) fun p =>
    andThen (x.loadChildren S st) fun
      | none => do
        let v ← ownEntry (pre ++ p) x.valueOpt
        return .ok v
      | some cs =>
        match cs.last with
        | none => fail
        | some c => lastEntry S st n (pre ++ p) c

/-- `Value::load` (src/node/mod.rs 606-614). -/
def valueLoad (S : BlobStore σ ε) (st : σ) (f : Fld) : H (Except ε Bytes) := do
  let b ← blobV f
  ofRes (b.load S st)

/-! ### Writing to a store and loading -/

/-- What a call that changes the state of the store gives (src/store/blob_store.rs 11-31). -/
def ofResSt {α : Type} : Res ε α × σ → H (Except ε α × σ)
  | (.ok a, st) => return (.ok a, st)
  | (.err e, st) => return (.error e, st)
  | (.panic, _) => fail
  | (.deep, _) => fail

/-- `OwnedBlobRef::serialize` (src/node/mod.rs 363-381). -/
def serializeBlob (S : BlobStore σ ε) (n : Nat) (f : Fld) (st : σ) : H (Except ε Bytes × σ) := do
  let b ← blobV f
  ofResSt (b.serialize S n st)

/-- The loop over the children in `TreeNode::serialize` (src/node/mod.rs 776-786). -/
def serializeAll (f : Raw → σ → H (Except ε Bytes × σ)) : List Raw → Bytes → Nat → σ → H (Except ε (Bytes × Nat) × σ)
  | [], data, rs, st => return (.ok (data, rs), st)
  | c :: cs, data, rs, st => seq (f c st) fun b st => serializeAll f cs (data ++ b) (nextRecordSize rs b.length) st

/-- The children are written, and their id goes to the record (src/node/mod.rs 787-790); `Header::id` panics for an id that is too long. -/
def writeChildren (S : BlobStore σ ε) (pb vb data : Bytes) (rs : Nat) (st : σ) : H (Except ε Bytes × σ) :=
  seq (ofResSt (S.write st data)) fun i st =>
  match Hdr.id? (i.length + 1) with
  | some h => return (.ok (pb ++ vb ++ h :: recordSizeByte rs :: i), st)
  | none => fail

/-- `TreeNode::serialize` (src/node/mod.rs 770-803): the bytes appended to `target`. The second argument bounds the depth. -/
def serialize (S : BlobStore σ ε) : Nat → Raw → σ → H (Except ε Bytes × σ)
  | 0, _, _ => fail
  | n + 1, x, st =>
    seq (serializeBlob S 1 x.pfx st) fun pb st =>
    seq (serializeBlob S 0 x.val st) fun vb st =>
    if x.ch.hdr.isId then do
      let i ← x.ch.slice
      return (.ok (pb ++ vb ++ x.ch.hdr :: i), st)
    else do
      match ← x.ch.children with
      | none => fail
      | some l =>
        if l.isEmpty then return (.ok (pb ++ vb ++ [Hdr.none]), st)
        else seq (serializeAll (serialize S n) l [] 0 st) fun (data, rs) st => writeChildren S pb vb data rs st

/-- `TreeNode::try_attached` (src/node/mod.rs 691-695); `unwrap` panics if the bytes cannot be decoded. -/
def attach (S : BlobStore σ ε) (n : Nat) (x : Raw) (st : σ) : H (Except ε Raw × σ) := do
  let (r, st) ← serialize S n x st
  match r with
  | .error e => return (.error e, st)
  | .ok bs =>
    match readOne bs with
    | some (r, rest) =>
      if rest.isEmpty then do
        let y ← recToOwned r
        return (.ok y, st)
      else fail
    | none => fail

/-- `TreeNode::deserialize` (src/node/mod.rs 761-768). -/
def deserialize (S : BlobStore σ ε) (bs : Bytes) : H (Except ε Raw) :=
  match readOne bs with
  | some (r, rest) =>
    if rest.isEmpty then do
      let y ← recToOwned r
      return .ok y
    else ofRes (S.ofAnyhow.bind Empty.elim)
  | none => ofRes (S.ofAnyhow.bind Empty.elim)

/-- `RadixTree::try_load` (src/node/mod.rs 3420-3428) with an id. -/
def load (S : BlobStore σ ε) (st : σ) (i : Bytes) : H (Except ε Raw) :=
  andThen (ofRes (S.read st i)) fun bs => deserialize S bs

/-- `RadixTree::try_reattach` (src/node/mod.rs 3813-3819): the node is replaced, and the old one dropped, only after everything else has succeeded. -/
def reattach (S : BlobStore σ ε) (n : Nat) (x : Raw) (st : σ) : H ((Except ε Bytes × Raw) × σ) := do
  let (r, st) ← seq (serialize S n x st) fun bs st => seq (ofResSt (S.write st bs)) fun i st => return (.ok (bs, i), st)
  match r with
  | .error e => return ((.error e, x), st)
  | .ok (bs, i) => do
    match ← deserialize S bs with
    | .error e => return ((.error e, x), st)
    | .ok y => do
      dropAll [x]
      return ((.ok i, y), st)

/-! ### On plain values -/

mutual
/-- Number of levels of a node in memory. Of the model only, for the recursion of src/node/mod.rs 691-790. -/
def levels : SNode → Nat
  | .arc _ _ l => levelsL l + 1
  | .ref _ _ _ => 1
/-- Number of levels of the children. Of the model only, for the recursion of src/node/mod.rs 691-790. -/
def levelsL : List SNode → Nat
  | [] => 0
  | a :: l => max (levels a) (levelsL l)
end

/-- `TreeNode::try_attached` (src/node/mod.rs 691-695) for any node; `tryAttached` is this for detached nodes. -/
def attachS (S : BlobStore σ ε) (a : SNode) (st : σ) : Res ε SNode × σ :=
  stBind (a.serialize S st) fun bs st =>
  match readOne bs with
  | some (r, rest) => (if rest.isEmpty then r.toOwned else .panic, st)
  | none => (.panic, st)

theorem attachS_embed (S : BlobStore σ ε) (n : Node) (st : σ) : attachS S (embed n) st = tryAttached S n st := rfl

/-- What `try_reattach` does to the tree and the store (src/node/mod.rs 3813-3819): `tryReattach`, where the tree stays as it is if something fails. -/
def reattachS (S : BlobStore σ ε) (a : SNode) (st : σ) : (Res ε Bytes × SNode) × σ :=
  match tryReattach S a st with
  | (.ok (a', i), st) => ((.ok i, a'), st)
  | (.err e, st) => ((.err e, a), st)
  | (.panic, st) => ((.panic, a), st)
  | (.deep, st) => ((.deep, a), st)

end

end Radix.Heap.Att
