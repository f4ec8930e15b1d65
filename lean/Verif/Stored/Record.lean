import Verif.Stored.Store

/-
Model of nodes that may refer to a store, and of their serialized form (src/node/mod.rs 363-436, 651-803, 1148-1429).
-/

set_option linter.unusedVariables false

namespace Radix

/-- A prefix or value field: `OwnedBlobRef` (src/node/mod.rs 319-383) or `BorrowedBlobRef` (385-436). Header and bytes are
joined: `data d` has header `Header::data(d.len())`, `id i` has header `Header::id(i.len())`. A missing value is
`id []` (header `NONE`). That the small-buffer representation behaves like this is property C31. -/
inductive BlobV where
  | data (d : Bytes)
  | id (i : Bytes)
  deriving DecidableEq

namespace BlobV

/-- The header byte (src/node/mod.rs 265-277). An id has fewer than 128 bytes in every node of the code. -/
def hdr : BlobV → Hdr
  | data d => Hdr.data d.length
  | id i => UInt8.ofNat i.length ||| 0x80

/-- `slice` (src/node/mod.rs 359-361, 425-427). -/
def slice : BlobV → Bytes
  | data d => d
  | id i => i

/-- A missing value: header `NONE`. For src/node/mod.rs 24-160. -/
def none : BlobV := id []

/-- `first_prefix_byte` (src/node/mod.rs 979-981, 1239-1241). For a stored prefix this is the first byte of the id field,
where `serialize` puts the first byte of the prefix. -/
def firstByte (b : BlobV) : Option UInt8 := b.slice.head?

end BlobV

/-- `TreeNode<S>` (src/node/mod.rs 651-666). `arc`: children header `ARCDATA`; `ref`: children header `id` with the
given bytes, `ref _ _ []` is header `NONE`. -/
inductive SNode where
  | arc (pfx val : BlobV) (l : List SNode)
  | ref (pfx val : BlobV) (id : Bytes)

namespace SNode

/-- `prefix_ref` (src/node/mod.rs 971-973). -/
def pfx : SNode → BlobV | arc p _ _ => p | ref p _ _ => p

/-- `value_ref` (src/node/mod.rs 975-977). -/
def val : SNode → BlobV | arc _ v _ => v | ref _ v _ => v

/-- `get_children` (src/node/mod.rs 1043-1045): `Ok` of the vector or `Err` of the id. -/
def children : SNode → List SNode ⊕ Bytes | arc _ _ l => .inl l | ref _ _ i => .inr i

/-- A node from its parts. (src/node/mod.rs 651-666.) -/
def ofParts (p v : BlobV) : List SNode ⊕ Bytes → SNode
  | .inl l => arc p v l
  | .inr i => ref p v i

end SNode

mutual
/-- The `TreeNode<S>` that `TreeNode::downcast` (src/node/mod.rs 686-689) makes of a detached node: the same node. -/
def embed : Node → SNode
  | .mk p v c => match c with
    | none => .ref (.data p) (embedVal v) []
    | some l => .arc (.data p) (embedVal v) (embedL l)
/-- The children of `embed`. (src/node/mod.rs 686-689.) -/
def embedL : List Node → List SNode
  | [] => []
  | n :: l => embed n :: embedL l
/-- The value of `embed`. (src/node/mod.rs 686-689.) -/
def embedVal : Option Bytes → BlobV
  | none => .none
  | some v => .data v
end

/-- `BorrowedTreeNode` (src/node/mod.rs 1148-1163): three blobs inside a buffer. -/
structure Rec where
  pfx : BlobV
  val : BlobV
  ch : BlobV
  deriving DecidableEq

/-- One field of a record: a header byte and as many bytes as it says (src/node/mod.rs 1297-1302, 1304-1309, 1311-1316). -/
def readBlob : Bytes → Option (BlobV × Bytes)
  | [] => none
  | h :: rest =>
    if rest.length < Hdr.len h then none
    else
      let s := rest.take (Hdr.len h)
      some (if Hdr.isId h then .id s else .data s, rest.drop (Hdr.len h))

/-- `BorrowedTreeNode::read_one` (src/node/mod.rs 1296-1331). -/
def readOne (bs : Bytes) : Option (Rec × Bytes) := do
  let (p, bs) ← readBlob bs
  let (v, bs) ← readBlob bs
  let (c, bs) ← readBlob bs
  return (⟨p, v, c⟩, bs)

/-- `BorrowedTreeNode::to_owned` (src/node/mod.rs 1206-1212): `unwrap_err` panics if the children field is data. -/
def Rec.toOwned {ε} (r : Rec) : Res ε SNode :=
  match r.ch with
  | .id i => .ok (.ref r.pfx r.val i)
  | .data _ => .panic

/-- `TreeNode::deserialize` (src/node/mod.rs 761-768). -/
def deserialize {σ ε} (S : BlobStore σ ε) (bs : Bytes) : Res ε SNode :=
  match readOne bs with
  | some (r, rest) => if rest.isEmpty then r.toOwned else S.ofAnyhow.bind Empty.elim
  | none => S.ofAnyhow.bind Empty.elim

/-- `OwnedBlobRef::serialize` (src/node/mod.rs 363-381): the bytes appended to `target`, and the new store state. The
slice `[..n]` is within bounds because the blob has at least 128 bytes. -/
def BlobV.serialize {σ ε} (S : BlobStore σ ε) (n : Nat) (st : σ) (b : BlobV) : Res ε Bytes × σ :=
  match b with
  | .id i => (.ok (b.hdr :: i), st)
  | .data d =>
    if d.length < 0x80 then (.ok (b.hdr :: d), st)
    else
      match S.write st d with
      | (.ok i, st) =>
        match Hdr.id? (i.length + n) with
        | some h => (.ok (h :: d.take n ++ i), st)
        | .none => (.panic, st)
      | (.err e, st) => (.err e, st)
      | (.panic, st) => (.panic, st)
      | (.deep, st) => (.deep, st)

/-- `usize::max_value()` (src/node/mod.rs 784), a mark for "records of different sizes". -/
def usizeMax : Nat := 2 ^ 64 - 1

/-- The update of `record_size` in the loop of `serialize` (src/node/mod.rs 780-785). -/
def nextRecordSize (rs len : Nat) : Nat := if rs = 0 then len else if rs ≠ len then usizeMax else rs

/-- `record_size.try_into().unwrap_or_default()` (src/node/mod.rs 789). -/
def recordSizeByte (rs : Nat) : UInt8 := if rs < 256 then UInt8.ofNat rs else 0

/-- Sequencing of steps that thread the store state: the `?` operator. For src/node/mod.rs 691-790. -/
def stBind {σ ε α β} (x : Res ε α × σ) (f : α → σ → Res ε β × σ) : Res ε β × σ :=
  match x with
  | (.ok a, st) => f a st
  | (.err e, st) => (.err e, st)
  | (.panic, st) => (.panic, st)
  | (.deep, st) => (.deep, st)

mutual
/-- `TreeNode::serialize` (src/node/mod.rs 770-803): the bytes appended to `target`, and the new store state. -/
def SNode.serialize {σ ε} (S : BlobStore σ ε) : SNode → σ → Res ε Bytes × σ
  | .arc p v l, st =>
    stBind (p.serialize S 1 st) fun pb st =>
    stBind (v.serialize S 0 st) fun vb st =>
    if l.isEmpty then (.ok (pb ++ vb ++ [Hdr.none]), st)
    else
      stBind (serializeL S l [] 0 st) fun (data, rs) st =>
      stBind (S.write st data) fun i st =>
      match Hdr.id? (i.length + 1) with
      | some h => (.ok (pb ++ vb ++ h :: recordSizeByte rs :: i), st)
      | none => (.panic, st)
  | .ref p v i, st =>
    stBind (p.serialize S 1 st) fun pb st =>
    stBind (v.serialize S 0 st) fun vb st =>
    (.ok (pb ++ vb ++ (BlobV.id i).hdr :: i), st)
/-- The loop over the children in `TreeNode::serialize` (src/node/mod.rs 776-786). -/
def serializeL {σ ε} (S : BlobStore σ ε) : List SNode → Bytes → Nat → σ → Res ε (Bytes × Nat) × σ
  | [], data, rs, st => (.ok (data, rs), st)
  | c :: cs, data, rs, st =>
    stBind (c.serialize S st) fun b st =>
    serializeL S cs (data ++ b) (nextRecordSize rs b.length) st
end

/-- `TreeNode::try_attached` (src/node/mod.rs 691-695); `unwrap` panics if the bytes cannot be decoded. -/
def tryAttached {σ ε} (S : BlobStore σ ε) (n : Node) (st : σ) : Res ε SNode × σ :=
  stBind ((embed n).serialize S st) fun bs st =>
  match readOne bs with
  | some (r, rest) => (if rest.isEmpty then r.toOwned else .panic, st)
  | none => (.panic, st)

/-- `RadixTree::try_reattach` (src/node/mod.rs 3813-3819): the new node of the tree and the id. -/
def tryReattach {σ ε} (S : BlobStore σ ε) (a : SNode) (st : σ) : Res ε (SNode × Bytes) × σ :=
  stBind (a.serialize S st) fun bs st =>
  stBind (S.write st bs) fun i st =>
  ((deserialize S bs).bind fun a' => .ok (a', i), st)

/-- `RadixTree::try_load` (src/node/mod.rs 3420-3428) with an id. -/
def tryLoad {σ ε} (S : BlobStore σ ε) (st : σ) (i : Bytes) : Res ε SNode :=
  (S.read st i).bind fun bs => deserialize S bs

end Radix
