/-
Model of `TreeNode<Detached>` and its primitive operations (src/node/mod.rs).

A detached tree never contains store ids (this is property C43, proved for the more detailed model in
`Verif/Stored`), so prefix and value are plain byte strings here and the `store` arguments disappear.
-/

namespace Radix

/-- A byte string: the `&[u8]` / `Vec<u8>` of the Rust code. For src/node/mod.rs 651-666. -/
abbrev Bytes := List UInt8

/-- `TreeNode` (src/node/mod.rs 651-666), for the `Detached` store.
* `pfx`: the prefix blob (always data);
* `val`: the value blob, `none` for header `NONE`;
* `ch`: `none` for children header `NONE`, `some l` for header `ARCDATA` with the vector `l`.
  `some []` and `none` are different states of the code.
Simplified: the small-buffer representation of the blobs (see `Verif/Stored/Blob.lean`) and the sharing of the
`Arc`s (see `Verif/Heap`) are not visible at this level. -/
inductive Node where
  | mk (pfx : Bytes) (val : Option Bytes) (ch : Option (List Node))

namespace Node

/-- `TreeNode::prefix_ref().slice()` (src/node/mod.rs 971-973). -/
def pfx : Node → Bytes | mk p _ _ => p

/-- `TreeNode::value_opt()` (src/node/mod.rs 1074-1080). -/
def val : Node → Option Bytes | mk _ v _ => v

/-- `TreeNode::get_children()` (src/node/mod.rs 1043-1045): `some l` for `Ok(arc)`, `none` for `Err(&[])`. -/
def ch : Node → Option (List Node) | mk _ _ c => c

/-- The children as a plain list, empty for header `NONE`.
`TreeNode::load_children_mut` (src/node/mod.rs 853-865) returns this list (and turns `none` into `some []`,
which the in-place functions below do when they rebuild the node). -/
def kids (n : Node) : List Node := n.ch.getD []

mutual
/-- Number of nodes in a tree (not in the code; termination measure of the recursive functions). -/
def nodes : Node → Nat | mk _ _ c => 1 + nodesO c
/-- Number of nodes below a children field (termination measure). Of the model only, for src/node/mod.rs 651-666. -/
def nodesO : Option (List Node) → Nat | none => 0 | some l => nodesL l
/-- Number of nodes in a list of trees (termination measure). Of the model only, for src/node/mod.rs 651-666. -/
def nodesL : List Node → Nat | [] => 0 | n :: l => nodes n + nodesL l
end

/-- `TreeNode::EMPTY` (src/node/mod.rs 942-950). -/
def empty : Node := mk [] none none

/-- `TreeNode::single` (src/node/mod.rs 958-963). -/
def single (key value : Bytes) : Node := mk key (some value) none

/-- `TreeNode::leaf` (src/node/mod.rs 965-969). -/
def leaf (value : Bytes) : Node := mk [] (some value) none

/-- `TreeNode::first_prefix_byte` (src/node/mod.rs 979-981). -/
def firstByte (n : Node) : Option UInt8 := n.pfx.head?

/-- The order of `Option<u8>` (derived `Ord` in std: `None` first), as a number. Used wherever the code
compares `first_prefix_byte`s (src/node/mod.rs 1721, 1750, 1817, 1883, 2168). -/
def rank : Option UInt8 → Nat
  | none => 0
  | some b => b.toNat + 1

/-- `TreeNode::has_value` (src/node/mod.rs 1070-1072). -/
def hasValue (n : Node) : Bool := n.val.isSome

/-- `TreeNode::is_leaf` (src/node/mod.rs 1100-1102): the children header is `NONE`. -/
def isLeaf (n : Node) : Bool := n.ch.isNone

/-- `TreeNode::is_empty` (src/node/mod.rs 983-985). -/
def isEmpty (n : Node) : Bool := !n.hasValue && n.isLeaf

/-- `TreeNode::child_count` (src/node/mod.rs 1104-1116); the branch for a non-empty id does not occur in
a detached tree. -/
def childCount (n : Node) : Nat := n.kids.length

/-- `TreeNode::load_children` (src/node/mod.rs 839-844) with `TreeNodeIter::from_slice` (1937-1943):
`None` when there are no children, whatever the header. -/
def loadChildren (n : Node) : Option (List Node) :=
  match n.ch with
  | some (c :: cs) => some (c :: cs)
  | _ => none

/-- `TreeNode::load_children_owned` (src/node/mod.rs 846-851): an `Arc` gives an iterator even if empty. -/
def loadChildrenOwned (n : Node) : Option (List Node) := n.ch

/-- `TreeNode::clone_shortened` (src/node/mod.rs 867-872). -/
def cloneShortened (a : Node) (n : Nat) : Node := mk (a.pfx.drop n) a.val a.ch

/-- `TreeNode::set_prefix_slice` (src/node/mod.rs 993-997). -/
def setPrefix (a : Node) (p : Bytes) : Node := mk p a.val a.ch

/-- `TreeNode::split` (src/node/mod.rs 874-891). -/
def split (a : Node) (n : Nat) : Node :=
  mk (a.pfx.take n) none (some [mk (a.pfx.drop n) a.val a.ch])

/-- First `if` of `TreeNode::canonicalize` (src/node/mod.rs 896-912): a node without value and with exactly
one child is merged with it. -/
def mergeOnlyChild : Node → Node
  | mk p none (some [c]) => mk (p ++ c.pfx) c.val c.ch
  | n => n

/-- `TreeNode::canonicalize` (src/node/mod.rs 893-918). -/
def canonicalize (n : Node) : Node :=
  let m := n.mergeOnlyChild
  if m.val = none ∧ m.childCount = 0 then empty else m

mutual
/-- `TreeNode::detached` (src/node/mod.rs 719-731): a deep copy. `load_children` gives `None` for an empty
vector, so `some []` becomes `none`. -/
def detached : Node → Node
  | mk p v c => mk p v (detachedO c)
/-- The children part of `TreeNode::detached` (src/node/mod.rs 723-729). -/
def detachedO : Option (List Node) → Option (List Node)
  | none => none
  | some [] => none
  | some (c :: cs) => some (detachedL (c :: cs))
/-- The loop of `TreeNode::detached` (src/node/mod.rs 725-727); also `OwnedTreeNodeIter::detached`
(src/node/mod.rs 1799-1803) on a non-empty iterator. -/
def detachedL : List Node → List Node
  | [] => []
  | c :: cs => detached c :: detachedL cs
end

end Node

/-- `common_prefix` (src/node/mod.rs 1570-1572). -/
def commonPrefix (a b : Bytes) : Nat := ((a.zip b).takeWhile fun p => p.1 == p.2).length

/-- The `NodeConverter`s (src/node/mod.rs 1576-1668), for detached source and target. -/
inductive Conv where
  | downcast
  | identity
  | detach

/-- `NodeConverter::convert_node` (src/node/mod.rs 1601-1607, 1629-1631, 1653-1655). `downcast` and
`identity` are clones. -/
def Conv.node : Conv → Node → Node
  | .downcast, b => b
  | .identity, b => b
  | .detach, b => b.detached

/-- `NodeConverter::convert_node_shortened` (src/node/mod.rs 1609-1616, 1633-1640, 1659-1667). -/
def Conv.nodeShortened (c : Conv) (b : Node) (n : Nat) : Node := c.node (b.cloneShortened n)

end Radix
