import Verif.Stored.Record
import Verif.Tree.Iter

/-
Model of the reading operations on trees that may refer to a store (src/node/mod.rs 805-938, 1148-1568, 1757-2009,
2966-3220). `fuel` bounds the number of levels (of loop rounds for the iterators) that the model follows; the outcome
`deep` means that it was not enough and does not exist in the code.
-/

set_option linter.unusedVariables false

namespace Radix

section
variable {σ ε : Type} (S : BlobStore σ ε)

/-- `load_prefix` (src/node/mod.rs 920-926, 1259-1267). `[1..]` of an empty slice panics. -/
def loadPrefix (st : σ) : BlobV → Res ε Bytes
  | .data d => .ok d
  | .id [] => .panic
  | .id (_ :: i) => S.read st i

/-- `Value::load` (src/node/mod.rs 606-614). -/
def BlobV.load (st : σ) : BlobV → Res ε Bytes
  | .data d => .ok d
  | .id i => S.read st i

/-- `has_value` / `value_opt` (src/node/mod.rs 1070-1080, 1269-1275), `ValueRef::to_owned` (470-479): the value, if there is
one. -/
def BlobV.valueOpt (b : BlobV) : Option BlobV := if b = .none then .none else some b

/-- `load_value` (src/node/mod.rs 928-938). -/
def loadValue (st : σ) : BlobV → Res ε (Option Bytes)
  | .id [] => .ok .none
  | .id i => (S.read st i).bind fun d => .ok (some d)
  | .data d => .ok (some d)

/-- `TreeNodeRef` (src/node/mod.rs 1334-1338): a reference to an owned node or a borrowed node. -/
inductive Ref where
  | owned (a : SNode)
  | borrowed (r : Rec)

/-- `TreeNodeIter` (src/node/mod.rs 1921-1924): remaining elements (`OwnedTreeNodeIter`, 1761) or the remaining bytes
`data[offset..]` (`BorrowedTreeNodeIter`, 1836-1841). `record_size` is not used by the code. -/
inductive TIter where
  | owned (l : List SNode)
  | borrowed (bs : Bytes)

namespace Ref

/-- `prefix_ref` of either kind. (src/node/mod.rs 971-973, 1243-1245.) -/
def pfx : Ref → BlobV | owned a => a.pfx | borrowed r => r.pfx

/-- `value_ref` of either kind. (src/node/mod.rs 975-977, 1247-1249.) -/
def val : Ref → BlobV | owned a => a.val | borrowed r => r.val

/-- `TreeNodeRef::to_owned` (src/node/mod.rs 1380-1385). -/
def toOwned : Ref → Res ε SNode
  | owned a => .ok a
  | borrowed r => r.toOwned

end Ref

/-- `TreeNodeIter::load`, `BorrowedTreeNodeIter::load` (src/node/mod.rs 1933-1935, 1844-1856). -/
def loadIter (st : σ) : Bytes → Res ε (Option TIter)
  | [] => .ok none
  | _ :: i => (S.read st i).bind fun d => .ok (some (.borrowed d))

/-- `TreeNodeIter::from_slice` (src/node/mod.rs 1937-1943). -/
def iterFromSlice (l : List SNode) : Option TIter := if l.isEmpty then none else some (.owned l)

/-- `TreeNode::load_children` (src/node/mod.rs 839-844). -/
def SNode.loadChildren (st : σ) (a : SNode) : Res ε (Option TIter) :=
  match a.children with
  | .inl l => .ok (iterFromSlice l)
  | .inr i => loadIter S st i

/-- `TreeNode::load_children_owned` (src/node/mod.rs 846-851). -/
def SNode.loadChildrenOwned (st : σ) (a : SNode) : Res ε (Option TIter) :=
  match a.children with
  | .inl l => .ok (some (.owned l))
  | .inr i => loadIter S st i

/-- `BorrowedTreeNode::load_children` (src/node/mod.rs 1277-1288): panics if the children field is data. -/
def Rec.loadChildren (st : σ) (r : Rec) : Res ε (Option TIter) :=
  match r.ch with
  | .id [] => .ok (iterFromSlice [])
  | .id i => loadIter S st i
  | .data _ => .panic

/-- `TreeNodeRef::load_children` (src/node/mod.rs 1401-1406). -/
def Ref.loadChildren (st : σ) : Ref → Res ε (Option TIter)
  | owned a => a.loadChildren S st
  | borrowed r => r.loadChildren S st

/-- `TreeNodeRef::load_children_owned` (src/node/mod.rs 1408-1413). -/
def Ref.loadChildrenOwned (st : σ) : Ref → Res ε (Option TIter)
  | owned a => a.loadChildrenOwned S st
  | borrowed r => r.loadChildren S st

/-- `TreeNodeIter::next` (src/node/mod.rs 1973-1978, 1827-1829, 1896-1903): the next node and the remaining iterator. -/
def TIter.next : TIter → Option (Ref × TIter)
  | owned [] => none
  | owned (a :: l) => some (.owned a, .owned l)
  | borrowed bs => (readOne bs).map fun (r, rest) => (.borrowed r, .borrowed rest)

theorem readBlob_length {bs rest : Bytes} {b : BlobV} (h : readBlob bs = some (b, rest)) : rest.length < bs.length := by
  cases bs with
  | nil => cases h
  | cons x xs =>
    simp only [readBlob] at h
    split at h
    · cases h
    · simp only [Option.some.injEq, Prod.mk.injEq] at h
      rw [← h.2]; simp; omega

theorem readOne_lt {bs rest : Bytes} {r : Rec} (h : readOne bs = some (r, rest)) : rest.length < bs.length := by
  simp only [readOne, Option.bind_eq_bind, Option.bind_eq_some_iff, Prod.exists, Option.pure_def,
    Option.some.injEq, Prod.mk.injEq] at h
  obtain ⟨p, b1, h1, v, b2, h2, c, b3, h3, _, rfl⟩ := h
  have := readBlob_length h1
  have := readBlob_length h2
  have := readBlob_length h3
  omega

/-- Number of elements or bytes left (termination measure). Of the model only, for the loops over children such as src/node/mod.rs 1560-1700. -/
def TIter.size : TIter → Nat
  | owned l => l.length
  | borrowed bs => bs.length

theorem TIter.next_size {it it' : TIter} {r : Ref} (h : it.next = some (r, it')) : it'.size < it.size := by
  cases it with
  | owned l => cases l <;> simp [TIter.next] at h; rw [← h.2]; simp [TIter.size]
  | borrowed bs =>
    simp only [TIter.next, Option.map_eq_some_iff, Prod.exists] at h
    obtain ⟨x, rest, h1, h2⟩ := h
    cases h2
    exact readOne_lt h1

/-- `BorrowedTreeNodeIter::find` (src/node/mod.rs 1875-1890): linear search that stops at a larger first byte. -/
def findBorrowed (bs : Bytes) (c : UInt8) : Option Rec :=
  match h : readOne bs with
  | none => none
  | some (r, rest) =>
    if Node.rank r.pfx.firstByte < Node.rank (some c) then findBorrowed rest c
    else if Node.rank (some c) < Node.rank r.pfx.firstByte then none
    else some r
termination_by bs.length
decreasing_by exact readOne_lt h

/-- The loop of `slice::binary_search_by_key` (Rust std) as in `bsearch`, for nodes that may refer to a store. For src/node/mod.rs 1817. -/
def bsearchS (l : List SNode) (target : Nat) (left right : Nat) : Option Nat :=
  if h : left < right then
    let mid := left + (right - left) / 2
    match l[mid]? with
    | none => none
    | some x =>
      if Node.rank x.pfx.firstByte < target then bsearchS l target (mid + 1) right
      else if target < Node.rank x.pfx.firstByte then bsearchS l target left mid
      else some mid
  else none
termination_by right - left
decreasing_by all_goals omega

/-- `OwnedTreeNodeIter::find` (src/node/mod.rs 1811-1821). -/
def findOwned (l : List SNode) (c : UInt8) : Option SNode :=
  if l.length = 256 then l[c.toNat]?
  else (bsearchS l (Node.rank (some c)) 0 l.length).bind fun i => l[i]?

/-- `TreeNodeIter::find` (src/node/mod.rs 1959-1964). -/
def TIter.find : TIter → UInt8 → Option Ref
  | owned l, c => (findOwned l c).map .owned
  | borrowed bs, c => (findBorrowed bs c).map .borrowed

/-- `BorrowedTreeNodeIter::last` (src/node/mod.rs 1905-1918). -/
def lastBorrowed (bs : Bytes) (acc : Option Rec) : Option Rec :=
  match h : readOne bs with
  | none => acc
  | some (r, rest) => lastBorrowed rest (some r)
termination_by bs.length
decreasing_by exact readOne_lt h

/-- `TreeNodeIter::last` (src/node/mod.rs 1980-1985, 1831-1833). -/
def TIter.last : TIter → Option Ref
  | owned l => l.getLast?.map .owned
  | borrowed bs => (lastBorrowed bs none).map .borrowed

/-- `FindResult` (src/node/mod.rs 1431-1443). -/
inductive SFind where
  | found (t : Ref)
  | pre (t : Ref) (matching : Nat)
  | notFound

/-- `find` (src/node/mod.rs 1449-1485). -/
def findS (st : σ) : Nat → Ref → Bytes → Res ε SFind
  | 0, _, _ => .deep
  | fuel + 1, t, p =>
    (loadPrefix S st t.pfx).bind fun tp =>
    let n := commonPrefix tp p
    let rt := tp.length - n
    let rp := p.length - n
    if rp = 0 ∧ rt = 0 then .ok (.found t)
    else if rp = 0 then .ok (.pre t n)
    else if rt = 0 then
      match p.drop n with
      | [] => .panic   -- not reached: rp > 0
      | c :: rest =>
        (t.loadChildren S st).bind fun
          | none => .ok .notFound
          | some cs =>
            match cs.find c with
            | none => .ok .notFound
            | some child => findS st fuel child (c :: rest)
    else .ok .notFound

/-- `TreeNode::get` (src/node/mod.rs 828-837). -/
def getS (fuel : Nat) (st : σ) (a : SNode) (k : Bytes) : Res ε (Option BlobV) :=
  (findS S st fuel (.owned a) k).bind fun
    | .found u => .ok u.val.valueOpt
    | _ => .ok none

/-- `TreeNode::contains_key` (src/node/mod.rs 805-814). -/
def containsKeyS (fuel : Nat) (st : σ) (a : SNode) (k : Bytes) : Res ε Bool :=
  (findS S st fuel (.owned a) k).bind fun
    | .found u => .ok u.val.valueOpt.isSome
    | _ => .ok false

/-- `TreeNode::has_prefix` (src/node/mod.rs 817-826). -/
def hasPrefixS (fuel : Nat) (st : σ) (a : SNode) (p : Bytes) : Res ε Bool :=
  (findS S st fuel (.owned a) p).bind fun
    | .found _ => .ok true
    | .pre _ _ => .ok true
    | .notFound => .ok false

/-- `set_prefix_slice` (src/node/mod.rs 993-997). -/
def SNode.setPrefix (a : SNode) (p : Bytes) : SNode := .ofParts (.data p) a.val a.children

/-- `TreeNode::EMPTY` (src/node/mod.rs 942-950). -/
def SNode.empty : SNode := .ref (.data []) .none []

/-- `filter_prefix` (src/node/mod.rs 1488-1513). -/
def filterPrefixS (fuel : Nat) (st : σ) (a : SNode) (p subst : Bytes) : Res ε SNode :=
  (findS S st fuel (.owned a) p).bind fun
    | .found u => u.toOwned.bind fun r => .ok (r.setPrefix subst)
    | .pre u matching =>
      (loadPrefix S st u.pfx).bind fun tp =>
      u.toOwned.bind fun r => .ok (r.setPrefix (subst ++ tp.drop matching))
    | .notFound => .ok SNode.empty

/-- `first_value` (src/node/mod.rs 1516-1527); `unwrap` panics on an empty iterator. -/
def firstValueS (st : σ) : Nat → Ref → Res ε (Option BlobV)
  | 0, _ => .deep
  | fuel + 1, t =>
    match t.val.valueOpt with
    | some v => .ok (some v)
    | none =>
      (t.loadChildren S st).bind fun
        | none => .ok none
        | some cs =>
          match cs.next with
          | none => .panic
          | some (c, _) => firstValueS st fuel c

/-- `last_value` (src/node/mod.rs 1530-1538). -/
def lastValueS (st : σ) : Nat → Ref → Res ε (Option BlobV)
  | 0, _ => .deep
  | fuel + 1, t =>
    (t.loadChildren S st).bind fun
      | none => .ok t.val.valueOpt
      | some cs =>
        match cs.last with
        | none => .panic
        | some c => lastValueS st fuel c

/-- `first_entry` (src/node/mod.rs 1541-1554). -/
def firstEntryS (st : σ) : Nat → Bytes → Ref → Res ε (Option (Bytes × BlobV))
  | 0, _, _ => .deep
  | fuel + 1, pre, t =>
    (loadPrefix S st t.pfx).bind fun tp =>
    match t.val.valueOpt with
    | some v => .ok (some (pre ++ tp, v))
    | none =>
      (t.loadChildren S st).bind fun
        | none => .ok none
        | some cs =>
          match cs.next with
          | none => .panic
          | some (c, _) => firstEntryS st fuel (pre ++ tp) c

/-- `last_entry` (src/node/mod.rs 1557-1567). -/
def lastEntryS (st : σ) : Nat → Bytes → Ref → Res ε (Option (Bytes × BlobV))
  | 0, _, _ => .deep
  | fuel + 1, pre, t =>
    (loadPrefix S st t.pfx).bind fun tp =>
    (t.loadChildren S st).bind fun
      | none => .ok (t.val.valueOpt.map fun v => (pre ++ tp, v))
      | some cs =>
        match cs.last with
        | none => .panic
        | some c => lastEntryS st fuel (pre ++ tp) c

/-- The loop of `TreeNode::detached` (src/node/mod.rs 724-728). -/
def detachedLoop (f : SNode → Res ε Node) (cs : TIter) : Res ε (List Node) :=
  match h : cs.next with
  | none => .ok []
  | some (c, cs) =>
    (Ref.toOwned c).bind fun a => (f a).bind fun n => (detachedLoop f cs).bind fun l => .ok (n :: l)
termination_by cs.size
decreasing_by exact TIter.next_size h

/-- `TreeNode::detached`, `BorrowedTreeNode::detached`, `TreeNodeRef::detached` (src/node/mod.rs 719-731, 1214-1219,
1355-1360). A borrowed node is first converted by `to_owned`. -/
def detachedS (st : σ) : Nat → SNode → Res ε Node
  | 0, _ => .deep
  | fuel + 1, a =>
    (loadPrefix S st a.pfx).bind fun p =>
    (loadValue S st a.val).bind fun v =>
    (a.loadChildren S st).bind fun
      | none => .ok (.mk p v none)
      | some cs => (detachedLoop (detachedS st fuel) cs).bind fun l => .ok (.mk p v (some l))

/-- The same loop for the nodes of an iterator (src/node/mod.rs 724-728, 1791-1803). -/
def detachedIterS (st : σ) (fuel : Nat) (cs : TIter) : Res ε (List Node) := detachedLoop (detachedS S st fuel) cs

/-- `KeyValueIter` and `GroupBy` state (src/node/mod.rs 3076-3080, 3142-3147), top of the stack first. -/
structure SIter where
  path : Bytes
  stack : List (Nat × Option TIter)

/-- `KeyValueIter::next0` (src/node/mod.rs 3099-3123). On an error the state is not used any more, because
`Iterator::next` clears the stack. -/
def SIter.next0 (st : σ) : Nat → SIter → Res ε (Option ((Bytes × BlobV)) × SIter)
  | 0, _ => .deep
  | fuel + 1, s =>
    match s.stack with
    | [] => .ok (none, s)
    | (plen, some it) :: rest =>
      match it.next with
      | some (node, it) =>
        (loadPrefix S st node.pfx).bind fun p =>
        (node.loadChildrenOwned S st).bind fun cs =>
        let path := pathAppend s.path p
        let s' : SIter := ⟨path, (p.length, cs) :: (plen, some it) :: rest⟩
        match node.val.valueOpt with
        | some v => .ok (some (path, v), s')
        | none => SIter.next0 st fuel s'
      | none => SIter.next0 st fuel ⟨s.path, (plen, none) :: rest⟩
    | (plen, none) :: rest => SIter.next0 st fuel ⟨pathPop s.path plen, rest⟩

/-- `Iterator::next` for `KeyValueIter` (src/node/mod.rs 3126-3140): an error is reported and ends the iteration. The
outcome is `ok none` for `None`, `ok (some (ok x))` for `Some(Ok(x))`, `ok (some (err e))` for `Some(Err(e))`. -/
def SIter.next (st : σ) (fuel : Nat) (s : SIter) : Res Empty (Option (Except ε (Bytes × BlobV)) × SIter) :=
  match SIter.next0 S st fuel s with
  | .ok (some x, s) => .ok (some (.ok x), s)
  | .ok (none, s) => .ok (none, s)
  | .err e => .ok (some (.error e), ⟨s.path, []⟩)
  | .panic => .panic
  | .deep => .deep

/-- `try_iter` (src/node/mod.rs 3542-3548). -/
def iterS (a : SNode) : SIter := ⟨[], [(0, some (.owned [a]))]⟩

/-- `scan_prefix` (src/node/mod.rs 1988-2009). -/
def scanPrefixS (fuel : Nat) (st : σ) (a : SNode) (p : Bytes) : Res ε SIter :=
  (findS S st fuel (.owned a) p).bind fun
    | .found u => (Ref.toOwned u).bind fun a => .ok ⟨p, [(0, some (.owned [a]))]⟩
    | .pre u matching => (Ref.toOwned u).bind fun a => .ok ⟨p.take (p.length - matching), [(0, some (.owned [a]))]⟩
    | .notFound => .ok ⟨[], []⟩

/-- Pushing the children, if there are any to push (src/node/mod.rs 3042-3044). -/
def pushOptS (o : Option TIter) (st : List TIter) : List TIter :=
  match o with
  | some it => it :: st
  | none => st

/-- `ValueIter::next0` (src/node/mod.rs 3038-3053). -/
def valNext0S (st : σ) : Nat → List TIter → Res ε (Option BlobV × List TIter)
  | 0, _ => .deep
  | fuel + 1, s =>
    match s with
    | [] => .ok (none, [])
    | it :: rest =>
      match it.next with
      | some (node, it) =>
        (node.loadChildrenOwned S st).bind fun cs =>
        let s' := pushOptS cs (it :: rest)
        match node.val.valueOpt with
        | some v => .ok (some v, s')
        | none => valNext0S st fuel s'
      | none => valNext0S st fuel rest

/-- `try_values` (src/node/mod.rs 3551-3556), `ValueIter::new` (3031-3036). -/
def valuesS (a : SNode) : List TIter := [.owned [a]]

/-- `Iterator::next` for `ValueIter` (src/node/mod.rs 3056-3070). -/
def valNextS (st : σ) (fuel : Nat) (s : List TIter) : Res Empty (Option (Except ε BlobV) × List TIter) :=
  match valNext0S S st fuel s with
  | .ok (some x, s) => .ok (some (.ok x), s)
  | .ok (none, s) => .ok (none, s)
  | .err e => .ok (some (.error e), [])
  | .panic => .panic
  | .deep => .deep

/-- `try_group_by` (src/node/mod.rs 3568-3584): the initial state of the iterator is that of `try_iter`. -/
def groupByS (a : SNode) : SIter := iterS a

/-- `GroupBy::next0` (src/node/mod.rs 3159-3201); `descend` gets the path and the node and may fail. -/
def groupNext0S (descend : Bytes → Ref → Res ε Bool) (st : σ) : Nat → SIter → Res ε (Option SNode × SIter)
  | 0, _ => .deep
  | fuel + 1, s =>
    match s.stack with
    | [] => .ok (none, s)
    | (plen, some it) :: rest =>
      match it.next with
      | some (node, it) =>
        (loadPrefix S st node.pfx).bind fun p =>
        let path := pathAppend s.path p
        (descend path node).bind fun
          | true =>
            (node.loadChildrenOwned S st).bind fun cs =>
            let s' : SIter := ⟨path, (p.length, cs) :: (plen, some it) :: rest⟩
            match node.val.valueOpt with
            | some _ => (Ref.toOwned node).bind fun a => .ok (some (.ref (.data path) a.val []), s')
            | none => groupNext0S descend st fuel s'
          | false =>
            (Ref.toOwned node).bind fun a =>
            .ok (some (a.setPrefix path), ⟨pathPop path p.length, (plen, some it) :: rest⟩)
      | none => groupNext0S descend st fuel ⟨s.path, (plen, none) :: rest⟩
    | (plen, none) :: rest => groupNext0S descend st fuel ⟨pathPop s.path plen, rest⟩

/-- `Iterator::next` for `GroupBy` (src/node/mod.rs 3203-3220). -/
def groupNextS (descend : Bytes → Ref → Res ε Bool) (st : σ) (fuel : Nat) (s : SIter) :
    Res Empty (Option (Except ε SNode) × SIter) :=
  match groupNext0S S descend st fuel s with
  | .ok (some x, s) => .ok (some (.ok x), s)
  | .ok (none, s) => .ok (none, s)
  | .err e => .ok (some (.error e), ⟨s.path, []⟩)
  | .panic => .panic
  | .deep => .deep

end

end Radix
