import Verif.Stored.Read

/-
Model of the in-place operations on trees that may refer to a store (src/node/mod.rs 853-918, 1576-1668, 1743-1755,
2120-2222, 2397-2492, 2674-2964, 3512-3539). A `&mut TreeNode` argument becomes a result component: the node after the
call, also if the call failed.
-/

set_option linter.unusedVariables false

namespace Radix

/-- `set_value_owned`, `set_value_slice`, `take_value_opt` (src/node/mod.rs 999-1009, 1024-1041, 1082-1098): another value field. -/
def SNode.setVal (a : SNode) (v : BlobV) : SNode := .ofParts a.pfx v a.children

/-- `set_children_arc` (src/node/mod.rs 1051-1055). -/
def SNode.setArc (a : SNode) (l : List SNode) : SNode := .arc a.pfx a.val l

/-- `set_children_arc_opt(None)` (src/node/mod.rs 1057-1062): header `NONE`. -/
def SNode.noChildren (a : SNode) : SNode := .ref a.pfx a.val []

/-- `has_value` (src/node/mod.rs 1070-1072). -/
def SNode.hasValue (a : SNode) : Bool := a.val.valueOpt.isSome

/-- `is_leaf` (src/node/mod.rs 1100-1102). -/
def SNode.isLeaf (a : SNode) : Bool :=
  match a.children with
  | .inr [] => true
  | _ => false

/-- `is_empty` (src/node/mod.rs 983-985). -/
def SNode.isEmpty (a : SNode) : Bool := !a.hasValue && a.isLeaf

/-- `child_count` (src/node/mod.rs 1104-1116): 2 for children that are not loaded. -/
def SNode.childCount (a : SNode) : Nat :=
  match a.children with
  | .inl l => l.length
  | .inr [] => 0
  | .inr (_ :: _) => 2

/-- `is_id` of a blob (src/node/mod.rs 351-353, 500-504). -/
def BlobV.isId : BlobV → Bool
  | .data _ => false
  | .id _ => true

/-- The first `if` of `canonicalize` (src/node/mod.rs 896-912), without its assertions. The slices of the two prefixes
are concatenated as they are, also if they are ids. -/
def SNode.merge (a : SNode) : SNode :=
  match a.val.valueOpt, a.children with
  | none, .inl [c] => .ofParts (.data (a.pfx.slice ++ c.pfx.slice)) c.val c.children
  | _, _ => a

/-- The `debug_assert!`s of `canonicalize` hold (src/node/mod.rs 894, 900, 901). -/
def SNode.assertsHold (a : SNode) : Bool :=
  (match a.children with
    | .inr (_ :: _) => false
    | _ => true) &&
  match a.val.valueOpt, a.children with
  | none, .inl [c] => !a.pfx.isId && !c.pfx.isId
  | _, _ => true

/-- `canonicalize` (src/node/mod.rs 893-918); `dbg` says whether debug assertions are compiled in. -/
def canonicalizeS {ε : Type} (dbg : Bool) (a : SNode) : Res ε Unit × SNode :=
  if dbg && !a.assertsHold then (.panic, a)
  else
    let m := a.merge
    (.ok (), if !m.hasValue && m.childCount == 0 then .empty else m)

section
variable {σ τ ε : Type}

/-- The loop of `load_children_mut` (src/node/mod.rs 857-859). -/
def collectIter (it : TIter) : Res ε (List SNode) :=
  match h : it.next with
  | none => .ok []
  | some (r, it') => (Ref.toOwned r).bind fun a => (collectIter it').bind fun l => .ok (a :: l)
termination_by it.size
decreasing_by exact TIter.next_size h

/-- `load_children_mut` (src/node/mod.rs 853-865): the vector, and the node that now owns it. Sharing of the `Arc`
(`make_mut`) is treated in `Verif/Heap`. -/
def loadChildrenMutS (S : BlobStore σ ε) (st : σ) (a : SNode) : Res ε (List SNode) × SNode :=
  match a.children with
  | .inl l => (.ok l, a)
  | .inr i =>
    stBind ((loadIter S st i).bind fun
      | none => .ok []
      | some it => collectIter it, a) fun l a => (.ok l, a.setArc l)

/-- `TreeNode::clone_shortened` (src/node/mod.rs 867-872). -/
def SNode.cloneShortened (S : BlobStore σ ε) (st : σ) (a : SNode) (n : Nat) : Res ε SNode :=
  (loadPrefix S st a.pfx).bind fun p => .ok (a.setPrefix (p.drop n))

/-- `TreeNodeRef::clone_shortened` (src/node/mod.rs 1423-1428): `todo!()` for a borrowed node. -/
def Ref.cloneShortened (S : BlobStore σ ε) (st : σ) (r : Ref) (n : Nat) : Res ε SNode :=
  match r with
  | owned a => a.cloneShortened S st n
  | borrowed _ => .panic

/-- `split` (src/node/mod.rs 874-891). -/
def splitS (S : BlobStore σ ε) (st : σ) (n : Nat) (a : SNode) : Res ε Unit × SNode :=
  stBind (loadPrefix S st a.pfx, a) fun p a =>
  (.ok (), .arc (.data (p.take n)) .none [.ofParts (.data (p.drop n)) a.val a.children])

/-- `NodeConverter` (src/node/mod.rs 1576-1591). -/
structure SConv (ε : Type) where
  node : Ref → Res ε SNode
  shortened : Ref → Nat → Res ε SNode
  value : BlobV → Res ε BlobV

/-- `DowncastConverter` (src/node/mod.rs 1600-1621); `TreeNodeRef::downcast` (1349-1356) is `unreachable!()` for a
borrowed node. -/
def SConv.downcast (ε : Type) : SConv ε where
  node
    | .owned a => .ok a
    | .borrowed _ => .panic
  shortened b n := b.cloneShortened (detachedStore ε) () n
  value v := .ok v

/-- `IdentityConverter` (src/node/mod.rs 1628-1645). -/
def SConv.identity (S : BlobStore σ ε) (st : σ) : SConv ε where
  node b := b.toOwned
  shortened b n := b.cloneShortened S st n
  value v := .ok v

/-- `ValueRef::detached` (src/node/mod.rs 480-489): `todo!()` for an id. -/
def valueDetached : BlobV → Res ε BlobV
  | .data d => .ok (.data d)
  | .id _ => .panic

/-- `TreeNodeRef::detached` (src/node/mod.rs 1367-1372, 1214-1219), the result as a node that refers to no store. -/
def Ref.detached (S : BlobStore σ ε) (st : σ) (fuel : Nat) (r : Ref) : Res ε Node :=
  (Ref.toOwned r).bind fun a => detachedS S st fuel a

/-- `DetachConverter` (src/node/mod.rs 1652-1668). -/
def SConv.detach (S : BlobStore σ ε) (st : σ) (fuel : Nat) : SConv ε where
  node b := (b.detached S st fuel).bind fun n => .ok (embed n)
  shortened b k :=
    (b.cloneShortened S st k).bind fun a => (Ref.detached S st fuel (.owned a)).bind fun n => .ok (embed n)
  value v := valueDetached v

/-- What an in-place operation works with: the store of the target and of the other tree, whether debug assertions are
on, and what an `InPlaceVecBuilder` (crate `inplace-vec-builder`, whose source is not part of /repo) leaves in the vector
when it is dropped with the result `done` and the source `src` left; the theorems hold for every such behaviour. For src/node/mod.rs 2150-2960. -/
structure UEnv (σ τ ε : Type) where
  SA : BlobStore σ ε
  stA : σ
  SB : BlobStore τ ε
  stB : τ
  dbg : Bool
  abandon : List SNode → List SNode → List SNode

/-- The loop over `cmp` (src/node/mod.rs 1743-1755) that all in-place operations share (2196-2219, 2466-2487,
2741-2762, 2838-2859, 2940-2961). `done` and `src` are the result and the source of the `InPlaceVecBuilder`;
`consume(1, true)` moves the first source element to the result, `consume(1, false)` drops it, `push` adds to the result.
`keep` says what happens to elements without partner, `greater` what is pushed for an element of the other tree without
partner. -/
def loopS (rec : SNode → Ref → Res ε Unit × SNode) (keep : Bool) (greater : Ref → Res ε (Option SNode))
    (abandon : List SNode → List SNode → List SNode) (done src : List SNode) (it : TIter) :
    Res ε Unit × List SNode :=
  match src, h : it.next with
  | [], none => (.ok (), done)
  | a :: src, none => loopS rec keep greater abandon (if keep then done ++ [a] else done) src it
  | [], some (b, it') =>
    stBind (greater b, abandon done []) fun o _ => loopS rec keep greater abandon (done ++ o.toList) [] it'
  | a :: src, some (b, it') =>
    if Node.rank a.pfx.firstByte < Node.rank b.pfx.firstByte then
      loopS rec keep greater abandon (if keep then done ++ [a] else done) src it
    else if Node.rank b.pfx.firstByte < Node.rank a.pfx.firstByte then
      stBind (greater b, abandon done (a :: src)) fun o _ =>
      loopS rec keep greater abandon (done ++ o.toList) (a :: src) it'
    else
      let (r, a') := rec a b
      stBind (r, abandon done (a' :: src)) fun _ _ =>
      loopS rec keep greater abandon (if a'.isEmpty then done else done ++ [a']) src it'
termination_by src.length + it.size
decreasing_by
  all_goals try have := TIter.next_size h
  all_goals simp only [List.length_cons, List.length_nil]; omega

/-- The loop of `outer_combine_children_with` for an empty target (src/node/mod.rs 2191-2193). -/
def pushAll (c : SConv ε) (done : List SNode) (it : TIter) : Res ε Unit × List SNode :=
  match h : it.next with
  | none => (.ok (), done)
  | some (b, it') => stBind (c.node b, done) fun a done => pushAll c (done ++ [a]) it'
termination_by it.size
decreasing_by exact TIter.next_size h

/-- The children vector of `a` after an operation on it. For src/node/mod.rs 850-900. -/
def onChildren (a : SNode) (x : Res ε Unit × List SNode) : Res ε Unit × SNode := (x.1, a.setArc x.2)

/-- `outer_combine_children_with` (src/node/mod.rs 2174-2222). -/
def outerChildrenS (e : UEnv σ τ ε) (c : SConv ε) (rec : SNode → Ref → Res ε Unit × SNode) (ac : List SNode)
    (bc : Option TIter) : Res ε Unit × List SNode :=
  match bc with
  | some bc =>
    if ac.isEmpty then pushAll c ac bc
    else loopS rec true (fun b => (c.node b).bind fun a => .ok (some a)) e.abandon [] ac bc
  | none => (.ok (), ac)

/-- `inner_combine_children_with`, `retain_prefix_children_with` (src/node/mod.rs 2447-2492, 2821-2864): without partner
nothing is kept. -/
def innerChildrenS (e : UEnv σ τ ε) (rec : SNode → Ref → Res ε Unit × SNode) (ac : List SNode)
    (bc : Option TIter) : Res ε Unit × List SNode :=
  match bc with
  | some bc =>
    if ac.isEmpty then (.ok (), ac)
    else loopS rec false (fun _ => .ok none) e.abandon [] ac bc
  | none => (.ok (), [])

/-- `left_combine_children_with`, `remove_prefix_children_with` (src/node/mod.rs 2722-2765, 2923-2964): without partner
everything of the target is kept. -/
def leftChildrenS (e : UEnv σ τ ε) (rec : SNode → Ref → Res ε Unit × SNode) (ac : List SNode)
    (bc : Option TIter) : Res ε Unit × List SNode :=
  match bc with
  | some bc =>
    if ac.isEmpty then (.ok (), ac)
    else loopS rec true (fun _ => .ok none) e.abandon [] ac bc
  | none => (.ok (), ac)

/-- Loading the children of the target and of `b`, and combining them with `k`: the lines
`let ac = a.load_children_mut(&ab)?; let bc = b.load_children(&bb)?; ...` (src/node/mod.rs 2154-2156, ...). -/
def childrenBoth (e : UEnv σ τ ε) (k : List SNode → Option TIter → Res ε Unit × List SNode) (a : SNode) (b : Ref) :
    Res ε Unit × SNode :=
  stBind (loadChildrenMutS e.SA e.stA a) fun ac a =>
  stBind (b.loadChildren e.SB e.stB, a) fun bc a =>
  onChildren a (k ac bc)

/-- Loading the children of the target and combining them with the shortened `b`: the lines
`let ac = a.load_children_mut(&ab)?; let bc = [b.clone_shortened(&bb, n)?]; ...` (src/node/mod.rs 2160-2162, ...). -/
def childrenShort (e : UEnv σ τ ε) (k : List SNode → Option TIter → Res ε Unit × List SNode) (n : Nat) (a : SNode)
    (b : Ref) : Res ε Unit × SNode :=
  stBind (loadChildrenMutS e.SA e.stA a) fun ac a =>
  stBind (b.cloneShortened e.SB e.stB n, a) fun b' a =>
  onChildren a (k ac (iterFromSlice [b']))

/-- `slice::sort_by_key(|x| x.first_prefix_byte())` (src/node/mod.rs 2168) by insertion, as in `sortByFirst`. -/
def insertByFirstS (x : SNode) : List SNode → List SNode
  | [] => [x]
  | y :: ys =>
    if Node.rank x.pfx.firstByte ≤ Node.rank y.pfx.firstByte then x :: y :: ys else y :: insertByFirstS x ys

/-- See `insertByFirstS`. For src/node/mod.rs 2168. -/
def sortByFirstS : List SNode → List SNode
  | [] => []
  | x :: xs => insertByFirstS x (sortByFirstS xs)

/-- `outer_combine_with` (src/node/mod.rs 2121-2172). If `f` fails, the value of `a` is gone. -/
def outerCombineWithS (e : UEnv σ τ ε) (c : SConv ε) (f : BlobV → BlobV → Res ε BlobV) :
    Nat → SNode → Ref → Res ε Unit × SNode
  | 0, a, _ => (.deep, a)
  | fuel + 1, a, b =>
    stBind (loadPrefix e.SA e.stA a.pfx, a) fun ap a =>
    stBind (loadPrefix e.SB e.stB b.pfx, a) fun bp a =>
    let n := commonPrefix ap bp
    stBind (
      if n = bp.length then
        stBind (if n ≠ ap.length then splitS e.SA e.stA n a else (.ok (), a)) fun _ a =>
        stBind (
          match b.val.valueOpt with
          | some bv =>
            match a.val.valueOpt with
            | some av => stBind (f av bv, a.setVal .none) fun v a => (.ok (), a.setVal v)
            | none => stBind (c.value bv, a) fun v a => (.ok (), a.setVal v)
          | none => (.ok (), a)) fun _ a =>
        childrenBoth e (outerChildrenS e c (outerCombineWithS e c f fuel)) a b
      else if n = ap.length then
        childrenShort e (outerChildrenS e c (outerCombineWithS e c f fuel)) n a b
      else
        stBind (splitS e.SA e.stA n a) fun _ a =>
        stBind (loadChildrenMutS e.SA e.stA a) fun ac a =>
        stBind (c.shortened b n, a) fun x a =>
        (.ok (), a.setArc (sortByFirstS (ac ++ [x])))) fun _ a =>
    canonicalizeS e.dbg a

/-- `inner_combine_with` (src/node/mod.rs 2398-2445). -/
def innerCombineWithS (e : UEnv σ τ ε) (f : BlobV → BlobV → Res ε BlobV) : Nat → SNode → Ref → Res ε Unit × SNode
  | 0, a, _ => (.deep, a)
  | fuel + 1, a, b =>
    stBind (loadPrefix e.SA e.stA a.pfx, a) fun ap a =>
    stBind (loadPrefix e.SB e.stB b.pfx, a) fun bp a =>
    let n := commonPrefix ap bp
    stBind (
      if n = ap.length ∧ n = bp.length then
        stBind (
          match a.val.valueOpt, b.val.valueOpt with
          | some av, some bv => stBind (f av bv, a.setVal .none) fun v a => (.ok (), a.setVal v)
          | _, _ => (.ok (), a.setVal .none)) fun _ a =>
        childrenBoth e (innerChildrenS e (innerCombineWithS e f fuel)) a b
      else if n = ap.length then
        childrenShort e (innerChildrenS e (innerCombineWithS e f fuel)) n (a.setVal .none) b
      else if n = bp.length then
        stBind (splitS e.SA e.stA n a) fun _ a =>
        childrenBoth e (innerChildrenS e (innerCombineWithS e f fuel)) a b
      else (.ok (), (a.setVal .none).noChildren)) fun _ a =>
    canonicalizeS e.dbg a

/-- `left_combine_with` (src/node/mod.rs 2675-2720). -/
def leftCombineWithS (e : UEnv σ τ ε) (f : BlobV → BlobV → Res ε BlobV) : Nat → SNode → Ref → Res ε Unit × SNode
  | 0, a, _ => (.deep, a)
  | fuel + 1, a, b =>
    stBind (loadPrefix e.SA e.stA a.pfx, a) fun ap a =>
    stBind (loadPrefix e.SB e.stB b.pfx, a) fun bp a =>
    let n := commonPrefix ap bp
    stBind (
      if n = ap.length ∧ n = bp.length then
        stBind (
          match b.val.valueOpt with
          | some bv =>
            match a.val.valueOpt with
            | some av => stBind (f av bv, a.setVal .none) fun v a => (.ok (), a.setVal v)
            | none => (.ok (), a)
          | none => (.ok (), a)) fun _ a =>
        childrenBoth e (leftChildrenS e (leftCombineWithS e f fuel)) a b
      else if n = ap.length then
        childrenShort e (leftChildrenS e (leftCombineWithS e f fuel)) n a b
      else if n = bp.length then
        stBind (splitS e.SA e.stA n a) fun _ a =>
        childrenBoth e (leftChildrenS e (leftCombineWithS e f fuel)) a b
      else (.ok (), a)) fun _ a =>
    canonicalizeS e.dbg a

/-- `retain_prefix_with` (src/node/mod.rs 2771-2819). -/
def retainPrefixWithS (e : UEnv σ τ ε) (f : BlobV → Res ε Bool) : Nat → SNode → Ref → Res ε Unit × SNode
  | 0, a, _ => (.deep, a)
  | fuel + 1, a, b =>
    stBind (loadPrefix e.SA e.stA a.pfx, a) fun ap a =>
    stBind (loadPrefix e.SB e.stB b.pfx, a) fun bp a =>
    let n := commonPrefix ap bp
    stBind (
      if n = ap.length ∧ n = bp.length then
        stBind (
          match b.val.valueOpt with
          | none => (.ok true, a)
          | some bv => stBind (f bv, a) fun x a => (.ok !x, a)) fun go a =>
        if go then childrenBoth e (innerChildrenS e (retainPrefixWithS e f fuel)) (a.setVal .none) b
        else (.ok (), a)
      else if n = bp.length then
        match b.val.valueOpt with
        | none =>
          stBind (splitS e.SA e.stA n a) fun _ a =>
          childrenBoth e (innerChildrenS e (retainPrefixWithS e f fuel)) a b
        | some bv =>
          stBind (f bv, a) fun x a => (.ok (), if !x then (a.setVal .none).noChildren else a)
      else if n = ap.length then
        childrenShort e (innerChildrenS e (retainPrefixWithS e f fuel)) n (a.setVal .none) b
      else (.ok (), (a.setVal .none).noChildren)) fun _ a =>
    canonicalizeS e.dbg a

/-- `remove_prefix_with` (src/node/mod.rs 2870-2921). -/
def removePrefixWithS (e : UEnv σ τ ε) (f : BlobV → Res ε Bool) : Nat → SNode → Ref → Res ε Unit × SNode
  | 0, a, _ => (.deep, a)
  | fuel + 1, a, b =>
    stBind (loadPrefix e.SA e.stA a.pfx, a) fun ap a =>
    stBind (loadPrefix e.SB e.stB b.pfx, a) fun bp a =>
    let n := commonPrefix ap bp
    stBind (
      if n = bp.length then
        stBind (
          match b.val.valueOpt with
          | none => (.ok false, a)
          | some bv => (f bv, a)) fun nuke a =>
        if nuke then (.ok (), (a.setVal .none).noChildren)
        else
          stBind (if n ≠ ap.length then splitS e.SA e.stA n a else (.ok (), a)) fun _ a =>
          childrenBoth e (leftChildrenS e (removePrefixWithS e f fuel)) a b
      else if n = ap.length then
        childrenShort e (leftChildrenS e (removePrefixWithS e f fuel)) n a b
      else (.ok (), a)) fun _ a =>
    canonicalizeS e.dbg a

end

/-- The environment of an operation on a tree attached to the store `S`, with a detached tree as the other operand
(`RadixTree::single`, src/node/mod.rs 3514, 3524, 3535). -/
def singleEnv {σ ε : Type} (S : BlobStore σ ε) (st : σ) (dbg : Bool)
    (abandon : List SNode → List SNode → List SNode) : UEnv σ Unit ε :=
  ⟨S, st, detachedStore ε, (), dbg, abandon⟩

/-- `RadixTree::single` (src/node/mod.rs 3349-3351) as a reference. -/
def singleRef (k v : Bytes) : Ref := .owned (.ref (.data k) (.data v) [])

/-- `try_insert` (src/node/mod.rs 3518-3531): `value.set(Some(replacement))`. -/
def insertS {σ ε : Type} (S : BlobStore σ ε) (st : σ) (dbg : Bool) (ab : List SNode → List SNode → List SNode)
    (fuel : Nat) (a : SNode) (k v : Bytes) : Res ε Unit × SNode :=
  outerCombineWithS (singleEnv S st dbg ab) (.downcast ε) (fun _ r => .ok r) fuel a (singleRef k v)

/-- `try_remove` (src/node/mod.rs 3534-3539): `l.set(None)`. -/
def removeS {σ ε : Type} (S : BlobStore σ ε) (st : σ) (dbg : Bool) (ab : List SNode → List SNode → List SNode)
    (fuel : Nat) (a : SNode) (k : Bytes) : Res ε Unit × SNode :=
  leftCombineWithS (singleEnv S st dbg ab) (fun _ _ => .ok .none) fuel a (singleRef k [])

/-- `try_remove_prefix` (src/node/mod.rs 3513-3515). -/
def removePrefixS {σ ε : Type} (S : BlobStore σ ε) (st : σ) (dbg : Bool) (ab : List SNode → List SNode → List SNode)
    (fuel : Nat) (a : SNode) (p : Bytes) : Res ε Unit × SNode :=
  removePrefixWithS (singleEnv S st dbg ab) (fun _ => .ok true) fuel a (singleRef p [])

end Radix
