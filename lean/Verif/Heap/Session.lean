import Verif.Heap.Api

/-
Sessions: a program that holds any number of trees, values, keys and iterators at once and calls the API of detached trees on them in any order
(src/node/mod.rs 3222-3483). What it holds is a list of slots; a call that makes something new puts it into a new slot at the end.

There are two readings of a session. `step` and `run` execute it in memory (`Verif/Heap/Model.lean`, `Verif/Heap/Api.lean`), where things share
memory by reference counts. `pstep` and `prun` execute it on plain values: what is in a slot is a tree, a byte string or an iterator over trees, nothing
is shared, and `clone` is a copy.
-/

set_option linter.unusedVariables false

namespace Radix.Heap

/-- What a slot holds in memory: `RadixTree` (src/lib.rs 217, with the calls in src/node/mod.rs 3222-3483), `Value` (556-560), `IterKey` (2970), `KeyValueIter` (3076-3080), `GroupBy` (3142-3147),
`ValueIter` (3018-3021), or nothing (dropped, or `None`). `ref` is a tree that is lent (`Verif/Heap/Threads.lean`), `id` says which one: for the one it belongs to (`own`), or as `&RadixTree`
for somebody else. -/
inductive Slot where
  | tree (x : Raw)
  | ref (own : Bool) (id : Nat) (x : Raw)
  | value (f : Fld)
  | key (a : Nat)
  | kv (s : KV)
  | group (d : Bytes → Bool) (s : KV)
  | vals (s : List KidsIter)
  | free

/-- The same things (src/lib.rs 217, src/node/mod.rs 556-560, 2970, 3018-3021, 3076-3080, 3142-3147) as plain values. -/
inductive Obj where
  | tree (m : Node)
  | ref (own : Bool) (id : Nat) (m : Node)
  | value (d : Bytes)
  | key (d : Bytes)
  | kv (m : KVIter)
  | group (d : Bytes → Bool) (m : KVIter)
  | vals (m : List (List Node))
  | free

/-- What the program sees of a call. `bad`: the call does not make sense for what is in the slots (it does not compile in Rust). For src/node/mod.rs 3406-3819. -/
inductive Obs where
  | unit
  | bad
  | bool (b : Bool)
  | bytes (o : Option Bytes)
  | entry (o : Option (Bytes × Bytes))
  deriving DecidableEq

/-- Calls of the API of detached trees (src/node/mod.rs 3222-3483). `i` and `j` are slots. `next` is `Iterator::next` of whatever iterator is in
the slot. `read` gives the bytes of a value or key. -/
inductive Op where
  | empty
  | leaf (v : Bytes)
  | single (k v : Bytes)
  | clone (i : Nat)
  | drop (i : Nat)
  | insert (i : Nat) (k v : Bytes)
  | remove (i : Nat) (k : Bytes)
  | removePrefix (i : Nat) (p : Bytes)
  | outerCombineWith (i j : Nat) (f : Bytes → Bytes → Choice)
  | innerCombineWith (i j : Nat) (f : Bytes → Bytes → Choice)
  | leftCombineWith (i j : Nat) (f : Bytes → Bytes → Choice)
  | retainPrefixWith (i j : Nat) (f : Bytes → Bool)
  | removePrefixWith (i j : Nat) (f : Bytes → Bool)
  | outerCombine (i j : Nat) (f : Bytes → Bytes → Choice)
  | innerCombine (i j : Nat) (f : Bytes → Bytes → Choice)
  | leftCombine (i j : Nat) (f : Bytes → Bytes → Choice)
  | innerCombinePred (i j : Nat) (f : Bytes → Bytes → Bool)
  | leftCombinePred (i j : Nat) (f : Bytes → Bytes → Bool)
  | filterPrefix (i : Nat) (p s : Bytes)
  | detached (i : Nat)
  | get (i : Nat) (k : Bytes)
  | containsKey (i : Nat) (k : Bytes)
  | hasPrefix (i : Nat) (p : Bytes)
  | firstValue (i : Nat)
  | lastValue (i : Nat)
  | firstEntry (i : Nat) (p : Bytes)
  | lastEntry (i : Nat) (p : Bytes)
  | rootValue (i : Nat)
  | isEmpty (i : Nat)
  | isLeaf (i : Nat)
  | eq (i j : Nat)
  | iter (i : Nat)
  | scanPrefix (i : Nat) (p : Bytes)
  | values (i : Nat)
  | groupBy (i : Nat) (d : Bytes → Bool)
  | next (i : Nat)
  | read (i : Nat)

/-! ### In memory -/

/-- `TreeNode::leaf` (src/node/mod.rs 965-969). -/
def Raw.leaf (v : Bytes) : H Raw := do
  let f ← ofData v
  return ⟨Fld.empty, f, Fld.none⟩

/-- A call on the tree in slot `i` (`&self`, as in src/node/mod.rs 3228-3483); `bad` if there is no tree. -/
def onTree (l : List Slot) (i : Nat) (f : Raw → H (Obs × List Slot)) : H (Obs × List Slot) :=
  match l[i]? with
  | some (.tree x) => f x
  | some (.ref _ _ x) => f x
  | _ => return (.bad, l)

/-- A call on two trees (`&self`, `that: &RadixTree`), as in src/node/mod.rs 3228-3483. -/
def onTrees (l : List Slot) (i j : Nat) (f : Raw → Raw → H (Obs × List Slot)) : H (Obs × List Slot) :=
  onTree l i fun x => onTree l j fun y => f x y

/-- A call that needs the tree in slot `i` to be the program's own (`&mut self`, as in src/node/mod.rs 3228-3483); `bad` if it is lent. -/
def onOwn (l : List Slot) (i : Nat) (f : Raw → H (Obs × List Slot)) : H (Obs × List Slot) :=
  match l[i]? with
  | some (.tree x) => f x
  | _ => return (.bad, l)

/-- A call that changes the tree in slot `i` (`&mut self`), as in src/node/mod.rs 3228-3483. -/
def change (l : List Slot) (i : Nat) (f : Raw → H Raw) : H (Obs × List Slot) :=
  onOwn l i fun x => do
    let y ← f x
    return (.unit, l.set i (.tree y))

/-- A call that changes the tree in slot `i` and reads the one in slot `j` (`&mut self`, `that: &RadixTree`, as in
src/node/mod.rs 3353-3404): they cannot be the same. -/
def changeWith (l : List Slot) (i j : Nat) (f : Raw → Raw → H Raw) : H (Obs × List Slot) :=
  if i = j then return (.bad, l)
  else onOwn l i fun x => onTree l j fun y => do
    let z ← f x y
    return (.unit, l.set i (.tree z))

/-- A call that gives a new tree, as in src/node/mod.rs 3228-3483. -/
def newTree (l : List Slot) (f : H Raw) : H (Obs × List Slot) := do
  let z ← f
  return (.unit, l ++ [.tree z])

/-- A call that gives `Option<Value>` (src/node/mod.rs 3228-3483). The program reads it at once and keeps it. -/
def newValue (l : List Slot) (f : H (Option Fld)) : H (Obs × List Slot) := do
  match ← f with
  | some v => do
    let d ← v.slice
    return (.bytes (some d), l ++ [.value v])
  | none => return (.bytes none, l ++ [.free])

/-- A call that gives `Option<(Vec<u8>, Value)>` (src/node/mod.rs 3228-3483). -/
def newEntry (l : List Slot) (f : H (Option (Bytes × Fld))) : H (Obs × List Slot) := do
  match ← f with
  | some (k, v) => do
    let d ← v.slice
    return (.entry (some (k, d)), l ++ [.value v])
  | none => return (.entry none, l ++ [.free])

/-- Dropping what is in a slot: `Drop for TreeNode` (src/node/mod.rs 1119-1125), `Drop for Value` (643-647), `Arc` (Rust std). A reference has nothing to drop. -/
def Slot.drop : Slot → H Unit
  | .tree x => dropAll [x]
  | .ref _ _ _ => return ()
  | .value f => f.drop
  | .key a => decBlob a
  | .kv s => s.drop
  | .group _ s => s.drop
  | .vals s => dropVals s
  | .free => return ()

/-- `Clone` of a tree (src/node/mod.rs 1127-1139) or of a key (2969). The other things are not `Clone`. -/
def Slot.clone : Slot → H (Option Slot)
  | .tree x => do return some (.tree (← x.clone))
  | .ref _ _ x => do return some (.tree (← x.clone))
  | .key a => do incBlob a; return some (.key a)
  | _ => return none

/-- `Iterator::next` of what is in slot `i` (src/node/mod.rs 3059-3069, 3129-3139, 3209-3219). What it yields goes to two new slots at the end. -/
def nextOf (n : Nat) (l : List Slot) (i : Nat) : H (Obs × List Slot) :=
  match l[i]? with
  | some (.kv s) => do
    let (o, s') ← KV.next n s
    match o with
    | some (k, v) => do
      let kb ← readBlob k
      let vb ← v.slice
      return (.entry (some (kb, vb)), l.set i (.kv s') ++ [.key k] ++ [.value v])
    | none => return (.entry none, l.set i (.kv s'))
  | some (.group d s) => do
    let (o, s') ← KV.nextGroup d n s
    match o with
    | some x => return (.bool true, l.set i (.group d s') ++ [.tree x])
    | none => return (.bool false, l.set i (.group d s'))
  | some (.vals s) => do
    let (o, s') ← valNext n s
    match o with
    | some v => do
      let vb ← v.slice
      return (.bytes (some vb), l.set i (.vals s') ++ [.value v])
    | none => return (.bytes none, l.set i (.vals s'))
  | _ => return (.bad, l)

/-- The bytes of a value or key: `AsRef<[u8]> for Value` (src/node/mod.rs 572-576), `for IterKey` (2995-2999). -/
def readOf (l : List Slot) (i : Nat) : H (Obs × List Slot) :=
  match l[i]? with
  | some (.value f) => do
    let d ← f.slice
    return (.bytes (some d), l)
  | some (.key a) => do
    let d ← readBlob a
    return (.bytes (some d), l)
  | _ => return (.bad, l)

/-- One call in memory (src/node/mod.rs 3228-3483). The first argument bounds the number of steps of the call. The `_with` calls use the `DetachConverter`
(3350-3378). -/
def step (n : Nat) (l : List Slot) : Op → H (Obs × List Slot)
  | .empty => return (.unit, l ++ [.tree Raw.empty])
  | .leaf v => newTree l (Raw.leaf v)
  | .single k v => newTree l (Raw.single k v)
  | .clone i =>
    match l[i]? with
    | some s => do
      match ← s.clone with
      | some s' => return (.unit, l ++ [s'])
      | none => return (.bad, l)
    | none => return (.bad, l)
  | .drop i =>
    match l[i]? with
    | some (.ref true _ _) => return (.bad, l)
    | some s => do
      s.drop
      return (.unit, l.set i .free)
    | none => return (.bad, l)
  | .insert i k v => change l i fun x => insert n x k v
  | .remove i k => change l i fun x => remove n x k
  | .removePrefix i p => change l i fun x => removePrefix n x p
  | .outerCombineWith i j f => changeWith l i j (outerCombineWith n .detach (setFn f))
  | .innerCombineWith i j f => changeWith l i j (innerCombineWith n (setFn f))
  | .leftCombineWith i j f => changeWith l i j (leftCombineWith n (setFn f))
  | .retainPrefixWith i j f => changeWith l i j (retainPrefixWith n f)
  | .removePrefixWith i j f => changeWith l i j (removePrefixWith n f)
  | .outerCombine i j f => onTrees l i j fun x y => newTree l (outerCombine n f x y)
  | .innerCombine i j f => onTrees l i j fun x y => newTree l (innerCombine n f x y)
  | .leftCombine i j f => onTrees l i j fun x y => newTree l (leftCombine n f x y)
  | .innerCombinePred i j f => onTrees l i j fun x y => do return (.bool (← innerCombinePred n f x y), l)
  | .leftCombinePred i j f => onTrees l i j fun x y => do return (.bool (← leftCombinePred n f x y), l)
  | .filterPrefix i p s => onTree l i fun x => newTree l (filterPrefix n x p s)
  | .detached i => onTree l i fun x => newTree l (x.detached n)
  | .get i k => onTree l i fun x => newValue l (get n x k)
  | .containsKey i k => onTree l i fun x => do return (.bool (← containsKey n x k), l)
  | .hasPrefix i p => onTree l i fun x => do return (.bool (← hasPrefix n x p), l)
  | .firstValue i => onTree l i fun x => newValue l (firstValue n x)
  | .lastValue i => onTree l i fun x => newValue l (lastValue n x)
  | .firstEntry i p => onTree l i fun x => newEntry l (firstEntry n p x)
  | .lastEntry i p => onTree l i fun x => newEntry l (lastEntry n p x)
  | .rootValue i => onTree l i fun x => newValue l (ownedValue x.val)
  | .isEmpty i => onTree l i fun x => return (.bool x.isEmpty, l)
  | .isLeaf i => onTree l i fun x => return (.bool x.isLeaf, l)
  | .eq i j => onTrees l i j fun x y => do return (.bool (← nodeEq n x y), l)
  | .iter i => onTree l i fun x => do return (.unit, l ++ [.kv (← iter x)])
  | .scanPrefix i p => onTree l i fun x => do return (.unit, l ++ [.kv (← scanPrefix n x p)])
  | .values i => onTree l i fun x => do return (.unit, l ++ [.vals (← values x)])
  | .groupBy i d => onTree l i fun x => do return (.unit, l ++ [.group d (← iter x)])
  | .next i => nextOf n l i
  | .read i => readOf l i

/-- A session in memory: what the program sees, and what it holds at the end (src/node/mod.rs 3222-3483). -/
def run (n : Nat) : List Slot → List Op → H (List Obs × List Slot)
  | l, [] => return ([], l)
  | l, op :: ops => do
    let (o, l1) ← step n l op
    let (os, l2) ← run n l1 ops
    return (o :: os, l2)

/-! ### On plain values -/

/-- `onTree` on plain values, for the calls in src/node/mod.rs 3228-3483. -/
def ponTree (l : List Obj) (i : Nat) (f : Node → Obs × List Obj) : Obs × List Obj :=
  match l[i]? with
  | some (.tree x) => f x
  | some (.ref _ _ x) => f x
  | _ => (.bad, l)

/-- `onTrees` on plain values, for the calls in src/node/mod.rs 3228-3483. -/
def ponTrees (l : List Obj) (i j : Nat) (f : Node → Node → Obs × List Obj) : Obs × List Obj :=
  ponTree l i fun x => ponTree l j fun y => f x y

/-- `onOwn` on plain values, for the calls in src/node/mod.rs 3228-3483. -/
def ponOwn (l : List Obj) (i : Nat) (f : Node → Obs × List Obj) : Obs × List Obj :=
  match l[i]? with
  | some (.tree x) => f x
  | _ => (.bad, l)

/-- `change` on plain values, for the calls in src/node/mod.rs 3228-3483. -/
def pchange (l : List Obj) (i : Nat) (f : Node → Node) : Obs × List Obj :=
  ponOwn l i fun x => (.unit, l.set i (.tree (f x)))

/-- `changeWith` on plain values, for the calls in src/node/mod.rs 3228-3483. -/
def pchangeWith (l : List Obj) (i j : Nat) (f : Node → Node → Node) : Obs × List Obj :=
  if i = j then (.bad, l) else ponOwn l i fun x => ponTree l j fun y => (.unit, l.set i (.tree (f x y)))

/-- `newValue` on plain values, for the calls in src/node/mod.rs 3228-3483. -/
def pnewValue (l : List Obj) : Option Bytes → Obs × List Obj
  | some d => (.bytes (some d), l ++ [.value d])
  | none => (.bytes none, l ++ [.free])

/-- `newEntry` on plain values, for the calls in src/node/mod.rs 3228-3483. -/
def pnewEntry (l : List Obj) : Option (Bytes × Bytes) → Obs × List Obj
  | some (k, d) => (.entry (some (k, d)), l ++ [.value d])
  | none => (.entry none, l ++ [.free])

/-- `nextOf` on plain values, for the calls in src/node/mod.rs 3059-3069, 3129-3139 and 3209-3219. -/
def pnextOf (l : List Obj) (i : Nat) : Obs × List Obj :=
  match l[i]? with
  | some (.kv m) =>
    match m.next0.1 with
    | some (k, v) => (.entry (some (k, v)), l.set i (.kv m.next0.2) ++ [.key k] ++ [.value v])
    | none => (.entry none, l.set i (.kv m.next0.2))
  | some (.group d m) =>
    match (groupNext0 (fun p _ => d p) m).1 with
    | some x => (.bool true, l.set i (.group d (groupNext0 (fun p _ => d p) m).2) ++ [.tree x])
    | none => (.bool false, l.set i (.group d (groupNext0 (fun p _ => d p) m).2))
  | some (.vals m) =>
    match (valNext0 m).1 with
    | some v => (.bytes (some v), l.set i (.vals (valNext0 m).2) ++ [.value v])
    | none => (.bytes none, l.set i (.vals (valNext0 m).2))
  | _ => (.bad, l)

/-- `readOf` on plain values, for the calls in src/node/mod.rs 572-576 and 2995-2999. -/
def preadOf (l : List Obj) (i : Nat) : Obs × List Obj :=
  match l[i]? with
  | some (.value d) => (.bytes (some d), l)
  | some (.key d) => (.bytes (some d), l)
  | _ => (.bad, l)

/-- A user function (the argument `f` of the calls in src/node/mod.rs 3282-3404) on values as bytes. -/
def chFun (f : Bytes → Bytes → Choice) (a b : Bytes) : Option Bytes := (f a b).apply a b

/-- One call on plain values (src/node/mod.rs 3228-3483): the functions are those of `Verif/Tree`. -/
def pstep (l : List Obj) : Op → Obs × List Obj
  | .empty => (.unit, l ++ [.tree Node.empty])
  | .leaf v => (.unit, l ++ [.tree (Node.leaf v)])
  | .single k v => (.unit, l ++ [.tree (Node.single k v)])
  | .clone i =>
    match l[i]? with
    | some (.tree m) => (.unit, l ++ [.tree m])
    | some (.ref _ _ m) => (.unit, l ++ [.tree m])
    | some (.key d) => (.unit, l ++ [.key d])
    | _ => (.bad, l)
  | .drop i =>
    match l[i]? with
    | some (.ref true _ _) => (.bad, l)
    | some _ => (.unit, l.set i .free)
    | none => (.bad, l)
  | .insert i k v => pchange l i fun x => Radix.insert x k v
  | .remove i k => pchange l i fun x => Radix.remove x k
  | .removePrefix i p => pchange l i fun x => Radix.removePrefix x p
  | .outerCombineWith i j f => pchangeWith l i j (Radix.outerCombineWith .detach (chFun f))
  | .innerCombineWith i j f => pchangeWith l i j (Radix.innerCombineWith (chFun f))
  | .leftCombineWith i j f => pchangeWith l i j (Radix.leftCombineWith (chFun f))
  | .retainPrefixWith i j f => pchangeWith l i j (Radix.retainPrefixWith f)
  | .removePrefixWith i j f => pchangeWith l i j (Radix.removePrefixWith f)
  | .outerCombine i j f => ponTrees l i j fun x y => (.unit, l ++ [.tree (Radix.outerCombine (chFun f) x y)])
  | .innerCombine i j f => ponTrees l i j fun x y => (.unit, l ++ [.tree (Radix.innerCombine (chFun f) x y)])
  | .leftCombine i j f => ponTrees l i j fun x y => (.unit, l ++ [.tree (Radix.leftCombine (chFun f) x y)])
  | .innerCombinePred i j f => ponTrees l i j fun x y => (.bool (Radix.innerCombinePred f x y), l)
  | .leftCombinePred i j f => ponTrees l i j fun x y => (.bool (Radix.leftCombinePred f x y), l)
  | .filterPrefix i p s => ponTree l i fun x => (.unit, l ++ [.tree (Radix.filterPrefix x p s)])
  | .detached i => ponTree l i fun x => (.unit, l ++ [.tree x.detached])
  | .get i k => ponTree l i fun x => pnewValue l (Radix.get x k)
  | .containsKey i k => ponTree l i fun x => (.bool (Radix.containsKey x k), l)
  | .hasPrefix i p => ponTree l i fun x => (.bool (Radix.hasPrefix x p), l)
  | .firstValue i => ponTree l i fun x => pnewValue l (Radix.firstValue x)
  | .lastValue i => ponTree l i fun x => pnewValue l (Radix.lastValue x)
  | .firstEntry i p => ponTree l i fun x => pnewEntry l (Radix.firstEntry p x)
  | .lastEntry i p => ponTree l i fun x => pnewEntry l (Radix.lastEntry p x)
  | .rootValue i => ponTree l i fun x => pnewValue l x.val
  | .isEmpty i => ponTree l i fun x => (.bool x.isEmpty, l)
  | .isLeaf i => ponTree l i fun x => (.bool x.isLeaf, l)
  | .eq i j => ponTrees l i j fun x y => (.bool (Radix.nodeEq x y), l)
  | .iter i => ponTree l i fun x => (.unit, l ++ [.kv (kvIter x)])
  | .scanPrefix i p => ponTree l i fun x => (.unit, l ++ [.kv (scanPrefixIter x p)])
  | .values i => ponTree l i fun x => (.unit, l ++ [.vals [[x]]])
  | .groupBy i d => ponTree l i fun x => (.unit, l ++ [.group d (kvIter x)])
  | .next i => pnextOf l i
  | .read i => preadOf l i

/-- A session on plain values (src/node/mod.rs 3222-3483). -/
def prun : List Obj → List Op → List Obs × List Obj
  | l, [] => ([], l)
  | l, op :: ops => ((pstep l op).1 :: (prun (pstep l op).2 ops).1, (prun (pstep l op).2 ops).2)

end Radix.Heap
