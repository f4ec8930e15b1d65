import Verif.Heap.Model
import Verif.Tree.Iter

/-
Model of the API of detached trees in memory: lookups, updates, combinations and iterators (src/node/mod.rs 800-851, 1449-1567, 1988-2964, 2966-3220,
3228-3584), on top of `Verif/Heap/Model.lean`.

Simplified: first bytes of children are read before a search, not during it (they do not change in between).
-/

set_option linter.unusedVariables false

namespace Radix.Heap

/-! ### User functions -/

/-- What a user function does with two values: keep the first, delete it, or replace it by the second (`Value::set`, src/node/mod.rs 616-632). A `Value` cannot be
made from bytes through the API, only cloned from another one. -/
inductive Choice where
  | keep
  | clear
  | take
  deriving DecidableEq

/-- The value after the choice. For src/node/mod.rs 3406-3819. -/
def Choice.apply : Choice → Bytes → Bytes → Option Bytes
  | .keep, a, _ => some a
  | .clear, _, _ => Option.none
  | .take, _, b => some b

/-- An in-place user function (src/node/mod.rs 2134): it reads both values, chooses and calls `Value::set` (616-632), which drops the old data first. -/
def setFn (ch : Bytes → Bytes → Choice) : ValFn := fun a b => do
  let x ← a.slice
  let y ← b.slice
  match ch x y with
  | .keep => return a
  | .clear => do a.drop; return Fld.none
  | .take => do a.drop; b.clone

/-- A user function that gives a new value (src/node/mod.rs 2022): `None`, or `to_owned` (470-479, 532-538) of one of its arguments. -/
def newFn (ch : Bytes → Bytes → Choice) (a b : Fld) : H Fld := do
  let x ← a.slice
  let y ← b.slice
  match ch x y with
  | .keep => a.clone
  | .clear => return Fld.none
  | .take => b.clone

/-! ### Lookup -/

/-- The binary search of `OwnedTreeNodeIter::find` (src/node/mod.rs 1816-1818), as `Radix.bsearch`. -/
def bsearchR (l : List (Nat × Raw)) (target : Nat) (left right : Nat) : Option Nat :=
  if h : left < right then
    let mid := left + (right - left) / 2
    match l[mid]? with
    | none => none
    | some x =>
      if x.1 < target then bsearchR l target (mid + 1) right
      else if target < x.1 then bsearchR l target left mid
      else some mid
  else none
termination_by right - left
decreasing_by all_goals omega

/-- `OwnedTreeNodeIter::find` (src/node/mod.rs 1811-1821). -/
def findChild (l : List Raw) (c : UInt8) : H (Option Raw) :=
  if l.length = 256 then return l[c.toNat]?
  else do
    let r ← ranked l
    return (bsearchR r (Node.rank (some c)) 0 l.length).bind fun i => l[i]?

/-- `FindResult` (src/node/mod.rs 1431-1443); the node is borrowed. -/
inductive Found where
  | found (x : Raw)
  | pre (x : Raw) (matching : Nat)
  | notFound

/-- `find` (src/node/mod.rs 1449-1485). The first argument bounds the depth. -/
def find : Nat → Raw → Bytes → H Found
  | 0, _, _ => fail
  | n + 1, x, p => do
    let tp ← x.pfx.slice
    let m := commonPrefix tp p
    let rt := tp.length - m
    let rp := p.length - m
    if rp = 0 ∧ rt = 0 then return .found x
    else if rp = 0 then return .pre x m
    else if rt = 0 then
      match p.drop m with
      | [] => return .notFound
      | c :: rest => do
        match ← x.loadChildren with
        | none => return .notFound
        | some cs => do
          match ← findChild cs c with
          | none => return .notFound
          | some child => find n child (c :: rest)
    else return .notFound

/-- `value_opt().map(|x| x.to_owned())` (src/node/mod.rs 1074-1080, 532-538); no value is `Fld.none` here. -/
def ownedValue (f : Fld) : H (Option Fld) :=
  if f.isSome then do return some (← f.clone) else return none

/-- `TreeNode::get` (src/node/mod.rs 828-837). -/
def get (n : Nat) (x : Raw) (k : Bytes) : H (Option Fld) := do
  match ← find n x k with
  | .found u => ownedValue u.val
  | _ => return none

/-- `TreeNode::contains_key` (src/node/mod.rs 805-814). -/
def containsKey (n : Nat) (x : Raw) (k : Bytes) : H Bool := do
  match ← find n x k with
  | .found u => return u.val.isSome
  | _ => return false

/-- `TreeNode::has_prefix` (src/node/mod.rs 817-826). -/
def hasPrefix (n : Nat) (x : Raw) (p : Bytes) : H Bool := do
  match ← find n x p with
  | .notFound => return false
  | _ => return true

/-- `filter_prefix` (src/node/mod.rs 1488-1513). -/
def filterPrefix (n : Nat) (x : Raw) (p subst : Bytes) : H Raw := do
  match ← find n x p with
  | .found u => do
    let r ← u.clone
    r.setPrefix subst
  | .pre u m => do
    let tp ← u.pfx.slice
    let r ← u.clone
    r.setPrefix (subst ++ tp.drop m)
  | .notFound => return Raw.empty

/-- `first_value` (src/node/mod.rs 1516-1527). -/
def firstValue : Nat → Raw → H (Option Fld)
  | 0, _ => fail
  | n + 1, x => do
    match ← ownedValue x.val with
    | some v => return some v
    | none => do
      match ← x.loadChildren with
      | some (c :: _) => firstValue n c
      | _ => return none

/-- `last_value` (src/node/mod.rs 1530-1538). -/
def lastValue : Nat → Raw → H (Option Fld)
  | 0, _ => fail
  | n + 1, x => do
    match ← x.loadChildren with
    | some cs =>
      match cs.getLast? with
      | some c => lastValue n c
      | none => return none
    | none => ownedValue x.val

/-- `first_entry` (src/node/mod.rs 1541-1554); the value of `first_value` (1516-1527). -/
def firstEntry : Nat → Bytes → Raw → H (Option (Bytes × Fld))
  | 0, _, _ => fail
  | n + 1, pre, x => do
    let p ← x.pfx.slice
    match ← ownedValue x.val with
    | some v => return some (pre ++ p, v)
    | none => do
      match ← x.loadChildren with
      | some (c :: _) => firstEntry n (pre ++ p) c
      | _ => return none

/-- `last_entry` (src/node/mod.rs 1557-1567); the value of `last_value` (1530-1538). -/
def lastEntry : Nat → Bytes → Raw → H (Option (Bytes × Fld))
  | 0, _, _ => fail
  | n + 1, pre, x => do
    let p ← x.pfx.slice
    match ← x.loadChildren with
    | some cs =>
      match cs.getLast? with
      | some c => lastEntry n (pre ++ p) c
      | none => return none
    | none => do
      match ← ownedValue x.val with
      | some v => return some (pre ++ p, v)
      | none => return none

/-! ### Updates through the API -/

/-- `RadixTree::insert` (src/node/mod.rs 3245-3247, 3518-3531): the temporary tree is dropped at the end. -/
def insert (n : Nat) (x : Raw) (k v : Bytes) : H Raw := do
  let t ← Raw.single k v
  let r ← outerCombineWith n .downcast (setFn fun _ _ => .take) x t
  dropAll [t]
  return r

/-- `RadixTree::remove` (src/node/mod.rs 3249-3251, 3534-3539). -/
def remove (n : Nat) (x : Raw) (k : Bytes) : H Raw := do
  let t ← Raw.single k []
  let r ← leftCombineWith n (setFn fun _ _ => .clear) x t
  dropAll [t]
  return r

/-- `RadixTree::remove_prefix` (src/node/mod.rs 3241-3243, 3513-3515). -/
def removePrefix (n : Nat) (x : Raw) (p : Bytes) : H Raw := do
  let t ← Raw.single p []
  let r ← removePrefixWith n (fun _ => true) x t
  dropAll [t]
  return r

/-! ### Combinations that make a new tree -/

/-- `set_value(value)` (src/node/mod.rs 1024-1041) on a node without a value: the bytes are copied and the `Value` is dropped. -/
def setValue (v : Fld) : H Fld := do
  let r ← v.copyValue
  v.drop
  return r

/-- `if res.is_empty() { None } else { Some(Arc::new(res)) }` with `set_children_arc_opt` (src/node/mod.rs 2108-2112, 1057-1062). -/
def Raw.setKidsOpt (x : Raw) : Option (List Raw) → H Raw
  | none => return x
  | some cs => x.setKids cs

/-- No vector for no children (src/node/mod.rs 2108-2112). -/
def arcOpt (l : List Raw) : Option (List Raw) := if l.isEmpty then none else some l

/-- The end of the three functions (src/node/mod.rs 2072-2077). -/
def build (p : Bytes) (v : Fld) (cs : Option (List Raw)) : H Raw := do
  let pf ← ofData p
  let vf ← setValue v
  let r ← Raw.setKidsOpt ⟨pf, vf, Fld.none⟩ cs
  r.canonicalize

/-- `value_opt().map(|x| x.detached(..))` (src/node/mod.rs 481-490): `to_owned`. -/
def cloneValue (f : Fld) : H Fld := if f.isSome then f.clone else return Fld.none

/-- The value in `outer_combine` (src/node/mod.rs 2031-2039). -/
def outerValueNew (ch : Bytes → Bytes → Choice) (av bv : Fld) : H Fld :=
  if bv.isSome then (if av.isSome then newFn ch av bv else cloneValue bv) else cloneValue av

/-- The value in `inner_combine` (src/node/mod.rs 2246-2254). -/
def innerValueNew (ch : Bytes → Bytes → Choice) (av bv : Fld) : H Fld :=
  if bv.isSome then (if av.isSome then newFn ch av bv else return Fld.none) else return Fld.none

/-- The value in `left_combine` (src/node/mod.rs 2516-2524). -/
def leftValueNew (ch : Bytes → Bytes → Choice) (av bv : Fld) : H Fld :=
  if av.isSome then (if bv.isSome then newFn ch av bv else cloneValue av) else return Fld.none

/-- The loop over pairs of borrowed nodes (src/node/mod.rs 2094-2107, 2302-2309, 2568-2582). -/
def newLoop (both : Raw → Raw → H Raw) (onlyA onlyB : Raw → H (List Raw)) : List (Option Raw × Option Raw) → H (List Raw)
  | [] => return []
  | (some a, some b) :: ps => do
    let r ← both a b
    let k ← keepNonEmpty r
    let rest ← newLoop both onlyA onlyB ps
    return k ++ rest
  | (some a, none) :: ps => do
    let k ← onlyA a
    let rest ← newLoop both onlyA onlyB ps
    return k ++ rest
  | (none, some b) :: ps => do
    let k ← onlyB b
    let rest ← newLoop both onlyA onlyB ps
    return k ++ rest
  | (none, none) :: ps => fail

/-- `a.detached(&ab)?`, pushed if it is not empty (src/node/mod.rs 2099-2106). -/
def detachNonEmpty (n : Nat) (x : Raw) : H (List Raw) := do
  let y ← x.detached n
  keepNonEmpty y

/-- `res.push(a.detached(&ab)?)` (src/node/mod.rs 2578-2580). -/
def detachOne (n : Nat) (x : Raw) : H (List Raw) := do return [← x.detached n]

mutual
/-- `outer_combine` (src/node/mod.rs 2012-2078). The first argument bounds the depth. -/
def outerCombine (n : Nat) (ch : Bytes → Bytes → Choice) (a b : Raw) : H Raw :=
  match n with
  | 0 => fail
  | n + 1 => do
    let ap ← a.pfx.slice
    let bp ← b.pfx.slice
    let m := commonPrefix ap bp
    if m = ap.length ∧ m = bp.length then do
      let v ← outerValueNew ch a.val b.val
      let ac ← a.loadChildren
      let bc ← b.loadChildren
      let cs ← outerCombineChildren n ch ac bc
      build (ap.take m) v cs
    else if m = ap.length then do
      let v ← cloneValue a.val
      let ac ← a.loadChildren
      let t ← b.cloneShortened m
      let cs ← outerCombineChildren n ch ac (some [t])
      dropAll [t]
      build (ap.take m) v cs
    else if m = bp.length then do
      let v ← cloneValue b.val
      let t ← a.cloneShortened m
      let bc ← b.loadChildren
      let cs ← outerCombineChildren n ch (some [t]) bc
      dropAll [t]
      build (ap.take m) v cs
    else do
      let s ← convShortened (n + 1) .detach a m
      let t ← convShortened (n + 1) .detach b m
      let rs ← s.rank
      let rt ← t.rank
      build (ap.take m) Fld.none (some (if rt < rs then [t, s] else [s, t]))
termination_by 2 * n

/-- `outer_combine_children` (src/node/mod.rs 2080-2118). -/
def outerCombineChildren (n : Nat) (ch : Bytes → Bytes → Choice) (ac bc : Option (List Raw)) : H (Option (List Raw)) :=
  match ac, bc with
  | some ac, some bc => do
    let ps ← join ac bc
    let cs ← newLoop (outerCombine n ch) (detachNonEmpty (n + 1)) (detachNonEmpty (n + 1)) ps
    return arcOpt cs
  | none, some bc => do return some (← mapH (Raw.detached (n + 1)) bc)
  | some ac, none => do return some (← mapH (Raw.detached (n + 1)) ac)
  | none, none => return none
termination_by 2 * n + 1
end

mutual
/-- `inner_combine` (src/node/mod.rs 2225-2284). -/
def innerCombine (n : Nat) (ch : Bytes → Bytes → Choice) (a b : Raw) : H Raw :=
  match n with
  | 0 => fail
  | n + 1 => do
    let ap ← a.pfx.slice
    let bp ← b.pfx.slice
    let m := commonPrefix ap bp
    if m = ap.length ∧ m = bp.length then do
      let v ← innerValueNew ch a.val b.val
      let ac ← a.loadChildren
      let bc ← b.loadChildren
      let cs ← innerCombineChildren n ch ac bc
      build (ap.take m) v cs
    else if m = ap.length then do
      let ac ← a.loadChildren
      let t ← b.cloneShortened m
      let cs ← innerCombineChildren n ch ac (some [t])
      dropAll [t]
      build (ap.take m) Fld.none cs
    else if m = bp.length then do
      let t ← a.cloneShortened m
      let bc ← b.loadChildren
      let cs ← innerCombineChildren n ch (some [t]) bc
      dropAll [t]
      build (ap.take m) Fld.none cs
    else build (ap.take m) Fld.none none
termination_by 2 * n

/-- `inner_combine_children` (src/node/mod.rs 2286-2319). -/
def innerCombineChildren (n : Nat) (ch : Bytes → Bytes → Choice) (ac bc : Option (List Raw)) : H (Option (List Raw)) :=
  match ac, bc with
  | some ac, some bc => do
    let ps ← join ac bc
    let cs ← newLoop (innerCombine n ch) skipIt skipIt ps
    return arcOpt cs
  | _, _ => return none
termination_by 2 * n + 1
end

mutual
/-- `left_combine` (src/node/mod.rs 2495-2550). -/
def leftCombine (n : Nat) (ch : Bytes → Bytes → Choice) (a b : Raw) : H Raw :=
  match n with
  | 0 => fail
  | n + 1 => do
    let ap ← a.pfx.slice
    let bp ← b.pfx.slice
    let m := commonPrefix ap bp
    if m = ap.length ∧ m = bp.length then do
      let v ← leftValueNew ch a.val b.val
      let ac ← a.loadChildren
      let bc ← b.loadChildren
      let cs ← leftCombineChildren n ch ac bc
      build (ap.take m) v cs
    else if m = ap.length then do
      let v ← cloneValue a.val
      let ac ← a.loadChildren
      let t ← b.cloneShortened m
      let cs ← leftCombineChildren n ch ac (some [t])
      dropAll [t]
      build (ap.take m) v cs
    else if m = bp.length then do
      let t ← a.cloneShortened m
      let bc ← b.loadChildren
      let cs ← leftCombineChildren n ch (some [t]) bc
      dropAll [t]
      build (ap.take m) Fld.none cs
    else a.detached (n + 1)
termination_by 2 * n

/-- `left_combine_children` (src/node/mod.rs 2552-2592). -/
def leftCombineChildren (n : Nat) (ch : Bytes → Bytes → Choice) (ac bc : Option (List Raw)) : H (Option (List Raw)) :=
  match ac, bc with
  | some ac, some bc => do
    let ps ← join ac bc
    let cs ← newLoop (leftCombine n ch) (detachOne (n + 1)) skipIt ps
    return arcOpt cs
  | some ac, none => do return some (← mapH (Raw.detached (n + 1)) ac)
  | none, _ => return none
termination_by 2 * n + 1
end

/-! ### Predicates -/

/-- The value test in both predicates (src/node/mod.rs 2340-2344, 2612-2620): `f` for two values, `onlyA` for a first value alone. -/
def testValues (f : Bytes → Bytes → Bool) (onlyA : Bool) (av bv : Fld) : H Bool :=
  if av.isSome then
    if bv.isSome then do
      let x ← av.slice
      let y ← bv.slice
      return f x y
    else return onlyA
  else return false

/-- `while let Some(x) = iter.next() { if f(x)? { return Ok(true) } }` (src/node/mod.rs 2352-2356). -/
def anyH (f : Raw → H Bool) : List Raw → H Bool
  | [] => return false
  | x :: xs => do
    if ← f x then return true else anyH f xs

/-- The loop over pairs of the predicates (src/node/mod.rs 2386-2392, 2656-2667). -/
def anyPairs (f : Raw → Raw → H Bool) (onlyA : Bool) : List (Option Raw × Option Raw) → H Bool
  | [] => return false
  | (some a, some b) :: ps => do
    if ← f a b then return true else anyPairs f onlyA ps
  | (some _, none) :: ps => if onlyA then return true else anyPairs f onlyA ps
  | (none, _) :: ps => anyPairs f onlyA ps

mutual
/-- `inner_combine_pred` (src/node/mod.rs 2322-2369). The shortened clone is dropped when the function returns. -/
def innerCombinePred (n : Nat) (f : Bytes → Bytes → Bool) (a b : Raw) : H Bool :=
  match n with
  | 0 => fail
  | n + 1 => do
    let ap ← a.pfx.slice
    let bp ← b.pfx.slice
    let m := commonPrefix ap bp
    if m = ap.length ∧ m = bp.length then do
      if ← testValues f false a.val b.val then return true
      else do
        let ac ← a.loadChildren
        let bc ← b.loadChildren
        innerCombineChildrenPred n f ac bc
    else if m = ap.length then do
      let t ← b.cloneShortened m
      let ac ← a.loadChildren
      let r ← anyH (fun x => innerCombinePred n f x t) (ac.getD [])
      dropAll [t]
      return r
    else if m = bp.length then do
      let t ← a.cloneShortened m
      let bc ← b.loadChildren
      let r ← anyH (fun x => innerCombinePred n f t x) (bc.getD [])
      dropAll [t]
      return r
    else return false
termination_by 2 * n

/-- `inner_combine_children_pred` (src/node/mod.rs 2371-2395). -/
def innerCombineChildrenPred (n : Nat) (f : Bytes → Bytes → Bool) (ac bc : Option (List Raw)) : H Bool :=
  match ac, bc with
  | some ac, some bc => do
    let ps ← join ac bc
    anyPairs (innerCombinePred n f) false ps
  | _, _ => return false
termination_by 2 * n + 1
end

mutual
/-- `left_combine_pred` (src/node/mod.rs 2595-2638). -/
def leftCombinePred (n : Nat) (f : Bytes → Bytes → Bool) (a b : Raw) : H Bool :=
  match n with
  | 0 => fail
  | n + 1 => do
    let ap ← a.pfx.slice
    let bp ← b.pfx.slice
    let m := commonPrefix ap bp
    if m = ap.length ∧ m = bp.length then do
      if ← testValues f true a.val b.val then return true
      else do
        let ac ← a.loadChildren
        let bc ← b.loadChildren
        leftCombineChildrenPred n f ac bc
    else if m = ap.length then do
      if a.val.isSome then return true
      else do
        let ac ← a.loadChildren
        let t ← b.cloneShortened m
        let r ← leftCombineChildrenPred n f ac (some [t])
        dropAll [t]
        return r
    else if m = bp.length then do
      let t ← a.cloneShortened m
      let bc ← b.loadChildren
      let r ← leftCombineChildrenPred n f (some [t]) bc
      dropAll [t]
      return r
    else return true
termination_by 2 * n

/-- `left_combine_children_pred` (src/node/mod.rs 2640-2672). -/
def leftCombineChildrenPred (n : Nat) (f : Bytes → Bytes → Bool) (ac bc : Option (List Raw)) : H Bool :=
  match ac, bc with
  | some ac, some bc => do
    let ps ← join ac bc
    anyPairs (leftCombinePred n f) true ps
  | some _, none => return true
  | none, _ => return false
termination_by 2 * n + 1
end

/-! ### Keys of iterators -/

/-- `Arc::make_mut` (Rust std) and a change of the bytes: in place with a single reference, otherwise on a copy. For src/node/mod.rs 2981, 2986. -/
def changeKey (g : Bytes → Bytes) (a : Nat) : H Nat := do
  match ← takeBlob a with
  | some d => alloc (.blob 1 (g d))
  | none => do
    let d ← readBlob a
    let b ← alloc (.blob 1 (g d))
    decBlob a
    return b

/-- `IterKey::append` (src/node/mod.rs 2977-2983). -/
def keyAppend (a : Nat) (d : Bytes) : H Nat := changeKey (fun x => x ++ d) a

/-- `IterKey::pop` (src/node/mod.rs 2985-2988). -/
def keyPop (a : Nat) (n : Nat) : H Nat := changeKey (fun x => x.take (x.length - n)) a

/-! ### Iterators -/

/-- `OwnedTreeNodeIter` (src/node/mod.rs 1761): the `Arc` it keeps and the position. -/
structure KidsIter where
  owner : Nat
  pos : Nat
  deriving DecidableEq

/-- Dropping an `Arc<Vec<TreeNode>>` (Rust std) with the nodes in it, if it was the last reference. For src/node/mod.rs 2960-3060. -/
def dropArc (a : Nat) : H Unit := do
  let cs ← decKids a
  dropAll cs

/-- `OwnedTreeNodeIter::new_owned` (src/node/mod.rs 1764-1767): clones its argument, which is dropped at the end. -/
def fromArc (a : Nat) : H KidsIter := do
  incKids a
  dropArc a
  return ⟨a, 0⟩

/-- `load_children_owned` (src/node/mod.rs 846-851). -/
def Raw.loadChildrenOwned (x : Raw) : H (Option KidsIter) :=
  if x.ch.hdr.isId then (if x.ch.hdr.len = 0 then return none else fail)
  else if x.ch.hdr.len > ptrSize then
    match x.ch.w with
    | .kids a => do
      incKids a
      return some (← fromArc a)
    | _ => fail
  else fail

/-- `OwnedTreeNodeIter::next` (src/node/mod.rs 1827-1829): the node is borrowed from the vector. -/
def KidsIter.next (i : KidsIter) : H (Option Raw) := do
  let ns ← readKids i.owner
  return ns[i.pos]?

/-- `KeyValueIter` and `GroupBy` (src/node/mod.rs 3076-3080, 3142-3147), top of the stack first. -/
structure KV where
  path : Nat
  stack : List (Nat × Option KidsIter)
  deriving DecidableEq

/-- `KeyValueIter::next0` (src/node/mod.rs 3099-3123). The first argument bounds the number of steps. -/
def KV.next : Nat → KV → H (Option (Nat × Fld) × KV)
  | 0, _ => fail
  | n + 1, s =>
    match s.stack with
    | [] => return (none, s)
    | (plen, some it) :: st => do
      match ← it.next with
      | some node => do
        let value ← ownedValue node.val
        let p ← node.pfx.slice
        let ch ← node.loadChildrenOwned
        let path ← keyAppend s.path p
        let s' : KV := ⟨path, (p.length, ch) :: (plen, some ⟨it.owner, it.pos + 1⟩) :: st⟩
        match value with
        | some v => do
          incBlob path
          return (some (path, v), s')
        | none => KV.next n s'
      | none => do
        dropArc it.owner
        KV.next n ⟨s.path, (plen, none) :: st⟩
    | (plen, none) :: st => do
      let path ← keyPop s.path plen
      KV.next n ⟨path, st⟩

/-- A `KeyValueIter` over one node (src/node/mod.rs 3091-3097) with the path `p`; the node is owned by the iterator. -/
def KV.new (x : Raw) (p : Bytes) : H KV := do
  let a ← alloc (.kids 1 [x])
  let it ← fromArc a
  let k ← alloc (.blob 1 p)
  return ⟨k, [(0, some it)]⟩

/-- `TreeNode::is_leaf` (src/node/mod.rs 1100-1102), `RadixTree::is_leaf` (3442-3444). -/
def Raw.isLeaf (x : Raw) : Bool := x.ch.hdr == Hdr.none

/-- `RadixTree::try_iter` (src/node/mod.rs 3542-3548). -/
def iter (x : Raw) : H KV := do
  let y ← x.clone
  KV.new y []

/-- `scan_prefix` (src/node/mod.rs 1988-2009). -/
def scanPrefix (n : Nat) (x : Raw) (p : Bytes) : H KV := do
  match ← find n x p with
  | .found u => do
    let y ← u.clone
    KV.new y p
  | .pre u m => do
    let y ← u.clone
    KV.new y (p.take (p.length - m))
  | .notFound => do
    let k ← alloc (.blob 1 [])
    return ⟨k, []⟩

/-- Dropping what is on the stack of an iterator. For src/node/mod.rs 3000-3220. -/
def dropStack : List (Nat × Option KidsIter) → H Unit
  | [] => return ()
  | (_, some it) :: st => do
    dropArc it.owner
    dropStack st
  | (_, none) :: st => dropStack st

/-- Dropping a `KeyValueIter` (src/node/mod.rs 3076-3080). -/
def KV.drop (s : KV) : H Unit := do
  decBlob s.path
  dropStack s.stack

/-- `GroupBy::next0` (src/node/mod.rs 3159-3201). `descend` sees the path; the node it is also given has no public methods that read it. -/
def KV.nextGroup (descend : Bytes → Bool) : Nat → KV → H (Option Raw × KV)
  | 0, _ => fail
  | n + 1, s =>
    match s.stack with
    | [] => return (none, s)
    | (plen, some it) :: st => do
      match ← it.next with
      | some node => do
        let p ← node.pfx.slice
        let path ← keyAppend s.path p
        let pb ← readBlob path
        if descend pb then do
          let ch ← node.loadChildrenOwned
          let s' : KV := ⟨path, (p.length, ch) :: (plen, some ⟨it.owner, it.pos + 1⟩) :: st⟩
          if node.val.isSome then do
            let r ← node.clone
            let r ← r.setPrefix pb
            let r ← r.clearChildren
            return (some r, s')
          else KV.nextGroup descend n s'
        else do
          let r ← node.clone
          let r ← r.setPrefix pb
          let path ← keyPop path p.length
          return (some r, ⟨path, (plen, some ⟨it.owner, it.pos + 1⟩) :: st⟩)
      | none => do
        dropArc it.owner
        KV.nextGroup descend n ⟨s.path, (plen, none) :: st⟩
    | (plen, none) :: st => do
      let path ← keyPop s.path plen
      KV.nextGroup descend n ⟨path, st⟩

/-- `ValueIter::next0` (src/node/mod.rs 3038-3053); the state is the stack, top first. -/
def valNext : Nat → List KidsIter → H (Option Fld × List KidsIter)
  | 0, _ => fail
  | n + 1, s =>
    match s with
    | [] => return (none, [])
    | it :: st => do
      match ← it.next with
      | some node => do
        let value ← ownedValue node.val
        let ch ← node.loadChildrenOwned
        let s' := ch.toList ++ ⟨it.owner, it.pos + 1⟩ :: st
        match value with
        | some v => return (some v, s')
        | none => valNext n s'
      | none => do
        dropArc it.owner
        valNext n st

/-- `RadixTree::try_values` (src/node/mod.rs 3551-3556). -/
def values (x : Raw) : H (List KidsIter) := do
  let y ← x.clone
  let a ← alloc (.kids 1 [y])
  let it ← fromArc a
  return [it]

/-- Dropping a `ValueIter` (src/node/mod.rs 3018-3021). -/
def dropVals : List KidsIter → H Unit
  | [] => return ()
  | it :: st => do
    dropArc it.owner
    dropVals st

/-! ### Equality -/

mutual
/-- `PartialEq for TreeNode<Detached>` (src/node/mod.rs 669-675). The shortcut of `Arc` for equal pointers does not change the result. The first argument
bounds the depth. -/
def nodeEq (n : Nat) (a b : Raw) : H Bool :=
  match n with
  | 0 => fail
  | n + 1 => do
    let ap ← a.pfx.slice
    let bp ← b.pfx.slice
    if ap == bp then do
      let av ← a.val.slice
      let bv ← b.val.slice
      if av == bv then do
        match ← a.ch.children, ← b.ch.children with
        | some l, some k => nodeEqL n l k
        | none, none => return true
        | _, _ => return false
      else return false
    else return false
termination_by (n, 0)

/-- `Vec` equality (src/node/mod.rs 673). -/
def nodeEqL (n : Nat) (l k : List Raw) : H Bool :=
  match l, k with
  | [], [] => return true
  | x :: xs, y :: ys => do
    if ← nodeEq n x y then nodeEqL n xs ys else return false
  | _, _ => return false
termination_by (n, l.length + 1)
end

end Radix.Heap
