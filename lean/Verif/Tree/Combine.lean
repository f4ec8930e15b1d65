import Verif.Tree.Find

/-
Model of the combine functions on detached trees (src/node/mod.rs 1670-2964).

`f` is the user function. In the infallible API it cannot fail (the `Result` is always `Ok`), so the model
uses total functions: `Bytes → Bytes → Option Bytes` for the functions that compute a new value (`None` =
delete; an in-place `f` sets the `Value` it is given, possibly to none), `Bytes → Bytes → Bool` and
`Bytes → Bool` for predicates. Failing `f`s are treated in `Verif/Stored`.
-/

set_option linter.unusedVariables false

namespace Radix
open Node

/-- The sequence of pairs produced by `OuterJoin` (src/node/mod.rs 1670-1741), and equally the sequence of
`Less` / `Greater` / `Equal` steps of the in-place loops driven by `cmp` (src/node/mod.rs 1743-1755): a merge
of two child lists by first prefix byte. -/
def join : List Node → List Node → List (Option Node × Option Node)
  | [], [] => []
  | a :: as, [] => (some a, none) :: join as []
  | [], b :: bs => (none, some b) :: join [] bs
  | a :: as, b :: bs =>
    if rank a.firstByte < rank b.firstByte then (some a, none) :: join as (b :: bs)
    else if rank b.firstByte < rank a.firstByte then (none, some b) :: join (a :: as) bs
    else (some a, some b) :: join as bs
termination_by as bs => as.length + bs.length
decreasing_by all_goals simp only [List.length_cons]; omega

/-- `if r.is_empty() { drop } else { push r }` (src/node/mod.rs 2104-2106, 2209-2210, ...). -/
def keepNonEmpty (r : Node) : Option Node := if r.isEmpty then none else some r

/-- `if res.is_empty() { None } else { Some(Arc::new(res)) }` (src/node/mod.rs 2108-2112). -/
def arcOpt (l : List Node) : Option (List Node) := if l.isEmpty then none else some l

/-- Insertion step of `sort_by_key` (stable). For src/node/mod.rs 2168. -/
def insertByFirst (x : Node) : List Node → List Node
  | [] => [x]
  | y :: ys => if rank x.firstByte ≤ rank y.firstByte then x :: y :: ys else y :: insertByFirst x ys

/-- `slice::sort_by_key(|x| x.first_prefix_byte())` (src/node/mod.rs 2168): any stable sort gives this list. -/
def sortByFirst : List Node → List Node
  | [] => []
  | x :: xs => insertByFirst x (sortByFirst xs)

theorem join_mem_both {as bs : List Node} {a b} (h : (some a, some b) ∈ join as bs) : a ∈ as ∧ b ∈ bs := by
  fun_induction join as bs <;> grind

theorem join_nodes {as bs : List Node} {a b} (h : (some a, some b) ∈ join as bs) :
    a.nodes + b.nodes ≤ nodesL as + nodesL bs := by
  have h1 := nodes_le_of_mem (join_mem_both h).1
  have h2 := nodes_le_of_mem (join_mem_both h).2
  omega

theorem nodesO_loadChildren (a : Node) : nodesO a.loadChildren + 1 = a.nodes := by
  cases a with
  | mk p v c => rcases c with _ | _ | _ <;> simp [loadChildren, Node.ch, nodes, nodesO, nodesL] <;> omega

theorem nodesL_kids (a : Node) : nodesL a.kids + 1 = a.nodes := by
  cases a with
  | mk p v c => rcases c with _ | _ | _ <;> simp [kids, Node.ch, nodes, nodesO, nodesL] <;> omega

theorem nodes_cloneShortened (a : Node) (n : Nat) : (a.cloneShortened n).nodes = a.nodes := by
  cases a; simp [cloneShortened, nodes, Node.ch]

theorem nodesO_single (a : Node) : nodesO (some [a]) = a.nodes := by simp [nodesO, nodesL]

theorem split_kids (a : Node) (n : Nat) : (a.split n).kids = [a.cloneShortened n] := by
  cases a; simp [split, kids, Node.ch, cloneShortened]

theorem nodesL_split (a : Node) (n : Nat) : nodesL (a.split n).kids = a.nodes := by
  rw [split_kids]; simp [nodesL, nodes_cloneShortened]

mutual
/-- `outer_combine` (src/node/mod.rs 2012-2078). -/
def outerCombine (f : Bytes → Bytes → Option Bytes) (a b : Node) : Node :=
  let n := commonPrefix a.pfx b.pfx
  if n = a.pfx.length ∧ n = b.pfx.length then
    let value :=
      match b.val with
      | some bv =>
        match a.val with
        | some av => f av bv
        | none => some bv
      | none => a.val
    canonicalize (mk (a.pfx.take n) value (outerCombineChildren f a.loadChildren b.loadChildren))
  else if n = a.pfx.length then
    canonicalize (mk (a.pfx.take n) a.val
      (outerCombineChildren f a.loadChildren (some [b.cloneShortened n])))
  else if n = b.pfx.length then
    canonicalize (mk (a.pfx.take n) b.val
      (outerCombineChildren f (some [a.cloneShortened n]) b.loadChildren))
  else
    let a' := Conv.detach.nodeShortened a n
    let b' := Conv.detach.nodeShortened b n
    -- the code compares `ap[n] > bp[n]`, which are the first bytes of the shortened nodes
    let vec := if rank b'.firstByte < rank a'.firstByte then [b', a'] else [a', b']
    canonicalize (mk (a.pfx.take n) none (some vec))
termination_by 2 * (a.nodes + b.nodes)
decreasing_by
  all_goals
    have := nodesO_loadChildren a
    have := nodesO_loadChildren b
    try rw [nodesO_single, nodes_cloneShortened]
    omega

/-- `outer_combine_children` (src/node/mod.rs 2080-2118). -/
def outerCombineChildren (f : Bytes → Bytes → Option Bytes) (ac bc : Option (List Node)) :
    Option (List Node) :=
  match ac, bc with
  | some ac, some bc =>
    arcOpt <| (join ac bc).attach.filterMap fun
      | ⟨(some a, some b), _⟩ => keepNonEmpty (outerCombine f a b)
      | ⟨(some a, none), _⟩ => keepNonEmpty a.detached
      | ⟨(none, some b), _⟩ => keepNonEmpty b.detached
      | ⟨(none, none), _⟩ => none   -- `panic!()` in the code; `join` never produces this pair
  | none, some bc => detachedO (some bc)
  | some ac, none => detachedO (some ac)
  | none, none => none
termination_by 2 * (nodesO ac + nodesO bc) + 1
decreasing_by
  have := join_nodes (by assumption)
  simp only [nodesO]; omega
end

mutual
/-- `outer_combine_with` (src/node/mod.rs 2121-2172). -/
def outerCombineWith (c : Conv) (f : Bytes → Bytes → Option Bytes) (a b : Node) : Node :=
  let n := commonPrefix a.pfx b.pfx
  if n = b.pfx.length then
    if n = a.pfx.length then
      let value :=
        match b.val with
        | some bv =>
          match a.val with
          | some av => f av bv
          | none => some bv
        | none => a.val
      canonicalize (mk a.pfx value (some (outerCombineChildrenWith c f a.kids b.loadChildren)))
    else
      -- after `a.split(n)` the prefixes are identical and `a` has no value
      canonicalize (mk (a.split n).pfx b.val
        (some (outerCombineChildrenWith c f (a.split n).kids b.loadChildren)))
  else if n = a.pfx.length then
    canonicalize (mk a.pfx a.val
      (some (outerCombineChildrenWith c f a.kids (some [b.cloneShortened n]))))
  else
    canonicalize (mk (a.split n).pfx none
      (some (sortByFirst ((a.split n).kids ++ [c.nodeShortened b n]))))
termination_by 2 * (a.nodes + b.nodes)
decreasing_by
  all_goals
    have := nodesO_loadChildren b
    have := nodesL_kids a
    try rw [nodesL_split]
    try rw [nodesO_single, nodes_cloneShortened]
    omega

/-- `outer_combine_children_with` (src/node/mod.rs 2174-2222). `InPlaceVecBuilder`: `consume(1, true)` keeps
the next source element, `consume(1, false)` drops it, `push` adds a new element. -/
def outerCombineChildrenWith (c : Conv) (f : Bytes → Bytes → Option Bytes) (ac : List Node)
    (bc : Option (List Node)) : List Node :=
  match bc with
  | some bc =>
    if ac.isEmpty then bc.map c.node
    else (join ac bc).attach.filterMap fun
      | ⟨(some a, some b), _⟩ => keepNonEmpty (outerCombineWith c f a b)
      | ⟨(some a, none), _⟩ => some a
      | ⟨(none, some b), _⟩ => some (c.node b)
      | ⟨(none, none), _⟩ => none
  | none => ac
termination_by 2 * (nodesL ac + nodesO bc) + 1
decreasing_by
  have := join_nodes (by assumption)
  simp only [nodesO]; omega
end

mutual
/-- `inner_combine` (src/node/mod.rs 2225-2284). -/
def innerCombine (f : Bytes → Bytes → Option Bytes) (a b : Node) : Node :=
  let n := commonPrefix a.pfx b.pfx
  if n = a.pfx.length ∧ n = b.pfx.length then
    let value :=
      match b.val with
      | some bv =>
        match a.val with
        | some av => f av bv
        | none => none
      | none => none
    canonicalize (mk (a.pfx.take n) value (innerCombineChildren f a.loadChildren b.loadChildren))
  else if n = a.pfx.length then
    canonicalize (mk (a.pfx.take n) none
      (innerCombineChildren f a.loadChildren (some [b.cloneShortened n])))
  else if n = b.pfx.length then
    canonicalize (mk (a.pfx.take n) none
      (innerCombineChildren f (some [a.cloneShortened n]) b.loadChildren))
  else
    canonicalize (mk (a.pfx.take n) none none)
termination_by 2 * (a.nodes + b.nodes)
decreasing_by
  all_goals
    have := nodesO_loadChildren a
    have := nodesO_loadChildren b
    try rw [nodesO_single, nodes_cloneShortened]
    omega

/-- `inner_combine_children` (src/node/mod.rs 2286-2319). -/
def innerCombineChildren (f : Bytes → Bytes → Option Bytes) (ac bc : Option (List Node)) :
    Option (List Node) :=
  match ac, bc with
  | some ac, some bc =>
    arcOpt <| (join ac bc).attach.filterMap fun
      | ⟨(some a, some b), _⟩ => keepNonEmpty (innerCombine f a b)
      | _ => none
  | _, _ => none
termination_by 2 * (nodesO ac + nodesO bc) + 1
decreasing_by
  have := join_nodes (by assumption)
  simp only [nodesO]; omega
end

mutual
/-- `inner_combine_with` (src/node/mod.rs 2398-2445). The converter argument is not used by the code. -/
def innerCombineWith (f : Bytes → Bytes → Option Bytes) (a b : Node) : Node :=
  let n := commonPrefix a.pfx b.pfx
  if n = a.pfx.length ∧ n = b.pfx.length then
    -- `a.take_value_opt()` always takes the value of `a` out
    let value :=
      match a.val, b.val with
      | some av, some bv => f av bv
      | _, _ => none
    canonicalize (mk a.pfx value (some (innerCombineChildrenWith f a.kids b.loadChildren)))
  else if n = a.pfx.length then
    canonicalize (mk a.pfx none
      (some (innerCombineChildrenWith f a.kids (some [b.cloneShortened n]))))
  else if n = b.pfx.length then
    canonicalize (mk (a.split n).pfx none
      (some (innerCombineChildrenWith f (a.split n).kids b.loadChildren)))
  else
    canonicalize (mk a.pfx none none)
termination_by 2 * (a.nodes + b.nodes)
decreasing_by
  all_goals
    have := nodesO_loadChildren b
    have := nodesL_kids a
    try rw [nodesL_split]
    try rw [nodesO_single, nodes_cloneShortened]
    omega

/-- `inner_combine_children_with` (src/node/mod.rs 2447-2492). -/
def innerCombineChildrenWith (f : Bytes → Bytes → Option Bytes) (ac : List Node)
    (bc : Option (List Node)) : List Node :=
  match bc with
  | some bc =>
    if ac.isEmpty then ac
    else (join ac bc).attach.filterMap fun
      | ⟨(some a, some b), _⟩ => keepNonEmpty (innerCombineWith f a b)
      | _ => none
  | none => []
termination_by 2 * (nodesL ac + nodesO bc) + 1
decreasing_by
  have := join_nodes (by assumption)
  simp only [nodesO]; omega
end

mutual
/-- `left_combine` (src/node/mod.rs 2495-2550). -/
def leftCombine (f : Bytes → Bytes → Option Bytes) (a b : Node) : Node :=
  let n := commonPrefix a.pfx b.pfx
  if n = a.pfx.length ∧ n = b.pfx.length then
    let value :=
      match a.val with
      | some av =>
        match b.val with
        | some bv => f av bv
        | none => some av
      | none => none
    canonicalize (mk (a.pfx.take n) value (leftCombineChildren f a.loadChildren b.loadChildren))
  else if n = a.pfx.length then
    canonicalize (mk (a.pfx.take n) a.val
      (leftCombineChildren f a.loadChildren (some [b.cloneShortened n])))
  else if n = b.pfx.length then
    canonicalize (mk (a.pfx.take n) none
      (leftCombineChildren f (some [a.cloneShortened n]) b.loadChildren))
  else a.detached
termination_by 2 * (a.nodes + b.nodes)
decreasing_by
  all_goals
    have := nodesO_loadChildren a
    have := nodesO_loadChildren b
    try rw [nodesO_single, nodes_cloneShortened]
    omega

/-- `left_combine_children` (src/node/mod.rs 2552-2592). -/
def leftCombineChildren (f : Bytes → Bytes → Option Bytes) (ac bc : Option (List Node)) :
    Option (List Node) :=
  match ac, bc with
  | some ac, some bc =>
    arcOpt <| (join ac bc).attach.filterMap fun
      | ⟨(some a, some b), _⟩ => keepNonEmpty (leftCombine f a b)
      | ⟨(some a, none), _⟩ => some a.detached
      | _ => none
  | some ac, none => detachedO (some ac)
  | _, _ => none
termination_by 2 * (nodesO ac + nodesO bc) + 1
decreasing_by
  have := join_nodes (by assumption)
  simp only [nodesO]; omega
end

mutual
/-- `left_combine_with` (src/node/mod.rs 2675-2720). The converter argument is not used by the code. -/
def leftCombineWith (f : Bytes → Bytes → Option Bytes) (a b : Node) : Node :=
  let n := commonPrefix a.pfx b.pfx
  if n = a.pfx.length ∧ n = b.pfx.length then
    let value :=
      match b.val with
      | some bv =>
        match a.val with
        | some av => f av bv
        | none => none
      | none => a.val
    canonicalize (mk a.pfx value (some (leftCombineChildrenWith f a.kids b.loadChildren)))
  else if n = a.pfx.length then
    canonicalize (mk a.pfx a.val
      (some (leftCombineChildrenWith f a.kids (some [b.cloneShortened n]))))
  else if n = b.pfx.length then
    canonicalize (mk (a.split n).pfx none
      (some (leftCombineChildrenWith f (a.split n).kids b.loadChildren)))
  else canonicalize a
termination_by 2 * (a.nodes + b.nodes)
decreasing_by
  all_goals
    have := nodesO_loadChildren b
    have := nodesL_kids a
    try rw [nodesL_split]
    try rw [nodesO_single, nodes_cloneShortened]
    omega

/-- `left_combine_children_with` (src/node/mod.rs 2722-2765). -/
def leftCombineChildrenWith (f : Bytes → Bytes → Option Bytes) (ac : List Node)
    (bc : Option (List Node)) : List Node :=
  match bc with
  | some bc =>
    if ac.isEmpty then ac
    else (join ac bc).attach.filterMap fun
      | ⟨(some a, some b), _⟩ => keepNonEmpty (leftCombineWith f a b)
      | ⟨(some a, none), _⟩ => some a
      | _ => none
  | none => ac
termination_by 2 * (nodesL ac + nodesO bc) + 1
decreasing_by
  have := join_nodes (by assumption)
  simp only [nodesO]; omega
end

mutual
/-- `inner_combine_pred` (src/node/mod.rs 2322-2369). -/
def innerCombinePred (f : Bytes → Bytes → Bool) (a b : Node) : Bool :=
  let n := commonPrefix a.pfx b.pfx
  if n = a.pfx.length ∧ n = b.pfx.length then
    if (match a.val, b.val with | some av, some bv => f av bv | _, _ => false) then true
    else innerCombineChildrenPred f a.loadChildren b.loadChildren
  else if n = a.pfx.length then
    match h : a.loadChildren with
    | some ac => ac.attach.any fun x => innerCombinePred f x.1 (b.cloneShortened n)
    | none => false
  else if n = b.pfx.length then
    match h : b.loadChildren with
    | some bc => bc.attach.any fun x => innerCombinePred f (a.cloneShortened n) x.1
    | none => false
  else false
termination_by 2 * (a.nodes + b.nodes)
decreasing_by
  · have := nodesO_loadChildren a
    have := nodesO_loadChildren b
    omega
  · have h1 := nodes_le_of_mem x.2
    have h2 := nodesO_loadChildren a
    rw [h] at h2; simp only [nodesO] at h2
    rw [nodes_cloneShortened]; omega
  · have h1 := nodes_le_of_mem x.2
    have h2 := nodesO_loadChildren b
    rw [h] at h2; simp only [nodesO] at h2
    rw [nodes_cloneShortened]; omega

/-- `inner_combine_children_pred` (src/node/mod.rs 2371-2395). -/
def innerCombineChildrenPred (f : Bytes → Bytes → Bool) (ac bc : Option (List Node)) : Bool :=
  match ac, bc with
  | some ac, some bc =>
    (join ac bc).attach.any fun
      | ⟨(some a, some b), _⟩ => innerCombinePred f a b
      | _ => false
  | _, _ => false
termination_by 2 * (nodesO ac + nodesO bc) + 1
decreasing_by
  have := join_nodes (by assumption)
  simp only [nodesO]; omega
end

mutual
/-- `left_combine_pred` (src/node/mod.rs 2595-2638). -/
def leftCombinePred (f : Bytes → Bytes → Bool) (a b : Node) : Bool :=
  let n := commonPrefix a.pfx b.pfx
  if n = a.pfx.length ∧ n = b.pfx.length then
    if (match a.val, b.val with
        | some av, some bv => f av bv
        | some _, none => true
        | _, _ => false) then true
    else leftCombineChildrenPred f a.loadChildren b.loadChildren
  else if n = a.pfx.length then
    if a.val.isSome then true
    else leftCombineChildrenPred f a.loadChildren (some [b.cloneShortened n])
  else if n = b.pfx.length then
    leftCombineChildrenPred f (some [a.cloneShortened n]) b.loadChildren
  else true
termination_by 2 * (a.nodes + b.nodes)
decreasing_by
  all_goals
    have := nodesO_loadChildren a
    have := nodesO_loadChildren b
    try rw [nodesO_single, nodes_cloneShortened]
    omega

/-- `left_combine_children_pred` (src/node/mod.rs 2640-2672). -/
def leftCombineChildrenPred (f : Bytes → Bytes → Bool) (ac bc : Option (List Node)) : Bool :=
  match ac, bc with
  | some ac, some bc =>
    (join ac bc).attach.any fun
      | ⟨(some a, some b), _⟩ => leftCombinePred f a b
      | ⟨(some _, none), _⟩ => true
      | _ => false
  | some _, none => true
  | _, _ => false
termination_by 2 * (nodesO ac + nodesO bc) + 1
decreasing_by
  have := join_nodes (by assumption)
  simp only [nodesO]; omega
end

mutual
/-- `retain_prefix_with` (src/node/mod.rs 2771-2819). -/
def retainPrefixWith (f : Bytes → Bool) (a b : Node) : Node :=
  let n := commonPrefix a.pfx b.pfx
  if n = a.pfx.length ∧ n = b.pfx.length then
    if (match b.val with | none => true | some bv => !f bv) then
      canonicalize (mk a.pfx none (some (retainPrefixChildrenWith f a.kids b.loadChildren)))
    else canonicalize a
  else if n = b.pfx.length then
    match b.val with
    | none =>
      canonicalize (mk (a.split n).pfx (a.split n).val
        (some (retainPrefixChildrenWith f (a.split n).kids b.loadChildren)))
    | some bv =>
      if !f bv then canonicalize (mk a.pfx none none) else canonicalize a
  else if n = a.pfx.length then
    canonicalize (mk a.pfx none
      (some (retainPrefixChildrenWith f a.kids (some [b.cloneShortened n]))))
  else canonicalize (mk a.pfx none none)
termination_by 2 * (a.nodes + b.nodes)
decreasing_by
  all_goals
    have := nodesO_loadChildren b
    have := nodesL_kids a
    try rw [nodesL_split]
    try rw [nodesO_single, nodes_cloneShortened]
    omega

/-- `retain_prefix_children_with` (src/node/mod.rs 2821-2864). -/
def retainPrefixChildrenWith (f : Bytes → Bool) (ac : List Node) (bc : Option (List Node)) : List Node :=
  match bc with
  | some bc =>
    if ac.isEmpty then ac
    else (join ac bc).attach.filterMap fun
      | ⟨(some a, some b), _⟩ => keepNonEmpty (retainPrefixWith f a b)
      | _ => none
  | none => []
termination_by 2 * (nodesL ac + nodesO bc) + 1
decreasing_by
  have := join_nodes (by assumption)
  simp only [nodesO]; omega
end

mutual
/-- `remove_prefix_with` (src/node/mod.rs 2870-2921). -/
def removePrefixWith (f : Bytes → Bool) (a b : Node) : Node :=
  let n := commonPrefix a.pfx b.pfx
  if n = a.pfx.length ∧ n = b.pfx.length then
    if (match b.val with | some bv => f bv | none => false) then canonicalize (mk a.pfx none none)
    else canonicalize (mk a.pfx a.val (some (removePrefixChildrenWith f a.kids b.loadChildren)))
  else if n = b.pfx.length then
    if (match b.val with | some bv => f bv | none => false) then canonicalize (mk a.pfx none none)
    else canonicalize (mk (a.split n).pfx (a.split n).val
      (some (removePrefixChildrenWith f (a.split n).kids b.loadChildren)))
  else if n = a.pfx.length then
    canonicalize (mk a.pfx a.val
      (some (removePrefixChildrenWith f a.kids (some [b.cloneShortened n]))))
  else canonicalize a
termination_by 2 * (a.nodes + b.nodes)
decreasing_by
  all_goals
    have := nodesO_loadChildren b
    have := nodesL_kids a
    try rw [nodesL_split]
    try rw [nodesO_single, nodes_cloneShortened]
    omega

/-- `remove_prefix_children_with` (src/node/mod.rs 2923-2964). -/
def removePrefixChildrenWith (f : Bytes → Bool) (ac : List Node) (bc : Option (List Node)) : List Node :=
  match bc with
  | some bc =>
    if ac.isEmpty then ac
    else (join ac bc).attach.filterMap fun
      | ⟨(some a, some b), _⟩ => keepNonEmpty (removePrefixWith f a b)
      | ⟨(some a, none), _⟩ => some a
      | _ => none
  | none => ac
termination_by 2 * (nodesL ac + nodesO bc) + 1
decreasing_by
  have := join_nodes (by assumption)
  simp only [nodesO]; omega
end

/-- `RadixTree::insert` (src/node/mod.rs 3245-3247, 3518-3531). -/
def insert (t : Node) (k v : Bytes) : Node :=
  outerCombineWith .downcast (fun _ replacement => some replacement) t (single k v)

/-- `RadixTree::remove` (src/node/mod.rs 3249-3251, 3534-3539). -/
def remove (t : Node) (k : Bytes) : Node :=
  leftCombineWith (fun _ _ => none) t (single k [])

/-- `RadixTree::remove_prefix` (src/node/mod.rs 3241-3243, 3513-3515). -/
def removePrefix (t : Node) (p : Bytes) : Node :=
  removePrefixWith (fun _ => true) t (single p [])

/-- `FromIterator for RadixTree` (src/node/mod.rs 3469-3477). -/
def fromIter (l : List (Bytes × Bytes)) : Node :=
  l.foldl (fun t p => insert t p.1 p.2) Node.empty

mutual
/-- `PartialEq for TreeNode<Detached>` (src/node/mod.rs 669-675): prefix slices, value slices (the slice of
an absent value is empty) and `get_children()` as `Result<&Arc<Vec<_>>, &[u8]>`. -/
def nodeEq : Node → Node → Bool
  | mk p v c, mk p' v' c' => p == p' && v.getD [] == v'.getD [] && nodeEqO c c'
/-- The comparison of the two `Result`s in `PartialEq for TreeNode<Detached>` (src/node/mod.rs 673). -/
def nodeEqO : Option (List Node) → Option (List Node) → Bool
  | none, none => true
  | some l, some l' => nodeEqL l l'
  | _, _ => false
/-- `Vec` equality in `PartialEq for TreeNode<Detached>` (src/node/mod.rs 673). -/
def nodeEqL : List Node → List Node → Bool
  | [], [] => true
  | a :: as, b :: bs => nodeEq a b && nodeEqL as bs
  | _, _ => false
end

end Radix
