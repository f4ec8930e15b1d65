import Verif.Heap.AttRead
import Verif.Stored.Combine

/-
Model of the combinations that make a new tree, and of the predicates, for trees in memory that may refer to a store (src/node/mod.rs 1670-1741, 1791-1803,
2012-2118, 2225-2395, 2495-2672, 3586-3718), on top of `Verif/Heap/AttRead.lean`. As in `Verif/Heap/Attached.lean` the bytes that a store gives are plain
values, and a panic has no result.
-/

set_option linter.unusedVariables false

namespace Radix.Heap.Att

section
variable {σ τ ε : Type}

/-! ### Pairs of children -/

/-- The loop over `OuterJoin` (src/node/mod.rs 1670-1741) that pushes what `step` gives for each pair, as in `outer_combine_children` (2093-2107). What it has
pushed is dropped if a step fails. -/
def joinMap (step : Option HRef → Option HRef → H (Except ε (List Raw))) (done : List Raw) (a b : HIter) : H (Except ε (List Raw)) :=
  match ha : a.next, hb : b.next with
  | none, none => return .ok done
  | some (x, a'), none => orDrop done (step (some x) none) fun l => joinMap step (done ++ l) a' b
  | none, some (y, b') => orDrop done (step none (some y)) fun l => joinMap step (done ++ l) a b'
  | some (x, a'), some (y, b') => do
    let rx ← x.rank
    let ry ← y.rank
    if rx < ry then orDrop done (step (some x) none) fun l => joinMap step (done ++ l) a' b
    else if ry < rx then orDrop done (step none (some y)) fun l => joinMap step (done ++ l) a b'
    else orDrop done (step (some x) (some y)) fun l => joinMap step (done ++ l) a' b'
termination_by a.size + b.size
decreasing_by
  all_goals
    try have := HIter.next_size ha
    try have := HIter.next_size hb
    omega

/-- The loop over `OuterJoin` that stops at the first pair with a hit, as in `inner_combine_children_pred` (src/node/mod.rs 2385-2392). -/
def joinAny (step : Option HRef → Option HRef → H (Except ε Bool)) (a b : HIter) : H (Except ε Bool) :=
  match ha : a.next, hb : b.next with
  | none, none => return .ok false
  | some (x, a'), none => andThen (step (some x) none) fun o => if o then return .ok true else joinAny step a' b
  | none, some (y, b') => andThen (step none (some y)) fun o => if o then return .ok true else joinAny step a b'
  | some (x, a'), some (y, b') => do
    let rx ← x.rank
    let ry ← y.rank
    if rx < ry then andThen (step (some x) none) fun o => if o then return .ok true else joinAny step a' b
    else if ry < rx then andThen (step none (some y)) fun o => if o then return .ok true else joinAny step a b'
    else andThen (step (some x) (some y)) fun o => if o then return .ok true else joinAny step a' b'
termination_by a.size + b.size
decreasing_by
  all_goals
    try have := HIter.next_size ha
    try have := HIter.next_size hb
    omega

/-- `while let Some(c) = it.next() { if f(c)? { return Ok(true) } }` (src/node/mod.rs 2350-2354, 2360-2364). -/
def anyIter (f : HRef → H (Except ε Bool)) (it : HIter) : H (Except ε Bool) :=
  match h : it.next with
  | none => return .ok false
  | some (c, it') => andThen (f c) fun o => if o then return .ok true else anyIter f it'
termination_by it.size
decreasing_by exact HIter.next_size h

/-- `TreeNodeIter::detached` (src/node/mod.rs 1952-1957, 1791-1803, 1867-1869): `todo!()` for nodes in a stored block. The vector of a detached tree is shared
only if the iterator owns it (1794-1795); iterators from `load_children` do not (839-844). -/
def HIter.detached (S : BlobStore σ ε) (st : σ) (n : Nat) : HIter → H (Except ε (Option (List Raw)))
  | owned [] => return .ok none
  | owned (a :: l) => andThen (detachedLoop (Att.detached S st n) [] (.owned (a :: l))) fun cs => return .ok (some cs)
  | borrowed [] => return .ok none
  | borrowed (_ :: _) => fail

/-! ### Values -/

/-- A user function that gives a new value (src/node/mod.rs 2023). -/
abbrev NewFn (ε : Type) := HVal → HVal → H (Except ε Fld)

/-- What a user function that gives a new value may do (src/node/mod.rs 2023): no value, a clone of one of its arguments, or a value of its own. -/
inductive NewChoice where
  | clear
  | left
  | right
  | own (d : Bytes)

/-- `value_opt().map(|x| x.detached(..)).transpose()?` (src/node/mod.rs 2036, 2046, 480-489): `todo!()` for an id. -/
def valueDetached : Option HVal → H (Except ε Fld)
  | none => return .ok Fld.none
  | some v => do
    let f ← convValue .detach v
    return .ok f

/-- What such a function gives (src/node/mod.rs 2023). A clone of a value that is an id cannot be a value of a detached tree (`ValueRef::detached`, 480-489, is
the only conversion, and panics). -/
def giveNew (c : Except ε NewChoice) (a b : HVal) : H (Except ε Fld) :=
  match c with
  | .error e => return .error e
  | .ok .clear => return .ok Fld.none
  | .ok .left => valueDetached (some a)
  | .ok .right => valueDetached (some b)
  | .ok (.own d) => do
    let f ← ofData d
    return .ok f

/-- A user function that looks at both values and chooses (src/node/mod.rs 2023). -/
def newFn (ch : BlobV → BlobV → Except ε NewChoice) : NewFn ε := fun a b => do
  let x ← a.blobV
  let y ← b.blobV
  giveNew (ch x y) a b

/-- The same function on plain values (src/node/mod.rs 2023). -/
def newFnS (ch : BlobV → BlobV → Except ε NewChoice) (a b : BlobV) : Res ε (Option Bytes) :=
  match ch a b with
  | .error e => .err e
  | .ok .clear => .ok none
  | .ok .left => valueOptDetached a
  | .ok .right => valueOptDetached b
  | .ok (.own d) => .ok (some d)

/-- A predicate on two values (src/node/mod.rs 2333). -/
def testFn (f : BlobV → BlobV → Except ε Bool) (a b : HVal) : H (Except ε Bool) := do
  let x ← a.blobV
  let y ← b.blobV
  return f x y

/-- The same predicate on plain values (src/node/mod.rs 2333). -/
def testFnS (f : BlobV → BlobV → Except ε Bool) (a b : BlobV) : Res ε Bool :=
  match f a b with
  | .ok x => .ok x
  | .error e => .err e

/-- The value in `outer_combine` (src/node/mod.rs 2031-2039). -/
def outerValueNew (f : NewFn ε) (av bv : Option HVal) : H (Except ε Fld) :=
  match bv with
  | some b =>
    match av with
    | some a => f a b
    | none => valueDetached (some b)
  | none => valueDetached av

/-- The value in `inner_combine` (src/node/mod.rs 2244-2252). -/
def innerValueNew (f : NewFn ε) (av bv : Option HVal) : H (Except ε Fld) :=
  match bv with
  | some b =>
    match av with
    | some a => f a b
    | none => return .ok Fld.none
  | none => return .ok Fld.none

/-- The value in `left_combine` (src/node/mod.rs 2516-2524). -/
def leftValueNew (f : NewFn ε) (av bv : Option HVal) : H (Except ε Fld) :=
  match av with
  | some a =>
    match bv with
    | some b => f a b
    | none => valueDetached (some a)
  | none => return .ok Fld.none

/-! ### Common parts -/

/-- A shortened node that is dropped at the end of the block, also if something fails there (src/node/mod.rs 2047-2049). -/
def withTemp {α : Type} (x : H (Except ε Raw)) (k : Raw → H (Except ε α)) : H (Except ε α) :=
  andThen x fun t => do
    let r ← k t
    dropAll [t]
    return r

/-- The end of the three functions (src/node/mod.rs 2072-2077) after the children (`?` in 2042): the value is dropped if they fail. -/
def finishNew (p : Bytes) (v : Fld) (cs : H (Except ε (Option (List Raw)))) : H (Except ε Raw) := do
  match ← cs with
  | .ok cs => do
    let y ← build p v cs
    return .ok y
  | .error e => do
    v.drop
    return .error e

/-- A result is pushed if it is not empty (src/node/mod.rs 2104-2106), and dropped otherwise. -/
def pushNew (x : H (Except ε Raw)) : H (Except ε (List Raw)) :=
  andThen x fun r => do
    let l ← keepNonEmpty r
    return .ok l

/-- A result is pushed (src/node/mod.rs 2580). -/
def pushOne (x : H (Except ε Raw)) : H (Except ε (List Raw)) := andThen x fun r => return .ok [r]

/-- `if res.is_empty() { None } else { Some(Arc::new(res)) }` (src/node/mod.rs 2108-2112). -/
def vecOpt (x : H (Except ε (List Raw))) : H (Except ε (Option (List Raw))) := andThen x fun l => return .ok (arcOpt l)

variable (S : BlobStore σ ε) (st : σ) (T : BlobStore τ ε) (st' : τ)

/-- Both lists of children are loaded (src/node/mod.rs 2040-2041). -/
def bothKids {α : Type} (a b : HRef) (k : Option HIter → Option HIter → H (Except ε α)) : H (Except ε α) :=
  andThen (a.loadChildren S st) fun ac => andThen (b.loadChildren T st') fun bc => k ac bc

/-- The second node is shortened (src/node/mod.rs 2047-2049). -/
def shortB {α : Type} (m : Nat) (a b : HRef) (k : Option HIter → Option HIter → H (Except ε α)) : H (Except ε α) :=
  andThen (a.loadChildren S st) fun ac => withTemp (b.cloneShortened T st' m) fun t => k ac (fromSlice [t])

/-- The first node is shortened (src/node/mod.rs 2054-2056). -/
def shortA {α : Type} (m : Nat) (a b : HRef) (k : Option HIter → Option HIter → H (Except ε α)) : H (Except ε α) :=
  withTemp (a.cloneShortened S st m) fun t => andThen (b.loadChildren T st') fun bc => k (fromSlice [t]) bc

/-! ### New trees -/

/-- `outer_combine_children` (src/node/mod.rs 2080-2118). -/
def outerCombineChildren (n : Nat) (rec : HRef → HRef → H (Except ε Raw)) (ac bc : Option HIter) : H (Except ε (Option (List Raw))) :=
  match ac, bc with
  | some ac, some bc =>
    vecOpt (joinMap (fun
      | some a, some b => pushNew (rec a b)
      | some a, none => pushNew (a.detached S st n)
      | none, some b => pushNew (b.detached T st' n)
      | none, none => fail) [] ac bc)
  | none, some bc => bc.detached T st' n
  | some ac, none => ac.detached S st n
  | none, none => return .ok none

/-- `outer_combine` (src/node/mod.rs 2012-2078). The first argument bounds the depth. -/
def outerCombine (f : NewFn ε) : Nat → HRef → HRef → H (Except ε Raw)
  | 0, _, _ => fail
  | n + 1, a, b =>
    andThen (a.loadPrefix S st) fun ap => andThen (b.loadPrefix T st') fun bp =>
    let m := commonPrefix ap bp
    if m = ap.length ∧ m = bp.length then
      andThen (outerValueNew f a.valueOpt b.valueOpt) fun v =>
      finishNew (ap.take m) v (bothKids S st T st' a b (outerCombineChildren S st T st' n (outerCombine f n)))
    else if m = ap.length then
      andThen (valueDetached a.valueOpt) fun v =>
      finishNew (ap.take m) v (shortB S st T st' m a b (outerCombineChildren S st T st' n (outerCombine f n)))
    else if m = bp.length then
      andThen (valueDetached b.valueOpt) fun v =>
      finishNew (ap.take m) v (shortA S st T st' m a b (outerCombineChildren S st T st' n (outerCombine f n)))
    else
      andThen (convShortened S st n .detach a m) fun x =>
      orDrop [x] (convShortened T st' n .detach b m) fun y => do
        let z ← build (ap.take m) Fld.none (some (if Node.rank (bp.drop m).head? < Node.rank (ap.drop m).head? then [y, x] else [x, y]))
        return .ok z

/-- `inner_combine_children` (src/node/mod.rs 2286-2319). -/
def innerCombineChildren (rec : HRef → HRef → H (Except ε Raw)) (ac bc : Option HIter) : H (Except ε (Option (List Raw))) :=
  match ac, bc with
  | some ac, some bc =>
    vecOpt (joinMap (fun
      | some a, some b => pushNew (rec a b)
      | _, _ => return .ok []) [] ac bc)
  | _, _ => return .ok none

/-- `inner_combine` (src/node/mod.rs 2225-2284). The first argument bounds the depth. -/
def innerCombine (f : NewFn ε) : Nat → HRef → HRef → H (Except ε Raw)
  | 0, _, _ => fail
  | n + 1, a, b =>
    andThen (a.loadPrefix S st) fun ap => andThen (b.loadPrefix T st') fun bp =>
    let m := commonPrefix ap bp
    if m = ap.length ∧ m = bp.length then
      andThen (innerValueNew f a.valueOpt b.valueOpt) fun v =>
      finishNew (ap.take m) v (bothKids S st T st' a b (innerCombineChildren (innerCombine f n)))
    else if m = ap.length then finishNew (ap.take m) Fld.none (shortB S st T st' m a b (innerCombineChildren (innerCombine f n)))
    else if m = bp.length then finishNew (ap.take m) Fld.none (shortA S st T st' m a b (innerCombineChildren (innerCombine f n)))
    else finishNew (ap.take m) Fld.none (return .ok none)

/-- `left_combine_children` (src/node/mod.rs 2552-2592). -/
def leftCombineChildren (n : Nat) (rec : HRef → HRef → H (Except ε Raw)) (ac bc : Option HIter) : H (Except ε (Option (List Raw))) :=
  match ac, bc with
  | some ac, some bc =>
    vecOpt (joinMap (fun
      | some a, some b => pushNew (rec a b)
      | some a, none => pushOne (a.detached S st n)
      | _, _ => return .ok []) [] ac bc)
  | some ac, none => ac.detached S st n
  | _, _ => return .ok none

/-- `left_combine` (src/node/mod.rs 2495-2550). The first argument bounds the depth. -/
def leftCombine (f : NewFn ε) : Nat → HRef → HRef → H (Except ε Raw)
  | 0, _, _ => fail
  | n + 1, a, b =>
    andThen (a.loadPrefix S st) fun ap => andThen (b.loadPrefix T st') fun bp =>
    let m := commonPrefix ap bp
    if m = ap.length ∧ m = bp.length then
      andThen (leftValueNew f a.valueOpt b.valueOpt) fun v =>
      finishNew (ap.take m) v (bothKids S st T st' a b (leftCombineChildren S st n (leftCombine f n)))
    else if m = ap.length then
      andThen (valueDetached a.valueOpt) fun v =>
      finishNew (ap.take m) v (shortB S st T st' m a b (leftCombineChildren S st n (leftCombine f n)))
    else if m = bp.length then finishNew (ap.take m) Fld.none (shortA S st T st' m a b (leftCombineChildren S st n (leftCombine f n)))
    else a.detached S st n

/-! ### Predicates -/

/-- `inner_combine_children_pred` (src/node/mod.rs 2371-2395). -/
def innerChildrenPred (rec : HRef → HRef → H (Except ε Bool)) (ac bc : Option HIter) : H (Except ε Bool) :=
  match ac, bc with
  | some ac, some bc =>
    joinAny (fun
      | some a, some b => rec a b
      | _, _ => return .ok false) ac bc
  | _, _ => return .ok false

/-- The test of the values in `inner_combine_pred` (src/node/mod.rs 2339-2343). -/
def innerTest (f : HVal → HVal → H (Except ε Bool)) (av bv : Option HVal) : H (Except ε Bool) :=
  match av, bv with
  | some a, some b => f a b
  | _, _ => return .ok false

/-- The test of the values in `left_combine_pred` (src/node/mod.rs 2612-2620). -/
def leftTest (f : HVal → HVal → H (Except ε Bool)) (av bv : Option HVal) : H (Except ε Bool) :=
  match av, bv with
  | some a, some b => f a b
  | some _, none => return .ok true
  | _, _ => return .ok false

/-- `if let Some(mut it) = .. { while let Some(c) = it.next() { .. } }` (src/node/mod.rs 2349-2355, 2359-2365). -/
def anyOpt (f : HRef → H (Except ε Bool)) (o : Option HIter) : H (Except ε Bool) :=
  match o with
  | some it => anyIter f it
  | none => return .ok false

/-- `inner_combine_pred` (src/node/mod.rs 2322-2369). The first argument bounds the depth. -/
def innerCombinePred (f : HVal → HVal → H (Except ε Bool)) : Nat → HRef → HRef → H (Except ε Bool)
  | 0, _, _ => fail
  | n + 1, a, b =>
    andThen (a.loadPrefix S st) fun ap => andThen (b.loadPrefix T st') fun bp =>
    let m := commonPrefix ap bp
    if m = ap.length ∧ m = bp.length then
      andThen (innerTest f a.valueOpt b.valueOpt) fun hit =>
      if hit then return .ok true else bothKids S st T st' a b (innerChildrenPred (innerCombinePred f n))
    else if m = ap.length then
      withTemp (b.cloneShortened T st' m) fun t =>
      andThen (a.loadChildren S st) fun ac => anyOpt (fun c => innerCombinePred f n c (.owned t)) ac
    else if m = bp.length then
      withTemp (a.cloneShortened S st m) fun t =>
      andThen (b.loadChildren T st') fun bc => anyOpt (fun c => innerCombinePred f n (.owned t) c) bc
    else return .ok false

/-- `left_combine_children_pred` (src/node/mod.rs 2640-2672). -/
def leftChildrenPred (rec : HRef → HRef → H (Except ε Bool)) (ac bc : Option HIter) : H (Except ε Bool) :=
  match ac, bc with
  | some ac, some bc =>
    joinAny (fun
      | some a, some b => rec a b
      | some _, none => return .ok true
      | _, _ => return .ok false) ac bc
  | some _, none => return .ok true
  | _, _ => return .ok false

/-- `left_combine_pred` (src/node/mod.rs 2595-2638). The first argument bounds the depth. -/
def leftCombinePred (f : HVal → HVal → H (Except ε Bool)) : Nat → HRef → HRef → H (Except ε Bool)
  | 0, _, _ => fail
  | n + 1, a, b =>
    andThen (a.loadPrefix S st) fun ap => andThen (b.loadPrefix T st') fun bp =>
    let m := commonPrefix ap bp
    if m = ap.length ∧ m = bp.length then
      andThen (leftTest f a.valueOpt b.valueOpt) fun hit =>
      if hit then return .ok true else bothKids S st T st' a b (leftChildrenPred (leftCombinePred f n))
    else if m = ap.length then
      if a.valueOpt.isSome then return .ok true
      else shortB S st T st' m a b (leftChildrenPred (leftCombinePred f n))
    else if m = bp.length then shortA S st T st' m a b (leftChildrenPred (leftCombinePred f n))
    else return .ok true

end

end Radix.Heap.Att
