import Verif.Stored.Update
import Verif.Tree.Combine

/-
Model of the copying combinations and the predicates on trees that may refer to a store (src/node/mod.rs 1670-1741,
2012-2118, 2225-2395, 2495-2672). The result is a detached tree, so it is a `Node`; its `canonicalize` cannot violate an
assertion.
-/

set_option linter.unusedVariables false

namespace Radix
open Node

section
variable {σ τ ε : Type}

/-- The loop over `OuterJoin` (src/node/mod.rs 1670-1741) that collects what `step` gives for each pair, as in
`outer_combine_children` (2095-2107). -/
def joinMapS (step : Option Ref → Option Ref → Res ε (Option Node)) (a b : TIter) : Res ε (List Node) :=
  match ha : a.next, hb : b.next with
  | none, none => .ok []
  | some (x, a'), none =>
    (step (some x) none).bind fun o => (joinMapS step a' b).bind fun l => .ok (o.toList ++ l)
  | none, some (y, b') =>
    (step none (some y)).bind fun o => (joinMapS step a b').bind fun l => .ok (o.toList ++ l)
  | some (x, a'), some (y, b') =>
    if rank x.pfx.firstByte < rank y.pfx.firstByte then
      (step (some x) none).bind fun o => (joinMapS step a' b).bind fun l => .ok (o.toList ++ l)
    else if rank y.pfx.firstByte < rank x.pfx.firstByte then
      (step none (some y)).bind fun o => (joinMapS step a b').bind fun l => .ok (o.toList ++ l)
    else
      (step (some x) (some y)).bind fun o => (joinMapS step a' b').bind fun l => .ok (o.toList ++ l)
termination_by a.size + b.size
decreasing_by
  all_goals
    try have := TIter.next_size ha
    try have := TIter.next_size hb
    omega

/-- The loop over `OuterJoin` that stops at the first pair with a hit, as in `inner_combine_children_pred`
(src/node/mod.rs 2385-2392). -/
def joinAnyS (step : Option Ref → Option Ref → Res ε Bool) (a b : TIter) : Res ε Bool :=
  match ha : a.next, hb : b.next with
  | none, none => .ok false
  | some (x, a'), none => (step (some x) none).bind fun o => if o then .ok true else joinAnyS step a' b
  | none, some (y, b') => (step none (some y)).bind fun o => if o then .ok true else joinAnyS step a b'
  | some (x, a'), some (y, b') =>
    if rank x.pfx.firstByte < rank y.pfx.firstByte then
      (step (some x) none).bind fun o => if o then .ok true else joinAnyS step a' b
    else if rank y.pfx.firstByte < rank x.pfx.firstByte then
      (step none (some y)).bind fun o => if o then .ok true else joinAnyS step a b'
    else (step (some x) (some y)).bind fun o => if o then .ok true else joinAnyS step a' b'
termination_by a.size + b.size
decreasing_by
  all_goals
    try have := TIter.next_size ha
    try have := TIter.next_size hb
    omega

/-- `while let Some(c) = it.next() { if f(c)? { return Ok(true) } }` (src/node/mod.rs 2350-2354, 2360-2364). -/
def anyIterS (f : Ref → Res ε Bool) (it : TIter) : Res ε Bool :=
  match h : it.next with
  | none => .ok false
  | some (c, it') => (f c).bind fun o => if o then .ok true else anyIterS f it'
termination_by it.size
decreasing_by exact TIter.next_size h

/-- `value_opt().map(|x| x.detached(..)).transpose()?` (src/node/mod.rs 2036, 2046, 480-489): `todo!()` for an id. -/
def valueOptDetached (v : BlobV) : Res ε (Option Bytes) :=
  match v.valueOpt with
  | none => .ok none
  | some (.data d) => .ok (some d)
  | some (.id _) => .panic

/-- `TreeNodeIter::detached` (src/node/mod.rs 1952-1957, 1791-1803, 1867-1869): `todo!()` for nodes in a stored block. -/
def TIter.detached (S : BlobStore σ ε) (st : σ) (fuel : Nat) : TIter → Res ε (Option (List Node))
  | owned [] => .ok none
  | owned (a :: l) => (detachedIterS S st fuel (.owned (a :: l))).bind fun x => .ok (some x)
  | borrowed [] => .ok none
  | borrowed (_ :: _) => .panic

/-- `DetachConverter::convert_node_shortened` (src/node/mod.rs 1659-1667). -/
def Ref.shortDetached (S : BlobStore σ ε) (st : σ) (fuel : Nat) (r : Ref) (n : Nat) : Res ε Node :=
  (r.cloneShortened S st n).bind fun a => detachedS S st fuel a

variable (S : BlobStore σ ε) (st : σ) (T : BlobStore τ ε) (st' : τ)

/-- `outer_combine_children` (src/node/mod.rs 2080-2118). -/
def outerCombineChildrenS (fuel : Nat) (rec : Ref → Ref → Res ε Node) (ac bc : Option TIter) :
    Res ε (Option (List Node)) :=
  match ac, bc with
  | some ac, some bc =>
    (joinMapS (fun
      | some a, some b => (rec a b).bind fun r => .ok (keepNonEmpty r)
      | some a, none => (a.detached S st fuel).bind fun r => .ok (keepNonEmpty r)
      | none, some b => (b.detached T st' fuel).bind fun r => .ok (keepNonEmpty r)
      | none, none => .panic) ac bc).bind fun l => .ok (arcOpt l)
  | none, some bc => bc.detached T st' fuel
  | some ac, none => ac.detached S st fuel
  | none, none => .ok none

/-- `outer_combine` (src/node/mod.rs 2012-2078). -/
def outerCombineS (f : BlobV → BlobV → Res ε (Option Bytes)) : Nat → Ref → Ref → Res ε Node
  | 0, _, _ => .deep
  | fuel + 1, a, b =>
    (loadPrefix S st a.pfx).bind fun ap =>
    (loadPrefix T st' b.pfx).bind fun bp =>
    let n := commonPrefix ap bp
    if n = ap.length ∧ n = bp.length then
      (match b.val.valueOpt with
        | some bv =>
          match a.val.valueOpt with
          | some av => f av bv
          | none => valueOptDetached bv
        | none => valueOptDetached a.val).bind fun value =>
      (a.loadChildren S st).bind fun ac =>
      (b.loadChildren T st').bind fun bc =>
      (outerCombineChildrenS S st T st' fuel (outerCombineS f fuel) ac bc).bind fun children =>
      .ok (canonicalize (mk (ap.take n) value children))
    else if n = ap.length then
      (valueOptDetached a.val).bind fun value =>
      (a.loadChildren S st).bind fun ac =>
      (b.cloneShortened T st' n).bind fun b' =>
      (outerCombineChildrenS S st T st' fuel (outerCombineS f fuel) ac (iterFromSlice [b'])).bind fun children =>
      .ok (canonicalize (mk (ap.take n) value children))
    else if n = bp.length then
      (valueOptDetached b.val).bind fun value =>
      (a.cloneShortened S st n).bind fun a' =>
      (b.loadChildren T st').bind fun bc =>
      (outerCombineChildrenS S st T st' fuel (outerCombineS f fuel) (iterFromSlice [a']) bc).bind fun children =>
      .ok (canonicalize (mk (ap.take n) value children))
    else
      (a.shortDetached S st fuel n).bind fun a' =>
      (b.shortDetached T st' fuel n).bind fun b' =>
      -- the code compares `ap[n] > bp[n]`
      .ok (canonicalize (mk (ap.take n) none
        (some (if rank (bp.drop n).head? < rank (ap.drop n).head? then [b', a'] else [a', b']))))

/-- `inner_combine_children` (src/node/mod.rs 2286-2319). -/
def innerCombineChildrenS (rec : Ref → Ref → Res ε Node) (ac bc : Option TIter) : Res ε (Option (List Node)) :=
  match ac, bc with
  | some ac, some bc =>
    (joinMapS (fun
      | some a, some b => (rec a b).bind fun r => .ok (keepNonEmpty r)
      | _, _ => .ok none) ac bc).bind fun l => .ok (arcOpt l)
  | _, _ => .ok none

/-- `inner_combine` (src/node/mod.rs 2225-2284). -/
def innerCombineS (f : BlobV → BlobV → Res ε (Option Bytes)) : Nat → Ref → Ref → Res ε Node
  | 0, _, _ => .deep
  | fuel + 1, a, b =>
    (loadPrefix S st a.pfx).bind fun ap =>
    (loadPrefix T st' b.pfx).bind fun bp =>
    let n := commonPrefix ap bp
    if n = ap.length ∧ n = bp.length then
      (match b.val.valueOpt with
        | some bv =>
          match a.val.valueOpt with
          | some av => f av bv
          | none => .ok none
        | none => .ok none).bind fun value =>
      (a.loadChildren S st).bind fun ac =>
      (b.loadChildren T st').bind fun bc =>
      (innerCombineChildrenS (innerCombineS f fuel) ac bc).bind fun children =>
      .ok (canonicalize (mk (ap.take n) value children))
    else if n = ap.length then
      (a.loadChildren S st).bind fun ac =>
      (b.cloneShortened T st' n).bind fun b' =>
      (innerCombineChildrenS (innerCombineS f fuel) ac (iterFromSlice [b'])).bind fun children =>
      .ok (canonicalize (mk (ap.take n) none children))
    else if n = bp.length then
      (a.cloneShortened S st n).bind fun a' =>
      (b.loadChildren T st').bind fun bc =>
      (innerCombineChildrenS (innerCombineS f fuel) (iterFromSlice [a']) bc).bind fun children =>
      .ok (canonicalize (mk (ap.take n) none children))
    else .ok (canonicalize (mk (ap.take n) none none))

/-- `left_combine_children` (src/node/mod.rs 2552-2592). -/
def leftCombineChildrenS (fuel : Nat) (rec : Ref → Ref → Res ε Node) (ac bc : Option TIter) :
    Res ε (Option (List Node)) :=
  match ac, bc with
  | some ac, some bc =>
    (joinMapS (fun
      | some a, some b => (rec a b).bind fun r => .ok (keepNonEmpty r)
      | some a, none => (a.detached S st fuel).bind fun r => .ok (some r)
      | _, _ => .ok none) ac bc).bind fun l => .ok (arcOpt l)
  | some ac, none => ac.detached S st fuel
  | _, _ => .ok none

/-- `left_combine` (src/node/mod.rs 2495-2550). -/
def leftCombineS (f : BlobV → BlobV → Res ε (Option Bytes)) : Nat → Ref → Ref → Res ε Node
  | 0, _, _ => .deep
  | fuel + 1, a, b =>
    (loadPrefix S st a.pfx).bind fun ap =>
    (loadPrefix T st' b.pfx).bind fun bp =>
    let n := commonPrefix ap bp
    if n = ap.length ∧ n = bp.length then
      (match a.val.valueOpt with
        | some av =>
          match b.val.valueOpt with
          | some bv => f av bv
          | none => valueOptDetached av
        | none => .ok none).bind fun value =>
      (a.loadChildren S st).bind fun ac =>
      (b.loadChildren T st').bind fun bc =>
      (leftCombineChildrenS S st fuel (leftCombineS f fuel) ac bc).bind fun children =>
      .ok (canonicalize (mk (ap.take n) value children))
    else if n = ap.length then
      (valueOptDetached a.val).bind fun value =>
      (a.loadChildren S st).bind fun ac =>
      (b.cloneShortened T st' n).bind fun b' =>
      (leftCombineChildrenS S st fuel (leftCombineS f fuel) ac (iterFromSlice [b'])).bind fun children =>
      .ok (canonicalize (mk (ap.take n) value children))
    else if n = bp.length then
      (a.cloneShortened S st n).bind fun a' =>
      (b.loadChildren T st').bind fun bc =>
      (leftCombineChildrenS S st fuel (leftCombineS f fuel) (iterFromSlice [a']) bc).bind fun children =>
      .ok (canonicalize (mk (ap.take n) none children))
    else a.detached S st fuel

/-- `inner_combine_children_pred` (src/node/mod.rs 2371-2395). -/
def innerChildrenPredS (rec : Ref → Ref → Res ε Bool) (ac bc : Option TIter) : Res ε Bool :=
  match ac, bc with
  | some ac, some bc =>
    joinAnyS (fun
      | some a, some b => rec a b
      | _, _ => .ok false) ac bc
  | _, _ => .ok false

/-- `inner_combine_pred` (src/node/mod.rs 2322-2369). -/
def innerCombinePredS (f : BlobV → BlobV → Res ε Bool) : Nat → Ref → Ref → Res ε Bool
  | 0, _, _ => .deep
  | fuel + 1, a, b =>
    (loadPrefix S st a.pfx).bind fun ap =>
    (loadPrefix T st' b.pfx).bind fun bp =>
    let n := commonPrefix ap bp
    if n = ap.length ∧ n = bp.length then
      (match a.val.valueOpt, b.val.valueOpt with
        | some av, some bv => f av bv
        | _, _ => .ok false).bind fun hit =>
      if hit then .ok true
      else
        (a.loadChildren S st).bind fun ac =>
        (b.loadChildren T st').bind fun bc =>
        innerChildrenPredS (innerCombinePredS f fuel) ac bc
    else if n = ap.length then
      (b.cloneShortened T st' n).bind fun b' =>
      (a.loadChildren S st).bind fun
        | some ac => anyIterS (fun c => innerCombinePredS f fuel c (.owned b')) ac
        | none => .ok false
    else if n = bp.length then
      (a.cloneShortened S st n).bind fun a' =>
      (b.loadChildren T st').bind fun
        | some bc => anyIterS (fun c => innerCombinePredS f fuel (.owned a') c) bc
        | none => .ok false
    else .ok false

/-- `left_combine_children_pred` (src/node/mod.rs 2640-2672). -/
def leftChildrenPredS (rec : Ref → Ref → Res ε Bool) (ac bc : Option TIter) : Res ε Bool :=
  match ac, bc with
  | some ac, some bc =>
    joinAnyS (fun
      | some a, some b => rec a b
      | some _, none => .ok true
      | _, _ => .ok false) ac bc
  | some _, none => .ok true
  | _, _ => .ok false

/-- `left_combine_pred` (src/node/mod.rs 2595-2638). -/
def leftCombinePredS (f : BlobV → BlobV → Res ε Bool) : Nat → Ref → Ref → Res ε Bool
  | 0, _, _ => .deep
  | fuel + 1, a, b =>
    (loadPrefix S st a.pfx).bind fun ap =>
    (loadPrefix T st' b.pfx).bind fun bp =>
    let n := commonPrefix ap bp
    if n = ap.length ∧ n = bp.length then
      (match a.val.valueOpt, b.val.valueOpt with
        | some av, some bv => f av bv
        | some _, none => .ok true
        | _, _ => .ok false).bind fun hit =>
      if hit then .ok true
      else
        (a.loadChildren S st).bind fun ac =>
        (b.loadChildren T st').bind fun bc =>
        leftChildrenPredS (leftCombinePredS f fuel) ac bc
    else if n = ap.length then
      if a.val.valueOpt.isSome then .ok true
      else
        (a.loadChildren S st).bind fun ac =>
        (b.cloneShortened T st' n).bind fun b' =>
        leftChildrenPredS (leftCombinePredS f fuel) ac (iterFromSlice [b'])
    else if n = bp.length then
      (a.cloneShortened S st n).bind fun a' =>
      (b.loadChildren T st').bind fun bc =>
      leftChildrenPredS (leftCombinePredS f fuel) (iterFromSlice [a']) bc
    else .ok true

end

end Radix
