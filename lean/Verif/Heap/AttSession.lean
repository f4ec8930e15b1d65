import Verif.Heap.AttIter
import Verif.Heap.AttCombine

/-
Sessions with a store: a program that holds any number of detached trees, of trees attached to one store, of values, keys and iterators, and calls the API on them in any
order (src/node/mod.rs 3406-3819, the `try_` functions). It also holds the iterators it has made and the keys they gave out. What it holds is a list of slots; a call that makes something new puts it into a new slot at the
end.

There are two readings of a session. `step` and `run` execute it in memory (`Verif/Heap/Attached.lean`, `Verif/Heap/AttRead.lean`), where things share
memory by reference counts. `pstep` and `prun` execute it on plain values: what is in a slot is a tree, a value, a byte string or an iterator over trees, nothing is shared, and `clone` is a
copy.

The store is the same in both readings. It can do anything: fail, forget, give wrong data, or change between two calls.
-/

set_option linter.unusedVariables false

namespace Radix.Heap.Att

section
variable {σ ε : Type}

/-- What a slot holds in memory: `RadixTree<S>` (src/lib.rs 217), `Value<S>` (src/node/mod.rs 556-560), `IterKey` (2970), `KeyValueIter<S>` (3076-3080), `GroupBy<S>`
(3142-3147), `ValueIter<S>` (3018-3021), or nothing (dropped, or `None`). `att` says whether `S` is the store or `Detached`. -/
inductive Slot where
  | tree (att : Bool) (x : Raw)
  | value (att : Bool) (f : Fld)
  | key (a : Nat)
  | kv (att : Bool) (s : AKV)
  | group (att : Bool) (s : AKV)
  | vals (att : Bool) (s : List AIt)
  | free

/-- The same things (src/lib.rs 217, src/node/mod.rs 556-560, 2970, 3018-3021, 3076-3080, 3142-3147) as plain values. -/
inductive Obj where
  | tree (att : Bool) (m : SNode)
  | value (att : Bool) (b : BlobV)
  | key (d : Bytes)
  | kv (att : Bool) (m : SIter)
  | group (att : Bool) (m : SIter)
  | vals (att : Bool) (m : List TIter)
  | free

/-- What the program sees of a call. `bad`: the call does not make sense for what is in the slots (it does not compile in Rust). `err`: the store or a user
function failed. For src/node/mod.rs 3406-3819. -/
inductive Obs (ε : Type) where
  | unit
  | bad
  | err (e : ε)
  | bool (b : Bool)
  | bytes (b : Bytes)
  | value (o : Option BlobV)
  | entry (o : Option (Bytes × BlobV))
  deriving DecidableEq

/-- Calls of the API (src/node/mod.rs 3406-3819). `i` and `j` are slots. `load` without an id is `empty true` (3425-3427). `next` is `Iterator::next` of an
iterator over entries or values, `nextGroup` that of an iterator over groups. Simplified: the function of `try_group_by` comes with each call of `nextGroup`; in the code (3142-3147) it is given
once, so it is the same each time. `readKey` gives the bytes of a key. `outside` is not a call: the store changes, in
whatever way. -/
inductive Op (σ ε : Type) where
  | empty (att : Bool)
  | single (k v : Bytes)
  | load (id : Bytes)
  | clone (i : Nat)
  | drop (i : Nat)
  | insert (i : Nat) (k v : Bytes)
  | remove (i : Nat) (k : Bytes)
  | removePrefix (i : Nat) (p : Bytes)
  | outerCombineWith (i j : Nat) (c : Conv) (f : BlobV → BlobV → Except ε Choice)
  | innerCombineWith (i j : Nat) (f : BlobV → BlobV → Except ε Choice)
  | leftCombineWith (i j : Nat) (f : BlobV → BlobV → Except ε Choice)
  | retainPrefixWith (i j : Nat) (f : BlobV → Except ε Bool)
  | removePrefixWith (i j : Nat) (f : BlobV → Except ε Bool)
  | outerCombine (i j : Nat) (f : BlobV → BlobV → Except ε NewChoice)
  | innerCombine (i j : Nat) (f : BlobV → BlobV → Except ε NewChoice)
  | leftCombine (i j : Nat) (f : BlobV → BlobV → Except ε NewChoice)
  | innerCombinePred (i j : Nat) (f : BlobV → BlobV → Except ε Bool)
  | leftCombinePred (i j : Nat) (f : BlobV → BlobV → Except ε Bool)
  | filterPrefix (i : Nat) (p s : Bytes)
  | detached (i : Nat)
  | attached (i : Nat)
  | reattach (i : Nat)
  | get (i : Nat) (k : Bytes)
  | containsKey (i : Nat) (k : Bytes)
  | hasPrefix (i : Nat) (p : Bytes)
  | firstValue (i : Nat)
  | lastValue (i : Nat)
  | firstEntry (i : Nat) (p : Bytes)
  | lastEntry (i : Nat) (p : Bytes)
  | rootValue (i : Nat)
  | isEmpty (i : Nat)
  | loadValue (i : Nat)
  | iter (i : Nat)
  | scanPrefix (i : Nat) (p : Bytes)
  | values (i : Nat)
  | groupBy (i : Nat)
  | next (i : Nat)
  | nextGroup (i : Nat) (d : Bytes → Except ε Bool)
  | readKey (i : Nat)
  | outside (g : σ → σ)

/-- A store with its state; the type of the state is part of it (`S: BlobStore`, src/store/blob_store.rs 11-31). -/
structure AStore (ε : Type) where
  τ : Type
  S : BlobStore τ ε
  st : τ

/-- The store of a tree or value: the one store, or `Detached` (src/store/blob_store.rs 242-263). -/
def storeOf (S : BlobStore σ ε) (st : σ) : Bool → AStore ε
  | true => ⟨σ, S, st⟩
  | false => ⟨Unit, detachedStore ε, ()⟩

/-- Whether a converter goes from the one kind of tree (`b`) to the other (`a`): `DowncastConverter: NodeConverter<Detached, B>`, `IdentityConverter: NodeConverter<A, A>`,
`DetachConverter: NodeConverter<A, B>` (src/node/mod.rs 1600, 1628, 1652). -/
def fits (a b : Bool) : Conv → Bool
  | .downcast => !b
  | .identity => a == b
  | .detach => true

/-! ### In memory -/

/-- The state of a session: the store and the slots (src/node/mod.rs 3406-3819). -/
abbrev World (σ : Type) := σ × List Slot

/-- A call on the tree in slot `i` (`&self`, as in src/node/mod.rs 3486-3809); `bad` if there is no tree. -/
def onTree (w : World σ) (i : Nat) (f : Bool → Raw → H (Obs ε × World σ)) : H (Obs ε × World σ) :=
  match w.2[i]? with
  | some (.tree a x) => f a x
  | _ => return (.bad, w)

/-- What is left after a call that changes the tree in slot `i` in place, whether it fails or not (src/node/mod.rs 3513-3540). -/
def changed (w : World σ) (i : Nat) (a : Bool) : Except ε Unit × Raw → Obs ε × World σ
  | (.ok _, y) => (.unit, w.1, w.2.set i (.tree a y))
  | (.error e, y) => (.err e, w.1, w.2.set i (.tree a y))

/-- A call that changes the tree in slot `i` (`&mut self`, as in src/node/mod.rs 3513-3540). -/
def change (w : World σ) (i : Nat) (f : Bool → Raw → H (Except ε Unit × Raw)) : H (Obs ε × World σ) :=
  onTree w i fun a x => do
    let r ← f a x
    return changed w i a r

/-- A call that changes the tree in slot `i` and reads the one in slot `j` (`&mut self`, `that: &RadixTree<S2>`, as in src/node/mod.rs 3606-3776): they cannot be the
same. -/
def changeWith (w : World σ) (i j : Nat) (ok : Bool → Bool → Bool) (f : Bool → Bool → Raw → HRef → H (Except ε Unit × Raw)) : H (Obs ε × World σ) :=
  if i = j then return (.bad, w)
  else onTree w i fun a x => onTree w j fun b y =>
    if ok a b then do
      let r ← f a b x (.owned y)
      return changed w i a r
    else return (.bad, w)

/-- A call that reads the trees in slots `i` and `j` (`&self`, `that: &RadixTree<S2>`, as in src/node/mod.rs 3592-3740); they can be the same. -/
def onTrees (w : World σ) (i j : Nat) (f : Bool → Bool → HRef → HRef → H (Obs ε × World σ)) : H (Obs ε × World σ) :=
  onTree w i fun a x => onTree w j fun b y => f a b (.owned x) (.owned y)

/-- A new tree, or an error (src/node/mod.rs 3420-3428). -/
def newTree (w : World σ) (a : Bool) (f : H (Except ε Raw)) : H (Obs ε × World σ) := do
  match ← f with
  | .ok x => return (.unit, w.1, w.2 ++ [.tree a x])
  | .error e => return (.err e, w)

/-- A new value, which the program looks at and keeps, or none, or an error (src/node/mod.rs 3496-3498, 3792-3799). -/
def newValue (w : World σ) (a : Bool) (f : H (Except ε (Option Fld))) : H (Obs ε × World σ) := do
  match ← f with
  | .ok (some v) => do
    let b ← blobV v
    return (.value (some b), w.1, w.2 ++ [.value a v])
  | .ok none => return (.value none, w.1, w.2 ++ [.free])
  | .error e => return (.err e, w)

/-- A key with a value, or none, or an error (src/node/mod.rs 3802-3809). -/
def newEntry (w : World σ) (a : Bool) (f : H (Except ε (Option (Bytes × Fld)))) : H (Obs ε × World σ) := do
  match ← f with
  | .ok (some (k, v)) => do
    let b ← blobV v
    return (.entry (some (k, b)), w.1, w.2 ++ [.value a v])
  | .ok none => return (.entry none, w.1, w.2 ++ [.free])
  | .error e => return (.err e, w)

/-- An answer (src/node/mod.rs 3502-3510). -/
def answer {α : Type} (w : World σ) (g : α → Obs ε) (f : H (Except ε α)) : H (Obs ε × World σ) := do
  match ← f with
  | .ok b => return (g b, w)
  | .error e => return (.err e, w)

/-- `try_attached` (src/node/mod.rs 3409-3412), only for detached trees. -/
def attachedOf (S : BlobStore σ ε) (n : Nat) (w : World σ) (i : Nat) : H (Obs ε × World σ) :=
  onTree w i fun a x =>
    if a then return (.bad, w)
    else do
      let (r, st) ← attach S n x w.1
      match r with
      | .ok y => return (.unit, st, w.2 ++ [.tree true y])
      | .error e => return (.err e, st, w.2)

/-- `try_reattach` (src/node/mod.rs 3813-3819). For a detached tree the store is `Detached`, where every call panics if something has to be written. -/
def reattachOf (S : BlobStore σ ε) (n : Nat) (w : World σ) (i : Nat) : H (Obs ε × World σ) :=
  onTree w i fun a x =>
    if a then do
      let ((r, y), st) ← reattach S n x w.1
      match r with
      | .ok id => return (.bytes id, st, w.2.set i (.tree true y))
      | .error e => return (.err e, st, w.2.set i (.tree true y))
    else return (.bad, w)

/-- `Clone` of a tree (src/node/mod.rs 1127-1139; `derive` for `RadixTree`, src/lib.rs 216) or of a key (2969). A `Value` and an iterator are not `Clone`. -/
def cloneOf (w : World σ) (i : Nat) : H (Obs ε × World σ) :=
  match w.2[i]? with
  | some (.tree a x) => do
    let y ← x.clone
    return (.unit, w.1, w.2 ++ [.tree a y])
  | some (.key a) => do
    incBlob a
    return (.unit, w.1, w.2 ++ [.key a])
  | _ => return (.bad, w)

/-- Dropping what is in a slot: `Drop for TreeNode` (src/node/mod.rs 1119-1125), `Drop for Value` (643-647), `Arc` (Rust std). -/
def Slot.drop : Slot → H Unit
  | .tree _ x => dropAll [x]
  | .value _ f => f.drop
  | .key a => decBlob a
  | .kv _ s => s.drop
  | .group _ s => s.drop
  | .vals _ s => dropVals s
  | .free => return ()

/-- `drop` (src/node/mod.rs 643-647, 1119-1125). -/
def dropOf (w : World σ) (i : Nat) : H (Obs ε × World σ) :=
  match w.2[i]? with
  | some s => do
    s.drop
    return (.unit, w.1, w.2.set i .free)
  | none => return (.bad, w)

/-- `Value::load` (src/node/mod.rs 606-614). -/
def loadOf (S : BlobStore σ ε) (w : World σ) (i : Nat) : H (Obs ε × World σ) :=
  match w.2[i]? with
  | some (.value a f) => answer w .bytes (valueLoad (storeOf S w.1 a).S (storeOf S w.1 a).st f)
  | _ => return (.bad, w)

/-- A new iterator over entries, or an error (src/node/mod.rs 3559-3566). -/
def newIter (w : World σ) (a : Bool) (f : H (Except ε AKV)) : H (Obs ε × World σ) := do
  match ← f with
  | .ok s => return (.unit, w.1, w.2 ++ [.kv a s])
  | .error e => return (.err e, w)

/-- `Iterator::next` of the iterator over entries or values in slot `i` (src/node/mod.rs 3056-3070, 3126-3140). What it yields goes to new slots at the end. -/
def nextOf (S : BlobStore σ ε) (n : Nat) (w : World σ) (i : Nat) : H (Obs ε × World σ) :=
  match w.2[i]? with
  | some (.kv a s) => do
    let (o, s') ← AKV.next (storeOf S w.1 a).S (storeOf S w.1 a).st n s
    match o with
    | some (.ok (k, v)) => do
      let kb ← readBlob k
      let vb ← blobV v
      return (.entry (some (kb, vb)), w.1, w.2.set i (.kv a s') ++ [.key k] ++ [.value a v])
    | some (.error e) => return (.err e, w.1, w.2.set i (.kv a s'))
    | none => return (.entry none, w.1, w.2.set i (.kv a s'))
  | some (.vals a s) => do
    let (o, s') ← valNext (storeOf S w.1 a).S (storeOf S w.1 a).st n s
    match o with
    | some (.ok v) => do
      let vb ← blobV v
      return (.value (some vb), w.1, w.2.set i (.vals a s') ++ [.value a v])
    | some (.error e) => return (.err e, w.1, w.2.set i (.vals a s'))
    | none => return (.value none, w.1, w.2.set i (.vals a s'))
  | _ => return (.bad, w)

/-- `Iterator::next` of the iterator over groups in slot `i` (src/node/mod.rs 3203-3220, 3577-3582). -/
def nextGroupOf (S : BlobStore σ ε) (n : Nat) (w : World σ) (i : Nat) (d : Bytes → Except ε Bool) : H (Obs ε × World σ) :=
  match w.2[i]? with
  | some (.group a s) => do
    let (o, s') ← AKV.nextGroup (storeOf S w.1 a).S (storeOf S w.1 a).st d n s
    match o with
    | some (.ok x) => return (.bool true, w.1, w.2.set i (.group a s') ++ [.tree a x])
    | some (.error e) => return (.err e, w.1, w.2.set i (.group a s'))
    | none => return (.bool false, w.1, w.2.set i (.group a s'))
  | _ => return (.bad, w)

/-- The bytes of a key: `AsRef<[u8]> for IterKey` (src/node/mod.rs 2995-2999). -/
def readKeyOf (w : World σ) (i : Nat) : H (Obs ε × World σ) :=
  match w.2[i]? with
  | some (.key a) => do
    let d ← readBlob a
    return (.bytes d, w)
  | _ => return (.bad, w)

/-- The environment of an in-place operation (src/node/mod.rs 3606-3776). -/
def envOf (S : BlobStore σ ε) (st : σ) (mask : Nat → Nat → List Bool) (a b : Bool) : HEnv (storeOf S st a).τ (storeOf S st b).τ ε :=
  ⟨(storeOf S st a).S, (storeOf S st a).st, (storeOf S st b).S, (storeOf S st b).st, mask⟩

/-- One call in memory (src/node/mod.rs 3406-3819). `n` bounds the depth. -/
def step (S : BlobStore σ ε) (mask : Nat → Nat → List Bool) (n : Nat) (w : World σ) : Op σ ε → H (Obs ε × World σ)
  | .empty a => return (.unit, w.1, w.2 ++ [.tree a Raw.empty])
  | .single k v => newTree w false (do return .ok (← Raw.single k v))
  | .load id => newTree w true (load S w.1 id)
  | .clone i => cloneOf w i
  | .drop i => dropOf w i
  | .insert i k v => change w i fun a x => insert (storeOf S w.1 a).S (storeOf S w.1 a).st mask n x k v
  | .remove i k => change w i fun a x => remove (storeOf S w.1 a).S (storeOf S w.1 a).st mask n x k
  | .removePrefix i p => change w i fun a x => removePrefix (storeOf S w.1 a).S (storeOf S w.1 a).st mask n x p
  | .outerCombineWith i j c f => changeWith w i j (fun a b => fits a b c) fun a b => outerCombineWith (envOf S w.1 mask a b) c (setFn f) n n
  | .innerCombineWith i j f => changeWith w i j (fun _ _ => true) fun a b => innerCombineWith (envOf S w.1 mask a b) (setFn f) n
  | .leftCombineWith i j f => changeWith w i j (fun _ _ => true) fun a b => leftCombineWith (envOf S w.1 mask a b) (setFn f) n
  | .retainPrefixWith i j f => changeWith w i j (fun _ _ => true) fun a b => retainPrefixWith (envOf S w.1 mask a b) f n
  | .removePrefixWith i j f => changeWith w i j (fun _ _ => true) fun a b => removePrefixWith (envOf S w.1 mask a b) f n
  | .outerCombine i j f => onTrees w i j fun a b x y => newTree w false (outerCombine (storeOf S w.1 a).S (storeOf S w.1 a).st (storeOf S w.1 b).S (storeOf S w.1 b).st (newFn f) n x y)
  | .innerCombine i j f => onTrees w i j fun a b x y => newTree w false (innerCombine (storeOf S w.1 a).S (storeOf S w.1 a).st (storeOf S w.1 b).S (storeOf S w.1 b).st (newFn f) n x y)
  | .leftCombine i j f => onTrees w i j fun a b x y => newTree w false (leftCombine (storeOf S w.1 a).S (storeOf S w.1 a).st (storeOf S w.1 b).S (storeOf S w.1 b).st (newFn f) n x y)
  | .innerCombinePred i j f => onTrees w i j fun a b x y => answer w .bool (innerCombinePred (storeOf S w.1 a).S (storeOf S w.1 a).st (storeOf S w.1 b).S (storeOf S w.1 b).st (testFn f) n x y)
  | .leftCombinePred i j f => onTrees w i j fun a b x y => answer w .bool (leftCombinePred (storeOf S w.1 a).S (storeOf S w.1 a).st (storeOf S w.1 b).S (storeOf S w.1 b).st (testFn f) n x y)
  | .filterPrefix i p s => onTree w i fun a x => newTree w a (filterPrefix (storeOf S w.1 a).S (storeOf S w.1 a).st n x p s)
  | .detached i => onTree w i fun a x => newTree w false (detached (storeOf S w.1 a).S (storeOf S w.1 a).st n x)
  | .attached i => attachedOf S n w i
  | .reattach i => reattachOf S n w i
  | .get i k => onTree w i fun a x => newValue w a (get (storeOf S w.1 a).S (storeOf S w.1 a).st n x k)
  | .containsKey i k => onTree w i fun a x => answer w .bool (containsKey (storeOf S w.1 a).S (storeOf S w.1 a).st n x k)
  | .hasPrefix i p => onTree w i fun a x => answer w .bool (hasPrefix (storeOf S w.1 a).S (storeOf S w.1 a).st n x p)
  | .firstValue i => onTree w i fun a x => newValue w a (firstValue (storeOf S w.1 a).S (storeOf S w.1 a).st n (.owned x))
  | .lastValue i => onTree w i fun a x => newValue w a (lastValue (storeOf S w.1 a).S (storeOf S w.1 a).st n (.owned x))
  | .firstEntry i p => onTree w i fun a x => newEntry w a (firstEntry (storeOf S w.1 a).S (storeOf S w.1 a).st n p (.owned x))
  | .lastEntry i p => onTree w i fun a x => newEntry w a (lastEntry (storeOf S w.1 a).S (storeOf S w.1 a).st n p (.owned x))
  | .rootValue i => onTree w i fun a x => newValue w a (do return .ok (← ownValue (HRef.valueOpt (.owned x))))
  | .isEmpty i => onTree w i fun a x => return (.bool x.isEmpty, w)
  | .loadValue i => loadOf S w i
  | .iter i => onTree w i fun a x => newIter w a (do return .ok (← iter x))
  | .scanPrefix i p => onTree w i fun a x => newIter w a (scanPrefix (storeOf S w.1 a).S (storeOf S w.1 a).st n x p)
  | .values i => onTree w i fun a x => do return (.unit, w.1, w.2 ++ [.vals a (← values x)])
  | .groupBy i => onTree w i fun a x => do return (.unit, w.1, w.2 ++ [.group a (← iter x)])
  | .next i => nextOf S n w i
  | .nextGroup i d => nextGroupOf S n w i d
  | .readKey i => readKeyOf w i
  | .outside g => return (.unit, g w.1, w.2)

/-- A session in memory: what the program sees, and the store and what it holds at the end (src/node/mod.rs 3406-3819). -/
def run (S : BlobStore σ ε) (mask : Nat → Nat → List Bool) (n : Nat) : World σ → List (Op σ ε) → H (List (Obs ε) × World σ)
  | w, [] => return ([], w)
  | w, op :: ops => do
    let (o, w1) ← step S mask n w op
    let (os, w2) ← run S mask n w1 ops
    return (o :: os, w2)

/-! ### On plain values -/

/-- The state of a session on plain values (src/node/mod.rs 3406-3819). -/
abbrev PWorld (σ : Type) := σ × List Obj

/-- `onTree` on plain values, for the calls in src/node/mod.rs 3486-3809. There is no result if a call panics or if the depth is not enough. -/
def ponTree (w : PWorld σ) (i : Nat) (f : Bool → SNode → Option (Obs ε × PWorld σ)) : Option (Obs ε × PWorld σ) :=
  match w.2[i]? with
  | some (.tree a m) => f a m
  | _ => some (.bad, w)

/-- `changed` on plain values, for the calls in src/node/mod.rs 3513-3540. -/
def pchanged (w : PWorld σ) (i : Nat) (a : Bool) : Res ε Unit × SNode → Option (Obs ε × PWorld σ)
  | (.ok _, m) => some (.unit, w.1, w.2.set i (.tree a m))
  | (.err e, m) => some (.err e, w.1, w.2.set i (.tree a m))
  | _ => none

/-- `change` on plain values, for the calls in src/node/mod.rs 3513-3540. -/
def pchange (w : PWorld σ) (i : Nat) (f : Bool → SNode → Res ε Unit × SNode) : Option (Obs ε × PWorld σ) :=
  ponTree w i fun a m => pchanged w i a (f a m)

/-- `changeWith` on plain values, for the calls in src/node/mod.rs 3606-3776. -/
def pchangeWith (w : PWorld σ) (i j : Nat) (ok : Bool → Bool → Bool) (f : Bool → Bool → SNode → Radix.Ref → Res ε Unit × SNode) : Option (Obs ε × PWorld σ) :=
  if i = j then some (.bad, w)
  else ponTree w i fun a m => ponTree w j fun b k => if ok a b then pchanged w i a (f a b m (.owned k)) else some (.bad, w)

/-- `onTrees` on plain values, for the calls in src/node/mod.rs 3592-3740. -/
def ponTrees (w : PWorld σ) (i j : Nat) (f : Bool → Bool → Radix.Ref → Radix.Ref → Option (Obs ε × PWorld σ)) : Option (Obs ε × PWorld σ) :=
  ponTree w i fun a m => ponTree w j fun b k => f a b (.owned m) (.owned k)

/-- `newTree` on plain values, for the calls in src/node/mod.rs 3420-3428. -/
def pnewTree (w : PWorld σ) (a : Bool) : Res ε SNode → Option (Obs ε × PWorld σ)
  | .ok m => some (.unit, w.1, w.2 ++ [.tree a m])
  | .err e => some (.err e, w)
  | _ => none

/-- `newValue` on plain values, for the calls in src/node/mod.rs 3496-3498, 3792-3799. -/
def pnewValue (w : PWorld σ) (a : Bool) : Res ε (Option BlobV) → Option (Obs ε × PWorld σ)
  | .ok (some b) => some (.value (some b), w.1, w.2 ++ [.value a b])
  | .ok none => some (.value none, w.1, w.2 ++ [.free])
  | .err e => some (.err e, w)
  | _ => none

/-- `newEntry` on plain values, for the calls in src/node/mod.rs 3802-3809. -/
def pnewEntry (w : PWorld σ) (a : Bool) : Res ε (Option (Bytes × BlobV)) → Option (Obs ε × PWorld σ)
  | .ok (some (k, b)) => some (.entry (some (k, b)), w.1, w.2 ++ [.value a b])
  | .ok none => some (.entry none, w.1, w.2 ++ [.free])
  | .err e => some (.err e, w)
  | _ => none

/-- `answer` on plain values, for the calls in src/node/mod.rs 3502-3510. -/
def panswer {α : Type} (w : PWorld σ) (g : α → Obs ε) : Res ε α → Option (Obs ε × PWorld σ)
  | .ok b => some (g b, w)
  | .err e => some (.err e, w)
  | _ => none

/-- `attachedOf` on plain values (src/node/mod.rs 3409-3412). -/
def pattachedOf (S : BlobStore σ ε) (n : Nat) (w : PWorld σ) (i : Nat) : Option (Obs ε × PWorld σ) :=
  ponTree w i fun a m =>
    if a then some (.bad, w)
    else if levels m ≤ n then
      match attachS S m w.1 with
      | (.ok y, st) => some (.unit, st, w.2 ++ [.tree true y])
      | (.err e, st) => some (.err e, st, w.2)
      | _ => none
    else none

/-- `reattachOf` on plain values (src/node/mod.rs 3813-3819). -/
def preattachOf (S : BlobStore σ ε) (n : Nat) (w : PWorld σ) (i : Nat) : Option (Obs ε × PWorld σ) :=
  ponTree w i fun a m =>
    if a then
      if levels m ≤ n then
        match reattachS S m w.1 with
        | ((.ok id, y), st) => some (.bytes id, st, w.2.set i (.tree true y))
        | ((.err e, y), st) => some (.err e, st, w.2.set i (.tree true y))
        | _ => none
      else none
    else some (.bad, w)

/-- `loadOf` on plain values (src/node/mod.rs 606-614). -/
def ploadOf (S : BlobStore σ ε) (w : PWorld σ) (i : Nat) : Option (Obs ε × PWorld σ) :=
  match w.2[i]? with
  | some (.value a b) => panswer w .bytes (b.load (storeOf S w.1 a).S (storeOf S w.1 a).st)
  | _ => some (.bad, w)

/-- `cloneOf` on plain values (src/node/mod.rs 1127-1139, 2969). -/
def pcloneOf (w : PWorld σ) (i : Nat) : Option (Obs ε × PWorld σ) :=
  match w.2[i]? with
  | some (.tree a m) => some (.unit, w.1, w.2 ++ [.tree a m])
  | some (.key d) => some (.unit, w.1, w.2 ++ [.key d])
  | _ => some (.bad, w)

/-- `newIter` on plain values, for the calls in src/node/mod.rs 3559-3566. -/
def pnewIter (w : PWorld σ) (a : Bool) : Res ε SIter → Option (Obs ε × PWorld σ)
  | .ok m => some (.unit, w.1, w.2 ++ [.kv a m])
  | .err e => some (.err e, w)
  | _ => none

/-- `nextOf` on plain values, for the calls in src/node/mod.rs 3056-3070, 3126-3140. -/
def pnextOf (S : BlobStore σ ε) (n : Nat) (w : PWorld σ) (i : Nat) : Option (Obs ε × PWorld σ) :=
  match w.2[i]? with
  | some (.kv a m) =>
    match SIter.next (storeOf S w.1 a).S (storeOf S w.1 a).st n m with
    | .ok (some (.ok (k, v)), m') => some (.entry (some (k, v)), w.1, w.2.set i (.kv a m') ++ [.key k] ++ [.value a v])
    | .ok (some (.error e), m') => some (.err e, w.1, w.2.set i (.kv a m'))
    | .ok (none, m') => some (.entry none, w.1, w.2.set i (.kv a m'))
    | _ => none
  | some (.vals a m) =>
    match valNextS (storeOf S w.1 a).S (storeOf S w.1 a).st n m with
    | .ok (some (.ok v), m') => some (.value (some v), w.1, w.2.set i (.vals a m') ++ [.value a v])
    | .ok (some (.error e), m') => some (.err e, w.1, w.2.set i (.vals a m'))
    | .ok (none, m') => some (.value none, w.1, w.2.set i (.vals a m'))
    | _ => none
  | _ => some (.bad, w)

/-- `nextGroupOf` on plain values, for the calls in src/node/mod.rs 3203-3220. -/
def pnextGroupOf (S : BlobStore σ ε) (n : Nat) (w : PWorld σ) (i : Nat) (d : Bytes → Except ε Bool) : Option (Obs ε × PWorld σ) :=
  match w.2[i]? with
  | some (.group a m) =>
    match groupNextS (storeOf S w.1 a).S (descendS d) (storeOf S w.1 a).st n m with
    | .ok (some (.ok k), m') => some (.bool true, w.1, w.2.set i (.group a m') ++ [.tree a k])
    | .ok (some (.error e), m') => some (.err e, w.1, w.2.set i (.group a m'))
    | .ok (none, m') => some (.bool false, w.1, w.2.set i (.group a m'))
    | _ => none
  | _ => some (.bad, w)

/-- `readKeyOf` on plain values (src/node/mod.rs 2995-2999). -/
def preadKeyOf (w : PWorld σ) (i : Nat) : Option (Obs ε × PWorld σ) :=
  match w.2[i]? with
  | some (.key d) => some (.bytes d, w)
  | _ => some (.bad, w)

/-- The converters (src/node/mod.rs 1598-1668) on plain values. -/
def convOf (S : BlobStore σ ε) (st : σ) (n : Nat) (b : Bool) : Conv → SConv ε
  | .downcast => .downcast ε
  | .identity => .identity (storeOf S st b).S (storeOf S st b).st
  | .detach => .detach (storeOf S st b).S (storeOf S st b).st n

/-- The environment of an in-place operation on plain values (src/node/mod.rs 3606-3776), without debug assertions. -/
def penvOf (S : BlobStore σ ε) (st : σ) (mask : Nat → Nat → List Bool) (a b : Bool) : UEnv (storeOf S st a).τ (storeOf S st b).τ ε :=
  ⟨(storeOf S st a).S, (storeOf S st a).st, (storeOf S st b).S, (storeOf S st b).st, false, maskAb mask⟩

/-- One call on plain values (src/node/mod.rs 3406-3819): the functions are those of `Verif/Stored`. -/
def pstep (S : BlobStore σ ε) (mask : Nat → Nat → List Bool) (n : Nat) (w : PWorld σ) : Op σ ε → Option (Obs ε × PWorld σ)
  | .empty a => some (.unit, w.1, w.2 ++ [.tree a SNode.empty])
  | .single k v => some (.unit, w.1, w.2 ++ [.tree false (.ref (.data k) (.data v) [])])
  | .load id => pnewTree w true (tryLoad S w.1 id)
  | .clone i => pcloneOf w i
  | .drop i => match w.2[i]? with
    | some _ => some (.unit, w.1, w.2.set i .free)
    | none => some (.bad, w)
  | .insert i k v => pchange w i fun a m => insertS (storeOf S w.1 a).S (storeOf S w.1 a).st false (maskAb mask) n m k v
  | .remove i k => pchange w i fun a m => removeS (storeOf S w.1 a).S (storeOf S w.1 a).st false (maskAb mask) n m k
  | .removePrefix i p => pchange w i fun a m => removePrefixS (storeOf S w.1 a).S (storeOf S w.1 a).st false (maskAb mask) n m p
  | .outerCombineWith i j c f => pchangeWith w i j (fun a b => fits a b c) fun a b => outerCombineWithS (penvOf S w.1 mask a b) (convOf S w.1 n b c) (setFnS f) n
  | .innerCombineWith i j f => pchangeWith w i j (fun _ _ => true) fun a b => innerCombineWithS (penvOf S w.1 mask a b) (setFnS f) n
  | .leftCombineWith i j f => pchangeWith w i j (fun _ _ => true) fun a b => leftCombineWithS (penvOf S w.1 mask a b) (setFnS f) n
  | .retainPrefixWith i j f => pchangeWith w i j (fun _ _ => true) fun a b => retainPrefixWithS (penvOf S w.1 mask a b) (predS f) n
  | .removePrefixWith i j f => pchangeWith w i j (fun _ _ => true) fun a b => removePrefixWithS (penvOf S w.1 mask a b) (predS f) n
  | .outerCombine i j f => ponTrees w i j fun a b m k =>
    pnewTree w false ((outerCombineS (storeOf S w.1 a).S (storeOf S w.1 a).st (storeOf S w.1 b).S (storeOf S w.1 b).st (newFnS f) n m k).bind fun q => .ok (embed q))
  | .innerCombine i j f => ponTrees w i j fun a b m k =>
    pnewTree w false ((innerCombineS (storeOf S w.1 a).S (storeOf S w.1 a).st (storeOf S w.1 b).S (storeOf S w.1 b).st (newFnS f) n m k).bind fun q => .ok (embed q))
  | .leftCombine i j f => ponTrees w i j fun a b m k =>
    pnewTree w false ((leftCombineS (storeOf S w.1 a).S (storeOf S w.1 a).st (storeOf S w.1 b).S (storeOf S w.1 b).st (newFnS f) n m k).bind fun q => .ok (embed q))
  | .innerCombinePred i j f => ponTrees w i j fun a b m k =>
    panswer w .bool (innerCombinePredS (storeOf S w.1 a).S (storeOf S w.1 a).st (storeOf S w.1 b).S (storeOf S w.1 b).st (testFnS f) n m k)
  | .leftCombinePred i j f => ponTrees w i j fun a b m k =>
    panswer w .bool (leftCombinePredS (storeOf S w.1 a).S (storeOf S w.1 a).st (storeOf S w.1 b).S (storeOf S w.1 b).st (testFnS f) n m k)
  | .filterPrefix i p s => ponTree w i fun a m => pnewTree w a (filterPrefixS (storeOf S w.1 a).S n (storeOf S w.1 a).st m p s)
  | .detached i => ponTree w i fun a m => pnewTree w false ((detachedS (storeOf S w.1 a).S (storeOf S w.1 a).st n m).bind fun k => .ok (embed k))
  | .attached i => pattachedOf S n w i
  | .reattach i => preattachOf S n w i
  | .get i k => ponTree w i fun a m => pnewValue w a (getS (storeOf S w.1 a).S n (storeOf S w.1 a).st m k)
  | .containsKey i k => ponTree w i fun a m => panswer w .bool (containsKeyS (storeOf S w.1 a).S n (storeOf S w.1 a).st m k)
  | .hasPrefix i p => ponTree w i fun a m => panswer w .bool (hasPrefixS (storeOf S w.1 a).S n (storeOf S w.1 a).st m p)
  | .firstValue i => ponTree w i fun a m => pnewValue w a (firstValueS (storeOf S w.1 a).S (storeOf S w.1 a).st n (.owned m))
  | .lastValue i => ponTree w i fun a m => pnewValue w a (lastValueS (storeOf S w.1 a).S (storeOf S w.1 a).st n (.owned m))
  | .firstEntry i p => ponTree w i fun a m => pnewEntry w a (firstEntryS (storeOf S w.1 a).S (storeOf S w.1 a).st n p (.owned m))
  | .lastEntry i p => ponTree w i fun a m => pnewEntry w a (lastEntryS (storeOf S w.1 a).S (storeOf S w.1 a).st n p (.owned m))
  | .rootValue i => ponTree w i fun a m => pnewValue w a (.ok m.val.valueOpt)
  | .isEmpty i => ponTree w i fun a m => some (.bool m.isEmpty, w)
  | .loadValue i => ploadOf S w i
  | .iter i => ponTree w i fun a m => pnewIter w a (.ok (iterS m))
  | .scanPrefix i p => ponTree w i fun a m => pnewIter w a (scanPrefixS (storeOf S w.1 a).S n (storeOf S w.1 a).st m p)
  | .values i => ponTree w i fun a m => some (.unit, w.1, w.2 ++ [.vals a (valuesS m)])
  | .groupBy i => ponTree w i fun a m => some (.unit, w.1, w.2 ++ [.group a (groupByS m)])
  | .next i => pnextOf S n w i
  | .nextGroup i d => pnextGroupOf S n w i d
  | .readKey i => preadKeyOf w i
  | .outside g => some (.unit, g w.1, w.2)

/-- A session on plain values (src/node/mod.rs 3406-3819). -/
def prun (S : BlobStore σ ε) (mask : Nat → Nat → List Bool) (n : Nat) : PWorld σ → List (Op σ ε) → Option (List (Obs ε) × PWorld σ)
  | w, [] => some ([], w)
  | w, op :: ops =>
    match pstep S mask n w op with
    | none => none
    | some (o, w1) =>
      match prun S mask n w1 ops with
      | none => none
      | some (os, w2) => some (o :: os, w2)

end

end Radix.Heap.Att
