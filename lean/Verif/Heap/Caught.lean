import Verif.Heap.AttSession
import Verif.Stored.Caught

/-
Sessions with a store and with functions of the user that may panic, of a program that catches the panics and goes on.

A panic of the store or of a function of the user is, in the model, a failure with some `e` that says what the panic was. A panic unwinds: the locals of all calls on its way are dropped. These are the locals that are dropped
when an error goes up by `?`, and no function of src/node/mod.rs handles errors in another way, with three exceptions: `Iterator::next` of the three iterators (src/node/mod.rs 3056-3070, 3126-3140,
3203-3220), which clear the stack of the iterator for errors, but not for panics. So calls that panic are the calls (`Op`) of `Verif/Heap/AttSession.lean` that fail, except for `next`. Here there are two more
calls, for steps of iterators in which every failure of the store and of `descend` is a panic. Which of the two happens is part of what the program and the store do: sessions are arbitrary lists of calls of both kinds.

Not modelled: panics of the code itself (unimplemented branches, assertions, wrong data), after which the model has no result, and panics for lack of memory.
-/

set_option linter.unusedVariables false

namespace Radix.Heap.Att

section
variable {σ ε : Type}

/-- A call (src/node/mod.rs 3406-3819), or a step of an iterator in a `catch_unwind`, in which the store or `descend` may panic (3056-3070, 3126-3140, 3203-3220). -/
inductive Call (σ ε : Type) where
  | op (o : Op σ ε)
  | next (i : Nat)
  | nextGroup (i : Nat) (d : Bytes → Except ε Bool)

/-- `Iterator::next` of the iterator over entries or values in slot `i` (src/node/mod.rs 3056-3070, 3126-3140), where a failure is a panic: the iterator stays as it is. -/
def caughtOf (S : BlobStore σ ε) (n : Nat) (w : World σ) (i : Nat) : H (Obs ε × World σ) :=
  match w.2[i]? with
  | some (.kv a s) => do
    let (o, s') ← AKV.next0 (storeOf S w.1 a).S (storeOf S w.1 a).st n s
    match o with
    | .ok (some (k, v)) => do
      let kb ← readBlob k
      let vb ← blobV v
      return (.entry (some (kb, vb)), w.1, w.2.set i (.kv a s') ++ [.key k] ++ [.value a v])
    | .error e => return (.err e, w.1, w.2.set i (.kv a s'))
    | .ok none => return (.entry none, w.1, w.2.set i (.kv a s'))
  | some (.vals a s) => do
    let (o, s') ← valNext0 (storeOf S w.1 a).S (storeOf S w.1 a).st n s
    match o with
    | .ok (some v) => do
      let vb ← blobV v
      return (.value (some vb), w.1, w.2.set i (.vals a s') ++ [.value a v])
    | .error e => return (.err e, w.1, w.2.set i (.vals a s'))
    | .ok none => return (.value none, w.1, w.2.set i (.vals a s'))
  | _ => return (.bad, w)

/-- `Iterator::next` of the iterator over groups in slot `i` (src/node/mod.rs 3203-3220), where a failure is a panic. -/
def caughtGroupOf (S : BlobStore σ ε) (n : Nat) (w : World σ) (i : Nat) (d : Bytes → Except ε Bool) : H (Obs ε × World σ) :=
  match w.2[i]? with
  | some (.group a s) => do
    let (o, s') ← AKV.nextGroup0 (storeOf S w.1 a).S (storeOf S w.1 a).st d n s
    match o with
    | .ok (some x) => return (.bool true, w.1, w.2.set i (.group a s') ++ [.tree a x])
    | .error e => return (.err e, w.1, w.2.set i (.group a s'))
    | .ok none => return (.bool false, w.1, w.2.set i (.group a s'))
  | _ => return (.bad, w)

/-- One call in memory (src/node/mod.rs 3406-3819). -/
def stepC (S : BlobStore σ ε) (mask : Nat → Nat → List Bool) (n : Nat) (w : World σ) : Call σ ε → H (Obs ε × World σ)
  | .op o => step S mask n w o
  | .next i => caughtOf S n w i
  | .nextGroup i d => caughtGroupOf S n w i d

/-- A session in memory (src/node/mod.rs 3406-3819). -/
def runC (S : BlobStore σ ε) (mask : Nat → Nat → List Bool) (n : Nat) : World σ → List (Call σ ε) → H (List (Obs ε) × World σ)
  | w, [] => return ([], w)
  | w, c :: cs => do
    let (o, w1) ← stepC S mask n w c
    let (os, w2) ← runC S mask n w1 cs
    return (o :: os, w2)

/-- `caughtOf` on plain values, for the calls in src/node/mod.rs 3056-3070, 3126-3140. -/
def pcaughtOf (S : BlobStore σ ε) (n : Nat) (w : PWorld σ) (i : Nat) : Option (Obs ε × PWorld σ) :=
  match w.2[i]? with
  | some (.kv a m) =>
    match SIter.step (storeOf S w.1 a).S (storeOf S w.1 a).st n m with
    | .ok (.ok (some (k, v)), m') => some (.entry (some (k, v)), w.1, w.2.set i (.kv a m') ++ [.key k] ++ [.value a v])
    | .ok (.error e, m') => some (.err e, w.1, w.2.set i (.kv a m'))
    | .ok (.ok none, m') => some (.entry none, w.1, w.2.set i (.kv a m'))
    | _ => none
  | some (.vals a m) =>
    match valStep (storeOf S w.1 a).S (storeOf S w.1 a).st n m with
    | .ok (.ok (some v), m') => some (.value (some v), w.1, w.2.set i (.vals a m') ++ [.value a v])
    | .ok (.error e, m') => some (.err e, w.1, w.2.set i (.vals a m'))
    | .ok (.ok none, m') => some (.value none, w.1, w.2.set i (.vals a m'))
    | _ => none
  | _ => some (.bad, w)

/-- `caughtGroupOf` on plain values, for the calls in src/node/mod.rs 3203-3220. -/
def pcaughtGroupOf (S : BlobStore σ ε) (n : Nat) (w : PWorld σ) (i : Nat) (d : Bytes → Except ε Bool) : Option (Obs ε × PWorld σ) :=
  match w.2[i]? with
  | some (.group a m) =>
    match groupStep (storeOf S w.1 a).S d (storeOf S w.1 a).st n m with
    | .ok (.ok (some k), m') => some (.bool true, w.1, w.2.set i (.group a m') ++ [.tree a k])
    | .ok (.error e, m') => some (.err e, w.1, w.2.set i (.group a m'))
    | .ok (.ok none, m') => some (.bool false, w.1, w.2.set i (.group a m'))
    | _ => none
  | _ => some (.bad, w)

/-- One call on plain values (src/node/mod.rs 3406-3819). -/
def pstepC (S : BlobStore σ ε) (mask : Nat → Nat → List Bool) (n : Nat) (w : PWorld σ) : Call σ ε → Option (Obs ε × PWorld σ)
  | .op o => pstep S mask n w o
  | .next i => pcaughtOf S n w i
  | .nextGroup i d => pcaughtGroupOf S n w i d

/-- A session on plain values (src/node/mod.rs 3406-3819). -/
def prunC (S : BlobStore σ ε) (mask : Nat → Nat → List Bool) (n : Nat) : PWorld σ → List (Call σ ε) → Option (List (Obs ε) × PWorld σ)
  | w, [] => some ([], w)
  | w, c :: cs =>
    match pstepC S mask n w c with
    | none => none
    | some (o, w1) =>
      match prunC S mask n w1 cs with
      | none => none
      | some (os, w2) => some (o :: os, w2)

end

end Radix.Heap.Att
