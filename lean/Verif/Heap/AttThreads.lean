import Verif.Heap.Caught
import Verif.Heap.Threads

/-
Threads with a store: several programs hold trees (detached, or attached to one store), values, keys and iterators that share memory, call the API on what they hold, catch panics of the store and
of functions they pass, and hand things to each other.

As in `Verif/Heap/Threads.lean`, a call is a sequence of atomic steps on memory, and a schedule says who makes the next step. All threads use the same store (`RadixTree` has a `store` field of a `BlobStore`,
src/lib.rs 217; stores are shared by clones of an `Arc`, src/store/mod.rs). What the store says during a call is part of the schedule: the call starts with some state of the store, which can be any state, and sees
what a store in this state says. So nothing is assumed about what other threads do to the store before a call.

Simplified: a store that is changed by other threads during a call appears in the model as one state for the whole call; in the code, two reads of the same id in one call could give different answers. The steps of different threads happen
one after the other, as in `Verif/Heap/Threads.lean`. References (`&RadixTree`) are not lent to other threads.
-/

set_option linter.unusedVariables false

namespace Radix.Heap.Att

section
variable {σ ε : Type}

/-- A thread that holds things (`RadixTree`, src/lib.rs 217, and the others of `Slot`), or is in the middle of a call (src/node/mod.rs 3406-3819). -/
inductive TThread (σ ε : Type) where
  | idle (l : List Slot)
  | busy (x : H (Obs ε × World σ))

/-- What threads share: memory (the `Arc`s of src/node/mod.rs 31-34, 108-113). -/
structure TWorld (σ ε : Type) where
  cells : Heap
  threads : List (TThread σ ε)

/-- What a schedule says: thread `i` starts a call (src/node/mod.rs 3406-3819), during which the store answers as in the state `st`; thread `i` makes its next step; thread `i` hands what is in its slot `k` to thread `j`
(a channel of Rust std, or the end of a thread that is joined), which puts it into a new slot. -/
inductive TEvent (σ ε : Type) where
  | call (i : Nat) (c : Call σ ε) (st : σ)
  | tick (i : Nat)
  | send (i j k : Nat)

/-- What can be seen: a call, what it gave (and the state of the store after its writes, if nobody else used the store), and something handed over (src/node/mod.rs 3406-3819). -/
inductive TSeen (σ ε : Type) where
  | call (i : Nat) (c : Call σ ε) (st : σ)
  | ret (i : Nat) (o : Obs ε) (st : σ)
  | send (i j k : Nat)

/-- One event. What cannot happen (a thread that is in the middle of a call starts another one, or hands something over) does not happen: Rust does not accept such programs. The number `n` bounds the steps of
each call of src/node/mod.rs 3406-3819 as in `step`. No result: memory was used that had been freed, or an assertion failed. -/
def TWorld.step (S : BlobStore σ ε) (mask : Nat → Nat → List Bool) (n : Nat) (w : TWorld σ ε) : TEvent σ ε → Option (TWorld σ ε × List (TSeen σ ε))
  | .call i c st =>
    match w.threads[i]? with
    | some (.idle l) => some (⟨w.cells, w.threads.set i (.busy (stepC S mask n (st, l) c))⟩, [.call i c st])
    | _ => some (w, [])
  | .tick i =>
    match w.threads[i]? with
    | some (.busy (.done (o, st, l))) => some (⟨w.cells, w.threads.set i (.idle l)⟩, [.ret i o st])
    | some (.busy x) =>
      match x.next w.cells with
      | some (y, h) => some (⟨h, w.threads.set i (.busy y)⟩, [])
      | none => none
    | _ => some (w, [])
  | .send i j k =>
    match w.threads[i]?, w.threads[j]? with
    | some (.idle l), some (.idle l') =>
      match l[k]? with
      | some s =>
        if i = j then some (w, [])
        else some (⟨w.cells, (w.threads.set i (.idle (l.set k .free))).set j (.idle (l' ++ [s]))⟩, [.send i j k])
      | none => some (w, [])
    | _, _ => some (w, [])

/-- A schedule of calls of src/node/mod.rs 3406-3819. -/
def TWorld.run (S : BlobStore σ ε) (mask : Nat → Nat → List Bool) (n : Nat) (w : TWorld σ ε) : List (TEvent σ ε) → Option (TWorld σ ε × List (TSeen σ ε))
  | [] => some (w, [])
  | e :: es =>
    match w.step S mask n e with
    | some (w, s) =>
      match w.run S mask n es with
      | some (w, t) => some (w, s ++ t)
      | none => none
    | none => none

/-- `c` threads that hold nothing, and no memory in use (before the first call of src/node/mod.rs 3406-3819). -/
def TWorld.init (c : Nat) : TWorld σ ε := ⟨[], List.replicate c (.idle [])⟩

end

end Radix.Heap.Att
