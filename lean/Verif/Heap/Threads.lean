import Verif.Heap.Session

/-
Threads: several programs hold trees, values, keys and iterators that share memory, call the API on what they hold, hand things to each other, and lend each other trees
(`&RadixTree`).

All these types can be sent to other threads and used by several threads at once (`Send` and `Sync` are derived: they are made of `Arc`s and bytes, src/node/mod.rs 31-34, 108-113,
556-560, 651-666, 2970, 3018-3021, 3076-3080, 3142-3147). A call is a sequence of atomic steps (`Act` of `Verif/Heap/Model.lean`); a schedule says who makes the next step.

Simplified: the steps of different threads happen one after the other, in one order that all threads agree on (the orderings `Relaxed`, `Release` and `Acquire` in `Arc`
of Rust std are taken to be strong enough for this). A thread reads the contents of a cell at once. Only trees are lent, not
values, keys and iterators.
-/

set_option linter.unusedVariables false

namespace Radix.Heap

/-- The next step of a call (of the functions in src/node/mod.rs 3222-3483). No result: memory was used that had been freed, or an assertion failed. -/
def H.next {α : Type} : H α → Heap → Option (H α × Heap)
  | .done a, h => some (.done a, h)
  | .stop, _ => none
  | .act x k, h =>
    match x.exec h with
    | some (b, h) => some (k b, h)
    | none => none

/-- A thread that holds things (`RadixTree`, src/lib.rs 217, and the others of `Slot`), or is in the middle of a call (src/node/mod.rs 3222-3483); `l` is what it held when the call
started. -/
inductive Thread where
  | idle (l : List Slot)
  | busy (l : List Slot) (x : H (Obs × List Slot))

/-- What threads share: memory (the `Arc`s of src/node/mod.rs 31-34, 108-113). `next` is a number that no lent tree has. -/
structure World where
  cells : Heap
  threads : List Thread
  next : Nat

/-- What a schedule says: thread `i` starts a call (src/node/mod.rs 3222-3483); thread `i` makes its next step; thread `i` hands what is in its slot `k` to thread `j` (a channel of Rust
std, or the end of a thread that is joined), which puts it into a new slot; thread `i` starts to lend the tree in its slot `k` (`&tree`, which lasts as long as there are copies of the reference);
thread `i` lets thread `j` have a copy of the reference in its slot `k`; thread `i` has the tree in its slot `k` for itself again. -/
inductive Event where
  | call (i : Nat) (op : Op)
  | tick (i : Nat)
  | send (i j k : Nat)
  | lend (i k : Nat)
  | borrow (i j k : Nat)
  | unlend (i k : Nat)

/-- What can be seen: a call, what it gave, and something handed over or lent (src/node/mod.rs 3222-3483). -/
inductive Seen where
  | call (i : Nat) (op : Op)
  | ret (i : Nat) (o : Obs)
  | send (i j k : Nat)
  | lend (i k : Nat)
  | borrow (i j k : Nat)
  | unlend (i k : Nat)

/-- The slot of a lent tree (`&RadixTree`, src/node/mod.rs 3228-3483): whether it is the one of the tree itself, and the number of the tree. -/
def Slot.loan : Slot → Option (Bool × Nat)
  | .ref own id _ => some (own, id)
  | _ => none

/-- The tree itself, which cannot be moved while it is lent (a rule of Rust for `&RadixTree`, src/node/mod.rs 3228-3483). -/
def Slot.lends : Slot → Bool
  | .ref own _ _ => own
  | _ => false

/-- What a thread holds. The references that it can use in a call are in use until the call returns (the lifetimes of src/node/mod.rs 3228-3483). -/
def Thread.slots : Thread → List Slot
  | .idle l => l
  | .busy l _ => l

/-- How many slots of all threads are about the lent tree `id` (`&RadixTree`, src/node/mod.rs 3228-3483). -/
def World.held (w : World) (id : Nat) : Nat := ((w.threads.flatMap Thread.slots).filterMap Slot.loan).countP (·.2 == id)

/-- One event. What cannot happen (a thread that is in the middle of a call starts another one, or hands something over; a tree is used by its thread alone while others have references to it)
does not happen: Rust does not accept such programs. The number `n` bounds the steps of
each call of src/node/mod.rs 3222-3483 as in `step`. No result: memory was used that had been freed, or an assertion failed. -/
def World.step (n : Nat) (w : World) : Event → Option (World × List Seen)
  | .call i op =>
    match w.threads[i]? with
    | some (.idle l) => some (⟨w.cells, w.threads.set i (.busy l (Heap.step n l op)), w.next⟩, [.call i op])
    | _ => some (w, [])
  | .tick i =>
    match w.threads[i]? with
    | some (.busy _ (.done (o, l))) => some (⟨w.cells, w.threads.set i (.idle l), w.next⟩, [.ret i o])
    | some (.busy l x) =>
      match x.next w.cells with
      | some (y, h) => some (⟨h, w.threads.set i (.busy l y), w.next⟩, [])
      | none => none
    | _ => some (w, [])
  | .send i j k =>
    match w.threads[i]?, w.threads[j]? with
    | some (.idle l), some (.idle l') =>
      match l[k]? with
      | some s =>
        if i = j ∨ s.lends = true then some (w, [])
        else some (⟨w.cells, (w.threads.set i (.idle (l.set k .free))).set j (.idle (l' ++ [s])), w.next⟩, [.send i j k])
      | none => some (w, [])
    | _, _ => some (w, [])
  | .lend i k =>
    match w.threads[i]? with
    | some (.idle l) =>
      match l[k]? with
      | some (.tree x) => some (⟨w.cells, w.threads.set i (.idle (l.set k (.ref true w.next x))), w.next + 1⟩, [.lend i k])
      | _ => some (w, [])
    | _ => some (w, [])
  | .borrow i j k =>
    match w.threads[i]?, w.threads[j]? with
    | some (.idle l), some (.idle l') =>
      match l[k]? with
      | some (.ref _ id x) => some (⟨w.cells, w.threads.set j (.idle (l' ++ [.ref false id x])), w.next⟩, [.borrow i j k])
      | _ => some (w, [])
    | _, _ => some (w, [])
  | .unlend i k =>
    match w.threads[i]? with
    | some (.idle l) =>
      match l[k]? with
      | some (.ref true id x) =>
        if w.held id = 1 then some (⟨w.cells, w.threads.set i (.idle (l.set k (.tree x))), w.next⟩, [.unlend i k]) else some (w, [])
      | _ => some (w, [])
    | _ => some (w, [])

/-- A schedule of calls of src/node/mod.rs 3222-3483. -/
def World.run (n : Nat) (w : World) : List Event → Option (World × List Seen)
  | [] => some (w, [])
  | e :: es =>
    match w.step n e with
    | some (w, s) =>
      match w.run n es with
      | some (w, t) => some (w, s ++ t)
      | none => none
    | none => none

/-- `c` threads that hold nothing, and no memory in use (before the first call of src/node/mod.rs 3222-3483). -/
def World.init (c : Nat) : World := ⟨[], List.replicate c (.idle []), 0⟩

end Radix.Heap
