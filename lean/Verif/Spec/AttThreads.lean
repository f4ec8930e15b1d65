import Verif.Heap.AttThreads

/-
What threads with a store may see, told with plain values. Nothing is shared: every thread has its own list of things, and no memory is managed. A call does everything at once, when it returns, and gives what it gives to
a program that has only one thread (`pstepC`, `Verif/Heap/Caught.lean`; the properties C79 to C82 and C85 say what this is).
-/

set_option linter.unusedVariables false

namespace Radix.Heap.Att

section
variable {σ ε : Type}

/-- What a thread has, and the call it is in the middle of, with what the store is during the call. -/
structure TWorker (σ ε : Type) where
  things : List Obj
  call : Option (Call σ ε × σ)

/-- The thread `i` is not in the middle of a call and has these things. -/
def THas (ws : List (TWorker σ ε)) (i : Nat) (l : List Obj) : Prop := ws[i]? = some ⟨l, none⟩

/-- What may happen, and what the threads have then. -/
inductive THappens (S : BlobStore σ ε) (mask : Nat → Nat → List Bool) (n : Nat) : List (TWorker σ ε) → TEvent σ ε → List (TSeen σ ε) → List (TWorker σ ε) → Prop where
  /-- A thread that is not in the middle of a call makes a call. -/
  | call {ws i l c st} : THas ws i l → THappens S mask n ws (.call i c st) [.call i c st] (ws.set i ⟨l, some (c, st)⟩)
  /-- A thread in the middle of a call cannot make another one. -/
  | noCall {ws i c st} : (∀ l, ¬ THas ws i l) → THappens S mask n ws (.call i c st) [] ws
  /-- A call goes on, which nobody can see. -/
  | tick {ws i} : THappens S mask n ws (.tick i) [] ws
  /-- A call returns, with the answer that it gives when nobody else does anything. -/
  | ret {ws i l c st o st' l'} : ws[i]? = some ⟨l, some (c, st)⟩ → pstepC S mask n (st, l) c = some (o, st', l') → THappens S mask n ws (.tick i) [.ret i o st'] (ws.set i ⟨l', none⟩)
  /-- A thing is handed from one thread to another. -/
  | send {ws i j k l l' t} : i ≠ j → THas ws i l → THas ws j l' → l[k]? = some t →
      THappens S mask n ws (.send i j k) [.send i j k] ((ws.set i ⟨l.set k .free, none⟩).set j ⟨l' ++ [t], none⟩)
  /-- There is nothing to hand over, or one of the threads is in the middle of a call. -/
  | noSend {ws i j k} : (¬ ∃ l l' t, i ≠ j ∧ THas ws i l ∧ THas ws j l' ∧ l[k]? = some t) → THappens S mask n ws (.send i j k) [] ws

/-- All of it may happen, in this order. -/
inductive THappensAll (S : BlobStore σ ε) (mask : Nat → Nat → List Bool) (n : Nat) : List (TWorker σ ε) → List (TEvent σ ε) → List (TSeen σ ε) → List (TWorker σ ε) → Prop where
  | nil {ws} : THappensAll S mask n ws [] [] ws
  | cons {ws e s ws' es ss ws''} : THappens S mask n ws e s ws' → THappensAll S mask n ws' es ss ws'' → THappensAll S mask n ws (e :: es) (s ++ ss) ws''

/-- `c` threads that have nothing. -/
def tworkers (c : Nat) : List (TWorker σ ε) := List.replicate c ⟨[], none⟩

/-- The call has no result on plain values: the code itself panics (an unimplemented branch, an assertion, wrong data), or the call recurses deeper than `n` levels or takes more than `n` steps. -/
def TStuck (S : BlobStore σ ε) (mask : Nat → Nat → List Bool) (n : Nat) (ws : List (TWorker σ ε)) : TEvent σ ε → Prop
  | .call i c st => ∃ l, THas ws i l ∧ pstepC S mask n (st, l) c = none
  | _ => False

/-- The calls of thread `i`, with the states of the store. -/
def tcallsOf {σ ε : Type} (i : Nat) (seen : List (TSeen σ ε)) : List (Call σ ε × σ) := seen.filterMap fun s => match s with | .call j c st => if j = i then some (c, st) else none | _ => none

/-- The answers that thread `i` got. -/
def tretsOf {σ ε : Type} (i : Nat) (seen : List (TSeen σ ε)) : List (Obs ε) := seen.filterMap fun s => match s with | .ret j o _ => if j = i then some o else none | _ => none

/-- Nothing is handed to or from thread `i`. -/
def TEvent.apart {σ ε : Type} (i : Nat) : TEvent σ ε → Prop
  | .send a b _ => a ≠ i ∧ b ≠ i
  | _ => True

/-- The session of a program with one thread that makes these calls, where the store is in the given state before each call. -/
def oneByOne {σ ε : Type} (cs : List (Call σ ε × σ)) : List (Call σ ε) := cs.flatMap fun p => [.op (.outside fun _ => p.2), p.1]

/-- What this session sees, other than the answers `()` to the changes of the store. -/
def withUnits {ε : Type} (os : List (Obs ε)) : List (Obs ε) := os.flatMap fun o => [.unit, o]

/-- The turns of the threads. -/
def tticks {σ ε : Type} (f : Nat → Nat) (m : Nat) : List (TEvent σ ε) := (List.range m).map fun k => .tick (f k)

end

end Radix.Heap.Att
