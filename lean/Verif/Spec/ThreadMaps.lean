import Verif.Spec.AttMaps
import Verif.Spec.AttSafe
import Verif.Spec.AttThreads
import Verif.Stored.Shared

/-
What threads with a store that keeps what is written may see, told with plain maps, byte strings and lists. Every thread has its own items (`Item`, `Verif/Spec/AttMaps.lean`); nothing but the ids that `reattach` gave is shared.
A call gives what it gives to a program with one thread (`Step`, `Verif/Spec/AttMaps.lean`), whatever the other threads do in the meantime.
-/

set_option linter.unusedVariables false

namespace Radix.Spec.Kept
open Radix.Heap (Choice)
open Radix.Heap.Att (Op Obs Call TSeen)

section
variable {σ ε : Type} {S : BlobStore σ ε} (L : Lawful S)

/-- What the program may see of a call, or of a step of an iterator whose panics are caught. If such a step panics, there is a reason for it, as for errors, and nothing is known about the iterator any more. -/
def CallStep (st : σ) (w : World) (c : Call σ ε) (o : Obs ε) (st' : σ) (w' : World) : Prop :=
  match c with
  | .op op => Step L st w op o st' w'
  | .next i => (∀ e, o ≠ .err e) ∧ Step L st w (.next i) o st' w' ∨ (∃ e, o = .err e) ∧ st' = st ∧ w' = w.put i .unknown ∧ ∃ w1, Step L st w (.next i) o st w1
  | .nextGroup i d => (∀ e, o ≠ .err e) ∧ Step L st w (.nextGroup i d) o st' w' ∨ (∃ e, o = .err e) ∧ st' = st ∧ w' = w.put i .unknown ∧ ∃ w1, Step L st w (.nextGroup i d) o st w1

/-- What a thread has, and the call it is in the middle of: with the state of the store, and the saved maps, at the start of the call. -/
structure MThread (σ ε : Type) where
  items : List Item
  call : Option (Call σ ε × σ × (Bytes → Option Map))

/-- All threads, and the maps that are in the store: those for which `reattach` has given an id to some thread. -/
structure MWorld (σ ε : Type) where
  threads : List (MThread σ ε)
  saved : Bytes → Option Map

/-- `c` threads that have nothing. -/
def MWorld.start (c : Nat) : MWorld σ ε := ⟨List.replicate c ⟨[], none⟩, fun _ => none⟩

/-- Thread `i` as given. -/
def MWorld.set (w : MWorld σ ε) (i : Nat) (t : MThread σ ε) : MWorld σ ε := { w with threads := w.threads.set i t }

/-- What threads may see, and what they have then. -/
inductive MSees : MWorld σ ε → List (TSeen σ ε) → MWorld σ ε → Prop where
  | nil {w} : MSees w [] w
  /-- A thread makes a call. -/
  | call {w i l c st seen w'} : w.threads[i]? = some ⟨l, none⟩ → MSees (w.set i ⟨l, some (c, st, w.saved)⟩) seen w' → MSees w (.call i c st :: seen) w'
  /-- A call returns, with the answer that it gives when nobody else does anything. -/
  | ret {w i l c st sv o st' l' sv' seen w'} : w.threads[i]? = some ⟨l, some (c, st, sv)⟩ → CallStep L st ⟨l, sv⟩ c o st' ⟨l', sv'⟩ →
      MSees { w.set i ⟨l', none⟩ with saved := fun id => (sv' id).or (w.saved id) } seen w' → MSees w (.ret i o st' :: seen) w'
  /-- A thing is handed from one thread to another. -/
  | send {w i j k l l' x seen w'} : i ≠ j → w.threads[i]? = some ⟨l, none⟩ → w.threads[j]? = some ⟨l', none⟩ → l[k]? = some x →
      MSees ((w.set i ⟨l.set k .free, none⟩).set j ⟨l' ++ [x], none⟩) seen w' → MSees w (.send i j k :: seen) w'

/-- The store keeps what is written: when a call starts, the store has everything that it had at the return of earlier calls (`past`, and those in the list) of all threads. -/
def Lasting : List σ → List (TSeen σ ε) → Prop
  | _, [] => True
  | past, .call _ c st :: seen => (∀ st0 ∈ past, Mono L st0 st) ∧ (∀ g, c = .op (.outside g) → Mono L st (g st)) ∧ Lasting past seen
  | past, .ret _ _ st :: seen => Lasting (st :: past) seen
  | past, .send _ _ _ :: seen => Lasting past seen

/-- The states of the store at the returns of calls. -/
def returned {σ ε : Type} (seen : List (TSeen σ ε)) : List σ := seen.filterMap fun s => match s with | .ret _ _ st => some st | _ => none

/-- All threads write to one store, and the writes come one after the other, in the order `G`. A `Sharing` is the store as a call sees it while others write to it; its `log` is what has been written so far. At the start of a call
and at its return this is some beginning of `G`; a call that starts after the return of another one (`m` is what was written then) finds what was written before. -/
def OneOrder {ε : Type} (G : List Bytes) : Nat → List (TSeen Sharing ε) → Prop
  | _, [] => True
  | m, .call _ c s :: seen => s.log.map (fun e => e.2) <+: G ∧ m ≤ s.log.length ∧ (∀ g, c ≠ .op (.outside g)) ∧ OneOrder G m seen
  | m, .ret _ _ s :: seen => s.log.map (fun e => e.2) <+: G ∧ OneOrder G (max m s.log.length) seen
  | m, .send _ _ _ :: seen => OneOrder G m seen

end

end Radix.Spec.Kept
