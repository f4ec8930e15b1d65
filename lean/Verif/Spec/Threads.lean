import Verif.Spec.Session
import Verif.Heap.Threads

/-
What threads may see, told with plain maps. Nothing is shared: every thread has its own list of things. A call does everything at once, when it returns.
A map that is lent stays as it is until nobody else has a reference to it; a reference is a copy of the map.
-/

namespace Radix.Spec
open Radix.Heap (Op Obs Event Seen)

/-- What a thread has: its things, and the call it is in the middle of. -/
structure Worker where
  things : List Thing
  call : Option Op

/-- The thread `i` is not in the middle of a call and has these things. -/
def Has (ws : List Worker) (i : Nat) (l : List Thing) : Prop := ws[i]? = some ⟨l, none⟩

/-- The number of the lent map that the thing is about. -/
def Thing.loan : Thing → Option Nat
  | .ref _ id _ => some id
  | _ => none

/-- The map itself, while it is lent. -/
def Thing.lends : Thing → Bool
  | .ref own _ _ => own
  | _ => false

/-- The lent maps that the things of all threads are about, one for each thing. -/
def loans (ws : List Worker) : List Nat := (ws.flatMap Worker.things).filterMap Thing.loan

/-- What may happen, and what the threads have then. -/
inductive Happens : List Worker → Event → List Seen → List Worker → Prop where
  /-- A thread that is not in the middle of a call makes a call. -/
  | call {ws i l op} : Has ws i l → Happens ws (.call i op) [.call i op] (ws.set i ⟨l, some op⟩)
  /-- A thread in the middle of a call cannot make another one. -/
  | noCall {ws i op} : (∀ l, ¬ Has ws i l) → Happens ws (.call i op) [] ws
  /-- A call goes on, which nobody can see. -/
  | tick {ws i} : Happens ws (.tick i) [] ws
  /-- A call returns, with an answer that it may give when nobody else does anything. -/
  | ret {ws i l op o l'} : ws[i]? = some ⟨l, some op⟩ → Allowed l op o l' → Happens ws (.tick i) [.ret i o] (ws.set i ⟨l', none⟩)
  /-- A thing is handed from one thread to another, unless it is lent. -/
  | send {ws i j k l l' t} : i ≠ j → Has ws i l → Has ws j l' → l[k]? = some t → t.lends = false →
      Happens ws (.send i j k) [.send i j k] ((ws.set i ⟨l.set k .free, none⟩).set j ⟨l' ++ [t], none⟩)
  /-- There is nothing to hand over, or one of the threads is in the middle of a call. -/
  | noSend {ws i j k} : (¬ ∃ l l' t, i ≠ j ∧ Has ws i l ∧ Has ws j l' ∧ l[k]? = some t ∧ t.lends = false) → Happens ws (.send i j k) [] ws
  /-- A map is lent; it gets a number that no other lent map has. -/
  | lend {ws i k l m id} : Has ws i l → l[k]? = some (.map m) → id ∉ loans ws → Happens ws (.lend i k) [.lend i k] (ws.set i ⟨l.set k (.ref true id m), none⟩)
  /-- There is no map, or the thread is in the middle of a call. -/
  | noLend {ws i k} : (¬ ∃ l m, Has ws i l ∧ l[k]? = some (.map m)) → Happens ws (.lend i k) [] ws
  /-- A thread gets a reference to a map that is lent. -/
  | borrow {ws i j k l l' own id m} : Has ws i l → Has ws j l' → l[k]? = some (.ref own id m) →
      Happens ws (.borrow i j k) [.borrow i j k] (ws.set j ⟨l' ++ [.ref false id m], none⟩)
  /-- There is no lent map, or one of the threads is in the middle of a call. -/
  | noBorrow {ws i j k} : (¬ ∃ l l' own id m, Has ws i l ∧ Has ws j l' ∧ l[k]? = some (.ref own id m)) → Happens ws (.borrow i j k) [] ws
  /-- A thread has a map for itself again, once there are no references to it. -/
  | unlend {ws i k l id m} : Has ws i l → l[k]? = some (.ref true id m) → (loans ws).count id = 1 →
      Happens ws (.unlend i k) [.unlend i k] (ws.set i ⟨l.set k (.map m), none⟩)
  /-- There is no lent map, there are references to it, or the thread is in the middle of a call. -/
  | noUnlend {ws i k} : (¬ ∃ l id m, Has ws i l ∧ l[k]? = some (.ref true id m) ∧ (loans ws).count id = 1) → Happens ws (.unlend i k) [] ws

/-- All of it may happen, in this order. -/
inductive HappensAll : List Worker → List Event → List Seen → List Worker → Prop where
  | nil {ws} : HappensAll ws [] [] ws
  | cons {ws e s ws' es ss ws''} : Happens ws e s ws' → HappensAll ws' es ss ws'' → HappensAll ws (e :: es) (s ++ ss) ws''

/-- `c` threads that have nothing. -/
def workers (c : Nat) : List Worker := List.replicate c ⟨[], none⟩

/-- The events only call what sessions may call (`Tame`). -/
def TameEvent : Event → Prop
  | .call _ op => Tame op
  | _ => True

end Radix.Spec
