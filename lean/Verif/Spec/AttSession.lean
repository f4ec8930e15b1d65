import Verif.Heap.AttSession

/-
Words to speak about sessions with a store (`Op`, `Obs` of `Verif/Heap/AttSession.lean`).
-/

namespace Radix.Heap.Att

/-- The slot that a call changes, if any. All other slots stay as they are, except that new ones are added at the end. -/
def changes {σ ε : Type} : Op σ ε → Option Nat
  | .drop i | .insert i _ _ | .remove i _ | .removePrefix i _ | .outerCombineWith i _ _ _ | .innerCombineWith i _ _ | .leftCombineWith i _ _
  | .retainPrefixWith i _ _ | .removePrefixWith i _ _ | .reattach i | .next i | .nextGroup i _ => some i
  | _ => none

/-- Questions about the tree, the value or the key in a slot, and the next element of an iterator. -/
inductive Question {σ ε : Type} : (Nat → Op σ ε) → Prop where
  | get (k : Bytes) : Question fun i => .get i k
  | containsKey (k : Bytes) : Question fun i => .containsKey i k
  | hasPrefix (p : Bytes) : Question fun i => .hasPrefix i p
  | firstValue : Question .firstValue
  | lastValue : Question .lastValue
  | firstEntry (p : Bytes) : Question fun i => .firstEntry i p
  | lastEntry (p : Bytes) : Question fun i => .lastEntry i p
  | rootValue : Question .rootValue
  | isEmpty : Question .isEmpty
  | loadValue : Question .loadValue
  | readKey : Question .readKey
  | next : Question .next
  | nextGroup (d : Bytes → Except ε Bool) : Question fun i => .nextGroup i d

/-- Steps of the iterator in a slot. -/
inductive Step {σ ε : Type} : (Nat → Op σ ε) → Prop where
  | next : Step .next
  | nextGroup (d : Bytes → Except ε Bool) : Step fun i => .nextGroup i d

end Radix.Heap.Att
