import Verif.Heap.Caught
import Verif.Spec.AttSession
import Verif.Stored.History

/- Specification of sessions and iterators that go on after a panic was caught. -/

set_option linter.unusedVariables false

namespace Radix

section
variable {σ ε : Type} {S : BlobStore σ ε}

/-- The log of an iterator over the items `l`; a step is marked `true` if failures are panics, which the program catches. The iterator yields the items in order, and after the last one `None` forever. Only a step in
which a read fails does not yield the next item. If this is an error, the iterator has ended. If it is a panic, then some of the next items are left out, and the iterator goes on after these; `gone l1 l'` says which
items `l1` may be left out, when the items `l'` remain. -/
def SkipLog {α β : Type} (L : Lawful S) (same : σ → α → β → Prop) (gone : List β → List β → Prop) : List β → List ((Bool × σ) × Option (Except ε α)) → Prop
  | _, [] => True
  | l, (_, none) :: rest => l = [] ∧ SkipLog L same gone [] rest
  | l, (p, some (.ok a)) :: rest => ∃ b l', l = b :: l' ∧ same p.2 a b ∧ SkipLog L same gone l' rest
  | l, (p, some (.error _)) :: rest => ¬ ReadsSucceed L p.2 ∧ ∃ l1 l', l = l1 ++ l' ∧ (if p.1 then gone l1 l' else l' = []) ∧ SkipLog L same gone l' rest

/-- The entries `l1` are those of `l1 ++ l'` whose keys begin with some prefix. -/
def Branch (l1 l' : List (Bytes × Bytes)) : Prop := ∃ p, (∀ e ∈ l1, p <+: e.1) ∧ ∀ e ∈ l', ¬ p <+: e.1

end

namespace Heap.Att

/-- The slot that a call changes, if any. -/
def changesC {σ ε : Type} : Call σ ε → Option Nat
  | .op o => changes o
  | .next i => some i
  | .nextGroup i _ => some i

end Heap.Att

end Radix
