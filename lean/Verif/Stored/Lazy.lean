import Verif.Stored.Cost

/-
Vocabulary to speak about a user who takes some elements from an iterator over a tree in a store.
-/

set_option linter.unusedVariables false

namespace Radix

/-- `Iterator::take(n)`, collected (Rust std), of the iterators of src/node/mod.rs 3056-3070, 3126-3140: calls of `next` until
there are `n` elements or it returns `None`. -/
def takeS {ι α : Type} (next : ι → Res Empty (Option α × ι)) : Nat → ι → Res Empty (List α)
  | 0, _ => .ok []
  | n + 1, s => (next s).bind fun x =>
    match x.1 with
    | none => .ok []
    | some y => (takeS next n x.2).bind fun l => .ok (y :: l)

/-- The bytes of the keys of these entries, and one more for each of them. For the keys of src/node/mod.rs 3056-3070. -/
def keyBytes (l : List (Bytes × Bytes)) : Nat := (l.map fun e => e.1.length + 1).sum

section
variable {σ ε : Type} (S : BlobStore σ ε)

/-- `try_iter` (src/node/mod.rs 3542-3548) and the first `n` elements. -/
def firstEntriesS (st : σ) (fuel : Nat) (a : SNode) (n : Nat) : Res Empty (List (Except ε (Bytes × BlobV))) :=
  takeS (SIter.next S st fuel) n (iterS a)

/-- `try_values` (src/node/mod.rs 3551-3556) and the first `n` elements. -/
def firstValuesS (st : σ) (fuel : Nat) (a : SNode) (n : Nat) : Res Empty (List (Except ε BlobV)) :=
  takeS (valNextS S st fuel) n (valuesS a)

/-- `try_scan_prefix` (src/node/mod.rs 3559-3566) and the first `n` elements. The outer result is that of the call, which can
fail. -/
def scanEntriesS (st : σ) (fuel : Nat) (a : SNode) (p : Bytes) (n : Nat) :
    Res ε (Res Empty (List (Except ε (Bytes × BlobV)))) :=
  (scanPrefixS S fuel st a p).bind fun s => .ok (takeS (SIter.next S st fuel) n s)

end

end Radix
