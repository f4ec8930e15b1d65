import Verif.Spec.Map

/-
Specification vocabulary: the contents of a file. Nothing here refers to chunks.
-/

namespace Radix.Spec

/-- The contents of a file: a byte for every offset, 0 where nothing was written. -/
abbrev Contents := Nat → UInt8

/-- The contents after writing `data` at `offset`. -/
def overwrite (v : Contents) (offset : Nat) (data : Bytes) : Contents := fun p =>
  if offset ≤ p ∧ p < offset + data.length then data.getD (p - offset) 0 else v p

/-- The contents after cutting off everything from `n` on. -/
def cut (v : Contents) (n : Nat) : Contents := fun p => if p < n then v p else 0

/-- The bytes are those of the file from `start` on. -/
def Shows (v : Contents) (start : Nat) (bs : Bytes) : Prop := ∀ i, i < bs.length → bs[i]? = some (v (start + i))

end Radix.Spec
