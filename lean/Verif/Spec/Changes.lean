import Verif.Spec.Pieces

/-
Specification for C45 and C47: what the length of a file of the browser file system is after any calls that change it.

To what `Spec/Pieces.lean` says of writes, this adds appending and cutting off. Appending is a write at the length. Cutting off at `size` removes the pieces that reach beyond it;
what is left of the piece that is cut goes to the level above all that reached beyond.
-/

namespace Radix.Spec

/-- A call that changes a file: write `len` bytes at `offset`, append `len` bytes, cut off at `size`. -/
inductive Change where
  | write (offset len : Nat)
  | append (len : Nat)
  | cut (size : Nat)

/-- The highest level. -/
def topLevel (ps : List Piece) : Nat := (ps.map (·.level)).foldr max 0

/-- The furthest end among the pieces of the highest level. -/
def topEnd (ps : List Piece) : Nat := ((ps.filter fun p => decide (p.level = topLevel ps)).map fun p => p.offset + p.len).foldr max 0

/-- The level for what is left of a piece that is cut at `size`: above all pieces that reach beyond. -/
def levelOver (ps : List Piece) (size : Nat) : Nat := ((ps.filter fun p => decide (size < p.offset + p.len)).map (·.level + 1)).foldr max 0

/-- The pieces after cutting off at `size`. -/
def cutAt (ps : List Piece) (size : Nat) : List Piece :=
  ((ps.filter fun p => decide (size < p.offset + p.len) && decide (p.offset < size)).map fun p => ⟨levelOver ps size, p.offset, size - p.offset⟩) ++
  ps.filter fun p => decide (p.offset + p.len ≤ size)

/-- The pieces after one more change. -/
def change (ps : List Piece) : Change → List Piece
  | .write offset len => stack ps (offset, len)
  | .append len => stack ps (topEnd ps, len)
  | .cut size => cutAt ps size

/-- The pieces after some changes. -/
def piecesOf (cs : List Change) : List Piece := cs.foldl change []

end Radix.Spec
