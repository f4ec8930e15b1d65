/-
Specification for C45: what the length of a file of the browser file system is after writes that may overlap.

The bytes written are kept in pieces. A piece has a level. A write that meets no piece is a new piece on level 0. A write that meets pieces is a new piece
on the next level above all of them, and what is left of these pieces goes up to this level too. The length is the furthest end among the pieces of the highest
level, and so it can be less than the furthest end of all.
-/

namespace Radix.Spec

/-- A piece of a file: its level, the offset of its first byte, and how many bytes there are. -/
structure Piece where
  level : Nat
  offset : Nat
  len : Nat
deriving DecidableEq

/-- The piece meets the write (offset and number of bytes). -/
def Piece.hit (w : Nat × Nat) (p : Piece) : Bool := decide (w.1 < p.offset + p.len) && decide (p.offset < w.1 + w.2)

/-- The level for a write: above all pieces that it meets. -/
def levelFor (ps : List Piece) (w : Nat × Nat) : Nat := ((ps.filter (Piece.hit w)).map (·.level + 1)).foldr max 0

/-- What is left of a piece before and after the write, on the new level. -/
def Piece.left (w : Nat × Nat) (level : Nat) (p : Piece) : List Piece :=
  (if p.offset < w.1 then [⟨level, p.offset, w.1 - p.offset⟩] else []) ++
  (if w.1 + w.2 < p.offset + p.len then [⟨level, w.1 + w.2, p.offset + p.len - (w.1 + w.2)⟩] else [])

/-- The pieces after one more write. -/
def stack (ps : List Piece) (w : Nat × Nat) : List Piece :=
  ⟨levelFor ps w, w.1, w.2⟩ :: (ps.filter fun p => !p.hit w) ++ (ps.filter (Piece.hit w)).flatMap (Piece.left w (levelFor ps w))

/-- The pieces after some writes. -/
def pieces (ws : List (Nat × Nat)) : List Piece := ws.foldl stack []

/-- `n` is the furthest end among the pieces of the highest level; 0 if there are none. -/
def TopEnd (ps : List Piece) (n : Nat) : Prop :=
  ps = [] ∧ n = 0 ∨
  ∃ p ∈ ps, (∀ q ∈ ps, q.level ≤ p.level) ∧ (∀ q ∈ ps, q.level = p.level → q.offset + q.len ≤ p.offset + p.len) ∧ n = p.offset + p.len

end Radix.Spec
