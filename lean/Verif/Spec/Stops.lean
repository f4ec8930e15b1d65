import Verif.Spec.Map

/-
Specification for C90 and C91: where the keys of a map end or part.
-/

namespace Radix.Spec

/-- `p` is a key of the map, or two keys of the map part right after `p`. -/
def Stop (m : Map) (p : Bytes) : Prop :=
  m p ≠ none ∨ ∃ x y r s, x ≠ y ∧ m (p ++ x :: r) ≠ none ∧ m (p ++ y :: s) ≠ none

/-- Where `m'` stops on the way to a key of `m`, `m` stops too. -/
def Fits (m m' : Map) : Prop := ∀ p k, Stop m' p → m (p ++ k) ≠ none → Stop m p

/-- The keys of both maps. -/
def Map.both (m m' : Map) : Map := fun k => (m k).or (m' k)

/-- A key of `m` that is empty or on the way to a key of `m'` is a key of `m'`, too. -/
def Shared (m m' : Map) : Prop := ∀ p, m p ≠ none → (p = [] ∨ ∃ k, m' (p ++ k) ≠ none) → m' p ≠ none

/-- Where `m` goes on after a key of `m'` (or has a key that is not empty), `m'` goes on as well. -/
def Within (m m' : Map) : Prop := ∀ p x k, m (p ++ x :: k) ≠ none → (p = [] ∨ m' p ≠ none) → ∃ y r, m' (p ++ y :: r) ≠ none

end Radix.Spec
