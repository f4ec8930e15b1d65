/-
Specification vocabulary: what the operations mean on plain key-value maps. Nothing here refers to trees.
-/

namespace Radix.Spec

/-- Keys and values are byte strings. -/
abbrev Bytes := List UInt8

/-- A map from keys to values: `none` means "no entry". -/
abbrev Map := Bytes → Option Bytes

/-- Outer combination of two optional values: keep a value that exists on one side only, apply `f` to two. -/
def outer (f : Bytes → Bytes → Option Bytes) : Option Bytes → Option Bytes → Option Bytes
  | some a, some b => f a b
  | some a, none => some a
  | none, some b => some b
  | none, none => none

/-- Inner combination: only keys of both sides can survive. -/
def inner (f : Bytes → Bytes → Option Bytes) : Option Bytes → Option Bytes → Option Bytes
  | some a, some b => f a b
  | _, _ => none

/-- Left combination: keys of the left side, with `f` applied where the right side has an entry. -/
def left (f : Bytes → Bytes → Option Bytes) : Option Bytes → Option Bytes → Option Bytes
  | some a, some b => f a b
  | some a, none => some a
  | none, _ => none

/-- `k` starts with some key of `m` whose value satisfies `f`. -/
def Selected (f : Bytes → Bool) (m : Map) (k : Bytes) : Prop :=
  ∃ q v, q <+: k ∧ m q = some v ∧ f v = true

/-- The keys of `m` part at `q`: `q` is a key itself, or two keys go on after `q` with different bytes. -/
def PartsAt (m : Map) (q : Bytes) : Prop :=
  (∃ v, m q = some v) ∨
  ∃ x y r s v w, x ≠ y ∧ m (q ++ x :: r) = some v ∧ m (q ++ y :: s) = some w

/-- `k` starts with a key of `m'` selected by `f`, and the keys of `m` part at each prefix of that key which is a key
of `m'` rejected by `f`. -/
def SelectedPast (f : Bytes → Bool) (m m' : Map) (k : Bytes) : Prop :=
  ∃ q v, q <+: k ∧ m' q = some v ∧ f v = true ∧
    ∀ q' v', q' <+: q → m' q' = some v' → f v' = false → PartsAt m q'

namespace Map

/-- The map without entries. -/
def empty : Map := fun _ => none

/-- The map with one entry more, or with one value replaced. -/
def insert (m : Map) (k v : Bytes) : Map := fun k' => if k' = k then some v else m k'

/-- The map without the entry of `k`. -/
def erase (m : Map) (k : Bytes) : Map := fun k' => if k' = k then none else m k'

/-- The map without the entries whose key starts with `p`. -/
def erasePrefix (m : Map) (p : Bytes) : Map := fun k => if p <+: k then none else m k

/-- The entries whose key starts with `p`, with `p` replaced by `s`. -/
def filterPrefix (m : Map) (p s : Bytes) : Map := fun k =>
  if s <+: k then m (p ++ k.drop s.length) else none

/-- Pointwise combination of two maps. -/
def combine (g : Option Bytes → Option Bytes → Option Bytes) (m m' : Map) : Map := fun k => g (m k) (m' k)

open Classical in
/-- The entries of `m` whose key starts with a key of `m'` selected by `f`. -/
noncomputable def retainPrefix (f : Bytes → Bool) (m m' : Map) : Map := fun k =>
  if Selected f m' k then m k else none

open Classical in
/-- The entries of `m` whose key starts with a key of `m'` selected by `f` that is reached past the rejected ones. -/
noncomputable def retainPast (f : Bytes → Bool) (m m' : Map) : Map := fun k =>
  if SelectedPast f m m' k then m k else none

open Classical in
/-- The entries of `m` whose key starts with no key of `m'` selected by `f`. -/
noncomputable def removePrefix (f : Bytes → Bool) (m m' : Map) : Map := fun k =>
  if Selected f m' k then none else m k

/-- The map of a list of pairs, where later pairs win. -/
def ofList (l : List (Bytes × Bytes)) : Map := l.foldl (fun m p => m.insert p.1 p.2) empty

end Map

end Radix.Spec
