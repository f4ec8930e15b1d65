import Verif.Spec.Map

/-
The documented format of stored trees, written from the section "Data format" of the documentation (src/lib.rs 104-200), not from the code. `has i d` says that the store has the
bytes `d` under the id `i`. Nothing here refers to the model of the code.
-/

namespace Radix.Spec.Format

/-- What is stored: nodes of prefix, optional value, and children (src/lib.rs 111). -/
inductive Doc where
  | node (pfx : Bytes) (val : Option Bytes) (kids : List Doc)

/-- The prefix. -/
def Doc.pfx : Doc → Bytes
  | .node p _ _ => p

/-- The first byte of the prefix. -/
def Doc.first (d : Doc) : Option UInt8 := d.pfx.head?

mutual
/-- The entries, in the order in which they are stored: keys are the prefixes on the way to the value. -/
def entries (above : Bytes) : Doc → List (Bytes × Bytes)
  | .node p v l => (match v with | some x => [(above ++ p, x)] | none => []) ++ entriesL (above ++ p) l
/-- The entries of siblings. -/
def entriesL (above : Bytes) : List Doc → List (Bytes × Bytes)
  | [] => []
  | d :: l => entries above d ++ entriesL above l
end

/-- The map that is stored. -/
def mapOf (d : Doc) : Map := fun k => ((entries [] d).find? fun e => decide (e.1 = k)).map (·.2)

/-- An inline field: highest bit 0, the lower seven bits are the length (src/lib.rs 116-121). For at most 127 bytes. -/
def literal (d : Bytes) : Bytes := UInt8.ofNat d.length :: d

/-- A field with an id: highest bit 1, the lower seven bits are the length (src/lib.rs 116-121). For at most 127 bytes. -/
def reference (i : Bytes) : Bytes := UInt8.ofNat (128 + i.length) :: i

/-- Which rules hold. `prefixIds`: prefixes may be stored indirectly. `exact`: the rules that only a writer has to follow; what is short is stored inline, and
the record size is as described. -/
structure Rules where
  prefixIds : Bool
  exact : Bool

section
variable (R : Rules) (has : Bytes → Bytes → Prop)

/-- The prefix field (src/lib.rs 114, 126, 128-130). -/
def IsPrefix (p field : Bytes) : Prop :=
  p.length ≤ 127 ∧ field = literal p ∨
    R.prefixIds = true ∧ (R.exact = true → 127 < p.length) ∧
      ∃ c i, p.head? = some c ∧ i.length ≤ 126 ∧ has i p ∧ field = reference (c :: i)

/-- The value field (src/lib.rs 114, 123-126). -/
def IsVal : Option Bytes → Bytes → Prop
  | none, field => field = reference []
  | some v, field => v.length ≤ 127 ∧ field = literal v ∨
      (R.exact = true → 127 < v.length) ∧ ∃ i, i ≠ [] ∧ i.length ≤ 127 ∧ has i v ∧ field = reference i

/-- The record size byte (src/lib.rs 179-188; the sentence breaks off, the example has the size that the records have in common). If they have different sizes,
or if the size does not fit into a byte, it is zero. -/
def IsSize (s : UInt8) (records : List Bytes) : Prop :=
  (∀ r ∈ records, r.length = s.toNat) ∨ s = 0 ∧ ¬ ∃ n, n < 256 ∧ ∀ r ∈ records, r.length = n

mutual
/-- The bytes are the node. -/
def IsNode : Doc → Bytes → Prop
  | .node p v l, bs => ∃ f1 f2 f3, bs = f1 ++ f2 ++ f3 ∧ IsPrefix R has p f1 ∧ IsVal R has v f2 ∧ IsKids l f3
/-- The children field: nothing, or the record size and an id of a blob with the nodes one after the other (src/lib.rs 114, 123, 178-200). -/
def IsKids : List Doc → Bytes → Prop
  | [], field => field = reference []
  | d :: l, field => ∃ s i r rs, i.length ≤ 126 ∧ field = reference (s :: i) ∧ has i (r :: rs).flatten ∧
      (R.exact = true → IsSize s (r :: rs)) ∧ IsNode d r ∧ IsNodes l rs
/-- One record for each. -/
def IsNodes : List Doc → List Bytes → Prop
  | [], rs => rs = []
  | d :: l, rs => ∃ r rs', rs = r :: rs' ∧ IsNode d r ∧ IsNodes l rs'
end

end

mutual
/-- Prefixes of children are not empty (src/lib.rs 113), and siblings have different first bytes, in increasing order. -/
def Ordered : Doc → Prop
  | .node _ _ l => OrderedL l
/-- `Ordered` for siblings. -/
def OrderedL : List Doc → Prop
  | [] => True
  | d :: l => d.pfx ≠ [] ∧ (∀ e ∈ l, ∀ x y, d.first = some x → e.first = some y → x < y) ∧ Ordered d ∧ OrderedL l
end

mutual
/-- Every node has a value or at least two children. (The documentation has "either value or children", src/lib.rs 112.) -/
def Compact : Doc → Prop
  | .node _ v l => (v ≠ none ∨ 2 ≤ l.length) ∧ CompactL l
/-- `Compact` for siblings. -/
def CompactL : List Doc → Prop
  | [] => True
  | d :: l => Compact d ∧ CompactL l
end

/-- A valid tree: ordered, and compact unless it is the empty tree. -/
def Valid (d : Doc) : Prop := Ordered d ∧ (d = .node [] none [] ∨ Compact d)

end Radix.Spec.Format
