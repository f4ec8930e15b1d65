import Verif.Tree.Api

/-
Concrete trees used to show that the hypotheses of the property theorems are met by non-trivial cases.
-/

namespace Radix
open Node

/-- `{"" → 9, "a" → 1, "ab" → 2, "abc" → 3, "b" → (empty value)}`, with an overwritten key. -/
def sampleA : Node := fromIter [([97, 98, 99], [3]), ([97], [7]), ([98], []), ([97, 98], [2]), ([], [9]), ([97], [1])]

/-- `{"a" → 5, "abd" → 6, "c" → 7}`, after a removal. -/
def sampleB : Node := remove (fromIter [([97, 98, 100], [6]), ([97], [5]), ([99], [7]), ([98, 98], [8])]) [98, 98]

/-- A tree whose root has a long prefix and no value: `{"xab" → 1, "xac" → 2}`. -/
def sampleC : Node := insert (single [120, 97, 98] [1]) [120, 97, 99] [2]

theorem sampleA_proper : Proper sampleA := .fromIter _
theorem sampleB_proper : Proper sampleB := .remove _ (.fromIter _)
theorem sampleC_proper : Proper sampleC := .insert _ _ (.single _ _)
theorem sampleA_reachable : Reachable sampleA := .fromIter _
theorem sampleB_reachable : Reachable sampleB := .remove _ (.fromIter _)
theorem sampleC_reachable : Reachable sampleC := .insert _ _ (.single _ _)

example : iter sampleA =
    [([], [9]), ([97], [1]), ([97, 98], [2]), ([97, 98, 99], [3]), ([98], [])] := by decide +kernel
example : iter sampleB = [([97], [5]), ([97, 98, 100], [6]), ([99], [7])] := by decide +kernel
example : iter sampleC = [([120, 97, 98], [1]), ([120, 97, 99], [2])] := by decide +kernel

end Radix
