import Verif.Tree.Api
import Verif.Tree.Iter
import Verif.Browser.Chunk
import Verif.Browser.Recover

/-
Conformance of the model with the unit tests of the code. These are no proofs of properties: each example runs the model on the
literal input of one unit test of the code and compares with the outcome that the test of the code asserts. A mistake in copying
the code into the model would show here. (The tests of the written bytes are in `Verif.Props.Persist`. The random tests of the
code are covered by the theorems.)

Where the test of the code compares with a `BTreeMap`, the entries of that map are written out.
-/

set_option linter.unusedVariables false

namespace Radix

/-- `mk_owned_tree` (src/node/tests.rs 36-38). -/
private def tree (l : List (Bytes × Bytes)) : Node := fromIter l

/-- `|a, b| a.set(Some(b))` (src/node/tests.rs 559). -/
private def second : Bytes → Bytes → Option Bytes := fun _ b => some b

-- `union_with1` (src/node/tests.rs 554-566)
example : iter (outerCombineWith .detach second (tree [([1], []), ([2], [])]) (tree [([1, 2], []), ([2], [])])) =
    [([1], []), ([1, 2], []), ([2], [])] := by decide +kernel

-- `union_with2` (src/node/tests.rs 569-581)
example : iter (outerCombineWith .detach second (tree [([], [])]) (tree [([], [0])])) = [([], [0])] := by decide +kernel

-- `union_with3` (src/node/tests.rs 584-596)
example : iter (outerCombineWith .detach second (tree [([], [])]) (tree [([], []), ([1], [])])) =
    [([], []), ([1], [])] := by decide +kernel

-- `intersection_with1` (src/node/tests.rs 599-613)
example : iter (innerCombineWith second (tree [([1, 2], [])]) (tree [([1], [])])) = [] := by decide +kernel

-- `intersection_with2` (src/node/tests.rs 616-630)
example : iter (innerCombineWith second (tree [([1, 2], [])]) (tree [([1, 3], [])])) = [] := by decide +kernel

-- `intersection_with3` (src/node/tests.rs 633-647)
example : iter (innerCombineWith second (tree [([], []), ([1], [])]) (tree [([], [])])) = [([], [])] := by decide +kernel

-- `intersection_with4` (src/node/tests.rs 650-664)
example : iter (innerCombineWith second (tree [([1, 2], [])]) (tree [([], []), ([1, 2], [])])) =
    [([1, 2], [])] := by decide +kernel

-- `difference_with1` (src/node/tests.rs 667-681)
example : iter (leftCombineWith second (tree [([], [])]) (tree [([1], [])])) = [([], [])] := by decide +kernel

-- `difference_with2` (src/node/tests.rs 684-698)
example : iter (leftCombineWith second (tree [(List.replicate 130 0, [])]) (tree [(List.replicate 129 0, [])])) =
    [(List.replicate 130 0, [])] := by decide +kernel

-- `difference_with3` (src/node/tests.rs 701-715)
example : iter (leftCombineWith second (tree [([1, 2], [0])]) (tree [([], []), ([1, 2], [])])) =
    [([1, 2], [])] := by decide +kernel

-- `is_subset1` (src/node/tests.rs 718-726)
example : (!leftCombinePred (fun _ _ => false) (tree [([1], [])]) (tree [])) = false := by decide +kernel

-- `is_subset2` (src/node/tests.rs 729-737)
example : (!leftCombinePred (fun _ _ => false) (tree [([1, 1, 1], [])]) (tree [([1, 2], [])])) = false := by decide +kernel

-- `is_subset3` (src/node/tests.rs 740-748)
example : (!leftCombinePred (fun _ _ => false) (tree [([1, 1], []), ([1, 2], [])]) (tree [])) = false := by decide +kernel

-- `is_subset4` (src/node/tests.rs 751-759)
example : (!leftCombinePred (fun _ _ => false) (tree [([1], [])]) (tree [([], []), ([1], [])])) = true := by decide +kernel

-- `is_subset5` (src/node/tests.rs 762-770)
example : (!leftCombinePred (fun _ _ => false) (tree [([], []), ([1], [])]) (tree [([], []), ([2], [])])) =
    false := by decide +kernel

-- `is_subset6` (src/node/tests.rs 773-781)
example : (!leftCombinePred (fun _ _ => false) (tree [([1], [])]) (tree [([1], []), ([2], [])])) = true := by decide +kernel

-- `retain_prefix_with1` (src/node/tests.rs 784-792)
example : iter (retainPrefixWith (fun _ => true) (tree [([1], [])]) (tree [([2], []), ([3], [])])) = [] := by decide +kernel

-- `retain_prefix_with2` (src/node/tests.rs 795-803)
example : iter (retainPrefixWith (fun _ => true) (tree [([1], []), ([1, 1], [])]) (tree [([1, 1], [])])) =
    [([1, 1], [])] := by decide +kernel

-- `retain_prefix_with3` (src/node/tests.rs 806-814)
example : iter (retainPrefixWith (fun _ => true) (tree [([1], [])]) (tree [([], [])])) = [([1], [])] := by decide +kernel

-- `retain_prefix_with4` (src/node/tests.rs 817-825)
example : iter (retainPrefixWith (fun _ => true) (tree [([1, 2], [])]) (tree [([1], [])])) =
    [([1, 2], [])] := by decide +kernel

-- `remove_prefix_with1` (src/node/tests.rs 828-836)
example : iter (removePrefixWith (fun _ => true) (tree [([1], [])]) (tree [([2], []), ([3], [])])) =
    [([1], [])] := by decide +kernel

-- `remove_prefix_with2` (src/node/tests.rs 839-847)
example : iter (removePrefixWith (fun _ => true) (tree [([], [])]) (tree [])) = [([], [])] := by decide +kernel

-- `remove_prefix_with3` (src/node/tests.rs 850-858)
example : iter (removePrefixWith (fun _ => true) (tree [([1], []), ([1, 1], [])]) (tree [([1, 1], [])])) =
    [([1], [])] := by decide +kernel

-- `remove_prefix_with4` (src/node/tests.rs 861-869)
example : iter (removePrefixWith (fun _ => true) (tree [([1, 2], [])]) (tree [([1], [])])) = [] := by decide +kernel

-- `remove_prefix_with5` (src/node/tests.rs 872-880)
example : iter (removePrefixWith (fun _ => true) (tree [([1, 2], [])]) (tree [([1, 2], []), ([1, 3], [])])) =
    [] := by decide +kernel


end Radix

namespace Radix.Browser

/-- The chunks of `add_ops` and `truncate_ops` (browser/src/web_cache_fs.rs 812-814, 867-869). -/
private def two : List Chunk := [.new (0, 100) 0, .new (100, 200) 0]

/-- `vec![0; n]` (browser/src/web_cache_fs.rs 817). -/
private def zeros (n : Nat) : Bytes := List.replicate n 0

-- `add_ops` (browser/src/web_cache_fs.rs 811-863)
example : add two 200 (zeros 50) = .ok [.write (.new (200, 250) 0) (zeros 50)] := by decide +kernel
example : add two 100 (zeros 150) =
    .ok [.write (.new (100, 250) 1) (zeros 150), .delete (.new (100, 200) 0)] := by decide +kernel
example : add two 190 (zeros 50) = .ok [.write (.new (190, 240) 1) (zeros 50), .rewrite (.new (100, 190) 1),
    .delete (.new (100, 200) 0)] := by decide +kernel
example : add two 50 (zeros 100) = .ok [.write (.new (50, 150) 1) (zeros 100), .rewrite (.new (0, 50) 1),
    .delete (.new (0, 100) 0), .rewrite (.new (150, 200) 1), .delete (.new (100, 200) 0)] := by decide +kernel
example : add two 25 (zeros 50) = .ok [.write (.new (25, 75) 1) (zeros 50), .rewrite (.new (0, 25) 1),
    .rewrite (.new (75, 100) 1), .delete (.new (0, 100) 0)] := by decide +kernel

-- `truncate_ops` (browser/src/web_cache_fs.rs 866-902)
example : truncatePlan two 200 = .ok [] := by decide +kernel
example : truncatePlan two 250 = .ok [] := by decide +kernel
example : truncatePlan two 100 = .ok [.delete (.new (100, 200) 0)] := by decide +kernel
example : truncatePlan two 190 = .ok [.rewrite (.new (100, 190) 1), .delete (.new (100, 200) 0)] := by decide +kernel
example : truncatePlan two 10 = .ok [.rewrite (.new (0, 10) 1), .delete (.new (0, 100) 0), .delete (.new (100, 200) 0)] := by
  decide +kernel

-- `open_ops` (browser/src/web_cache_fs.rs 903-959)
example : openPlan [.new (0, 100) 0, .new (0, 100) 1] = .ok [.delete (.new (0, 100) 0)] := by decide +kernel
example : openPlan [.new (0, 100) 0, .new (50, 150) 0] = .ok [.rewrite (.new (0, 50) 1), .delete (.new (0, 100) 0)] := by decide +kernel
example : openPlan [.new (0, 100) 0, .new (25, 75) 1] =
    .ok [.rewrite (.new (0, 25) 2), .rewrite (.new (75, 100) 2), .delete (.new (0, 100) 0)] := by decide +kernel
example : openPlan [.new (1, 100) 0, .new (25, 75) 1] = .ok [.delete (.new (25, 75) 1), .delete (.new (1, 100) 0)] := by decide +kernel
example : openPlan [.new (0, 100) 0, .new (101, 201) 0] = .ok [.delete (.new (101, 201) 0)] := by decide +kernel

-- `overlap_test` (browser/src/lib.rs 131-135)
example : overlap (0, 1) (0, 1) = true := by decide +kernel
example : overlap (0, 1) (1, 2) = false := by decide +kernel
example : overlap (1, 2) (0, 1) = false := by decide +kernel

-- `range_test` (browser/src/lib.rs 138-160)
example : ranges (0, 1) (0, 1) = .ok ((0, 1), (0, 1)) := by decide +kernel
example : ranges (10, 20) (10, 110) = .ok ((0, 10), (0, 10)) := by decide +kernel
example : ranges (10, 110) (10, 20) = .ok ((0, 10), (0, 10)) := by decide +kernel
example : ranges (10, 20) (10, 15) = .ok ((0, 5), (0, 5)) := by decide +kernel
example : ranges (10, 20) (15, 20) = .ok ((5, 10), (0, 5)) := by decide +kernel
example : ranges (10, 20) (100, 150) = .ok ((10, 10), (0, 0)) := by decide +kernel
example : ranges (100, 150) (10, 15) = .ok ((0, 0), (90, 90)) := by decide +kernel

end Radix.Browser
