import Verif.Proofs.Scan
import Verif.Props.Sample

/-
Properties C22 - C27: ends of the iteration, grouping, equality, emptiness, compact shape.
-/

namespace Radix
open Node

/-- **C22** (partial): first and last value and entry are the ends of `iter`, and there are none iff `iter` is empty.
Missing: trees made by a degenerate `filter_prefix` call, for which it is false (`C22_first_last_false`). -/
theorem C22_first_last_partial {t : Node} (h : Proper t) (p : Bytes) :
    firstValue t = (iter t).head?.map (·.2) ∧ lastValue t = (iter t).getLast?.map (·.2) ∧
    firstEntry p t = (iter t).head?.map (fun e => (p ++ e.1, e.2)) ∧
    lastEntry p t = (iter t).getLast?.map (fun e => (p ++ e.1, e.2)) ∧
    ((firstValue t = none ↔ iter t = []) ∧ (lastValue t = none ↔ iter t = []) ∧
      (firstEntry p t = none ↔ iter t = []) ∧ (lastEntry p t = none ↔ iter t = [])) := by
  have ho := reach_ord h
  have hs := proper_shape h
  have h1 : firstEntry p t = (iter t).head?.map (fun e => (p ++ e.1, e.2)) := by
    rw [firstEntry_eq hs ho, ents_pre, iter_eq, List.head?_map]
  have h2 : lastEntry p t = (iter t).getLast?.map (fun e => (p ++ e.1, e.2)) := by
    rw [lastEntry_eq hs ho, ents_pre, iter_eq, List.getLast?_map]
  have h3 : firstValue t = (iter t).head?.map (·.2) := by
    rw [firstValue_eq t [], firstEntry_eq hs ho, iter_eq]
  have h4 : lastValue t = (iter t).getLast?.map (·.2) := by
    rw [lastValue_eq t [], lastEntry_eq hs ho, iter_eq]
  refine ⟨h3, h4, h1, h2, ?_⟩
  rw [h1, h2, h3, h4]
  simp

/-- The full claim is false: `t = filter_prefix("", "x")` of the empty tree, then `t.insert("y", 1)`: the tree has an
entry but `first_value` finds none. -/
theorem C22_first_last_false :
    Reachable (insert (filterPrefix Node.empty [] [120]) [121] [1]) ∧
    iter (insert (filterPrefix Node.empty [] [120]) [121] [1]) = [([121], [1])] ∧
    firstValue (insert (filterPrefix Node.empty [] [120]) [121] [1]) = none :=
  ⟨.insert _ _ (.filterPrefix _ _ .empty (fun e => by cases e)), by decide +kernel⟩

example : Proper sampleA ∧ firstEntry [7] sampleA = some ([7], [9]) ∧ lastEntry [7] sampleA = some ([7, 98], []) ∧
    lastValue sampleB = some [7] := ⟨sampleA_proper, by decide +kernel⟩

/-- **C23**. For every `descend` predicate, the iterations of the trees yielded by `group_by` concatenate to the
iteration of the tree. -/
theorem C23_group_by (t : Node) (descend : Bytes → Node → Bool) :
    (groupBy t descend).flatMap iter = iter t := by
  have := groupBy_eq t descend
  rw [entsTrees] at this
  rw [iter_eq, ← this]
  congr 1
  funext n; exact iter_eq n

example : (groupBy sampleA fun path _ => path.length < 1).map iter =
    [[([], [9])], [([97], [1]), ([97, 98], [2]), ([97, 98, 99], [3])], [([98], [])]] := by decide +kernel

/-- The tree is the result of one of the copying operations. -/
inductive CopyResult : Node → Prop
  | outer (f) (a b : Node) : CopyResult (outerCombine f a b)
  | inner (f) (a b : Node) : CopyResult (innerCombine f a b)
  | left (f) (a b : Node) : CopyResult (leftCombine f a b)
  | detached (a : Node) : CopyResult a.detached
  | single (k v : Bytes) : CopyResult (single k v)
  | empty : CopyResult Node.empty

theorem CopyResult.nf {t : Node} (h : CopyResult t) : NF t := by
  cases h with
  | outer f a b => exact outerCombine_nf f a b
  | inner f a b => exact innerCombine_nf f a b
  | left f a b => exact leftCombine_nf f a b
  | detached a => exact nf_detached a
  | single k v => simp [Node.single, NF, NFO]
  | empty => exact nf_empty

/-- **C24** (partial): for two results of the copying operations (`outer_combine`, `inner_combine`, `left_combine`,
`try_detached`) on proper trees that hold no empty values, `==` holds iff all lookups agree. Missing: trees changed
in place (`C24_eq_false_in_place`), trees with empty values (`C24_eq_false_empty_value`). -/
theorem C24_eq_partial {a b : Node} (ha : Proper a) (hb : Proper b) (na : CopyResult a) (nb : CopyResult b)
    (va : ∀ k, get a k ≠ some []) (vb : ∀ k, get b k ≠ some []) :
    nodeEq a b = true ↔ ∀ k, get a k = get b k := by
  have oa := reach_ord ha
  have ob := reach_ord hb
  have ea : get a = den a := funext fun k => get_eq_den _ _ oa
  have eb : get b = den b := funext fun k => get_eq_den _ _ ob
  rw [ea] at va; rw [eb] at vb; rw [ea, eb]
  constructor
  · intro h; exact nodeEq_contents h va vb
  · exact nodeEq_of_contents oa ob (proper_shape ha) (proper_shape hb) na.nf nb.nf

/-- Equal trees without empty values have the same contents, however they were made. -/
theorem C24_eq_sound {a b : Node} (ha : Reachable a) (hb : Reachable b) (h : nodeEq a b = true)
    (va : ∀ k, get a k ≠ some []) (vb : ∀ k, get b k ≠ some []) (k : Bytes) : get a k = get b k := by
  have oa := reach_ord ha
  have ob := reach_ord hb
  have ea : get a = den a := funext fun k => get_eq_den _ _ oa
  have eb : get b = den b := funext fun k => get_eq_den _ _ ob
  rw [ea] at va; rw [eb] at vb; rw [ea, eb]
  exact nodeEq_contents h va vb k

/-- The full claim is false: after inserting the same key twice the tree differs from the tree where it was
inserted once. -/
theorem C24_eq_false_in_place : ¬ ∀ a b : Node, Proper a → Proper b → (∀ k, get a k = get b k) →
    nodeEq a b = true := by
  intro h
  have pa : Proper (insert (insert Node.empty [97] [1]) [97] [1]) := .insert _ _ (.insert _ _ .empty)
  have pb : Proper (insert Node.empty [97] [1]) := .insert _ _ .empty
  have := h _ _ pa pb fun k => by
    rw [get_eq_den _ _ (reach_ord pa), get_eq_den _ _ (reach_ord pb),
      insert_den (reach_ord pb), insert_den ord_empty]
    split <;> rfl
  revert this; decide +kernel

/-- The full claim is false: a tree with an empty value equals the tree without entries. -/
theorem C24_eq_false_empty_value : ¬ ∀ a b : Node, Proper a → Proper b → nodeEq a b = true →
    ∀ k, get a k = get b k := by
  intro h
  have := h (single [] []) Node.empty (.single _ _) .empty (by decide +kernel) []
  revert this; decide +kernel

theorem get_ne_nil_of_iter {t : Node} (h : Reachable t) (hv : ((iter t).all fun e => e.2 != []) = true) (k : Bytes) :
    get t k ≠ some [] := by
  intro hk
  have := List.all_eq_true.1 hv _ ((mem_iter (reach_ord h) k []).2 hk)
  simp at this

example : Proper (outerCombine (fun a _ => some a) sampleB sampleC) ∧
    CopyResult (outerCombine (fun a _ => some a) sampleB sampleC) ∧
    Proper sampleB.detached ∧ CopyResult sampleB.detached ∧
    (∀ k, get (outerCombine (fun a _ => some a) sampleB sampleC) k ≠ some []) ∧ (∀ k, get sampleB.detached k ≠ some []) ∧
    nodeEq (outerCombine (fun a _ => some a) sampleB sampleC) sampleB.detached = false ∧
    nodeEq (outerCombine (fun a _ => some a) sampleB sampleB) sampleB.detached = true :=
  ⟨.outerCombine _ sampleB_proper sampleC_proper, .outer _ _ _, .detached sampleB_proper, .detached _,
    get_ne_nil_of_iter (.outerCombine _ sampleB_reachable sampleC_reachable) (by decide +kernel),
    get_ne_nil_of_iter (.detached sampleB_reachable) (by decide +kernel), by decide +kernel⟩

/-- **C25** (partial): `is_empty` is true iff no key is present; `is_leaf` implies at most one entry, and the converse
holds for results of copying operations. Missing: `is_leaf` after in-place changes (`C25_is_leaf_false`) and trees
made by a degenerate `filter_prefix` call (`C25_is_empty_false`). -/
theorem C25_is_empty_is_leaf_partial {t : Node} (h : Proper t) :
    (t.isEmpty = true ↔ ∀ k, get t k = none) ∧ (t.isLeaf = true → (iter t).length ≤ 1) ∧
    (CopyResult t → (t.isLeaf = true ↔ (iter t).length ≤ 1)) := by
  have ho := reach_ord h
  have e : get t = den t := funext fun k => get_eq_den _ _ ho
  refine ⟨by rw [e]; exact isEmpty_iff ho (proper_shape h), isLeaf_entries, fun hc => ⟨isLeaf_entries, ?_⟩⟩
  exact isLeaf_of_entries ho (proper_shape h) hc.nf

/-- The full claim is false: after inserting the same key twice there is one entry, but `is_leaf` is false. -/
theorem C25_is_leaf_false : Proper (insert (insert Node.empty [97] [1]) [97] [1]) ∧
    iter (insert (insert Node.empty [97] [1]) [97] [1]) = [([97], [1])] ∧
    (insert (insert Node.empty [97] [1]) [97] [1]).isLeaf = false :=
  ⟨.insert _ _ (.insert _ _ .empty), by decide +kernel⟩

/-- For degenerate `filter_prefix` results also `is_empty` is wrong: two of them joined have no entry and are not
empty. -/
theorem C25_is_empty_false :
    let d := fun x => filterPrefix Node.empty [] [x]
    let t := outerCombineWith .detach (fun a _ => some a) (d 120) (d 121)
    Reachable t ∧ t.isEmpty = false ∧ iter t = [] := by
  refine ⟨.outerCombineWith _ _ ?_ ?_, by decide +kernel⟩ <;>
    exact .filterPrefix _ _ .empty (fun e => by cases e)

example : Proper sampleA ∧ sampleA.isEmpty = false ∧ Proper (remove (single [97] [1]) [97]) ∧
    (remove (single [97] [1]) [97]).isEmpty = true ∧ (remove (single [97] [1]) [97]).isLeaf = true :=
  ⟨sampleA_proper, by decide +kernel, .remove _ (.single _ _), by decide +kernel⟩

/-- `n` is a node strictly below `t`. -/
inductive Below (t : Node) : Node → Prop
  | child {n} : n ∈ t.kids → Below t n
  | deeper {n m} : Below t n → m ∈ n.kids → Below t m

/-- Siblings start with different bytes, in increasing order. -/
def Increasing (l : List Node) : Prop :=
  l.Pairwise fun x y => ∃ a b, x.pfx.head? = some a ∧ y.pfx.head? = some b ∧ a < b

theorem increasing_of_ordK {l : List Node} (h : OrdK l) : Increasing l := by
  rw [ordK_iff] at h
  refine List.Pairwise.imp_of_mem ?_ h.2
  intro x y hx hy hr
  obtain ⟨a, ha⟩ := firstByte_of_ne_nil (h.1 x hx).1
  obtain ⟨b, hb⟩ := firstByte_of_ne_nil (h.1 y hy).1
  refine ⟨a, b, ha, hb, ?_⟩
  rw [ha, hb] at hr
  simp only [rank] at hr
  exact UInt8.lt_iff_toNat_lt.2 (by omega)

theorem below_ord {t n : Node} (ho : Ord t) (h : Below t n) : n.pfx ≠ [] ∧ Ord n := by
  induction h with
  | child hn => exact ((ord_iff t).1 ho).mem hn
  | deeper _ hm ih => exact ((ord_iff _).1 ih.2).mem hm

theorem below_cmp {t n : Node} (hs : Shape t) (h : Below t n) : Cmp n := by
  induction h with
  | child hn => exact hs.kids _ hn
  | deeper _ hm ih => exact ((cmp_iff _).1 ih).2 _ hm

/-- **C26** (partial): in every proper tree each node below the root has a non-empty prefix and a value or at least two
children, siblings are in strictly increasing order of their first bytes (also those of the root), and there are at
most `2 * entries + 1` nodes. Missing: trees made by a degenerate `filter_prefix` call (`C26_compact_shape_false`). -/
theorem C26_compact_shape_partial {t : Node} (h : Proper t) :
    (∀ n, Below t n → n.pfx ≠ [] ∧ (n.val.isSome ∨ 2 ≤ n.kids.length) ∧ Increasing n.kids) ∧
    Increasing t.kids ∧ t.nodes ≤ 2 * (iter t).length + 1 := by
  have ho := reach_ord h
  have hs := proper_shape h
  refine ⟨fun n hn => ?_, increasing_of_ordK ((ord_iff t).1 ho), shape_nodes hs⟩
  have h1 := below_ord ho hn
  exact ⟨h1.1, ((cmp_iff n).1 (below_cmp hs hn)).1, increasing_of_ordK ((ord_iff n).1 h1.2)⟩

/-- What holds in every reachable tree, degenerate calls included. -/
theorem C26_order {t : Node} (h : Reachable t) :
    (∀ n, Below t n → n.pfx ≠ [] ∧ Increasing n.kids) ∧ Increasing t.kids := by
  have ho := reach_ord h
  refine ⟨fun n hn => ?_, increasing_of_ordK ((ord_iff t).1 ho)⟩
  have h1 := below_ord ho hn
  exact ⟨h1.1, increasing_of_ordK ((ord_iff n).1 h1.2)⟩

/-- The full claim is false: a node below the root with neither value nor children. -/
theorem C26_compact_shape_false :
    let t := insert (filterPrefix Node.empty [] [120]) [121] [1]
    Reachable t ∧ ∃ n, Below t n ∧ n.val = none ∧ n.kids.length = 0 := by
  refine ⟨.insert _ _ (.filterPrefix _ _ .empty (fun e => by cases e)), mk [120] none none, .child ?_, rfl, rfl⟩
  rw [insert, outerCombineWith]
  simp [filterPrefix, find, Node.empty, commonPrefix, setPrefix, single, split, canonicalize, mergeOnlyChild,
    sortByFirst, insertByFirst, Conv.nodeShortened, Conv.node, cloneShortened, kids, firstByte, rank, childCount]

example : Proper sampleA ∧ sampleA.nodes = 5 ∧ (iter sampleA).length = 5 ∧ sampleB.nodes = 4 :=
  ⟨sampleA_proper, by decide +kernel⟩

/-- Two trees with the same root prefix, root value and recursively the same children. -/
inductive SameTree : Node → Node → Prop
  | intro {a b} : a.pfx = b.pfx → a.val = b.val → a.kids.length = b.kids.length →
      (∀ (i : Nat) (x y : Node), a.kids[i]? = some x → b.kids[i]? = some y → SameTree x y) → SameTree a b

theorem sameTree_of_detached {a b : Node} (h : a.detached = b.detached) : SameTree a b := by
  induction a using Node.kidsInduction generalizing b with
  | step a ih =>
    have hp : a.pfx = b.pfx := by
      have := congrArg Node.pfx h; cases a; cases b; exact this
    have hv : a.val = b.val := by
      have := congrArg Node.val h; cases a; cases b; exact this
    have hk : a.kids.map detached = b.kids.map detached := by
      rw [← kids_detached, ← kids_detached, h]
    refine .intro hp hv (by simpa using congrArg List.length hk) fun i x y hx hy => ?_
    refine ih x (List.mem_of_getElem? hx) ?_
    have := congrArg (·[i]?) hk
    simpa [hx, hy] using this

/-- Corollary: two proper trees with the same contents are the same trees (up to empty children vectors, which
are not observable except by `==` and `is_leaf`). -/
theorem C27_reachable_unique {a b : Node} (ha : Proper a) (hb : Proper b) (h : ∀ k, get a k = get b k) :
    SameTree a b := by
  have oa := reach_ord ha
  have ob := reach_ord hb
  refine sameTree_of_detached (shape_unique (proper_shape ha) (proper_shape hb) oa ob fun k => ?_)
  rw [← get_eq_den _ _ oa, ← get_eq_den _ _ ob, h]

/-- **C27**. Stated for any two trees in compact shape, not only reachable ones, with the shape spelled out. -/
theorem C27_shape_unique {a b : Node}
    (ha : ∀ n, Below a n → n.pfx ≠ [] ∧ (n.val.isSome ∨ 2 ≤ n.kids.length) ∧ Increasing n.kids)
    (ra : Increasing a.kids) (ea : a.isEmpty = true ∧ a.pfx = [] ∨ a.val.isSome ∨ 2 ≤ a.kids.length)
    (hb : ∀ n, Below b n → n.pfx ≠ [] ∧ (n.val.isSome ∨ 2 ≤ n.kids.length) ∧ Increasing n.kids)
    (rb : Increasing b.kids) (eb : b.isEmpty = true ∧ b.pfx = [] ∨ b.val.isSome ∨ 2 ≤ b.kids.length)
    (h : ∀ k, get a k = get b k) : SameTree a b := by
  have toOrd : ∀ t : Node, (∀ n, Below t n → n.pfx ≠ [] ∧ (n.val.isSome ∨ 2 ≤ n.kids.length) ∧ Increasing n.kids) →
      Increasing t.kids → Ord t ∧ ∀ c ∈ t.kids, Cmp c := by
    intro t
    induction t using Node.kidsInduction with
    | step t ih =>
      intro hn hr
      have sub : ∀ c ∈ t.kids, ∀ n, Below c n → Below t n := by
        intro c hc n hcn
        induction hcn with
        | child hm => exact .deeper (.child hc) hm
        | deeper _ hm ih => exact .deeper ih hm
      have kid : ∀ c ∈ t.kids, Ord c ∧ Cmp c := by
        intro c hc
        have h1 := hn c (.child hc)
        have h2 := ih c hc (fun n hcn => hn n (sub c hc n hcn)) h1.2.2
        exact ⟨h2.1, (cmp_iff c).2 ⟨h1.2.1, h2.2⟩⟩
      refine ⟨?_, fun c hc => (kid c hc).2⟩
      rw [ord_iff, ordK_iff]
      refine ⟨fun c hc => ⟨(hn c (.child hc)).1, (kid c hc).1⟩, hr.imp ?_⟩
      rintro x y ⟨a, b, h1, h2, h3⟩
      simp only [firstByte, h1, h2, rank]
      have := UInt8.lt_iff_toNat_lt.1 h3
      omega
  have toShape : ∀ t : Node, (∀ c ∈ t.kids, Cmp c) →
      (t.isEmpty = true ∧ t.pfx = [] ∨ t.val.isSome ∨ 2 ≤ t.kids.length) → Shape t := by
    rintro t hk (⟨h1, h2⟩ | h1)
    · left
      cases t with
      | mk p v c =>
        rcases v with _ | v <;> rcases c with _ | c <;> simp_all [isEmpty, hasValue, isLeaf, Node.empty]
    · exact Or.inr ((cmp_iff t).2 ⟨h1, hk⟩)
  have h1 := toOrd a ha ra
  have h2 := toOrd b hb rb
  refine sameTree_of_detached (shape_unique (toShape a h1.2 ea) (toShape b h2.2 eb) h1.1 h2.1 fun k => ?_)
  rw [← get_eq_den _ _ h1.1, ← get_eq_den _ _ h2.1, h]

/-- Two histories with the same contents: insertion in two orders, with a detour. -/
example : let a := fromIter [([97, 98], [1]), ([97], [2]), ([99], [3])]
    let b := remove (fromIter [([99], [3]), ([97], [2]), ([97, 98, 99], [0]), ([97, 98], [1])]) [97, 98, 99]
    Proper a ∧ Proper b ∧ iter a = iter b ∧ nodeEq a b = false :=
  ⟨.fromIter _, .remove _ (.fromIter _), by decide +kernel⟩

end Radix
