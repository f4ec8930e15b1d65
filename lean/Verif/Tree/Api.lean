import Verif.Tree.Iter
import Verif.Spec.Map

/-
The trees a user of the infallible API can get hold of, and programs of API calls.
-/

namespace Radix
open Node

/-- `strict → NotDegenerate t p s` is a side condition on `filter_prefix` calls (src/node/mod.rs 1488-1513): the
call `t.filter_prefix("", s)` with `s` not empty, on a tree without entries, gives a tree whose root has a
non-empty prefix and neither value nor children (see finding F6 in DESIGN.md). -/
def NotDegenerate (t : Node) (p s : Bytes) : Prop := s = [] ∨ p ≠ [] ∨ ∃ k v, get t k = some v

/-- The trees that calls of the public infallible API (`impl RadixTree`, src/node/mod.rs 3222-3483, and the
items of `group_by` 3270-3276, `try_detached` 3486-3493) produce. With `strict`, calls of `filter_prefix` that
are degenerate in the sense of `NotDegenerate` are left out. `clone` gives the same tree (see `Verif/Heap`). -/
inductive Reach (strict : Bool) : Node → Prop
  | empty : Reach strict Node.empty
  | leaf (v : Bytes) : Reach strict (leaf v)
  | single (k v : Bytes) : Reach strict (single k v)
  | fromIter (l : List (Bytes × Bytes)) : Reach strict (fromIter l)
  | insert {t} (k v : Bytes) : Reach strict t → Reach strict (insert t k v)
  | remove {t} (k : Bytes) : Reach strict t → Reach strict (remove t k)
  | removePrefix {t} (p : Bytes) : Reach strict t → Reach strict (removePrefix t p)
  | filterPrefix {t} (p s : Bytes) : Reach strict t → (strict = true → NotDegenerate t p s) →
      Reach strict (filterPrefix t p s)
  | outerCombine {a b} (f) : Reach strict a → Reach strict b → Reach strict (outerCombine f a b)
  | innerCombine {a b} (f) : Reach strict a → Reach strict b → Reach strict (innerCombine f a b)
  | leftCombine {a b} (f) : Reach strict a → Reach strict b → Reach strict (leftCombine f a b)
  | outerCombineWith {a b} (c f) : Reach strict a → Reach strict b → Reach strict (outerCombineWith c f a b)
  | innerCombineWith {a b} (f) : Reach strict a → Reach strict b → Reach strict (innerCombineWith f a b)
  | leftCombineWith {a b} (f) : Reach strict a → Reach strict b → Reach strict (leftCombineWith f a b)
  | retainPrefixWith {a b} (f) : Reach strict a → Reach strict b → Reach strict (retainPrefixWith f a b)
  | removePrefixWith {a b} (f) : Reach strict a → Reach strict b → Reach strict (removePrefixWith f a b)
  | groupBy {t} (descend) (u) : Reach strict t → u ∈ groupBy t descend → Reach strict u
  | detached {t} : Reach strict t → Reach strict t.detached

/-- Every tree the API can produce. For src/node/mod.rs 3406-3819. -/
abbrev Reachable (t : Node) : Prop := Reach false t

/-- Every tree the API can produce without degenerate `filter_prefix` calls. For src/node/mod.rs 3406-3819. -/
abbrev Proper (t : Node) : Prop := Reach true t

/-- Programs of tree-building API calls (src/node/mod.rs 3222-3483). -/
inductive Prog
  | default
  | leaf (v : Bytes)
  | single (k v : Bytes)
  | fromIter (l : List (Bytes × Bytes))
  | insert (p : Prog) (k v : Bytes)
  | remove (p : Prog) (k : Bytes)
  | removePrefix (p : Prog) (pre : Bytes)
  | filterPrefix (p : Prog) (pre subst : Bytes)
  | outerCombine (f : Bytes → Bytes → Option Bytes) (p q : Prog)
  | innerCombine (f : Bytes → Bytes → Option Bytes) (p q : Prog)
  | leftCombine (f : Bytes → Bytes → Option Bytes) (p q : Prog)
  | outerCombineWith (f : Bytes → Bytes → Option Bytes) (p q : Prog)
  | innerCombineWith (f : Bytes → Bytes → Option Bytes) (p q : Prog)
  | leftCombineWith (f : Bytes → Bytes → Option Bytes) (p q : Prog)
  | retainPrefixWith (p q : Prog)
  | removePrefixWith (f : Bytes → Bool) (p q : Prog)

/-- Running a program on trees: each call is the modelled function (src/node/mod.rs 3222-3483; the `_with`
functions of the public API use the `DetachConverter`, 3350-3378). -/
def Prog.run : Prog → Node
  | .default => Node.empty
  | .leaf v => Node.leaf v
  | .single k v => Node.single k v
  | .fromIter l => Radix.fromIter l
  | .insert p k v => Radix.insert p.run k v
  | .remove p k => Radix.remove p.run k
  | .removePrefix p pre => Radix.removePrefix p.run pre
  | .filterPrefix p pre s => Radix.filterPrefix p.run pre s
  | .outerCombine f p q => Radix.outerCombine f p.run q.run
  | .innerCombine f p q => Radix.innerCombine f p.run q.run
  | .leftCombine f p q => Radix.leftCombine f p.run q.run
  | .outerCombineWith f p q => Radix.outerCombineWith .detach f p.run q.run
  | .innerCombineWith f p q => Radix.innerCombineWith f p.run q.run
  | .leftCombineWith f p q => Radix.leftCombineWith f p.run q.run
  | .retainPrefixWith p q => Radix.retainPrefixWith (fun _ => true) p.run q.run
  | .removePrefixWith f p q => Radix.removePrefixWith f p.run q.run

/-- Running the same program on plain maps (the specification; no tree is involved). For src/node/mod.rs 3406-3819. -/
noncomputable def Prog.spec : Prog → Spec.Map
  | .default => .empty
  | .leaf v => Spec.Map.insert .empty [] v
  | .single k v => Spec.Map.insert .empty k v
  | .fromIter l => Spec.Map.ofList l
  | .insert p k v => p.spec.insert k v
  | .remove p k => p.spec.erase k
  | .removePrefix p pre => p.spec.erasePrefix pre
  | .filterPrefix p pre s => p.spec.filterPrefix pre s
  | .outerCombine f p q => Spec.Map.combine (Spec.outer f) p.spec q.spec
  | .innerCombine f p q => Spec.Map.combine (Spec.inner f) p.spec q.spec
  | .leftCombine f p q => Spec.Map.combine (Spec.left f) p.spec q.spec
  | .outerCombineWith f p q => Spec.Map.combine (Spec.outer f) p.spec q.spec
  | .innerCombineWith f p q => Spec.Map.combine (Spec.inner f) p.spec q.spec
  | .leftCombineWith f p q => Spec.Map.combine (Spec.left f) p.spec q.spec
  | .retainPrefixWith p q => Spec.Map.retainPrefix (fun _ => true) p.spec q.spec
  | .removePrefixWith f p q => Spec.Map.removePrefix f p.spec q.spec

end Radix
