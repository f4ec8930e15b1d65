import Verif.Tree.Node

/-
Model of lookup in detached trees: `find` and its users (src/node/mod.rs).
-/

set_option linter.unusedVariables false

namespace Radix
open Node

/-- The loop of `slice::binary_search_by_key` (Rust std, used at src/node/mod.rs 1816-1818): the classic
loop of std up to 1.8x; the documented result (an index of a match, if there is one) is the same for later
versions when the keys are strictly increasing. `target` and the keys are compared as `Option<u8>`. -/
def bsearch (l : List Node) (target : Nat) (left right : Nat) : Option Nat :=
  if h : left < right then
    let mid := left + (right - left) / 2
    match l[mid]? with
    | none => none   -- not reached: mid < right ≤ l.length
    | some x =>
      if rank x.firstByte < target then bsearch l target (mid + 1) right
      else if target < rank x.firstByte then bsearch l target left mid
      else some mid
  else none
termination_by right - left
decreasing_by all_goals omega

/-- `OwnedTreeNodeIter::find` (src/node/mod.rs 1811-1821): direct indexing for 256 children, binary search
otherwise. -/
def findChild (l : List Node) (c : UInt8) : Option Node :=
  if l.length = 256 then l[c.toNat]?
  else (bsearch l (rank (some c)) 0 l.length).bind fun i => l[i]?

/-- `FindResult` (src/node/mod.rs 1431-1443). -/
inductive FindResult where
  | found (t : Node)
  | pre (t : Node) (matching : Nat)
  | notFound

theorem bsearch_mem {l : List Node} {t a b i : Nat} (h : bsearch l t a b = some i) :
    ∃ x, l[i]? = some x := by
  fun_induction bsearch l t a b <;> grind

theorem findChild_mem {l : List Node} {c : UInt8} {x : Node} (h : findChild l c = some x) : x ∈ l := by
  unfold findChild at h
  split at h
  · exact List.mem_of_getElem? h
  · cases hb : bsearch l (rank (some c)) 0 l.length with
    | none => simp [hb] at h
    | some i => simp [hb] at h; exact List.mem_of_getElem? h

theorem nodes_le_of_mem {l : List Node} {x : Node} (h : x ∈ l) : x.nodes ≤ nodesL l := by
  induction l with
  | nil => cases h
  | cons a l ih =>
    simp only [nodesL]
    rcases List.mem_cons.1 h with h | h
    · subst h; omega
    · have := ih h; omega

theorem loadChildren_some {t : Node} {cs} (h : t.loadChildren = some cs) : t.ch = some cs := by
  unfold Node.loadChildren at h
  split at h <;> simp_all

/-- `find` (src/node/mod.rs 1449-1485), returning the `FindResult` that the code passes to `f`. -/
def find (t : Node) (p : Bytes) : FindResult :=
  let n := commonPrefix t.pfx p
  let rt := t.pfx.length - n
  let rp := p.length - n
  if rp = 0 ∧ rt = 0 then .found t
  else if rp = 0 then .pre t n
  else if rt = 0 then
    match p.drop n with
    | [] => .notFound   -- not reached: rp > 0, so `prefix[n]` exists
    | c :: rest =>
      match hl : t.loadChildren with
      | none => .notFound
      | some cs =>
        match hf : findChild cs c with
        | none => .notFound
        | some child => find child (c :: rest)
  else .notFound
termination_by t.nodes
decreasing_by
  have h1 := nodes_le_of_mem (findChild_mem hf)
  have h2 := loadChildren_some hl
  cases t with
  | mk q v ch => simp only [Node.ch] at h2; subst h2; simp only [nodes, nodesO]; omega

/-- `TreeNode::get` (src/node/mod.rs 828-837), `RadixTree::try_get` (3496-3498), `RadixTree::get` (3229-3231). -/
def get (t : Node) (k : Bytes) : Option Bytes :=
  match find t k with
  | .found u => u.val
  | _ => none

/-- `TreeNode::contains_key` (src/node/mod.rs 805-814), `RadixTree::contains_key` (3233-3235). -/
def containsKey (t : Node) (k : Bytes) : Bool :=
  match find t k with
  | .found u => u.val.isSome
  | _ => false

/-- `TreeNode::has_prefix` (src/node/mod.rs 817-826), `RadixTree::has_prefix` (3237-3239). -/
def hasPrefix (t : Node) (p : Bytes) : Bool :=
  match find t p with
  | .found _ => true
  | .pre _ _ => true
  | .notFound => false

/-- `filter_prefix` (src/node/mod.rs 1488-1513), `RadixTree::filter_prefix` (3380-3386). -/
def filterPrefix (t : Node) (p subst : Bytes) : Node :=
  match find t p with
  | .found u => u.setPrefix subst
  | .pre u matching => u.setPrefix (subst ++ u.pfx.drop matching)
  | .notFound => Node.empty

/-- `first_value` (src/node/mod.rs 1516-1527). `children.next().unwrap()` cannot fail because
`load_children` never gives an empty iterator. -/
def firstValue (t : Node) : Option Bytes :=
  match t.val with
  | some v => some v
  | none =>
    match h : t.loadChildren with
    | some (c :: _) => firstValue c
    | _ => none
termination_by t.nodes
decreasing_by
  have h2 := loadChildren_some h
  cases t with
  | mk q v ch => simp only [Node.ch] at h2; subst h2; simp only [nodes, nodesO, nodesL]; omega

/-- `last_value` (src/node/mod.rs 1530-1538). -/
def lastValue (t : Node) : Option Bytes :=
  match h : t.loadChildren with
  | some cs =>
    match hl : cs.getLast? with
    | some c => lastValue c
    | none => none   -- not reached: the code's `unwrap` of a non-empty iterator
  | none => t.val
termination_by t.nodes
decreasing_by
  have h1 := nodes_le_of_mem (List.mem_of_getLast? hl)
  have h2 := loadChildren_some h
  cases t with
  | mk q v ch => simp only [Node.ch] at h2; subst h2; simp only [nodes, nodesO]; omega

/-- `first_entry` (src/node/mod.rs 1541-1554), `RadixTree::first_entry` (3335-3337). -/
def firstEntry (pre : Bytes) (t : Node) : Option (Bytes × Bytes) :=
  let path := pre ++ t.pfx
  match t.val with
  | some v => some (path, v)
  | none =>
    match h : t.loadChildren with
    | some (c :: _) => firstEntry path c
    | _ => none
termination_by t.nodes
decreasing_by
  have h2 := loadChildren_some h
  cases t with
  | mk q v ch => simp only [Node.ch] at h2; subst h2; simp only [nodes, nodesO, nodesL]; omega

/-- `last_entry` (src/node/mod.rs 1557-1567), `RadixTree::last_entry` (3339-3341). -/
def lastEntry (pre : Bytes) (t : Node) : Option (Bytes × Bytes) :=
  let path := pre ++ t.pfx
  match h : t.loadChildren with
  | some cs =>
    match hl : cs.getLast? with
    | some c => lastEntry path c
    | none => none   -- not reached
  | none => t.val.map fun v => (path, v)
termination_by t.nodes
decreasing_by
  have h1 := nodes_le_of_mem (List.mem_of_getLast? hl)
  have h2 := loadChildren_some h
  cases t with
  | mk q v ch => simp only [Node.ch] at h2; subst h2; simp only [nodes, nodesO]; omega

end Radix
