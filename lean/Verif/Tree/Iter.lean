import Verif.Tree.Combine

/-
Model of the iterators over detached trees (src/node/mod.rs 2966-3220). The store never fails here;
iteration over a failing store is treated in `Verif/Stored`.
-/

set_option linter.unusedVariables false

namespace Radix
open Node

/-- One stack frame `(usize, Option<TreeNodeIter>)` of `KeyValueIter` and `GroupBy`
(src/node/mod.rs 3078, 3144). -/
abbrev Frame := Nat × Option (List Node)

/-- `KeyValueIter` (src/node/mod.rs 3076-3080). The top of the stack is the head of the list. `IterKey` is
just its bytes here (its copy on write is treated in `Verif/Heap`). -/
structure KVIter where
  path : Bytes
  stack : List Frame

/-- Termination measure of one frame. Of the model only, for the loop of src/node/mod.rs 3099-3123. -/
def frameSize : Frame → Nat
  | (_, some l) => 3 * nodesL l + 2
  | (_, none) => 1

/-- Termination measure of a stack. Of the model only, for the loop of src/node/mod.rs 3099-3123. -/
def stackSize : List Frame → Nat
  | [] => 0
  | f :: fs => frameSize f + stackSize fs

/-- `IterKey::append` (src/node/mod.rs 2977-2983). -/
def pathAppend (path data : Bytes) : Bytes := path ++ data

/-- `IterKey::pop` (src/node/mod.rs 2985-2988), with `saturating_sub`. -/
def pathPop (path : Bytes) (n : Nat) : Bytes := path.take (path.length - n)

theorem frameSize_le (m : Nat) (n : Node) : frameSize (m, n.loadChildrenOwned) ≤ 3 * n.nodes - 1 := by
  cases n with
  | mk p v c => rcases c with _ | c <;> simp [loadChildrenOwned, Node.ch, frameSize, nodes, nodesO] <;> omega

theorem nodes_pos (n : Node) : 0 < n.nodes := by cases n; simp [nodes]; omega

/-- `KeyValueIter::next0` (src/node/mod.rs 3099-3123). -/
def KVIter.next0 (s : KVIter) : Option (Bytes × Bytes) × KVIter :=
  match h : s.stack with
  | [] => (none, s)
  | (plen, some (node :: rest)) :: st =>
    let path := pathAppend s.path node.pfx
    let s' : KVIter := ⟨path, (node.pfx.length, node.loadChildrenOwned) :: (plen, some rest) :: st⟩
    match node.val with
    | some v => (some (path, v), s')
    | none => s'.next0
  | (plen, some []) :: st => KVIter.next0 ⟨s.path, (plen, none) :: st⟩
  | (plen, none) :: st => KVIter.next0 ⟨pathPop s.path plen, st⟩
termination_by stackSize s.stack
decreasing_by
  · have := frameSize_le node.pfx.length node
    have := nodes_pos node
    rw [h]; simp only [stackSize]
    simp only [frameSize, nodesL] at *; omega
  · rw [h]; simp only [stackSize, frameSize, nodesL]; omega
  · rw [h]; simp only [stackSize, frameSize]; omega

theorem KVIter.next0_size (s : KVIter) (x : Bytes × Bytes) (s' : KVIter) (h : s.next0 = (some x, s')) :
    stackSize s'.stack < stackSize s.stack := by
  fun_induction KVIter.next0 s generalizing x s' with
  | case1 => simp_all
  | case2 s plen node rest st hs path s1 v hv =>
    simp only [Prod.mk.injEq] at h
    obtain ⟨_, rfl⟩ := h
    have := frameSize_le node.pfx.length node
    have := nodes_pos node
    rw [hs]; simp only [s1, stackSize, frameSize, nodesL] at *; omega
  | case3 s plen node rest st hs path s1 hv ih =>
    have := ih _ _ h
    have := frameSize_le node.pfx.length node
    have := nodes_pos node
    rw [hs]; simp only [s1, stackSize, frameSize, nodesL] at *; omega
  | case4 s plen st hs ih =>
    have := ih _ _ h
    rw [hs]; simp only [stackSize, frameSize, nodesL] at *; omega
  | case5 s plen st hs ih =>
    have := ih _ _ h
    rw [hs]; simp only [stackSize, frameSize] at *; omega

/-- Collecting an iterator: calling `Iterator::next` (src/node/mod.rs 3129-3139) until it returns `None`. -/
def KVIter.toList (s : KVIter) : List (Bytes × Bytes) :=
  match h : s.next0 with
  | (none, _) => []
  | (some x, s') => x :: s'.toList
termination_by stackSize s.stack
decreasing_by exact KVIter.next0_size s x s' h

/-- `RadixTree::try_iter` (src/node/mod.rs 3542-3548), `KeyValueIter::new` (3091-3097). -/
def kvIter (t : Node) : KVIter := ⟨[], [(0, some [t])]⟩

/-- `RadixTree::iter` (src/node/mod.rs 3253-3255), collected. -/
def iter (t : Node) : List (Bytes × Bytes) := (kvIter t).toList

/-- `scan_prefix` (src/node/mod.rs 1988-2009), `KeyValueIter::empty` (3083-3089). -/
def scanPrefixIter (t : Node) (p : Bytes) : KVIter :=
  match find t p with
  | .found u => ⟨p, [(0, some [u])]⟩
  | .pre u matching => ⟨p.take (p.length - matching), [(0, some [u])]⟩
  | .notFound => ⟨[], []⟩

/-- `RadixTree::scan_prefix` (src/node/mod.rs 3261-3268), collected. -/
def scanPrefix (t : Node) (p : Bytes) : List (Bytes × Bytes) := (scanPrefixIter t p).toList

/-- Termination measure of a `ValueIter` stack. Of the model only, for the loop of src/node/mod.rs 3038-3053. -/
def vstackSize : List (List Node) → Nat
  | [] => 0
  | l :: ls => 2 * nodesL l + 1 + vstackSize ls

/-- Pushing the children, if there are any to push (src/node/mod.rs 3042-3044). -/
def pushOpt (o : Option (List Node)) (st : List (List Node)) : List (List Node) :=
  match o with
  | some l => l :: st
  | none => st

theorem vstackSize_pushOpt (n : Node) (st : List (List Node)) :
    vstackSize (pushOpt n.loadChildrenOwned st) < 2 * n.nodes + vstackSize st := by
  cases n with
  | mk p v c =>
    rcases c with _ | c <;> simp [loadChildrenOwned, Node.ch, pushOpt, vstackSize, nodes, nodesO] <;> omega

/-- `ValueIter::next0` (src/node/mod.rs 3038-3053); the state is the stack, top first. -/
def valNext0 (s : List (List Node)) : Option Bytes × List (List Node) :=
  match s with
  | [] => (none, [])
  | (node :: rest) :: st =>
    match node.val with
    | some v => (some v, pushOpt node.loadChildrenOwned (rest :: st))
    | none => valNext0 (pushOpt node.loadChildrenOwned (rest :: st))
  | [] :: st => valNext0 st
termination_by vstackSize s
decreasing_by
  · have := vstackSize_pushOpt node (rest :: st)
    simp only [vstackSize, nodesL] at *; omega
  · simp only [vstackSize]; omega

theorem valNext0_size (s : List (List Node)) (x : Bytes) (s' : List (List Node))
    (h : valNext0 s = (some x, s')) : vstackSize s' < vstackSize s := by
  fun_induction valNext0 s generalizing x s' with
  | case1 => simp_all
  | case2 node rest st v hv =>
    simp only [Prod.mk.injEq] at h
    obtain ⟨_, rfl⟩ := h
    have := vstackSize_pushOpt node (rest :: st)
    simp only [vstackSize, nodesL] at *; omega
  | case3 node rest st hv ih =>
    have := ih _ _ h
    have := vstackSize_pushOpt node (rest :: st)
    simp only [vstackSize, nodesL] at *; omega
  | case4 st ih =>
    have := ih _ _ h
    simp only [vstackSize]; omega

/-- Collecting a `ValueIter` (src/node/mod.rs 3059-3069). -/
def valToList (s : List (List Node)) : List Bytes :=
  match h : valNext0 s with
  | (none, _) => []
  | (some x, s') => x :: valToList s'
termination_by vstackSize s
decreasing_by exact valNext0_size s x s' h

/-- `RadixTree::values` (src/node/mod.rs 3257-3259, 3551-3556), collected. -/
def values (t : Node) : List Bytes := valToList [[t]]

/-- `GroupBy::next0` (src/node/mod.rs 3159-3201). -/
def groupNext0 (descend : Bytes → Node → Bool) (s : KVIter) : Option Node × KVIter :=
  match h : s.stack with
  | [] => (none, s)
  | (plen, some (node :: rest)) :: st =>
    let path := pathAppend s.path node.pfx
    if descend path node then
      let s' : KVIter := ⟨path, (node.pfx.length, node.loadChildrenOwned) :: (plen, some rest) :: st⟩
      if node.val.isSome then (some (mk path node.val none), s')
      else groupNext0 descend s'
    else
      (some (node.setPrefix path), ⟨pathPop path node.pfx.length, (plen, some rest) :: st⟩)
  | (plen, some []) :: st => groupNext0 descend ⟨s.path, (plen, none) :: st⟩
  | (plen, none) :: st => groupNext0 descend ⟨pathPop s.path plen, st⟩
termination_by stackSize s.stack
decreasing_by
  · have := frameSize_le node.pfx.length node
    have := nodes_pos node
    rw [h]; simp only [stackSize]
    simp only [frameSize, nodesL] at *; omega
  · rw [h]; simp only [stackSize, frameSize, nodesL]; omega
  · rw [h]; simp only [stackSize, frameSize]; omega

theorem groupNext0_size (descend : Bytes → Node → Bool) (s : KVIter) (x : Node) (s' : KVIter)
    (h : groupNext0 descend s = (some x, s')) : stackSize s'.stack < stackSize s.stack := by
  fun_induction groupNext0 descend s generalizing x s' with
  | case1 => simp_all
  | case2 s plen node rest st hs path hd s1 hv =>
    simp only [Prod.mk.injEq] at h
    obtain ⟨_, rfl⟩ := h
    have := frameSize_le node.pfx.length node
    have := nodes_pos node
    rw [hs]; simp only [s1, stackSize, frameSize, nodesL] at *; omega
  | case3 s plen node rest st hs path hd s1 hv ih =>
    have := ih _ _ h
    have := frameSize_le node.pfx.length node
    have := nodes_pos node
    rw [hs]; simp only [s1, stackSize, frameSize, nodesL] at *; omega
  | case4 s plen node rest st hs path hd =>
    simp only [Prod.mk.injEq] at h
    obtain ⟨_, rfl⟩ := h
    have := nodes_pos node
    rw [hs]; simp only [stackSize, frameSize, nodesL]; omega
  | case5 s plen st hs ih =>
    have := ih _ _ h
    rw [hs]; simp only [stackSize, frameSize, nodesL] at *; omega
  | case6 s plen st hs ih =>
    have := ih _ _ h
    rw [hs]; simp only [stackSize, frameSize] at *; omega

/-- Collecting a `GroupBy` (src/node/mod.rs 3209-3219). -/
def groupToList (descend : Bytes → Node → Bool) (s : KVIter) : List Node :=
  match h : groupNext0 descend s with
  | (none, _) => []
  | (some x, s') => x :: groupToList descend s'
termination_by stackSize s.stack
decreasing_by exact groupNext0_size descend s x s' h

/-- `RadixTree::group_by` (src/node/mod.rs 3270-3276, 3568-3584), collected. -/
def groupBy (t : Node) (descend : Bytes → Node → Bool) : List Node := groupToList descend (kvIter t)

end Radix
