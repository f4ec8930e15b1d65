import Verif.Tree.Combine

/-
The number of levels of a tree (not in the code; used to bound how deep calls recurse).
-/

namespace Radix
namespace Node

mutual
/-- Number of levels of a tree: 1 for a node without children (src/node/mod.rs 651-666, `TreeNode`). -/
def height : Node → Nat | mk _ _ c => 1 + heightO c
/-- Number of levels below a children field. Of the model only, for src/node/mod.rs 651-666. -/
def heightO : Option (List Node) → Nat | none => 0 | some l => heightL l
/-- Number of levels of the highest tree in a list. Of the model only, for src/node/mod.rs 651-666. -/
def heightL : List Node → Nat | [] => 0 | n :: l => max (height n) (heightL l)
end

theorem height_pos (n : Node) : 0 < n.height := by cases n; simp [height]; omega

theorem height_le_of_mem {l : List Node} {x : Node} (h : x ∈ l) : x.height ≤ heightL l := by
  induction l with
  | nil => cases h
  | cons a l ih =>
    simp only [heightL]
    rcases List.mem_cons.1 h with h | h
    · subst h; omega
    · have := ih h; omega

theorem heightL_le {l : List Node} {m : Nat} (h : ∀ x ∈ l, x.height ≤ m) : heightL l ≤ m := by
  induction l with
  | nil => simp [heightL]
  | cons a l ih =>
    simp only [heightL]
    have := h a (by simp)
    have := ih fun x hx => h x (by simp [hx])
    omega

theorem heightL_kids (a : Node) : heightL a.kids + 1 = a.height := by
  obtain ⟨p, v, c⟩ := a
  rcases c with _ | l <;> simp [height, heightO, kids, Node.ch, heightL] <;> omega

theorem height_kids {n c : Node} (h : c ∈ n.kids) : c.height < n.height := by
  have := height_le_of_mem h
  have := heightL_kids n
  omega

theorem height_cloneShortened (a : Node) (n : Nat) : (a.cloneShortened n).height = a.height := by
  cases a; simp [cloneShortened, height, Node.ch]

theorem heightO_loadChildren (n : Node) : heightO n.loadChildren + 1 = n.height := by
  obtain ⟨p, v, c⟩ := n
  rcases c with _ | (_ | ⟨x, l⟩) <;> simp [height, heightO, heightL, loadChildren, Node.ch] <;> omega

theorem heightO_single (a : Node) : heightO (some [a]) = a.height := by simp [heightO, heightL]

mutual
theorem height_le_nodes : ∀ n : Node, n.height ≤ n.nodes
  | mk p v c => by simp only [height, nodes]; have := heightO_le_nodesO c; omega
theorem heightO_le_nodesO : ∀ c : Option (List Node), heightO c ≤ nodesO c
  | none => Nat.le_refl _
  | some l => by simp only [heightO, nodesO]; exact heightL_le_nodesL l
theorem heightL_le_nodesL : ∀ l : List Node, heightL l ≤ nodesL l
  | [] => Nat.le_refl _
  | n :: l => by
    simp only [heightL, nodesL]
    have := height_le_nodes n
    have := heightL_le_nodesL l
    omega
end

end Node
end Radix
