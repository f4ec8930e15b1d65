import Verif.Tree.Iter

/-
Proof-internal: lemmas on byte strings, and the denotation `den` of a tree as a function on keys.
-/

set_option linter.unusedVariables false

namespace Radix
open Node

/-- `strip p k` is the rest of `k` after the prefix `p`. -/
def strip : Bytes → Bytes → Option Bytes
  | [], k => some k
  | _ :: _, [] => none
  | a :: p, b :: k => if a = b then strip p k else none

theorem strip_eq_some {p k r : Bytes} : strip p k = some r ↔ k = p ++ r := by
  fun_induction strip p k <;> grind

theorem strip_append_self (p r : Bytes) : strip p (p ++ r) = some r := strip_eq_some.2 rfl

theorem strip_eq_none {p k : Bytes} : strip p k = none ↔ ¬ p <+: k := by
  constructor
  · rintro h ⟨r, rfl⟩; simp [strip_append_self] at h
  · intro h
    cases hs : strip p k with
    | none => rfl
    | some r => exact absurd ⟨r, (strip_eq_some.1 hs).symm⟩ h

theorem strip_append (p q k : Bytes) : strip (p ++ q) k = (strip p k).bind (strip q) := by
  fun_induction strip p k <;> simp_all [strip]

theorem commonPrefix_nil_left (b : Bytes) : commonPrefix [] b = 0 := by simp [commonPrefix]
theorem commonPrefix_nil_right (a : Bytes) : commonPrefix a [] = 0 := by simp [commonPrefix]
theorem commonPrefix_cons (x y : UInt8) (a b : Bytes) :
    commonPrefix (x :: a) (y :: b) = if x = y then commonPrefix a b + 1 else 0 := by
  unfold commonPrefix
  by_cases h : x = y <;> simp [h]

/-- What `commonPrefix` computes. -/
theorem commonPrefix_spec (a b : Bytes) : ∃ p a' b', a = p ++ a' ∧ b = p ++ b' ∧
    commonPrefix a b = p.length ∧ (a' = [] ∨ b' = [] ∨ a'.head? ≠ b'.head?) := by
  induction a generalizing b with
  | nil => exact ⟨[], [], b, rfl, rfl, by simp [commonPrefix_nil_left], Or.inl rfl⟩
  | cons x a ih =>
    cases b with
    | nil => exact ⟨[], x :: a, [], rfl, rfl, by simp [commonPrefix_nil_right], Or.inr (Or.inl rfl)⟩
    | cons y b =>
      by_cases h : x = y
      · obtain ⟨p, a', b', h1, h2, h3, h4⟩ := ih b
        subst h
        exact ⟨x :: p, a', b', by simp [← h1], by simp [← h2], by simp [commonPrefix_cons, h3], h4⟩
      · exact ⟨[], x :: a, y :: b, rfl, rfl, by simp [commonPrefix_cons, h], by simp [h]⟩

theorem rank_inj {a b : Option UInt8} (h : rank a = rank b) : a = b := by
  cases a <;> cases b <;> simp_all [rank]
  exact UInt8.toNat_inj.1 h

mutual
/-- The value a tree holds for a key, read off the structure. -/
def den : Node → Bytes → Option Bytes
  | mk p v c, k =>
    match strip p k with
    | none => none
    | some [] => v
    | some (x :: xs) => denO c (x :: xs)
/-- `den` for a children field. -/
def denO : Option (List Node) → Bytes → Option Bytes
  | none, _ => none
  | some l, k => denK l k
/-- `den` for a list of siblings: the one that starts with the first byte of the key decides. -/
def denK : List Node → Bytes → Option Bytes
  | [], _ => none
  | n :: l, k => bif n.firstByte == k.head? then den n k else denK l k
end

/-- The sibling starting with byte `x`. -/
def childAt (l : List Node) (x : UInt8) : Option Node := l.find? fun c => c.firstByte == some x

theorem denK_cons_eq (l : List Node) (x : UInt8) (xs : Bytes) :
    denK l (x :: xs) = (childAt l x).bind (den · (x :: xs)) := by
  induction l with
  | nil => simp [denK, childAt]
  | cons n l ih =>
    simp only [denK, childAt, List.find?_cons, List.head?_cons]
    by_cases h : n.firstByte = some x
    · simp [h]
    · have : (n.firstByte == some x) = false := by simpa using h
      simp [this, ih, childAt]

theorem denO_eq (c : Option (List Node)) (k : Bytes) : denO c k = denK (c.getD []) k := by
  cases c <;> simp [denO, denK]

theorem den_eq (n : Node) (k : Bytes) : den n k =
    match strip n.pfx k with
    | none => none
    | some [] => n.val
    | some (x :: xs) => denK n.kids (x :: xs) := by
  cases n; simp only [den, denO_eq, kids, Node.pfx, Node.val, Node.ch]

mutual
/-- The order invariant: siblings have non-empty prefixes and are strictly increasing by first byte. -/
def Ord : Node → Prop
  | mk _ _ c => OrdO c
/-- The order invariant of a children field. -/
def OrdO : Option (List Node) → Prop
  | none => True
  | some l => OrdK l
/-- The order invariant of a list of siblings. -/
def OrdK : List Node → Prop
  | [] => True
  | n :: l => n.pfx ≠ [] ∧ Ord n ∧ (∀ m ∈ l, rank n.firstByte < rank m.firstByte) ∧ OrdK l
end

theorem ord_iff (n : Node) : Ord n ↔ OrdK n.kids := by
  cases n with
  | mk p v c => cases c <;> simp [Ord, OrdO, kids, Node.ch, OrdK]

theorem ordK_iff (l : List Node) : OrdK l ↔
    (∀ c ∈ l, c.pfx ≠ [] ∧ Ord c) ∧ l.Pairwise (fun x y => rank x.firstByte < rank y.firstByte) := by
  induction l with
  | nil => simp [OrdK]
  | cons n l ih => simp only [OrdK, ih, List.pairwise_cons, List.mem_cons, forall_eq_or_imp]; grind

theorem OrdK.mem {l : List Node} (h : OrdK l) {c : Node} (hc : c ∈ l) : c.pfx ≠ [] ∧ Ord c :=
  ((ordK_iff l).1 h).1 c hc

theorem childAt_mem {l : List Node} {x : UInt8} {c : Node} (h : childAt l x = some c) :
    c ∈ l ∧ c.firstByte = some x := by
  unfold childAt at h
  exact ⟨List.mem_of_find?_eq_some h, by simpa using List.find?_some h⟩

/-- In ordered siblings a first byte occurs once. -/
theorem childAt_of_mem {l : List Node} (h : OrdK l) {c : Node} (hc : c ∈ l) {x : UInt8}
    (hx : c.firstByte = some x) : childAt l x = some c := by
  induction l with
  | nil => cases hc
  | cons n l ih =>
    simp only [OrdK] at h
    simp only [childAt, List.find?_cons]
    rcases List.mem_cons.1 hc with rfl | hc
    · simp [hx]
    · have h3 := h.2.2.1 c hc
      have : n.firstByte ≠ some x := by intro e; rw [e, hx] at h3; omega
      simp only [beq_eq_false_iff_ne.2 this]
      exact ih h.2.2.2 hc

theorem childAt_none {l : List Node} {x : UInt8} (h : childAt l x = none) {c : Node} (hc : c ∈ l) :
    c.firstByte ≠ some x := by
  unfold childAt at h
  rw [List.find?_eq_none] at h
  simpa using h c hc

theorem firstByte_of_ne_nil {c : Node} (h : c.pfx ≠ []) : ∃ x, c.firstByte = some x := by
  unfold firstByte; cases hp : c.pfx with
  | nil => exact absurd hp h
  | cons x _ => exact ⟨x, rfl⟩

/-- A tree with non-empty prefix holds nothing at keys with another first byte. -/
theorem den_firstByte {c : Node} {x : UInt8} (h : c.firstByte = some x) {k : Bytes} {v : Bytes}
    (hd : den c k = some v) : k.head? = some x := by
  rw [den_eq] at hd
  cases hs : strip c.pfx k with
  | none => simp [hs] at hd
  | some r =>
    have := strip_eq_some.1 hs
    subst this
    unfold firstByte at h
    cases hp : c.pfx with
    | nil => simp [hp] at h
    | cons y q => rw [hp] at h; simpa using h

theorem den_nil_of_ne {c : Node} (h : c.pfx ≠ []) : den c [] = none := by
  obtain ⟨x, hx⟩ := firstByte_of_ne_nil h
  cases hd : den c [] with
  | none => rfl
  | some v => have := den_firstByte hx hd; simp at this

theorem denK_nil {l : List Node} (h : OrdK l) : denK l [] = none := by
  induction l with
  | nil => rfl
  | cons n l ih =>
    simp only [OrdK] at h
    obtain ⟨x, hx⟩ := firstByte_of_ne_nil h.1
    simp [denK, hx, ih h.2.2.2]

/-- A lookup in siblings succeeds iff one of them has the key. -/
theorem denK_eq_some {l : List Node} (h : OrdK l) {k v : Bytes} :
    denK l k = some v ↔ ∃ c ∈ l, den c k = some v := by
  cases k with
  | nil =>
    rw [denK_nil h]
    constructor
    · intro h; cases h
    · rintro ⟨c, hc, hd⟩; rw [den_nil_of_ne (h.mem hc).1] at hd; cases hd
  | cons x xs =>
    rw [denK_cons_eq]
    constructor
    · intro hb
      cases hc : childAt l x with
      | none => simp [hc] at hb
      | some c => exact ⟨c, (childAt_mem hc).1, by simpa [hc] using hb⟩
    · rintro ⟨c, hc, hd⟩
      obtain ⟨y, hy⟩ := firstByte_of_ne_nil (h.mem hc).1
      have := den_firstByte hy hd
      simp at this; subst this
      rw [childAt_of_mem h hc hy]; exact hd

/-! ### Primitive operations -/

@[simp] theorem pfx_mk (p v c) : (Node.mk p v c).pfx = p := rfl
@[simp] theorem val_mk (p v c) : (Node.mk p v c).val = v := rfl
@[simp] theorem ch_mk (p v c) : (Node.mk p v c).ch = c := rfl
@[simp] theorem kids_mk_some (p v l) : (Node.mk p v (some l)).kids = l := rfl
@[simp] theorem kids_mk_none (p v) : (Node.mk p v none).kids = [] := rfl

theorem loadChildren_getD (n : Node) : n.loadChildren.getD [] = n.kids := by
  cases n with
  | mk p v c => rcases c with _ | _ | _ <;> rfl

theorem loadChildren_eq (n : Node) : n.loadChildren = arcOpt n.kids := by
  cases n with
  | mk p v c => rcases c with _ | _ | _ <;> rfl

@[simp] theorem kids_empty : Node.empty.kids = [] := rfl
@[simp] theorem pfx_empty : Node.empty.pfx = [] := rfl
@[simp] theorem val_empty : Node.empty.val = none := rfl

theorem den_empty (k : Bytes) : den Node.empty k = none := by
  simp [Node.empty, den, denO]; split <;> rfl

theorem ord_empty : Ord Node.empty := by simp [Node.empty, Ord, OrdO]

theorem den_single (k v k' : Bytes) : den (single k v) k' = if k' = k then some v else none := by
  simp only [single, den, denO]
  split
  · rename_i h
    rw [if_neg]; rintro rfl
    have := strip_append_self k' []
    simp_all
  · rename_i h
    have := strip_eq_some.1 h
    simp [this]
  · rename_i h
    have := strip_eq_some.1 h
    subst this; simp

theorem ord_single (k v : Bytes) : Ord (single k v) := by simp [single, Ord, OrdO]

theorem den_isEmpty {n : Node} (h : n.isEmpty = true) (k : Bytes) : den n k = none := by
  cases n with
  | mk p v c =>
    simp only [isEmpty, hasValue, isLeaf, val_mk, ch_mk, Bool.and_eq_true, Bool.not_eq_true'] at h
    cases v <;> cases c <;> simp_all [den, denO]
    split <;> rfl

/-- Viewing a node one level deeper does not change what it holds. -/
theorem den_view (p q : Bytes) (hq : q ≠ []) (v : Option Bytes) (c : Option (List Node)) (k : Bytes) :
    den (mk (p ++ q) v c) k = den (mk p none (some [mk q v c])) k := by
  rw [den_eq, den_eq (mk p none _)]
  simp only [pfx_mk, strip_append, val_mk, kids_mk_some]
  cases hs : strip p k with
  | none => simp
  | some r =>
    cases r with
    | nil =>
      cases q with
      | nil => exact absurd rfl hq
      | cons y q => simp [strip]
    | cons x xs =>
      simp only [Option.bind_some]
      cases q with
      | nil => exact absurd rfl hq
      | cons y q =>
        rw [denK_cons_eq]
        by_cases hxy : y = x
        · subst hxy
          simp [childAt, firstByte, den_eq (mk (y :: q) v c)]
          rfl
        · simp [childAt, firstByte, hxy, strip]

theorem ord_view (p q : Bytes) (hq : q ≠ []) (v : Option Bytes) (c : Option (List Node)) :
    Ord (mk p none (some [mk q v c])) ↔ Ord (mk (p ++ q) v c) := by
  simp [Ord, OrdO, OrdK, hq]

theorem den_canonicalize {n : Node} (ho : Ord n) (k : Bytes) : den n.canonicalize k = den n k := by
  have hm : den n.mergeOnlyChild k = den n k := by
    unfold mergeOnlyChild
    split
    · rename_i p c
      cases c with
      | mk q v c =>
        simp only [Ord, OrdO, OrdK, pfx_mk] at ho
        exact den_view p q ho.1 v c k
    · rfl
  unfold canonicalize
  dsimp only
  split
  · rename_i h
    rw [den_empty, ← hm, den_eq]
    have : n.mergeOnlyChild.kids = [] := List.eq_nil_of_length_eq_zero h.2
    rw [this, h.1]; split <;> simp [denK]
  · exact hm

theorem ord_canonicalize {n : Node} (ho : Ord n) : Ord n.canonicalize := by
  have hm : Ord n.mergeOnlyChild := by
    unfold mergeOnlyChild
    split
    · rename_i p c
      cases c with
      | mk q v c =>
        simp only [Ord, OrdO, OrdK, pfx_mk] at ho
        simpa [Ord] using ho.2.1
    · exact ho
  unfold canonicalize
  dsimp only
  split
  · exact ord_empty
  · exact hm

/-- Canonicalizing keeps the prefix as a prefix, unless the node became empty. -/
theorem pfx_canonicalize (n : Node) : n.canonicalize = Node.empty ∨ n.pfx <+: n.canonicalize.pfx := by
  unfold canonicalize
  dsimp only
  split
  · exact Or.inl rfl
  · right
    unfold mergeOnlyChild
    split
    · simp
    · simp

mutual
theorem den_detached (n : Node) (k : Bytes) : den n.detached k = den n k := by
  cases n with
  | mk p v c =>
    simp only [detached, den]
    cases strip p k with
    | none => rfl
    | some r => cases r with
      | nil => rfl
      | cons x xs => exact denO_detachedO c _
theorem denO_detachedO (c : Option (List Node)) (k : Bytes) : denO (detachedO c) k = denO c k := by
  cases c with
  | none => rfl
  | some l => cases l with
    | nil => simp [detachedO, denO, denK]
    | cons a l => simp only [detachedO, denO]; exact denK_detachedL (a :: l) k
theorem denK_detachedL (l : List Node) (k : Bytes) : denK (detachedL l) k = denK l k := by
  cases l with
  | nil => rfl
  | cons a l =>
    have h1 := den_detached a k
    have h2 := denK_detachedL l k
    simp only [detachedL, denK, h1, h2]
    cases a; simp [detached, firstByte]
end

@[simp] theorem pfx_detached (n : Node) : n.detached.pfx = n.pfx := by cases n; rfl
@[simp] theorem val_detached (n : Node) : n.detached.val = n.val := by cases n; rfl
@[simp] theorem firstByte_detached (n : Node) : n.detached.firstByte = n.firstByte := by
  simp [firstByte]

theorem detachedL_eq_map (l : List Node) : detachedL l = l.map detached := by
  induction l with
  | nil => rfl
  | cons a l ih => simp [detachedL, ih]

theorem detachedO_some (l : List Node) : detachedO (some l) = arcOpt (l.map detached) := by
  cases l with
  | nil => rfl
  | cons a l => simp [detachedO, detachedL_eq_map, arcOpt]

theorem kids_detached (n : Node) : n.detached.kids = n.kids.map detached := by
  cases n with
  | mk p v c => cases c with
    | none => rfl
    | some l => cases l with
      | nil => rfl
      | cons a l => simp [detached, detachedO, kids, detachedL_eq_map]

/-- Induction over trees through `kids`. -/
theorem Node.kidsInduction {P : Node → Prop} (step : ∀ n, (∀ c ∈ n.kids, P c) → P n) : ∀ n, P n := by
  have : ∀ m n, n.nodes ≤ m → P n := by
    intro m
    induction m with
    | zero => intro n h; have := nodes_pos n; omega
    | succ m ih =>
      intro n h
      apply step
      intro c hc
      apply ih
      have h1 := nodes_le_of_mem hc
      have h2 := nodesL_kids n
      omega
  exact fun n => this _ n (Nat.le_refl _)

theorem ord_detached (n : Node) (h : Ord n) : Ord n.detached := by
  induction n using Node.kidsInduction with
  | step n ih =>
    rw [ord_iff, ordK_iff] at *
    rw [kids_detached]
    constructor
    · intro c hc
      obtain ⟨d, hd, rfl⟩ := List.mem_map.1 hc
      exact ⟨by simpa using (h.1 d hd).1, ih d hd (h.1 d hd).2⟩
    · rw [List.pairwise_map]; simpa using h.2

theorem conv_node_den (c : Conv) (b : Node) (k : Bytes) : den (c.node b) k = den b k := by
  cases c <;> simp [Conv.node, den_detached]
theorem conv_node_ord (c : Conv) {b : Node} (h : Ord b) : Ord (c.node b) := by
  cases c <;> simp [Conv.node, h, ord_detached]
@[simp] theorem conv_node_pfx (c : Conv) (b : Node) : (c.node b).pfx = b.pfx := by
  cases c <;> simp [Conv.node]
@[simp] theorem conv_node_firstByte (c : Conv) (b : Node) : (c.node b).firstByte = b.firstByte := by
  simp [firstByte]

end Radix
