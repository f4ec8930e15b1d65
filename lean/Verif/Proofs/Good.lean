import Verif.Proofs.Join

/-
Proof-internal: the skeleton shared by the combine functions.
-/

set_option linter.unusedVariables false

namespace Radix
open Node

/-- A compact node: it holds a value or branches, and so do all nodes below it. -/
inductive Cmp : Node → Prop
  | intro (n : Node) (here : n.val.isSome ∨ 2 ≤ n.kids.length) (below : ∀ c ∈ n.kids, Cmp c) : Cmp n

/-- A compact tree: empty, or a compact node. -/
def Shape (n : Node) : Prop := n = Node.empty ∨ Cmp n

theorem cmp_iff (n : Node) : Cmp n ↔ (n.val.isSome ∨ 2 ≤ n.kids.length) ∧ ∀ c ∈ n.kids, Cmp c :=
  ⟨fun h => by cases h; exact ⟨‹_›, ‹_›⟩, fun h => .intro n h.1 h.2⟩

theorem not_cmp_empty : ¬ Cmp Node.empty := by
  rw [cmp_iff]; simp

theorem cmp_of_eq {n m : Node} (hv : n.val = m.val) (hk : n.kids = m.kids) : Cmp n ↔ Cmp m := by
  rw [cmp_iff, cmp_iff, hv, hk]

theorem Shape.kids {n : Node} (h : Shape n) : ∀ c ∈ n.kids, Cmp c := by
  rcases h with rfl | h
  · simp
  · exact ((cmp_iff n).1 h).2

theorem Shape.cmp_of_nonEmpty {n : Node} (h : Shape n) (hn : n.isEmpty = false) : Cmp n := by
  rcases h with rfl | h
  · cases hn
  · exact h

theorem cmp_isEmpty {n : Node} (h : Cmp n) : n.isEmpty = false := by
  rw [cmp_iff] at h
  cases n with
  | mk p v c => rcases v with _ | v <;> rcases c with _ | c <;> simp_all [isEmpty, hasValue, isLeaf]

theorem shape_canonicalize {n : Node} (h : ∀ c ∈ n.kids, Cmp c) : Shape n.canonicalize := by
  unfold canonicalize
  dsimp only
  split
  · exact Or.inl rfl
  · rename_i hne
    right
    revert hne
    unfold mergeOnlyChild
    split
    · rename_i p c
      intro _
      exact (cmp_of_eq (n := c) (m := mk (p ++ c.pfx) c.val c.ch) rfl rfl).1 (h c (by simp))
    · rename_i hm
      intro hne
      rw [cmp_iff]
      refine ⟨?_, h⟩
      cases n with
      | mk p v c =>
        cases v with
        | some v => simp
        | none =>
          rcases c with _ | c
          · simp [childCount] at hne
          · rcases c with _ | ⟨x, _ | ⟨y, c⟩⟩
            · simp [childCount] at hne
            · exact absurd rfl (hm p x)
            · simp

theorem cmp_detached {n : Node} (h : Cmp n) : Cmp n.detached := by
  induction h with
  | intro n h1 h2 ih =>
    rw [cmp_iff, kids_detached]
    refine ⟨by simpa using h1, fun c hc => ?_⟩
    obtain ⟨d, hd, rfl⟩ := List.mem_map.1 hc
    exact ih d hd

theorem shape_detached {n : Node} (h : Shape n) : Shape n.detached := by
  rcases h with rfl | h
  · exact Or.inl rfl
  · exact Or.inr (cmp_detached h)

theorem cmp_conv (c : Conv) {n : Node} (h : Cmp n) : Cmp (c.node n) := by
  cases c <;> simp [Conv.node, h, cmp_detached]

theorem cmp_cloneShortened {n : Node} (m : Nat) : Cmp (n.cloneShortened m) ↔ Cmp n :=
  cmp_of_eq rfl rfl

/-- A pointwise specification: key, value on the left, value on the right, value of the result. -/
abbrev Rel3 := Bytes → Option Bytes → Option Bytes → Option Bytes → Prop

/-- The result is a function of the two values. -/
def Fn3 (g : Option Bytes → Option Bytes → Option Bytes) : Rel3 := fun _ x y z => z = g x y

/-- `r` is the pointwise combination of `a` and `b`. -/
structure Good (g : Rel3) (a b r : Node) : Prop where
  ord : Ord r
  den : ∀ k, g k (den a k) (den b k) (den r k)
  pfx : ∀ p, p <+: a.pfx → p <+: b.pfx → r.isEmpty ∨ p <+: r.pfx
  shape : Shape a → Shape b → Shape r

/-- `rs` is the pointwise combination of the siblings `as` and `bs`. -/
structure GoodK (g : Rel3) (as bs rs : List Node) : Prop where
  ord : OrdK rs
  den : ∀ k, g k (denK as k) (denK bs k) (denK rs k)
  shape : (∀ c ∈ as, Cmp c) → (∀ c ∈ bs, Cmp c) → ∀ c ∈ rs, Cmp c

/-- `c` is a correct result for the join pair `p`. -/
structure StepOK (g : Rel3) (p : Option Node × Option Node)
    (c : Option Node) : Prop where
  ord : ∀ d, c = some d → d.firstByte = pkey p ∧ Ord d
  den : ∀ k, k.head? = pkey p → g k (p.1.bind (Radix.den · k)) (p.2.bind (Radix.den · k)) (c.bind (Radix.den · k))
  shape : (∀ a, p.1 = some a → Cmp a) → (∀ b, p.2 = some b → Cmp b) → ∀ d, c = some d → Cmp d

theorem joined_good {g} (g0 : ∀ k, g k none none none) {as bs : List Node} (ha : OrdK as) (hb : OrdK bs)
    {step : Option Node × Option Node → Option Node}
    (h : ∀ p ∈ join as bs, StepOK g p (step p)) : GoodK g as bs ((join as bs).filterMap step) := by
  obtain ⟨h1, h2⟩ := joined ha hb (fun p hp c hc => (h p hp).ord c hc)
  refine ⟨h1, fun k => ?_, fun hca hcb c hc => ?_⟩
  · cases k with
    | nil => rw [denK_nil h1, denK_nil ha, denK_nil hb]; exact g0 _
    | cons x xs =>
      rw [denK_cons_eq, denK_cons_eq, denK_cons_eq, h2]
      cases hfa : childAt as x with
      | none =>
        cases hfb : childAt bs x with
        | none => simp [g0]
        | some b =>
          have hj := join_find ha hb x
          rw [hfa, hfb] at hj
          have hm := List.mem_of_find?_eq_some hj
          have hx := List.find?_some hj
          simp only [beq_iff_eq] at hx
          exact (h _ hm).den (x :: xs) (by simp [hx])
      | some a =>
        have hj := join_find ha hb x
        rw [hfa] at hj
        have hm := List.mem_of_find?_eq_some hj
        have hx := List.find?_some hj
        simp only [beq_iff_eq] at hx
        cases hfb : childAt bs x with
        | none => rw [hfb] at hm hx; exact (h _ hm).den (x :: xs) (by simp [hx])
        | some b => rw [hfb] at hm hx; exact (h _ hm).den (x :: xs) (by simp [hx])
  · obtain ⟨p, hp, hpc⟩ := List.mem_filterMap.1 hc
    obtain ⟨h1, h2, h3⟩ := join_mem hp
    exact (h p hp).shape (fun a e => hca a (h1 a e).1) (fun b e => hcb b (h2 b e).1) c hpc

/-- Combining the two members of a pair is a correct step. -/
theorem Good.step {g} {a b r : Node} (h : Good g a b r) {p} (hp : p = (some a, some b)) (hn : a.pfx ≠ [])
    (hab : a.firstByte = b.firstByte) : StepOK g p (keepNonEmpty r) := by
  subst hp
  unfold keepNonEmpty
  refine ⟨fun d hd => ?_, fun k hk => ?_, fun h1 h2 d hd => ?_⟩
  · split at hd
    · cases hd
    · cases hd
      rename_i hne
      refine ⟨?_, h.ord⟩
      obtain ⟨x, hx⟩ := firstByte_of_ne_nil hn
      have pre : ∀ n : Node, n.firstByte = some x → [x] <+: n.pfx := by
        intro n hn; unfold firstByte at hn
        cases hp : n.pfx with
        | nil => simp [hp] at hn
        | cons y l => simp [hp] at hn; subst hn; exact ⟨l, rfl⟩
      rcases h.pfx [x] (pre a hx) (pre b (hab ▸ hx)) with h1 | ⟨t, ht⟩
      · exact absurd h1 hne
      · simp only [pkey, hx]; simp [firstByte, ← ht]
  · split
    · rename_i he
      have := h.den k
      rw [den_isEmpty he] at this
      simpa using this
    · simpa using h.den k
  · split at hd
    · cases hd
    · cases hd
      rename_i hne
      exact (h.shape (Or.inr (h1 a rfl)) (Or.inr (h2 b rfl))).cmp_of_nonEmpty (by simpa using hne)

/-- Keeping the left node is a correct step. -/
theorem stepL {g} (gL : ∀ k x, g k x none x) {a c : Node} (ho : Ord c) (hf : c.firstByte = a.firstByte)
    (hd : ∀ k, den c k = den a k) (hc : Cmp a → Cmp c) : StepOK g (some a, none) (some c) := by
  refine ⟨fun d hd => ?_, fun k hk => ?_, fun h1 h2 d hd => ?_⟩
  · cases hd; exact ⟨hf, ho⟩
  · simp [gL, hd]
  · cases hd; exact hc (h1 a rfl)

/-- Keeping the right node is a correct step. -/
theorem stepR {g} (gR : ∀ k x, g k none x x) {b c : Node} (ho : Ord c) (hf : c.firstByte = b.firstByte)
    (hd : ∀ k, den c k = den b k) (hc : Cmp b → Cmp c) : StepOK g (none, some b) (some c) := by
  refine ⟨fun d hd => ?_, fun k hk => ?_, fun h1 h2 d hd => ?_⟩
  · cases hd; exact ⟨hf, ho⟩
  · simp [gR, hd]
  · cases hd; exact hc (h2 b rfl)

/-- Dropping the node of a one-sided pair is a correct step. -/
theorem stepDropL {g} (gL : ∀ k x, g k x none none) {a : Node} : StepOK g (some a, none) none :=
  ⟨fun d hd => (by cases hd), fun k hk => (by simp [gL]), fun h1 h2 d hd => (by cases hd)⟩
theorem stepDropR {g} (gR : ∀ k x, g k none x none) {b : Node} : StepOK g (none, some b) none :=
  ⟨fun d hd => (by cases hd), fun k hk => (by simp [gR]), fun h1 h2 d hd => (by cases hd)⟩

/-! ### Views: a node cut at position `n` of its prefix -/

/-- The value of `a` cut at `n`. -/
def vv (n : Nat) (a : Node) : Option Bytes := if n = a.pfx.length then a.val else none
/-- The siblings below `a` cut at `n`. -/
def vk (n : Nat) (a : Node) : List Node := if n = a.pfx.length then a.kids else [a.cloneShortened n]

theorem ord_cloneShortened {a : Node} (h : Ord a) (n : Nat) : Ord (a.cloneShortened n) := by
  rw [ord_iff] at *; exact h

theorem drop_ne_nil {α} {n : Nat} {l : List α} (hn : n ≤ l.length) (h : n ≠ l.length) : l.drop n ≠ [] := by
  intro e; have := congrArg List.length e; simp at this; omega

theorem vk_ord {n : Nat} {a : Node} (h : Ord a) (hn : n ≤ a.pfx.length) : OrdK (vk n a) := by
  unfold vk
  split
  · exact (ord_iff a).1 h
  · rename_i hne
    simp only [OrdK, List.not_mem_nil, false_imp_iff, implies_true, and_true]
    exact ⟨drop_ne_nil hn hne, ord_cloneShortened h n⟩

theorem vk_cmp {n : Nat} {a : Node} (h : Shape a) (hn : n ≤ a.pfx.length) : ∀ c ∈ vk n a, Cmp c := by
  unfold vk
  split
  · exact h.kids
  · rename_i hne
    intro c hc
    simp only [List.mem_singleton] at hc; subst hc
    rw [cmp_cloneShortened]
    rcases h with rfl | h
    · simp at hn; simp [hn] at hne
    · exact h

theorem vk_den {n : Nat} {a : Node} (hn : n ≤ a.pfx.length) (k : Bytes) :
    den (mk (a.pfx.take n) (vv n a) (some (vk n a))) k = den a k := by
  unfold vv vk
  split
  · rename_i h
    rw [h, List.take_length, den_eq, den_eq a]; rfl
  · rename_i hne
    cases a with
    | mk p v c =>
      have := den_view (p.take n) (p.drop n) (drop_ne_nil hn hne) v c k
      rw [List.take_append_drop] at this
      rw [this]; rfl

theorem vk_nodes {n : Nat} {a b : Node} (h : n = a.pfx.length ∨ n = b.pfx.length) :
    nodesL (vk n a) + nodesL (vk n b) < a.nodes + b.nodes := by
  have h1 := nodesL_kids a
  have h2 := nodesL_kids b
  have h3 := nodes_cloneShortened a n
  have h4 := nodes_cloneShortened b n
  unfold vk
  split <;> split <;> simp_all [nodesL] <;> omega

theorem vk_mem_nodes {n : Nat} {a b c d : Node} (h : n = a.pfx.length ∨ n = b.pfx.length)
    (hc : c ∈ vk n a) (hd : d ∈ vk n b) : c.nodes + d.nodes < a.nodes + b.nodes := by
  have h1 := nodes_le_of_mem hc
  have h2 := nodes_le_of_mem hd
  have h3 := vk_nodes h
  omega

/-- What the position `n = commonPrefix` means for the two prefixes. -/
theorem commonPrefix_cut (a b : Node) : ∃ n, commonPrefix a.pfx b.pfx = n ∧ n ≤ a.pfx.length ∧
    n ≤ b.pfx.length ∧ a.pfx.take n = b.pfx.take n ∧
    (∀ p, p <+: a.pfx → p <+: b.pfx → p <+: a.pfx.take n) ∧
    (n ≠ a.pfx.length → n ≠ b.pfx.length → (a.pfx.drop n).head? ≠ (b.pfx.drop n).head?) := by
  obtain ⟨p, a', b', h1, h2, h3, h4⟩ := commonPrefix_spec a.pfx b.pfx
  refine ⟨p.length, h3, by simp [h1], by simp [h2], by simp [h1, h2], ?_, ?_⟩
  · intro q ⟨s, hs⟩ ⟨t, ht⟩
    rw [h1, List.take_left]
    by_cases hl : q.length ≤ p.length
    · exact List.prefix_of_prefix_length_le ⟨s, hs⟩ ⟨a', h1.symm⟩ hl
    · exfalso
      obtain ⟨q', rfl⟩ : p <+: q := List.prefix_of_prefix_length_le ⟨a', h1.symm⟩ ⟨s, hs⟩ (by omega)
      rw [h1] at hs; rw [h2] at ht
      simp only [List.append_assoc, List.append_cancel_left_eq] at hs ht
      cases q' with
      | nil => simp at hl
      | cons x q' =>
        subst hs; subst ht
        simp at h4
  · intro hna hnb
    rw [h1, h2, List.drop_left, List.drop_left]
    rcases h4 with rfl | rfl | h4
    · simp [h1] at hna
    · simp [h2] at hnb
    · exact h4

theorem denK_mk {p : Bytes} {v : Option Bytes} {l : List Node} {k : Bytes} :
    den (mk p v (some l)) k =
      match strip p k with
      | none => none
      | some [] => v
      | some (x :: xs) => denK l (x :: xs) := by
  rw [den_eq]; rfl

/-- The node-level step: values and siblings are combined separately. -/
theorem node_good {g} (g0 : ∀ k, g k none none none) {a b : Node} {n : Nat}
    (ha : Ord a) (hb : Ord b) (hna : n ≤ a.pfx.length) (hnb : n ≤ b.pfx.length)
    (htake : a.pfx.take n = b.pfx.take n)
    (hmax : ∀ p, p <+: a.pfx → p <+: b.pfx → p <+: a.pfx.take n)
    {v : Option Bytes} (hv : g (a.pfx.take n) (vv n a) (vv n b) v)
    {rs : List Node} (hk : GoodK (fun k => g (a.pfx.take n ++ k)) (vk n a) (vk n b) rs)
    {q : Bytes} (hq : q = a.pfx.take n)
    {c : Option (List Node)} (hc : c.getD [] = rs) :
    Good g a b (canonicalize (mk q v c)) := by
  subst hq; subst hc
  have ho : Ord (mk (a.pfx.take n) v c) := by
    rw [ord_iff]; exact hk.ord
  refine ⟨ord_canonicalize ho, fun k => ?_, fun p h1 h2 => ?_, fun h1 h2 => ?_⟩
  · rw [den_canonicalize ho, ← vk_den hna k, ← vk_den hnb k, denK_mk, denK_mk, ← htake, den_eq]
    simp only [pfx_mk, val_mk]
    cases hs : strip (a.pfx.take n) k with
    | none => simp [g0]
    | some r =>
      have hr := strip_eq_some.1 hs
      cases r with
      | nil => rw [List.append_nil] at hr; rw [hr]; exact hv
      | cons x xs => rw [hr]; exact hk.den (x :: xs)
  · rcases pfx_canonicalize (mk (a.pfx.take n) v c) with h | h
    · rw [h]; exact Or.inl rfl
    · exact Or.inr ((hmax p h1 h2).trans h)
  · exact shape_canonicalize (hk.shape (vk_cmp h1 hna) (vk_cmp h2 hnb))

theorem den_none_of_not_prefix {a : Node} {k : Bytes} (h : ¬ a.pfx <+: k) : den a k = none := by
  rw [den_eq, strip_eq_none.2 h]

/-- Prefixes that part ways leave no common keys. -/
theorem den_disjoint {a b : Node} {n : Nat} (hna : n ≤ a.pfx.length) (hnb : n ≤ b.pfx.length)
    (htake : a.pfx.take n = b.pfx.take n)
    (hd : (a.pfx.drop n).head? ≠ (b.pfx.drop n).head?) (hda : n ≠ a.pfx.length) (hdb : n ≠ b.pfx.length)
    (k : Bytes) :
    den a k = none ∨ den b k = none := by
  by_cases h1 : a.pfx <+: k
  · by_cases h2 : b.pfx <+: k
    · exfalso
      obtain ⟨s, rfl⟩ := h1
      obtain ⟨t, ht⟩ := h2
      rw [← List.take_append_drop n a.pfx, ← List.take_append_drop n b.pfx, htake] at ht
      simp only [List.append_assoc, List.append_cancel_left_eq] at ht
      cases h3 : a.pfx.drop n with
      | nil => exact drop_ne_nil hna hda h3
      | cons x xs =>
        cases h4 : b.pfx.drop n with
        | nil => exact drop_ne_nil hnb hdb h4
        | cons y ys => rw [h3, h4] at ht hd; simp at ht hd; exact hd ht.1.symm
    · exact Or.inr (den_none_of_not_prefix h2)
  · exact Or.inl (den_none_of_not_prefix h1)

/-- Induction on the total size of two trees. -/
theorem pair_induct {P : Node → Node → Prop}
    (step : ∀ a b, (∀ a' b', a'.nodes + b'.nodes < a.nodes + b.nodes → P a' b') → P a b) (a b : Node) : P a b := by
  have : ∀ m a b, a.nodes + b.nodes ≤ m → P a b := by
    intro m
    induction m with
    | zero => intro a b h; have := nodes_pos a; omega
    | succ m ih =>
      intro a b h
      exact step a b fun a' b' h' => ih a' b' (by omega)
  exact this _ a b (Nat.le_refl _)

end Radix
