import Verif.Proofs.Prefix
import Verif.Proofs.Find

/-
Proof-internal: inner_combine_pred and left_combine_pred.
-/

set_option linter.unusedVariables false

namespace Radix
open Node

/-- Some key satisfies `P`. -/
def Ex (P : Option Bytes → Option Bytes → Bool) (m m' : Bytes → Option Bytes) : Prop :=
  ∃ k, P (m k) (m' k) = true

/-- The predicate of `inner_combine_pred`. -/
def innerP (f : Bytes → Bytes → Bool) : Option Bytes → Option Bytes → Bool
  | some a, some b => f a b
  | _, _ => false

/-- The predicate of `left_combine_pred`. -/
def leftP (f : Bytes → Bytes → Bool) : Option Bytes → Option Bytes → Bool
  | some a, some b => f a b
  | some _, none => true
  | none, _ => false

theorem ex_node {P} (p0 : P none none = false) {a b : Node} {n : Nat} (ha : Ord a) (hb : Ord b)
    (hna : n ≤ a.pfx.length) (hnb : n ≤ b.pfx.length) (htake : a.pfx.take n = b.pfx.take n) :
    Ex P (den a) (den b) ↔ P (vv n a) (vv n b) = true ∨ Ex P (denK (vk n a)) (denK (vk n b)) := by
  constructor
  · rintro ⟨k, hk⟩
    rw [← vk_den hna, ← vk_den hnb, denK_mk, denK_mk, ← htake] at hk
    cases hs : strip (a.pfx.take n) k with
    | none => simp [hs, p0] at hk
    | some r =>
      rw [hs] at hk
      cases r with
      | nil => exact Or.inl hk
      | cons x xs => exact Or.inr ⟨x :: xs, hk⟩
  · rintro (h | ⟨k, hk⟩)
    · refine ⟨a.pfx.take n, ?_⟩
      have h1 := den_cut_append hna []
      have h2 := den_cut_append hnb []
      rw [List.append_nil] at h1 h2
      rw [← htake] at h2
      rw [h1, h2]; exact h
    · cases k with
      | nil => rw [denK_nil (vk_ord ha hna), denK_nil (vk_ord hb hnb), p0] at hk; cases hk
      | cons x xs =>
        refine ⟨a.pfx.take n ++ x :: xs, ?_⟩
        have h1 := den_cut_append hna (x :: xs)
        have h2 := den_cut_append hnb (x :: xs)
        rw [← htake] at h2
        rw [h1, h2]; exact hk

theorem pairwise_pkey {l : List (Option Node × Option Node)} {p q}
    (hl : l.Pairwise (fun p q => rank (pkey p) < rank (pkey q))) (hp : p ∈ l) (hq : q ∈ l)
    (e : pkey p = pkey q) : p = q := by
  induction l with
  | nil => cases hp
  | cons r l ih =>
    rw [List.pairwise_cons] at hl
    rcases List.mem_cons.1 hp with h1 | h1 <;> rcases List.mem_cons.1 hq with h2 | h2
    · exact h1.trans h2.symm
    · have := hl.1 q h2; rw [← h1, e] at this; omega
    · have := hl.1 p h1; rw [← h2, e] at this; omega
    · exact ih hl.2 h1 h2

/-- A pair of the join is what the two lists hold at its key. -/
theorem join_childAt {as bs : List Node} (ha : OrdK as) (hb : OrdK bs) {p} (hp : p ∈ join as bs) {x : UInt8}
    (hx : pkey p = some x) : childAt as x = p.1 ∧ childAt bs x = p.2 := by
  have hj := join_find ha hb x
  have h3 := join_mem hp
  cases hf : (join as bs).find? (fun p => pkey p == some x) with
  | none =>
    rw [List.find?_eq_none] at hf
    have := hf p hp
    simp [hx] at this
  | some q =>
    have hq := List.mem_of_find?_eq_some hf
    have hqx := List.find?_some hf
    simp only [beq_iff_eq] at hqx
    have := pairwise_pkey (join_pairwise ha hb) hp hq (hx.trans hqx.symm)
    subst this
    rw [hf] at hj
    cases h1 : childAt as x <;> cases h2 : childAt bs x <;> rw [h1, h2] at hj <;> simp at hj <;> simp [hj]

theorem ex_join {P} (p0 : P none none = false) {as bs : List Node} (ha : OrdK as) (hb : OrdK bs) :
    Ex P (denK as) (denK bs) ↔
      ∃ p ∈ join as bs, Ex P (fun k => p.1.bind (den · k)) (fun k => p.2.bind (den · k)) := by
  constructor
  · rintro ⟨k, hk⟩
    cases k with
    | nil => rw [denK_nil ha, denK_nil hb, p0] at hk; cases hk
    | cons x xs =>
      rw [denK_cons_eq, denK_cons_eq] at hk
      have hj := join_find ha hb x
      cases hf : (join as bs).find? (fun p => pkey p == some x) with
      | none =>
        rw [hf] at hj
        cases h1 : childAt as x <;> cases h2 : childAt bs x <;> rw [h1, h2] at hj hk <;> simp at hj
        simp [p0] at hk
      | some q =>
        have hq := List.mem_of_find?_eq_some hf
        have hqx := List.find?_some hf
        simp only [beq_iff_eq] at hqx
        obtain ⟨h1, h2⟩ := join_childAt ha hb hq hqx
        exact ⟨q, hq, x :: xs, by rw [← h1, ← h2]; exact hk⟩
  · rintro ⟨p, hp, k, hk⟩
    have hkey : ∃ y, pkey p = some y := by
      rcases pkey_mem hp with ⟨d, hd, e⟩ | ⟨d, hd, e⟩
      · rw [← e]; exact firstByte_of_ne_nil (ha.mem hd).1
      · rw [← e]; exact firstByte_of_ne_nil (hb.mem hd).1
    obtain ⟨y, hy⟩ := hkey
    obtain ⟨h1, h2, h3⟩ := join_mem hp
    have hhead : k.head? = some y := by
      cases e1 : p.1.bind (den · k) with
      | some v =>
        obtain ⟨a, hpa, hd⟩ := Option.bind_eq_some_iff.1 e1
        exact den_firstByte ((h1 a hpa).2.trans hy) hd
      | none =>
        cases e2 : p.2.bind (den · k) with
        | some v =>
          obtain ⟨a, hpa, hd⟩ := Option.bind_eq_some_iff.1 e2
          exact den_firstByte ((h2 a hpa).2.trans hy) hd
        | none => simp only [e1, e2, p0] at hk; cases hk
    obtain ⟨c1, c2⟩ := join_childAt ha hb hp hy
    refine ⟨k, ?_⟩
    cases k with
    | nil => cases hhead
    | cons x xs =>
      simp at hhead; subst hhead
      rw [denK_cons_eq, denK_cons_eq, c1, c2]; exact hk

theorem ex_inner_none_right {f m} : ¬ Ex (innerP f) m (fun _ => none) := by
  rintro ⟨k, hk⟩; cases h : m k <;> simp [h, innerP] at hk
theorem ex_inner_none_left {f m} : ¬ Ex (innerP f) (fun _ => none) m := by
  rintro ⟨k, hk⟩; cases h : m k <;> simp [h, innerP] at hk

theorem denK_nil_fun : denK [] = fun _ => none := by funext k; simp [denK]

theorem innerChildrenPred_iff (f) {as bs : List Node} (ha : OrdK as) (hb : OrdK bs)
    (ih : ∀ a ∈ as, ∀ b ∈ bs, Ord a → Ord b → (innerCombinePred f a b = true ↔ Ex (innerP f) (den a) (den b))) :
    innerCombineChildrenPred f (arcOpt as) (arcOpt bs) = true ↔ Ex (innerP f) (denK as) (denK bs) := by
  by_cases ea : as = []
  · subst ea
    rw [denK_nil_fun]
    simp [arcOpt, innerCombineChildrenPred, ex_inner_none_left]
  · by_cases eb : bs = []
    · subst eb
      rw [denK_nil_fun]
      simp [arcOpt, innerCombineChildrenPred, ex_inner_none_right]
    · have e1 : arcOpt as = some as := by simp [arcOpt, ea]
      have e2 : arcOpt bs = some bs := by simp [arcOpt, eb]
      rw [e1, e2, ex_join rfl ha hb]
      simp only [innerCombineChildrenPred]
      rw [attach_any_eq (g := fun
        | (some a, some b) => innerCombinePred f a b
        | _ => false)]
      · rw [List.any_eq_true]
        refine exists_congr fun p => and_congr_right fun hp => ?_
        match p, hp with
        | (some a, some b), hp =>
          obtain ⟨h1, h2, h3, h4⟩ := join_both ha hb hp
          exact ih a h1 b h2 (ha.mem h1).2 (hb.mem h2).2
        | (some a, none), hp => exact iff_of_false (by simp) ex_inner_none_right
        | (none, some b), hp => exact iff_of_false (by simp) ex_inner_none_left
        | (none, none), hp => exact absurd hp join_not_none
      · rintro ⟨_ | a, _ | b⟩ hx <;> rfl

/-- An existential over siblings and one tree splits into the siblings. -/
theorem ex_inner_any_left {f} {as : List Node} (ha : OrdK as) {b : Node} (hb : OrdK [b]) :
    Ex (innerP f) (denK as) (denK [b]) ↔ ∃ a ∈ as, Ex (innerP f) (den a) (den b) := by
  constructor
  · rintro ⟨k, hk⟩
    cases h1 : denK as k with
    | none => simp [h1, innerP] at hk
    | some v =>
      cases h2 : denK [b] k with
      | none => simp [h1, h2, innerP] at hk
      | some w =>
        obtain ⟨c, hc, hd⟩ := (denK_eq_some ha).1 h1
        obtain ⟨d, hd', he⟩ := (denK_eq_some hb).1 h2
        simp at hd'; subst hd'
        exact ⟨c, hc, k, by rw [hd, he]; rwa [h1, h2] at hk⟩
  · rintro ⟨a, hm, k, hk⟩
    cases h1 : den a k with
    | none => simp [h1, innerP] at hk
    | some v =>
      cases h2 : den b k with
      | none => simp [h1, h2, innerP] at hk
      | some w =>
        exact ⟨k, by rw [(denK_eq_some ha).2 ⟨a, hm, h1⟩, (denK_eq_some hb).2 ⟨b, by simp, h2⟩]; rwa [h1, h2] at hk⟩

theorem ex_inner_any_right {f} {bs : List Node} (hb : OrdK bs) {a : Node} (ha : OrdK [a]) :
    Ex (innerP f) (denK [a]) (denK bs) ↔ ∃ b ∈ bs, Ex (innerP f) (den a) (den b) := by
  have sw : ∀ m m', Ex (innerP f) m m' ↔ Ex (innerP fun x y => f y x) m' m := by
    intro m m'; refine exists_congr fun k => ?_
    cases m k <;> cases m' k <;> simp [innerP]
  rw [sw, ex_inner_any_left hb ha]
  simp only [← sw]

theorem any_attach_val {l : List Node} (g : Node → Bool) : l.attach.any (fun x => g x.1) = l.any g :=
  attach_any_eq l g _ (fun _ _ => rfl)

theorem innerCombinePred_iff (f) (a b : Node) (ha : Ord a) (hb : Ord b) :
    innerCombinePred f a b = true ↔ Ex (innerP f) (den a) (den b) := by
  induction a, b using pair_induct with
  | step a b ih =>
    obtain ⟨n, hn, hna, hnb, htake, hmax, hdis⟩ := commonPrefix_cut a b
    have oa := vk_ord ha hna
    have ob := vk_ord hb hnb
    rw [ex_node rfl ha hb hna hnb htake, innerCombinePred]
    simp only [hn]
    split
    · rename_i h
      have key := innerChildrenPred_iff f oa ob
        (fun c hc d hd => ih c d (vk_mem_nodes (Or.inl h.1) hc hd))
      rw [vk_eq h.1, vk_eq h.2] at key
      rw [vk_eq h.1, vk_eq h.2, vv_eq h.1, vv_eq h.2, loadChildren_eq, loadChildren_eq, ← key]
      rcases a.val with _ | va <;> rcases b.val with _ | vb <;> simp [innerP]
    · rename_i h1
      split
      · rename_i h2
        have h3 : n ≠ b.pfx.length := fun e => h1 ⟨h2, e⟩
        rw [vk_ne h3] at ob
        rw [vk_eq h2] at oa
        rw [vk_eq h2, vk_ne h3, vv_ne h3, ex_inner_any_left oa ob]
        have e0 : innerP f (vv n a) none = true ↔ False := by cases vv n a <;> simp [innerP]
        rw [e0, false_or]
        split
        · rename_i ac hl
          have hk : a.kids = ac := by rw [← loadChildren_getD, hl]; rfl
          rw [any_attach_val (fun x => innerCombinePred f x (b.cloneShortened n)), List.any_eq_true, hk]
          refine exists_congr fun x => and_congr_right fun hx => ?_
          exact ih x _ (by
            have := nodes_le_of_mem hx
            have := nodesL_kids a
            rw [hk] at this
            rw [nodes_cloneShortened]; omega) (oa.mem (hk ▸ hx)).2 (ord_cloneShortened hb n)
        · rename_i hl
          have hk : a.kids = [] := by rw [← loadChildren_getD, hl]; rfl
          simp [hk]
      · rename_i h2
        split
        · rename_i h3
          rw [vk_ne h2] at oa
          rw [vk_eq h3] at ob
          rw [vk_ne h2, vk_eq h3, vv_ne h2, ex_inner_any_right ob oa]
          have e0 : innerP f none (vv n b) = true ↔ False := by simp [innerP]
          rw [e0, false_or]
          split
          · rename_i bc hl
            have hk : b.kids = bc := by rw [← loadChildren_getD, hl]; rfl
            rw [any_attach_val (fun x => innerCombinePred f (a.cloneShortened n) x), List.any_eq_true, hk]
            refine exists_congr fun x => and_congr_right fun hx => ?_
            exact ih _ x (by
              have := nodes_le_of_mem hx
              have := nodesL_kids b
              rw [hk] at this
              rw [nodes_cloneShortened]; omega) (ord_cloneShortened ha n) (ob.mem (hk ▸ hx)).2
          · rename_i hl
            have hk : b.kids = [] := by rw [← loadChildren_getD, hl]; rfl
            simp [hk]
        · rename_i h3
          rw [← ex_node rfl ha hb hna hnb htake]
          refine iff_of_false (by simp) ?_
          rintro ⟨k, hk⟩
          rcases den_disjoint hna hnb htake (hdis h2 h3) h2 h3 k with h | h
          · simp [h, innerP] at hk
          · rw [h] at hk; cases h' : den a k <;> simp [h', innerP] at hk

/-! ### left_combine_pred -/

theorem ex_left_none_left {f m} : ¬ Ex (leftP f) (fun _ => none) m := by
  rintro ⟨k, hk⟩; simp [leftP] at hk

theorem leftChildrenPred_iff (f) {as bs : List Node} (ha : OrdK as) (hb : OrdK bs) (hc : ∀ c ∈ as, Cmp c)
    (ih : ∀ a ∈ as, ∀ b ∈ bs, Ord a → Ord b → Cmp a →
      (leftCombinePred f a b = true ↔ Ex (leftP f) (den a) (den b))) :
    leftCombineChildrenPred f (arcOpt as) (arcOpt bs) = true ↔ Ex (leftP f) (denK as) (denK bs) := by
  have only : ∀ a ∈ as, Ex (leftP f) (den a) (fun _ => none) := by
    intro a hm
    obtain ⟨k, v, hd⟩ := cmp_exists (hc a hm) (ha.mem hm).2
    exact ⟨k, by simp [hd, leftP]⟩
  by_cases ea : as = []
  · subst ea
    rw [denK_nil_fun]
    have : leftCombineChildrenPred f (arcOpt []) (arcOpt bs) = false := by
      simp [arcOpt, leftCombineChildrenPred]
    rw [this]
    exact iff_of_false (by simp) ex_left_none_left
  · have e1 : arcOpt as = some as := by simp [arcOpt, ea]
    by_cases eb : bs = []
    · subst eb
      rw [e1]
      simp only [arcOpt, List.isEmpty_nil, if_true, leftCombineChildrenPred]
      refine iff_of_true trivial ?_
      obtain ⟨a, l, rfl⟩ := List.exists_cons_of_ne_nil ea
      obtain ⟨k, v, hd⟩ := cmp_exists (hc a (by simp)) (ha.mem (by simp : a ∈ a :: l)).2
      exact ⟨k, by rw [(denK_eq_some ha).2 ⟨a, by simp, hd⟩]; rfl⟩
    · have e2 : arcOpt bs = some bs := by simp [arcOpt, eb]
      rw [e1, e2, ex_join rfl ha hb]
      simp only [leftCombineChildrenPred]
      rw [attach_any_eq (g := fun
        | (some a, some b) => leftCombinePred f a b
        | (some _, none) => true
        | _ => false)]
      · rw [List.any_eq_true]
        refine exists_congr fun p => and_congr_right fun hp => ?_
        match p, hp with
        | (some a, some b), hp =>
          obtain ⟨h1, h2, h3, h4⟩ := join_both ha hb hp
          exact ih a h1 b h2 (ha.mem h1).2 (hb.mem h2).2 (hc a h1)
        | (some a, none), hp => exact iff_of_true rfl (only a (join_left hp))
        | (none, some b), hp => exact iff_of_false (by simp) ex_left_none_left
        | (none, none), hp => exact absurd hp join_not_none
      · rintro ⟨_ | a, _ | b⟩ hx <;> rfl

theorem leftCombinePred_iff (f) (a b : Node) (ha : Ord a) (hb : Ord b) (hs : Shape a) :
    leftCombinePred f a b = true ↔ Ex (leftP f) (den a) (den b) := by
  induction a, b using pair_induct with
  | step a b ih =>
    obtain ⟨n, hn, hna, hnb, htake, hmax, hdis⟩ := commonPrefix_cut a b
    have oa := vk_ord ha hna
    have ob := vk_ord hb hnb
    have ca := vk_cmp hs hna
    have key := fun h => leftChildrenPred_iff f oa ob ca
      (fun c hc d hd => fun h1 h2 h3 => ih c d (vk_mem_nodes h hc hd) h1 h2 (Or.inr h3))
    rw [ex_node rfl ha hb hna hnb htake, leftCombinePred]
    simp only [hn]
    split
    · rename_i h
      have key := key (Or.inl h.1)
      rw [vk_eq h.1, vk_eq h.2] at key
      rw [vk_eq h.1, vk_eq h.2, vv_eq h.1, vv_eq h.2, loadChildren_eq, loadChildren_eq, ← key]
      rcases a.val with _ | va <;> rcases b.val with _ | vb <;> simp [leftP]
    · rename_i h1
      split
      · rename_i h2
        have h3 : n ≠ b.pfx.length := fun e => h1 ⟨h2, e⟩
        have key := key (Or.inl h2)
        rw [vk_eq h2, vk_ne h3] at key
        rw [vk_eq h2, vk_ne h3, vv_ne h3, vv_eq h2, loadChildren_eq, arcOpt_singleton, ← key]
        rcases a.val with _ | va <;> simp [leftP]
      · rename_i h2
        split
        · rename_i h3
          have key := key (Or.inr h3)
          rw [vk_ne h2, vk_eq h3] at key
          rw [vk_ne h2, vk_eq h3, vv_ne h2, loadChildren_eq, arcOpt_singleton, ← key]
          simp [leftP]
        · rename_i h3
          rw [← ex_node rfl ha hb hna hnb htake]
          refine iff_of_true rfl ?_
          have hcmp : Cmp a := by
            rcases hs with rfl | h
            · simp at hna; simp [hna] at h2
            · exact h
          obtain ⟨k, v, hd⟩ := cmp_exists hcmp ha
          refine ⟨k, ?_⟩
          rcases den_disjoint hna hnb htake (hdis h2 h3) h2 h3 k with h | h
          · rw [h] at hd; cases hd
          · simp [hd, h, leftP]

end Radix
