import Verif.Proofs.Good
import Verif.Spec.Map

/-
Proof-internal: each combine function computes the pointwise combination of the two trees.
-/

set_option linter.unusedVariables false

namespace Radix
open Node

theorem arcOpt_getD (l : List Node) : (arcOpt l).getD [] = l := by
  cases l <;> simp [arcOpt]

theorem goodK_left {g} (gL : ∀ k x, g k x none x) {as rs : List Node} {F : Node → Node}
    (hr : rs = as.map F) (ha : OrdK as) (ho : ∀ c, Ord c → Ord (F c)) (hp : ∀ c, (F c).pfx = c.pfx)
    (hd : ∀ c k, den (F c) k = den c k) (hc : ∀ c, Cmp c → Cmp (F c)) : GoodK g as [] rs := by
  subst hr
  refine ⟨?_, fun k => ?_, fun h1 _ c hcm => ?_⟩
  · rw [ordK_iff] at *
    refine ⟨fun c hcm => ?_, ?_⟩
    · obtain ⟨d, hd, rfl⟩ := List.mem_map.1 hcm
      rw [hp]; exact ⟨(ha.1 d hd).1, ho d (ha.1 d hd).2⟩
    · rw [List.pairwise_map]; simpa [firstByte, hp] using ha.2
  · have : denK (as.map F) k = denK as k := ?_
    · rw [this]; simpa [denK] using gL k (denK as k)
    clear gL
    induction as with
    | nil => rfl
    | cons a as ih =>
      simp only [OrdK] at ha
      simp only [List.map_cons, denK, ih ha.2.2.2, hd]
      simp [firstByte, hp]
  · obtain ⟨d, hd, rfl⟩ := List.mem_map.1 hcm
    exact hc d (h1 d hd)

theorem GoodK.symm {g} {as bs rs : List Node} (h : GoodK (fun k x y z => g k y x z) bs as rs) : GoodK g as bs rs :=
  ⟨h.ord, h.den, fun h1 h2 => h.shape h2 h1⟩

theorem goodK_right {g} (gR : ∀ k x, g k none x x) {bs rs : List Node} {F : Node → Node}
    (hr : rs = bs.map F) (hb : OrdK bs) (ho : ∀ c, Ord c → Ord (F c)) (hp : ∀ c, (F c).pfx = c.pfx)
    (hd : ∀ c k, den (F c) k = den c k) (hc : ∀ c, Cmp c → Cmp (F c)) : GoodK g [] bs rs :=
  (goodK_left (g := fun k x y z => g k y x z) gR hr hb ho hp hd hc).symm

theorem goodK_nil_nil {g} (g0 : ∀ k, g k none none none) : GoodK g [] [] [] :=
  ⟨by simp [OrdK], by simp [denK, g0], by simp⟩

theorem goodK_nilL {g} (gR : ∀ k x, g k none x none) (bs : List Node) : GoodK g [] bs [] :=
  ⟨by simp [OrdK], by simp [denK, gR], by simp⟩

theorem goodK_nilR {g} (gL : ∀ k x, g k x none none) (as : List Node) : GoodK g as [] [] :=
  ⟨by simp [OrdK], by simp [denK, gL], by simp⟩

theorem goodK_keep {g} (gL : ∀ k x, g k x none x) {as : List Node} (ha : OrdK as) : GoodK g as [] as :=
  goodK_left (F := id) gL (by simp) ha (fun _ h => h) (fun _ => rfl) (fun _ _ => rfl) (fun _ h => h)

/-- Facts about a two-sided pair in a join. -/
theorem join_both {as bs : List Node} (ha : OrdK as) (hb : OrdK bs) {a b : Node}
    (h : (some a, some b) ∈ join as bs) : a ∈ as ∧ b ∈ bs ∧ a.pfx ≠ [] ∧ a.firstByte = b.firstByte := by
  obtain ⟨h1, h2, h3⟩ := join_mem h
  have h4 := h1 a rfl; have h5 := h2 b rfl
  exact ⟨h4.1, h5.1, (ha.mem h4.1).1, h4.2.trans h5.2.symm⟩

theorem join_left {as bs : List Node} {a : Node} {o} (h : (some a, o) ∈ join as bs) : a ∈ as :=
  ((join_mem h).1 a rfl).1

theorem join_right {as bs : List Node} {b : Node} {o} (h : (o, some b) ∈ join as bs) : b ∈ bs :=
  ((join_mem h).2.1 b rfl).1

theorem join_not_none {as bs : List Node} : (none, none) ∉ join as bs := by
  intro h; have := (join_mem h).2.2; simp at this

/-- The four node cases: the view at the common prefix. -/
theorem view_ab {a b : Node} {n : Nat} (h1 : n = a.pfx.length) (h2 : n = b.pfx.length) :
    vv n a = a.val ∧ vv n b = b.val ∧ vk n a = a.kids ∧ vk n b = b.kids := by
  simp [vv, vk, ← h1, ← h2]

theorem vv_eq {n : Nat} {a : Node} (h : n = a.pfx.length) : vv n a = a.val := by simp [vv, h]
theorem vk_eq {n : Nat} {a : Node} (h : n = a.pfx.length) : vk n a = a.kids := by simp [vk, h]
theorem vv_ne {n : Nat} {a : Node} (h : n ≠ a.pfx.length) : vv n a = none := by simp [vv, h]
theorem vk_ne {n : Nat} {a : Node} (h : n ≠ a.pfx.length) : vk n a = [a.cloneShortened n] := by simp [vk, h]

theorem arcOpt_singleton (x : Node) : some [x] = arcOpt [x] := rfl

theorem StepOK.keep {g} {p} {c : Node} (h : StepOK g p (some c)) : StepOK g p (keepNonEmpty c) := by
  unfold keepNonEmpty
  split
  · rename_i he
    refine ⟨fun d hd => (by cases hd), fun k hk => ?_, fun h1 h2 d hd => (by cases hd)⟩
    have := h.den k hk
    simpa [den_isEmpty he] using this
  · exact h

theorem ord_keep {c : Node} (h : Ord c) : Ord c.detached := ord_detached c h

/-- The two-element sibling list of the disjoint case. -/
theorem goodK_two {g} (gL : ∀ k x, g k x none x) (gR : ∀ k x, g k none x x) {a b a' b' : Node} {rs : List Node}
    (h : OrdK rs) (hm : ∀ c, c ∈ rs ↔ c = a' ∨ c = b')
    (hna : a.pfx ≠ []) (hnb : b.pfx ≠ []) (hoa : Ord a) (hob : Ord b)
    (hfa : a'.firstByte = a.firstByte) (hfb : b'.firstByte = b.firstByte)
    (hda : ∀ k, den a' k = den a k) (hdb : ∀ k, den b' k = den b k)
    (hca : Cmp a → Cmp a') (hcb : Cmp b → Cmp b') (hne : a.firstByte ≠ b.firstByte) :
    GoodK g [a] [b] rs := by
  have oa : OrdK [a] := by simp [OrdK, hna, hoa]
  have ob : OrdK [b] := by simp [OrdK, hnb, hob]
  refine ⟨h, fun k => ?_, fun h1 h2 c hc => ?_⟩
  · cases k with
    | nil => rw [denK_nil h, denK_nil oa, denK_nil ob]; exact gL _ _
    | cons x xs =>
      rw [denK_cons_eq, denK_cons_eq, denK_cons_eq]
      by_cases ha : a.firstByte = some x
      · have hb : b.firstByte ≠ some x := fun e => hne (ha.trans e.symm)
        rw [childAt_of_mem h ((hm a').2 (Or.inl rfl)) (hfa.trans ha)]
        simp [childAt, ha, hb, gL, hda]
      · by_cases hb : b.firstByte = some x
        · rw [childAt_of_mem h ((hm b').2 (Or.inr rfl)) (hfb.trans hb)]
          simp [childAt, ha, hb, gR, hdb]
        · have : childAt rs x = none := by
            cases hc : childAt rs x with
            | none => rfl
            | some c =>
              obtain ⟨h1, h2⟩ := childAt_mem hc
              rcases (hm c).1 h1 with rfl | rfl
              · exact absurd (hfa.symm.trans h2) ha
              · exact absurd (hfb.symm.trans h2) hb
          rw [this]; simp [childAt, ha, hb, gR]
  · rcases (hm c).1 hc with rfl | rfl
    · exact hca (h1 a (by simp))
    · exact hcb (h2 b (by simp))

/-- Nothing in common and nothing kept: the result is empty. -/
theorem good_empty {g} {a b : Node} (hd : ∀ k, g k (den a k) (den b k) none) : Good g a b Node.empty :=
  ⟨ord_empty, fun k => by rw [den_empty]; exact hd k, fun _ _ _ => Or.inl rfl, fun _ _ => Or.inl rfl⟩

theorem canonicalize_none (p : Bytes) : canonicalize (mk p none none) = Node.empty := by
  simp [canonicalize, mergeOnlyChild, childCount, kids]

theorem inner_none_of {f} {x y : Option Bytes} (h : x = none ∨ y = none) : none = Spec.inner f x y := by
  rcases h with rfl | rfl
  · rfl
  · cases x <;> rfl

/-! ### outer_combine -/

theorem outerChildren_good (f) {as bs : List Node} (ha : OrdK as) (hb : OrdK bs)
    (ih : ∀ a ∈ as, ∀ b ∈ bs, Ord a → Ord b → Good (Fn3 (Spec.outer f)) a b (outerCombine f a b)) :
    GoodK (Fn3 (Spec.outer f)) as bs ((outerCombineChildren f (arcOpt as) (arcOpt bs)).getD []) := by
  have gL : ∀ k x, Fn3 (Spec.outer f) k x none x := by intro _ x; cases x <;> rfl
  have gR : ∀ k x, Fn3 (Spec.outer f) k none x x := by intro _ x; cases x <;> rfl
  by_cases ea : as = []
  · subst ea
    by_cases eb : bs = []
    · subst eb; simpa [arcOpt, outerCombineChildren] using goodK_nil_nil (fun _ => rfl)
    · have : arcOpt bs = some bs := by simp [arcOpt, eb]
      rw [this]
      simp only [arcOpt, outerCombineChildren, List.isEmpty_nil, if_true]
      refine goodK_right (F := detached) gR ?_ hb (fun c h => ord_detached c h) (fun c => pfx_detached c)
        (fun c k => den_detached c k) (fun c h => cmp_detached h)
      rw [detachedO_some, arcOpt_getD]
  · have e1 : arcOpt as = some as := by simp [arcOpt, ea]
    by_cases eb : bs = []
    · subst eb
      rw [e1]
      simp only [arcOpt, outerCombineChildren, List.isEmpty_nil, if_true]
      refine goodK_left (F := detached) gL ?_ ha (fun c h => ord_detached c h) (fun c => pfx_detached c)
        (fun c k => den_detached c k) (fun c h => cmp_detached h)
      rw [detachedO_some, arcOpt_getD]
    · have e2 : arcOpt bs = some bs := by simp [arcOpt, eb]
      rw [e1, e2]
      simp only [outerCombineChildren]
      rw [arcOpt_getD]
      rw [attach_filterMap_eq (g := fun
        | (some a, some b) => keepNonEmpty (outerCombine f a b)
        | (some a, none) => keepNonEmpty a.detached
        | (none, some b) => keepNonEmpty b.detached
        | (none, none) => none)]
      · apply joined_good (fun _ => rfl) ha hb
        intro p hp
        match p, hp with
        | (some a, some b), hp =>
          obtain ⟨h1, h2, h3, h4⟩ := join_both ha hb hp
          exact (ih a h1 b h2 (ha.mem h1).2 (hb.mem h2).2).step rfl h3 h4
        | (some a, none), hp =>
          exact (stepL gL (ord_keep (ha.mem (join_left hp)).2) (firstByte_detached a) (den_detached a)
            cmp_detached).keep
        | (none, some b), hp =>
          exact (stepR gR (ord_keep (hb.mem (join_right hp)).2) (firstByte_detached b) (den_detached b)
            cmp_detached).keep
        | (none, none), hp => exact absurd hp join_not_none
      · rintro ⟨_ | a, _ | b⟩ hx <;> rfl

theorem outerCombine_good (f) (a b : Node) (ha : Ord a) (hb : Ord b) :
    Good (Fn3 (Spec.outer f)) a b (outerCombine f a b) := by
  induction a, b using pair_induct with
  | step a b ih =>
    obtain ⟨n, hn, hna, hnb, htake, hmax, hdis⟩ := commonPrefix_cut a b
    have gL : ∀ k x, Fn3 (Spec.outer f) k x none x := by intro _ x; cases x <;> rfl
    have gR : ∀ k x, Fn3 (Spec.outer f) k none x x := by intro _ x; cases x <;> rfl
    have kids : n = a.pfx.length ∨ n = b.pfx.length →
        GoodK (Fn3 (Spec.outer f)) (vk n a) (vk n b)
          ((outerCombineChildren f (arcOpt (vk n a)) (arcOpt (vk n b))).getD []) := fun h =>
      outerChildren_good f (vk_ord ha hna) (vk_ord hb hnb)
        (fun c hc d hd => ih c d (vk_mem_nodes h hc hd))
    have main := fun h v hv => node_good (g := Fn3 (Spec.outer f)) (v := v) (fun _ => rfl) ha hb hna hnb htake hmax hv (kids h) rfl rfl
    unfold outerCombine
    simp only [hn]
    split
    · rename_i h
      have := main (Or.inl h.1)
      rw [vk_eq h.1, vk_eq h.2, vv_eq h.1, vv_eq h.2] at this
      rw [loadChildren_eq, loadChildren_eq]
      apply this
      rcases a.val with _ | va <;> rcases b.val with _ | vb <;> rfl
    · rename_i h1
      split
      · rename_i h2
        have h3 : n ≠ b.pfx.length := fun e => h1 ⟨h2, e⟩
        have := main (Or.inl h2)
        rw [vk_eq h2, vk_ne h3, vv_eq h2, vv_ne h3] at this
        rw [loadChildren_eq, arcOpt_singleton]
        exact this _ (gL [] _)
      · rename_i h2
        split
        · rename_i h3
          have := main (Or.inr h3)
          rw [vk_ne h2, vk_eq h3, vv_ne h2, vv_eq h3] at this
          rw [loadChildren_eq, arcOpt_singleton]
          exact this _ (gR [] _)
        · rename_i h3
          have hd := hdis h2 h3
          refine node_good (n := n) (fun _ => rfl) ha hb hna hnb htake hmax ?_ ?_ rfl rfl
          · rw [vv_ne h2, vv_ne h3]; rfl
          · rw [vk_ne h2, vk_ne h3]
            have hfa : (Conv.detach.nodeShortened a n).firstByte = (a.cloneShortened n).firstByte := by
              simp [Conv.nodeShortened]
            have hfb : (Conv.detach.nodeShortened b n).firstByte = (b.cloneShortened n).firstByte := by
              simp [Conv.nodeShortened]
            have hne : (a.cloneShortened n).firstByte ≠ (b.cloneShortened n).firstByte := hd
            have pa : (a.cloneShortened n).pfx ≠ [] := drop_ne_nil hna h2
            have pb : (b.cloneShortened n).pfx ≠ [] := drop_ne_nil hnb h3
            have oa := ord_cloneShortened ha n
            have ob := ord_cloneShortened hb n
            refine goodK_two (a' := Conv.detach.nodeShortened a n) (b' := Conv.detach.nodeShortened b n)
              gL gR ?_ ?_ pa pb oa ob hfa hfb
              (conv_node_den .detach _) (conv_node_den .detach _) (cmp_conv .detach) (cmp_conv .detach) hne
            · have oa' := conv_node_ord .detach oa
              have ob' := conv_node_ord .detach ob
              have pa' : (Conv.detach.nodeShortened a n).pfx ≠ [] := by
                simpa [Conv.nodeShortened] using pa
              have pb' : (Conv.detach.nodeShortened b n).pfx ≠ [] := by
                simpa [Conv.nodeShortened] using pb
              simp only [Option.getD_some]
              split
              · rename_i hlt
                simp [OrdK, pa', pb', hlt]
                exact ⟨ob', oa'⟩
              · rename_i hge
                have : rank (Conv.detach.nodeShortened a n).firstByte ≠
                    rank (Conv.detach.nodeShortened b n).firstByte := by
                  rw [hfa, hfb]; exact fun e => hne (rank_inj e)
                simp [OrdK, pa', pb', show rank (Conv.detach.nodeShortened a n).firstByte <
                    rank (Conv.detach.nodeShortened b n).firstByte by omega]
                exact ⟨oa', ob'⟩
            · intro c
              simp only [Option.getD_some]
              split <;> simp [or_comm]

/-! ### inner_combine -/

theorem innerChildren_good (f) {as bs : List Node} (ha : OrdK as) (hb : OrdK bs)
    (ih : ∀ a ∈ as, ∀ b ∈ bs, Ord a → Ord b → Good (Fn3 (Spec.inner f)) a b (innerCombine f a b)) :
    GoodK (Fn3 (Spec.inner f)) as bs ((innerCombineChildren f (arcOpt as) (arcOpt bs)).getD []) := by
  have gL : ∀ k x, Fn3 (Spec.inner f) k x none none := by intro _ x; cases x <;> rfl
  have gR : ∀ k x, Fn3 (Spec.inner f) k none x none := by intro _ x; cases x <;> rfl
  by_cases ea : as = []
  · subst ea
    have : innerCombineChildren f (arcOpt []) (arcOpt bs) = none := by
      simp [arcOpt, innerCombineChildren]
    rw [this]; exact goodK_nilL gR bs
  · have e1 : arcOpt as = some as := by simp [arcOpt, ea]
    by_cases eb : bs = []
    · subst eb
      have : innerCombineChildren f (arcOpt as) (arcOpt []) = none := by
        simp [arcOpt, innerCombineChildren]
      rw [this]; exact goodK_nilR gL as
    · have e2 : arcOpt bs = some bs := by simp [arcOpt, eb]
      rw [e1, e2]
      simp only [innerCombineChildren]
      rw [arcOpt_getD]
      rw [attach_filterMap_eq (g := fun
        | (some a, some b) => keepNonEmpty (innerCombine f a b)
        | _ => none)]
      · apply joined_good (fun _ => rfl) ha hb
        intro p hp
        match p, hp with
        | (some a, some b), hp =>
          obtain ⟨h1, h2, h3, h4⟩ := join_both ha hb hp
          exact (ih a h1 b h2 (ha.mem h1).2 (hb.mem h2).2).step rfl h3 h4
        | (some a, none), hp => exact stepDropL gL
        | (none, some b), hp => exact stepDropR gR
        | (none, none), hp => exact absurd hp join_not_none
      · rintro ⟨_ | a, _ | b⟩ hx <;> rfl

theorem innerCombine_good (f) (a b : Node) (ha : Ord a) (hb : Ord b) :
    Good (Fn3 (Spec.inner f)) a b (innerCombine f a b) := by
  induction a, b using pair_induct with
  | step a b ih =>
    obtain ⟨n, hn, hna, hnb, htake, hmax, hdis⟩ := commonPrefix_cut a b
    have kids : n = a.pfx.length ∨ n = b.pfx.length →
        GoodK (Fn3 (Spec.inner f)) (vk n a) (vk n b)
          ((innerCombineChildren f (arcOpt (vk n a)) (arcOpt (vk n b))).getD []) := fun h =>
      innerChildren_good f (vk_ord ha hna) (vk_ord hb hnb)
        (fun c hc d hd => ih c d (vk_mem_nodes h hc hd))
    have main := fun h v hv => node_good (g := Fn3 (Spec.inner f)) (v := v) (fun _ => rfl) ha hb hna hnb htake hmax hv (kids h) rfl rfl
    unfold innerCombine
    simp only [hn]
    split
    · rename_i h
      have := main (Or.inl h.1)
      rw [vk_eq h.1, vk_eq h.2, vv_eq h.1, vv_eq h.2] at this
      rw [loadChildren_eq, loadChildren_eq]
      apply this
      rcases a.val with _ | va <;> rcases b.val with _ | vb <;> rfl
    · rename_i h1
      split
      · rename_i h2
        have h3 : n ≠ b.pfx.length := fun e => h1 ⟨h2, e⟩
        have := main (Or.inl h2)
        rw [vk_eq h2, vk_ne h3, vv_eq h2, vv_ne h3] at this
        rw [loadChildren_eq, arcOpt_singleton]
        exact this _ (inner_none_of (Or.inr rfl))
      · rename_i h2
        split
        · rename_i h3
          have := main (Or.inr h3)
          rw [vk_ne h2, vk_eq h3, vv_ne h2, vv_eq h3] at this
          rw [loadChildren_eq, arcOpt_singleton]
          exact this _ (inner_none_of (Or.inl rfl))
        · rename_i h3
          rw [canonicalize_none]
          exact good_empty fun k => inner_none_of (den_disjoint hna hnb htake (hdis h2 h3) h2 h3 k)

/-! ### left_combine -/

theorem leftChildren_good (f) {as bs : List Node} (ha : OrdK as) (hb : OrdK bs)
    (ih : ∀ a ∈ as, ∀ b ∈ bs, Ord a → Ord b → Good (Fn3 (Spec.left f)) a b (leftCombine f a b)) :
    GoodK (Fn3 (Spec.left f)) as bs ((leftCombineChildren f (arcOpt as) (arcOpt bs)).getD []) := by
  have gL : ∀ k x, Fn3 (Spec.left f) k x none x := by intro _ x; cases x <;> rfl
  have gR : ∀ k x, Fn3 (Spec.left f) k none x none := by intro _ x; cases x <;> rfl
  by_cases ea : as = []
  · subst ea
    have : leftCombineChildren f (arcOpt []) (arcOpt bs) = none := by
      simp [arcOpt, leftCombineChildren]
    rw [this]; exact goodK_nilL gR bs
  · have e1 : arcOpt as = some as := by simp [arcOpt, ea]
    by_cases eb : bs = []
    · subst eb
      rw [e1]
      simp only [arcOpt, leftCombineChildren, List.isEmpty_nil, if_true]
      refine goodK_left (F := detached) gL ?_ ha (fun c h => ord_detached c h) (fun c => pfx_detached c)
        (fun c k => den_detached c k) (fun c h => cmp_detached h)
      rw [detachedO_some, arcOpt_getD]
    · have e2 : arcOpt bs = some bs := by simp [arcOpt, eb]
      rw [e1, e2]
      simp only [leftCombineChildren]
      rw [arcOpt_getD]
      rw [attach_filterMap_eq (g := fun
        | (some a, some b) => keepNonEmpty (leftCombine f a b)
        | (some a, none) => some a.detached
        | _ => none)]
      · apply joined_good (fun _ => rfl) ha hb
        intro p hp
        match p, hp with
        | (some a, some b), hp =>
          obtain ⟨h1, h2, h3, h4⟩ := join_both ha hb hp
          exact (ih a h1 b h2 (ha.mem h1).2 (hb.mem h2).2).step rfl h3 h4
        | (some a, none), hp =>
          exact stepL gL (ord_keep (ha.mem (join_left hp)).2) (firstByte_detached a) (den_detached a)
            cmp_detached
        | (none, some b), hp => exact stepDropR gR
        | (none, none), hp => exact absurd hp join_not_none
      · rintro ⟨_ | a, _ | b⟩ hx <;> rfl

/-- The left tree is the result when the trees have no key in common. -/
theorem good_left {f} {a b r : Node} (ho : Ord r) (hd : ∀ k, den r k = den a k)
    (hp : r.isEmpty ∨ a.pfx <+: r.pfx) (hs : Shape a → Shape r)
    (h : ∀ k, den a k = none ∨ den b k = none) : Good (Fn3 (Spec.left f)) a b r := by
  refine ⟨ho, fun k => ?_, fun p h1 _ => hp.imp id h1.trans, fun h1 _ => hs h1⟩
  rw [hd]
  rcases h k with h | h <;> rw [h]
  · rfl
  · cases den a k <;> rfl

theorem leftCombine_good (f) (a b : Node) (ha : Ord a) (hb : Ord b) :
    Good (Fn3 (Spec.left f)) a b (leftCombine f a b) := by
  induction a, b using pair_induct with
  | step a b ih =>
    obtain ⟨n, hn, hna, hnb, htake, hmax, hdis⟩ := commonPrefix_cut a b
    have gL : ∀ k x, Fn3 (Spec.left f) k x none x := by intro _ x; cases x <;> rfl
    have kids : n = a.pfx.length ∨ n = b.pfx.length →
        GoodK (Fn3 (Spec.left f)) (vk n a) (vk n b)
          ((leftCombineChildren f (arcOpt (vk n a)) (arcOpt (vk n b))).getD []) := fun h =>
      leftChildren_good f (vk_ord ha hna) (vk_ord hb hnb)
        (fun c hc d hd => ih c d (vk_mem_nodes h hc hd))
    have main := fun h v hv => node_good (g := Fn3 (Spec.left f)) (v := v) (fun _ => rfl) ha hb hna hnb htake hmax hv (kids h) rfl rfl
    unfold leftCombine
    simp only [hn]
    split
    · rename_i h
      have := main (Or.inl h.1)
      rw [vk_eq h.1, vk_eq h.2, vv_eq h.1, vv_eq h.2] at this
      rw [loadChildren_eq, loadChildren_eq]
      apply this
      rcases a.val with _ | va <;> rcases b.val with _ | vb <;> rfl
    · rename_i h1
      split
      · rename_i h2
        have h3 : n ≠ b.pfx.length := fun e => h1 ⟨h2, e⟩
        have := main (Or.inl h2)
        rw [vk_eq h2, vk_ne h3, vv_eq h2, vv_ne h3] at this
        rw [loadChildren_eq, arcOpt_singleton]
        exact this _ (gL [] _)
      · rename_i h2
        split
        · rename_i h3
          have := main (Or.inr h3)
          rw [vk_ne h2, vk_eq h3, vv_ne h2, vv_eq h3] at this
          rw [loadChildren_eq, arcOpt_singleton]
          exact this _ rfl
        · rename_i h3
          exact good_left (ord_detached a ha) (den_detached a) (Or.inr (by simp)) shape_detached
            (den_disjoint hna hnb htake (hdis h2 h3) h2 h3)

/-! ### In-place variants -/

theorem split_pfx (a : Node) (n : Nat) : (a.split n).pfx = a.pfx.take n := rfl
theorem split_val (a : Node) (n : Nat) : (a.split n).val = none := rfl

theorem sortByFirst_two (x y : Node) :
    sortByFirst ([x] ++ [y]) = if rank x.firstByte ≤ rank y.firstByte then [x, y] else [y, x] := by
  simp [sortByFirst, insertByFirst]

theorem outerChildrenWith_good (cv f) {as bs : List Node} (ha : OrdK as) (hb : OrdK bs)
    (ih : ∀ a ∈ as, ∀ b ∈ bs, Ord a → Ord b → Good (Fn3 (Spec.outer f)) a b (outerCombineWith cv f a b)) :
    GoodK (Fn3 (Spec.outer f)) as bs (outerCombineChildrenWith cv f as (arcOpt bs)) := by
  have gL : ∀ k x, Fn3 (Spec.outer f) k x none x := by intro _ x; cases x <;> rfl
  have gR : ∀ k x, Fn3 (Spec.outer f) k none x x := by intro _ x; cases x <;> rfl
  by_cases eb : bs = []
  · subst eb
    simp only [arcOpt, outerCombineChildrenWith, List.isEmpty_nil, if_true]
    exact goodK_keep gL ha
  · have e2 : arcOpt bs = some bs := by simp [arcOpt, eb]
    rw [e2]
    simp only [outerCombineChildrenWith]
    split
    · rename_i e
      have : as = [] := by simpa using e
      subst this
      exact goodK_right (F := cv.node) gR rfl hb (fun c h => conv_node_ord cv h) (fun c => conv_node_pfx cv c)
        (fun c k => conv_node_den cv c k) (fun c h => cmp_conv cv h)
    · rw [attach_filterMap_eq (g := fun
        | (some a, some b) => keepNonEmpty (outerCombineWith cv f a b)
        | (some a, none) => some a
        | (none, some b) => some (cv.node b)
        | (none, none) => none)]
      · apply joined_good (fun _ => rfl) ha hb
        intro p hp
        match p, hp with
        | (some a, some b), hp =>
          obtain ⟨h1, h2, h3, h4⟩ := join_both ha hb hp
          exact (ih a h1 b h2 (ha.mem h1).2 (hb.mem h2).2).step rfl h3 h4
        | (some a, none), hp =>
          exact stepL gL (ha.mem (join_left hp)).2 rfl (fun _ => rfl) id
        | (none, some b), hp =>
          exact stepR gR (conv_node_ord cv (hb.mem (join_right hp)).2) (conv_node_firstByte cv b)
            (conv_node_den cv b) (cmp_conv cv)
        | (none, none), hp => exact absurd hp join_not_none
      · rintro ⟨_ | a, _ | b⟩ hx <;> rfl

theorem outerCombineWith_good (cv f) (a b : Node) (ha : Ord a) (hb : Ord b) :
    Good (Fn3 (Spec.outer f)) a b (outerCombineWith cv f a b) := by
  induction a, b using pair_induct with
  | step a b ih =>
    obtain ⟨n, hn, hna, hnb, htake, hmax, hdis⟩ := commonPrefix_cut a b
    have gL : ∀ k x, Fn3 (Spec.outer f) k x none x := by intro _ x; cases x <;> rfl
    have gR : ∀ k x, Fn3 (Spec.outer f) k none x x := by intro _ x; cases x <;> rfl
    have kids : n = a.pfx.length ∨ n = b.pfx.length →
        GoodK (Fn3 (Spec.outer f)) (vk n a) (vk n b)
          (outerCombineChildrenWith cv f (vk n a) (arcOpt (vk n b))) := fun h =>
      outerChildrenWith_good cv f (vk_ord ha hna) (vk_ord hb hnb)
        (fun c hc d hd => ih c d (vk_mem_nodes h hc hd))
    have main := fun h v hv q (hq : q = a.pfx.take n) =>
      node_good (g := Fn3 (Spec.outer f)) (v := v) (q := q) (c := some _) (fun _ => rfl) ha hb hna hnb htake hmax hv (kids h) hq rfl
    unfold outerCombineWith
    simp only [hn]
    split
    · rename_i h2
      split
      · rename_i h1
        have := main (Or.inl h1)
        rw [vk_eq h1, vk_eq h2, vv_eq h1, vv_eq h2] at this
        rw [loadChildren_eq]
        apply this
        · rcases a.val with _ | va <;> rcases b.val with _ | vb <;> rfl
        · rw [h1, List.take_length]
      · rename_i h1
        have := main (Or.inr h2)
        rw [vk_ne h1, vk_eq h2, vv_ne h1, vv_eq h2] at this
        rw [loadChildren_eq, split_kids]
        exact this _ (gR [] _) _ (split_pfx a n)
    · rename_i h2
      split
      · rename_i h1
        have := main (Or.inl h1)
        rw [vk_eq h1, vk_ne h2, vv_eq h1, vv_ne h2] at this
        rw [arcOpt_singleton]
        exact this _ (gL [] _) _ (by rw [h1, List.take_length])
      · rename_i h1
        have hd := hdis h1 h2
        refine node_good (n := n) (fun _ => rfl) ha hb hna hnb htake hmax ?_ ?_ (split_pfx a n) rfl
        · rw [vv_ne h1, vv_ne h2]; rfl
        · rw [vk_ne h1, vk_ne h2, split_kids, Option.getD_some, sortByFirst_two]
          have hfb : (cv.nodeShortened b n).firstByte = (b.cloneShortened n).firstByte := by
            simp [Conv.nodeShortened]
          have hne : (a.cloneShortened n).firstByte ≠ (b.cloneShortened n).firstByte := hd
          have pa : (a.cloneShortened n).pfx ≠ [] := drop_ne_nil hna h1
          have pb : (b.cloneShortened n).pfx ≠ [] := drop_ne_nil hnb h2
          have oa := ord_cloneShortened ha n
          have ob := ord_cloneShortened hb n
          refine goodK_two (a' := a.cloneShortened n) (b' := cv.nodeShortened b n)
            gL gR ?_ ?_ pa pb oa ob rfl hfb (fun _ => rfl) (conv_node_den cv _) id (cmp_conv cv) hne
          · have ob' := conv_node_ord cv ob
            have pb' : (cv.nodeShortened b n).pfx ≠ [] := by
              simpa [Conv.nodeShortened] using pb
            have : rank (a.cloneShortened n).firstByte ≠ rank (cv.nodeShortened b n).firstByte := by
              rw [hfb]; exact fun e => hne (rank_inj e)
            split
            · simp [OrdK, pa, pb', show rank (a.cloneShortened n).firstByte <
                rank (cv.nodeShortened b n).firstByte by omega]
              exact ⟨oa, ob'⟩
            · simp [OrdK, pa, pb', show rank (cv.nodeShortened b n).firstByte <
                rank (a.cloneShortened n).firstByte by omega]
              exact ⟨ob', oa⟩
          · intro c
            split <;> simp [or_comm]

theorem innerChildrenWith_good (f) {as bs : List Node} (ha : OrdK as) (hb : OrdK bs)
    (ih : ∀ a ∈ as, ∀ b ∈ bs, Ord a → Ord b → Good (Fn3 (Spec.inner f)) a b (innerCombineWith f a b)) :
    GoodK (Fn3 (Spec.inner f)) as bs (innerCombineChildrenWith f as (arcOpt bs)) := by
  have gL : ∀ k x, Fn3 (Spec.inner f) k x none none := by intro _ x; cases x <;> rfl
  have gR : ∀ k x, Fn3 (Spec.inner f) k none x none := by intro _ x; cases x <;> rfl
  by_cases eb : bs = []
  · subst eb
    simp only [arcOpt, innerCombineChildrenWith, List.isEmpty_nil, if_true]
    exact goodK_nilR gL as
  · have e2 : arcOpt bs = some bs := by simp [arcOpt, eb]
    rw [e2]
    simp only [innerCombineChildrenWith]
    split
    · rename_i e
      have : as = [] := by simpa using e
      subst this
      exact goodK_nilL gR bs
    · rw [attach_filterMap_eq (g := fun
        | (some a, some b) => keepNonEmpty (innerCombineWith f a b)
        | _ => none)]
      · apply joined_good (fun _ => rfl) ha hb
        intro p hp
        match p, hp with
        | (some a, some b), hp =>
          obtain ⟨h1, h2, h3, h4⟩ := join_both ha hb hp
          exact (ih a h1 b h2 (ha.mem h1).2 (hb.mem h2).2).step rfl h3 h4
        | (some a, none), hp => exact stepDropL gL
        | (none, some b), hp => exact stepDropR gR
        | (none, none), hp => exact absurd hp join_not_none
      · rintro ⟨_ | a, _ | b⟩ hx <;> rfl

theorem innerCombineWith_good (f) (a b : Node) (ha : Ord a) (hb : Ord b) :
    Good (Fn3 (Spec.inner f)) a b (innerCombineWith f a b) := by
  induction a, b using pair_induct with
  | step a b ih =>
    obtain ⟨n, hn, hna, hnb, htake, hmax, hdis⟩ := commonPrefix_cut a b
    have kids : n = a.pfx.length ∨ n = b.pfx.length →
        GoodK (Fn3 (Spec.inner f)) (vk n a) (vk n b)
          (innerCombineChildrenWith f (vk n a) (arcOpt (vk n b))) := fun h =>
      innerChildrenWith_good f (vk_ord ha hna) (vk_ord hb hnb)
        (fun c hc d hd => ih c d (vk_mem_nodes h hc hd))
    have main := fun h v hv q (hq : q = a.pfx.take n) =>
      node_good (g := Fn3 (Spec.inner f)) (v := v) (q := q) (c := some _) (fun _ => rfl) ha hb hna hnb htake hmax hv (kids h) hq rfl
    unfold innerCombineWith
    simp only [hn]
    split
    · rename_i h
      have := main (Or.inl h.1)
      rw [vk_eq h.1, vk_eq h.2, vv_eq h.1, vv_eq h.2] at this
      rw [loadChildren_eq]
      apply this
      · rcases a.val with _ | va <;> rcases b.val with _ | vb <;> rfl
      · rw [h.1, List.take_length]
    · rename_i h1
      split
      · rename_i h2
        have h3 : n ≠ b.pfx.length := fun e => h1 ⟨h2, e⟩
        have := main (Or.inl h2)
        rw [vk_eq h2, vk_ne h3, vv_eq h2, vv_ne h3] at this
        rw [arcOpt_singleton]
        exact this _ (inner_none_of (Or.inr rfl)) _ (by rw [h2, List.take_length])
      · rename_i h2
        split
        · rename_i h3
          have := main (Or.inr h3)
          rw [vk_ne h2, vk_eq h3, vv_ne h2, vv_eq h3] at this
          rw [loadChildren_eq, split_kids]
          exact this _ (inner_none_of (Or.inl rfl)) _ (split_pfx a n)
        · rename_i h3
          rw [canonicalize_none]
          exact good_empty fun k => inner_none_of (den_disjoint hna hnb htake (hdis h2 h3) h2 h3 k)

theorem leftChildrenWith_good (f) {as bs : List Node} (ha : OrdK as) (hb : OrdK bs)
    (ih : ∀ a ∈ as, ∀ b ∈ bs, Ord a → Ord b → Good (Fn3 (Spec.left f)) a b (leftCombineWith f a b)) :
    GoodK (Fn3 (Spec.left f)) as bs (leftCombineChildrenWith f as (arcOpt bs)) := by
  have gL : ∀ k x, Fn3 (Spec.left f) k x none x := by intro _ x; cases x <;> rfl
  have gR : ∀ k x, Fn3 (Spec.left f) k none x none := by intro _ x; cases x <;> rfl
  by_cases eb : bs = []
  · subst eb
    simp only [arcOpt, leftCombineChildrenWith, List.isEmpty_nil, if_true]
    exact goodK_keep gL ha
  · have e2 : arcOpt bs = some bs := by simp [arcOpt, eb]
    rw [e2]
    simp only [leftCombineChildrenWith]
    split
    · rename_i e
      have : as = [] := by simpa using e
      subst this
      exact goodK_nilL gR bs
    · rw [attach_filterMap_eq (g := fun
        | (some a, some b) => keepNonEmpty (leftCombineWith f a b)
        | (some a, none) => some a
        | _ => none)]
      · apply joined_good (fun _ => rfl) ha hb
        intro p hp
        match p, hp with
        | (some a, some b), hp =>
          obtain ⟨h1, h2, h3, h4⟩ := join_both ha hb hp
          exact (ih a h1 b h2 (ha.mem h1).2 (hb.mem h2).2).step rfl h3 h4
        | (some a, none), hp =>
          exact stepL gL (ha.mem (join_left hp)).2 rfl (fun _ => rfl) id
        | (none, some b), hp => exact stepDropR gR
        | (none, none), hp => exact absurd hp join_not_none
      · rintro ⟨_ | a, _ | b⟩ hx <;> rfl

theorem leftCombineWith_good (f) (a b : Node) (ha : Ord a) (hb : Ord b) :
    Good (Fn3 (Spec.left f)) a b (leftCombineWith f a b) := by
  induction a, b using pair_induct with
  | step a b ih =>
    obtain ⟨n, hn, hna, hnb, htake, hmax, hdis⟩ := commonPrefix_cut a b
    have gL : ∀ k x, Fn3 (Spec.left f) k x none x := by intro _ x; cases x <;> rfl
    have kids : n = a.pfx.length ∨ n = b.pfx.length →
        GoodK (Fn3 (Spec.left f)) (vk n a) (vk n b)
          (leftCombineChildrenWith f (vk n a) (arcOpt (vk n b))) := fun h =>
      leftChildrenWith_good f (vk_ord ha hna) (vk_ord hb hnb)
        (fun c hc d hd => ih c d (vk_mem_nodes h hc hd))
    have main := fun h v hv q (hq : q = a.pfx.take n) =>
      node_good (g := Fn3 (Spec.left f)) (v := v) (q := q) (c := some _) (fun _ => rfl) ha hb hna hnb htake hmax hv (kids h) hq rfl
    unfold leftCombineWith
    simp only [hn]
    split
    · rename_i h
      have := main (Or.inl h.1)
      rw [vk_eq h.1, vk_eq h.2, vv_eq h.1, vv_eq h.2] at this
      rw [loadChildren_eq]
      apply this
      · rcases a.val with _ | va <;> rcases b.val with _ | vb <;> rfl
      · rw [h.1, List.take_length]
    · rename_i h1
      split
      · rename_i h2
        have h3 : n ≠ b.pfx.length := fun e => h1 ⟨h2, e⟩
        have := main (Or.inl h2)
        rw [vk_eq h2, vk_ne h3, vv_eq h2, vv_ne h3] at this
        rw [arcOpt_singleton]
        exact this _ (gL [] _) _ (by rw [h2, List.take_length])
      · rename_i h2
        split
        · rename_i h3
          have := main (Or.inr h3)
          rw [vk_ne h2, vk_eq h3, vv_ne h2, vv_eq h3] at this
          rw [loadChildren_eq, split_kids]
          exact this _ rfl _ (split_pfx a n)
        · rename_i h3
          refine good_left (ord_canonicalize ha) (den_canonicalize ha) ?_
            (fun h => shape_canonicalize h.kids) (den_disjoint hna hnb htake (hdis h2 h3) h2 h3)
          rcases pfx_canonicalize a with h | h
          · rw [h]; exact Or.inl rfl
          · exact Or.inr h

end Radix
