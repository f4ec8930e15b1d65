import Verif.Proofs.Prefix
import Verif.Proofs.Unique

/-
Proof-internal: exactly what retain_prefix_with keeps, for every selection of values.
-/

set_option linter.unusedVariables false

namespace Radix
open Node Spec

/-- Keep `x` where a selected key is reached past the rejected ones, drop it elsewhere. -/
def ExR (f : Bytes → Bool) (m m' : Bytes → Option Bytes) : Rel3 := fun k x _ z =>
  (SelectedPast f m m' k → z = x) ∧ (¬ SelectedPast f m m' k → z = none)

theorem exR_none (f m m' k y) : ExR f m m' k none y none := ⟨fun _ => rfl, fun _ => rfl⟩

theorem past_cov {f m m' k} (h : SelectedPast f m m' k) : Cov f m' k := by
  obtain ⟨q, v, h1, h2, h3, _⟩ := h; exact ⟨q, v, h1, h2, h3⟩

theorem den_self {a : Node} : den a a.pfx = a.val := by
  have := strip_append_self a.pfx []
  rw [List.append_nil] at this
  rw [den_eq, this]

theorem parts_cut {a : Node} {n : Nat} (hn : n ≤ a.pfx.length) (x : UInt8) (xs : Bytes) :
    PartsAt (den a) (a.pfx.take n ++ x :: xs) ↔ PartsAt (denK (vk n a)) (x :: xs) := by
  have h : ∀ r, den a (a.pfx.take n ++ (x :: r)) = denK (vk n a) (x :: r) := fun r => den_cut_append hn (x :: r)
  unfold PartsAt
  simp only [List.append_assoc, List.cons_append, h]

theorem parts_child {as : List Node} (ha : OrdK as) {a : Node} (hm : a ∈ as) {x : UInt8} {xs : Bytes}
    (hx : a.firstByte = some x) : PartsAt (denK as) (x :: xs) ↔ PartsAt (den a) (x :: xs) := by
  have hc := childAt_of_mem ha hm hx
  have h : ∀ r, denK as (x :: r) = den a (x :: r) := by
    intro r; rw [denK_cons_eq, hc]; rfl
  unfold PartsAt
  simp only [List.cons_append, h]

theorem parts_root {a : Node} (h : Cmp a) (ho : Ord a) : PartsAt (den a) a.pfx := by
  rw [cmp_iff] at h
  rcases h.1 with hv | hk
  · obtain ⟨v, hv⟩ := Option.isSome_iff_exists.1 hv
    exact Or.inl ⟨v, by rw [den_self]; exact hv⟩
  · cases hk1 : a.kids with
    | nil => simp [hk1] at hk
    | cons c l =>
      cases l with
      | nil => simp [hk1] at hk
      | cons d l =>
        have ho' := (ord_iff a).1 ho
        have hc : c ∈ a.kids := by simp [hk1]
        have hd : d ∈ a.kids := by simp [hk1]
        have key : ∀ c ∈ a.kids, ∃ x r v, c.firstByte = some x ∧ den a (a.pfx ++ x :: r) = some v := by
          intro c hc
          obtain ⟨k, v, hden⟩ := cmp_exists (h.2 c hc) (ho'.mem hc).2
          obtain ⟨x, hx⟩ := firstByte_of_ne_nil (ho'.mem hc).1
          have hh := den_firstByte hx hden
          cases k with
          | nil => cases hh
          | cons y ys =>
            simp at hh; subst hh
            refine ⟨y, ys, v, hx, ?_⟩
            rw [den_eq, strip_append_self]
            exact (denK_eq_some ho').2 ⟨c, hc, hden⟩
        obtain ⟨x, r, v, hx, h1⟩ := key c hc
        obtain ⟨y, s, w, hy, h2⟩ := key d hd
        have hne : x ≠ y := by
          rw [hk1] at ho'
          simp only [OrdK] at ho'
          have := ho'.2.2.1 d (by simp)
          rw [hx, hy] at this
          rintro rfl; omega
        exact Or.inr ⟨x, y, r, s, v, w, hne, h1, h2⟩

theorem parts_inside {a : Node} {n : Nat} (hn : n ≤ a.pfx.length) (hne : n ≠ a.pfx.length) :
    ¬ PartsAt (den a) (a.pfx.take n) := by
  rintro (⟨v, h⟩ | ⟨x, y, r, s, v, w, hxy, h1, h2⟩)
  · have := (cmp_keys_pfx h).length_le
    rw [List.length_take] at this; omega
  · have h1 := cmp_keys_pfx h1
    have h2 := cmp_keys_pfx h2
    cases hd : a.pfx.drop n with
    | nil => exact drop_ne_nil hn hne hd
    | cons z zs =>
      have e : a.pfx = a.pfx.take n ++ z :: zs := by rw [← hd, List.take_append_drop]
      generalize a.pfx.take n = P at *
      rw [e] at h1 h2
      have h1 := (List.prefix_append_right_inj _).1 h1
      have h2 := (List.prefix_append_right_inj _).1 h2
      rw [List.cons_prefix_cons] at h1 h2
      exact hxy (h1.1.symm.trans h2.1)

/-- The condition seen from the cut, when nothing is selected at the cut itself. -/
theorem past_cut {f} {a b : Node} {n : Nat} (ha : Ord a) (hb : Ord b) (hna : n ≤ a.pfx.length)
    (hnb : n ≤ b.pfx.length) (htake : a.pfx.take n = b.pfx.take n) (hv : (vv n b).any f = false)
    (hp : vv n b = none ∨ PartsAt (den a) (a.pfx.take n)) (k : Bytes) :
    SelectedPast f (den a) (den b) (a.pfx.take n ++ k) ↔
      SelectedPast f (denK (vk n a)) (denK (vk n b)) k := by
  have hden : ∀ r, den b (a.pfx.take n ++ r) =
      match r with | [] => vv n b | x :: xs => denK (vk n b) (x :: xs) := fun r => by
    rw [htake]; exact den_cut_append hnb r
  constructor
  · rintro ⟨q, v, h1, h2, h3, h4⟩
    obtain ⟨r, rfl⟩ := den_cut hnb h2
    rw [← htake] at h1 h2 h4
    rw [hden] at h2
    have hr : r <+: k := (List.prefix_append_right_inj _).1 h1
    cases r with
    | nil => simp only at h2; simp [h2, h3] at hv
    | cons x xs =>
      refine ⟨x :: xs, v, hr, h2, h3, fun q' v' g1 g2 g3 => ?_⟩
      cases q' with
      | nil => rw [denK_nil (vk_ord hb hnb)] at g2; cases g2
      | cons y ys =>
        exact (parts_cut hna y ys).1
          (h4 _ v' ((List.prefix_append_right_inj _).2 g1) (by rw [hden]; exact g2) g3)
  · rintro ⟨q, v, h1, h2, h3, h4⟩
    refine ⟨a.pfx.take n ++ q, v, (List.prefix_append_right_inj _).2 h1, ?_, h3, fun q' v' g1 g2 g3 => ?_⟩
    · cases q with
      | nil => rw [denK_nil (vk_ord hb hnb)] at h2; cases h2
      | cons x xs => rw [hden]; exact h2
    · obtain ⟨r, rfl⟩ := den_cut hnb g2
      rw [← htake] at g1 g2 ⊢
      rw [hden] at g2
      cases r with
      | nil =>
        simp only at g2
        rw [List.append_nil]
        rcases hp with hp | hp
        · rw [hp] at g2; cases g2
        · exact hp
      | cons y ys =>
        exact (parts_cut hna y ys).2 (h4 _ v' ((List.prefix_append_right_inj _).1 g1) g2 g3)

/-- The condition on siblings is the condition on the two with the right first byte. -/
theorem past_child {f} {as bs : List Node} (ha : OrdK as) (hb : OrdK bs) {a b : Node} (ma : a ∈ as) (mb : b ∈ bs)
    (e : a.firstByte = b.firstByte) {k : Bytes} (hk : k.head? = a.firstByte) :
    SelectedPast f (denK as) (denK bs) k ↔ SelectedPast f (den a) (den b) k := by
  obtain ⟨x, hx⟩ := firstByte_of_ne_nil (ha.mem ma).1
  have hc := childAt_of_mem hb mb (e ▸ hx)
  cases k with
  | nil => rw [hx] at hk; cases hk
  | cons y ys =>
    rw [hx] at hk
    have : y = x := by simpa using hk
    subst this
    have hd : ∀ q : Bytes, q <+: y :: ys → denK bs q = den b q := by
      intro q hq
      cases q with
      | nil =>
        rw [denK_nil hb]
        cases h : den b [] with
        | none => rfl
        | some v => have := den_firstByte (e ▸ hx) h; cases this
      | cons z zs =>
        have : z = y := (List.cons_prefix_cons.1 hq).1
        subst this
        rw [denK_cons_eq, hc]; rfl
    have hp : ∀ q : Bytes, q <+: y :: ys → q ≠ [] → (PartsAt (denK as) q ↔ PartsAt (den a) q) := by
      intro q hq hne
      cases q with
      | nil => exact absurd rfl hne
      | cons z zs =>
        have : z = y := (List.cons_prefix_cons.1 hq).1
        subst this
        exact parts_child ha ma hx
    have hne : ∀ (q v : Bytes), den b q = some v → q ≠ [] := by
      rintro q v h rfl
      have := den_firstByte (e ▸ hx) h; cases this
    constructor
    · rintro ⟨q, v, h1, h2, h3, h4⟩
      refine ⟨q, v, h1, by rw [← hd q h1]; exact h2, h3, fun q' v' g1 g2 g3 => ?_⟩
      exact (hp q' (g1.trans h1) (hne _ _ g2)).1 (h4 q' v' g1 (by rw [hd q' (g1.trans h1)]; exact g2) g3)
    · rintro ⟨q, v, h1, h2, h3, h4⟩
      refine ⟨q, v, h1, by rw [hd q h1]; exact h2, h3, fun q' v' g1 g2 g3 => ?_⟩
      rw [hd q' (g1.trans h1)] at g2
      exact (hp q' (g1.trans h1) (hne _ _ g2)).2 (h4 q' v' g1 g2 g3)

theorem retainChildren_exact (f) {as bs : List Node} (ha : OrdK as) (hb : OrdK bs)
    (ih : ∀ a ∈ as, ∀ b ∈ bs, Ord a → Ord b →
      Good (ExR f (den a) (den b)) a b (retainPrefixWith f a b)) :
    GoodK (ExR f (denK as) (denK bs)) as bs (retainPrefixChildrenWith f as (arcOpt bs)) := by
  by_cases eb : bs = []
  · subst eb
    simp only [arcOpt, retainPrefixChildrenWith, List.isEmpty_nil, if_true]
    refine ⟨by simp [OrdK], fun k => ⟨fun h => ?_, fun _ => by simp [denK]⟩, by simp⟩
    exact absurd (past_cov h) (covK_none hb (by simp))
  · have e2 : arcOpt bs = some bs := by simp [arcOpt, eb]
    rw [e2]
    simp only [retainPrefixChildrenWith]
    split
    · rename_i e
      have : as = [] := by simpa using e
      subst this
      exact ⟨by simp [OrdK], fun k => by
        have := exR_none f (denK []) (denK bs) k (denK bs k)
        simpa [denK] using this, by simp⟩
    · rw [attach_filterMap_eq (g := fun
        | (some a, some b) => keepNonEmpty (retainPrefixWith f a b)
        | _ => none)]
      · apply joined_good (fun k => exR_none f _ _ k _) ha hb
        intro p hp
        match p, hp with
        | (some a, some b), hp =>
          obtain ⟨h1, h2, h3, h4⟩ := join_both ha hb hp
          refine ((ih a h1 b h2 (ha.mem h1).2 (hb.mem h2).2).step rfl h3 h4).mono ?_
          intro k x y z hk hg
          have hc := past_child (f := f) ha hb h1 h2 h4 hk
          exact ⟨fun h => hg.1 (hc.1 h), fun h => hg.2 (fun h' => h (hc.2 h'))⟩
        | (some a, none), hp =>
          refine ⟨fun d hd => (by cases hd), fun k hk => ?_, fun h1 h2 d hd => (by cases hd)⟩
          refine ⟨fun h => ?_, fun _ => rfl⟩
          refine absurd (past_cov h) (covK_none hb fun b hm e => ?_)
          exact join_left_only ha hb hp b hm (e.trans hk)
        | (none, some b), hp =>
          exact ⟨fun d hd => (by cases hd), fun k hk => exR_none f _ _ k _, fun h1 h2 d hd => (by cases hd)⟩
        | (none, none), hp => exact absurd hp join_not_none
      · rintro ⟨_ | a, _ | b⟩ hx <;> rfl

theorem retainPrefixWith_exact (f) (a b : Node) (ca : Cmp a) (ha : Ord a) (hb : Ord b) :
    Good (ExR f (den a) (den b)) a b (retainPrefixWith f a b) := by
  induction a, b using pair_induct with
  | step a b ih =>
    obtain ⟨n, hn, hna, hnb, htake, hmax, hdis⟩ := commonPrefix_cut a b
    have kids : n = a.pfx.length ∨ n = b.pfx.length →
        GoodK (ExR f (denK (vk n a)) (denK (vk n b))) (vk n a) (vk n b)
          (retainPrefixChildrenWith f (vk n a) (arcOpt (vk n b))) := fun h =>
      retainChildren_exact f (vk_ord ha hna) (vk_ord hb hnb)
        (fun c hc d hd => ih c d (vk_mem_nodes h hc hd) (vk_cmp (Or.inr ca) hna c hc))
    -- the recursive case: nothing selected at the cut itself, and nothing rejected inside an edge
    have main : ∀ (h : n = a.pfx.length ∨ n = b.pfx.length) (hv : (vv n b).any f = false)
        (hp : vv n b = none ∨ n = a.pfx.length)
        (q : Bytes) (hq : q = a.pfx.take n), Good (ExR f (den a) (den b)) a b
          (canonicalize (mk q none (some (retainPrefixChildrenWith f (vk n a) (arcOpt (vk n b)))))) := by
      intro h hv hp q hq
      have hp' : vv n b = none ∨ PartsAt (den a) (a.pfx.take n) := by
        refine hp.imp id fun e => ?_
        rw [e, List.take_length]; exact parts_root ca ha
      have hc := past_cut (f := f) ha hb hna hnb htake hv hp'
      refine node_good (n := n) (fun k => exR_none f _ _ k _) ha hb hna hnb htake hmax ?_ ?_ hq rfl
      · refine ⟨fun h => ?_, fun _ => rfl⟩
        exfalso
        have := (hc []).1 (by rwa [List.append_nil])
        obtain ⟨q, v, h1, h2, h3, _⟩ := this
        have : q = [] := by simpa using h1
        subst this; rw [denK_nil (vk_ord hb hnb)] at h2; cases h2
      · refine (kids h).mono ?_
        intro k x y z hg
        exact ⟨fun h => hg.1 ((hc k).1 h), fun h => hg.2 (fun h' => h ((hc k).2 h'))⟩
    -- nothing kept
    have dropAll : (∀ k, a.pfx <+: k → ¬ SelectedPast f (den a) (den b) k) → ∀ q,
        Good (ExR f (den a) (den b)) a b (canonicalize (mk q none none)) := by
      intro h q
      rw [canonicalize_none]
      refine good_empty fun k => ⟨fun hc => ?_, fun _ => rfl⟩
      by_cases hp : a.pfx <+: k
      · exact absurd hc (h k hp)
      · exact (den_none_of_not_prefix hp).symm
    -- everything kept
    have keepAll : n = b.pfx.length → ∀ v, b.val = some v → f v = true →
        Good (ExR f (den a) (den b)) a b (canonicalize a) := by
      intro h2 v hv hf
      refine good_keep ha fun k => ⟨fun _ => rfl, fun hn => ?_⟩
      cases hw : den a k with
      | none => rfl
      | some w =>
        exfalso
        obtain ⟨r, rfl⟩ := den_cut hna hw
        apply hn
        refine ⟨b.pfx, v, ?_, by rw [den_self]; exact hv, hf, fun q' v' g1 g2 g3 => ?_⟩
        · rw [htake, h2, List.take_length]; exact List.prefix_append _ _
        · have hq : q' = b.pfx := g1.eq_of_length_le (cmp_keys_pfx g2).length_le
          subst hq
          rw [den_self, hv] at g2
          cases g2
          rw [hf] at g3; cases g3
    unfold retainPrefixWith
    simp only [hn]
    split
    · rename_i h
      have := main (Or.inl h.1)
      rw [vk_eq h.1, vk_eq h.2, vv_eq h.2] at this
      rw [loadChildren_eq]
      have ht : a.pfx = a.pfx.take n := by rw [h.1, List.take_length]
      cases hbv : b.val with
      | none => exact this (by rw [hbv]; rfl) (Or.inr h.1) _ ht
      | some v =>
        cases hf : f v with
        | false => simpa [hf] using this (by rw [hbv]; exact hf) (Or.inr h.1) _ ht
        | true => simpa [hf] using keepAll h.2 v hbv hf
    · rename_i h1
      split
      · rename_i h2
        have h3 : n ≠ a.pfx.length := fun e => h1 ⟨e, h2⟩
        cases hbv : b.val with
        | none =>
          have := main (Or.inr h2)
          rw [vk_ne h3, vk_eq h2, vv_eq h2] at this
          simp only
          rw [loadChildren_eq, split_kids, split_val]
          exact this (by simp [hbv]) (Or.inl hbv) _ (split_pfx a n)
        | some v =>
          simp only
          split
          · rename_i hf
            have hf : f v = false := by simpa using hf
            apply dropAll
            rintro k hk ⟨q, w, hq, hqd, hqf, hall⟩
            obtain ⟨r, rfl⟩ := den_cut hnb hqd
            have hbn : b.pfx.take n = b.pfx := by rw [h2, List.take_length]
            have := hall b.pfx v (by rw [hbn]; exact List.prefix_append _ r) (by rw [den_self]; exact hbv) hf
            rw [← hbn, ← htake] at this
            exact parts_inside hna h3 this
          · rename_i hf
            exact keepAll h2 v hbv (by simpa using hf)
      · rename_i h2
        split
        · rename_i h3
          have := main (Or.inl h3)
          rw [vk_eq h3, vk_ne h2, vv_ne h2] at this
          rw [arcOpt_singleton]
          exact this rfl (Or.inl rfl) _ (by rw [h3, List.take_length])
        · rename_i h3
          apply dropAll
          rintro k hk ⟨q, w, hq, hqd, hqf, _⟩
          have hbk := (cmp_keys_pfx hqd).trans hq
          have hd := hdis h3 h2
          obtain ⟨s, rfl⟩ := hk
          obtain ⟨t, ht⟩ := hbk
          rw [← List.take_append_drop n a.pfx, ← List.take_append_drop n b.pfx, htake] at ht
          simp only [List.append_assoc, List.append_cancel_left_eq] at ht
          cases h4 : a.pfx.drop n with
          | nil => exact drop_ne_nil hna h3 h4
          | cons x xs =>
            cases h5 : b.pfx.drop n with
            | nil => exact drop_ne_nil hnb h2 h5
            | cons y ys => rw [h4, h5] at ht hd; simp at ht hd; exact hd ht.1.symm

theorem retain_exact {f} {a b : Node} (sa : Shape a) (ha : Ord a) (hb : Ord b) :
    den (retainPrefixWith f a b) = Map.retainPast f (den a) (den b) := by
  funext k
  unfold Map.retainPast
  rcases sa with rfl | hc
  · have h0 : den (retainPrefixWith f Node.empty b) k = none := by
      cases h : den (retainPrefixWith f Node.empty b) k with
      | none => rfl
      | some v =>
        have := (((retainPrefixWith_good f _ b ha hb).den k).1 v h).1
        rw [den_isEmpty rfl] at this; cases this
    rw [h0, den_isEmpty rfl]
    split <;> rfl
  · have := (retainPrefixWith_exact f a b hc ha hb).den k
    split
    · rename_i h; exact this.1 h
    · rename_i h; exact this.2 h

/-- When no selected key extends a rejected one, nothing is missed. -/
theorem past_clean {f m m'} (hc : Clean f m') (k : Bytes) : SelectedPast f m m' k ↔ Selected f m' k := by
  refine ⟨past_cov, ?_⟩
  rintro ⟨q, v, h1, h2, h3⟩
  refine ⟨q, v, h1, h2, h3, fun q' v' g1 g2 g3 => ?_⟩
  have := hc q' v' q v g2 g3 g1 h2
  rw [h3] at this; cases this

theorem retainPast_clean {f} {m m' : Map} (hc : Clean f m') : m.retainPast f m' = m.retainPrefix f m' := by
  funext k
  unfold Map.retainPast Map.retainPrefix
  by_cases h : Selected f m' k
  · rw [if_pos h, if_pos ((past_clean hc k).2 h)]
  · rw [if_neg h, if_neg (fun h' => h ((past_clean hc k).1 h'))]

end Radix
