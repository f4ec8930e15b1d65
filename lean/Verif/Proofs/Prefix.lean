import Verif.Proofs.Combine

/-
Proof-internal: retain_prefix_with and remove_prefix_with.
-/

set_option linter.unusedVariables false

namespace Radix
open Node

/-- `k` extends a key of `b` whose value is selected by `f`. -/
def Cov (f : Bytes → Bool) (m : Bytes → Option Bytes) (k : Bytes) : Prop :=
  ∃ q v, q <+: k ∧ m q = some v ∧ f v = true

/-- No selected key extends a rejected key. -/
def Clean (f : Bytes → Bool) (m : Bytes → Option Bytes) : Prop :=
  ∀ q v q' v', m q = some v → f v = false → q <+: q' → m q' = some v' → f v' = false

/-- Keep `x` where `b` covers the key. `H` is needed for the direction that keeps. -/
def RetR (f : Bytes → Bool) (m : Bytes → Option Bytes) : Rel3 := fun k x _ z =>
  (∀ v, z = some v → x = some v ∧ Cov f m k) ∧ (Clean f m → Cov f m k → z = x)

/-- Remove `x` where `b` covers the key. -/
def RemR (f : Bytes → Bool) (m : Bytes → Option Bytes) : Rel3 := fun k x _ z =>
  (Cov f m k → z = none) ∧ (¬ Cov f m k → z = x)

/-- Everything a node holds starts with the cut prefix. -/
theorem den_cut {b : Node} {n : Nat} (hn : n ≤ b.pfx.length) {k v : Bytes} (h : den b k = some v) :
    ∃ r, k = b.pfx.take n ++ r := by
  by_cases hp : b.pfx <+: k
  · obtain ⟨s, rfl⟩ := hp
    exact ⟨b.pfx.drop n ++ s, by rw [← List.append_assoc, List.take_append_drop]⟩
  · rw [den_none_of_not_prefix hp] at h; cases h

theorem den_cut_append {b : Node} {n : Nat} (hn : n ≤ b.pfx.length) (r : Bytes) :
    den b (b.pfx.take n ++ r) = match r with | [] => vv n b | x :: xs => denK (vk n b) (x :: xs) := by
  rw [← vk_den hn, denK_mk, strip_append_self]; cases r <;> rfl

/-- Coverage seen from the cut. -/
theorem cov_cut {f} {b : Node} {n : Nat} (ho : Ord b) (hn : n ≤ b.pfx.length) (k : Bytes) :
    Cov f (den b) (b.pfx.take n ++ k) ↔ (vv n b).any f = true ∨ Cov f (denK (vk n b)) k := by
  constructor
  · rintro ⟨q, v, h1, h2, h3⟩
    obtain ⟨r, rfl⟩ := den_cut hn h2
    rw [den_cut_append hn] at h2
    have hr : r <+: k := (List.prefix_append_right_inj _).1 h1
    cases r with
    | nil => left; simp only at h2; simp [h2, h3]
    | cons x xs => right; exact ⟨x :: xs, v, hr, h2, h3⟩
  · rintro (h | ⟨q, v, h1, h2, h3⟩)
    · cases hv : vv n b with
      | none => simp [hv] at h
      | some v =>
        refine ⟨b.pfx.take n, v, List.prefix_append _ _, ?_, by simpa [hv] using h⟩
        have := den_cut_append hn []
        rw [List.append_nil] at this
        rw [this]; exact hv
    · refine ⟨b.pfx.take n ++ q, v, (List.prefix_append_right_inj _).2 h1, ?_, h3⟩
      cases q with
      | nil => rw [denK_nil (vk_ord ho hn)] at h2; cases h2
      | cons x xs => rw [den_cut_append hn]; exact h2

/-- Coverage by siblings is coverage by the one with the right first byte. -/
theorem covK_child {f} {bs : List Node} (hb : OrdK bs) {b : Node} (hm : b ∈ bs) {k : Bytes}
    (hk : k.head? = b.firstByte) : Cov f (denK bs) k ↔ Cov f (den b) k := by
  have hmem := hb.mem hm
  obtain ⟨x, hx⟩ := firstByte_of_ne_nil hmem.1
  have hc := childAt_of_mem hb hm hx
  constructor
  · rintro ⟨q, v, h1, h2, h3⟩
    refine ⟨q, v, h1, ?_, h3⟩
    cases q with
    | nil => rw [denK_nil hb] at h2; cases h2
    | cons y ys =>
      have : y = x := by
        obtain ⟨t, rfl⟩ := h1; rw [hx] at hk; simpa using hk
      subst this
      rw [denK_cons_eq, hc] at h2; exact h2
  · rintro ⟨q, v, h1, h2, h3⟩
    exact ⟨q, v, h1, (denK_eq_some hb).2 ⟨b, hm, h2⟩, h3⟩

theorem covK_none {f} {bs : List Node} (hb : OrdK bs) {k : Bytes}
    (hk : ∀ b ∈ bs, b.firstByte ≠ k.head?) : ¬ Cov f (denK bs) k := by
  rintro ⟨q, v, h1, h2, h3⟩
  obtain ⟨b, hm, hd⟩ := (denK_eq_some hb).1 h2
  obtain ⟨x, hx⟩ := firstByte_of_ne_nil (hb.mem hm).1
  have := den_firstByte hx hd
  apply hk b hm
  rw [hx]
  cases q with
  | nil => cases this
  | cons y ys => obtain ⟨t, rfl⟩ := h1; simpa using this.symm

theorem clean_cut {f} {b : Node} {n : Nat} (ho : Ord b) (hn : n ≤ b.pfx.length) (h : Clean f (den b)) :
    Clean f (denK (vk n b)) := by
  have key : ∀ q v, denK (vk n b) q = some v → den b (b.pfx.take n ++ q) = some v := by
    intro q v hq
    cases q with
    | nil => rw [denK_nil (vk_ord ho hn)] at hq; cases hq
    | cons x xs => rw [den_cut_append hn]; exact hq
  intro q v q' v' h1 h2 h3 h4
  exact h _ v _ v' (key q v h1) h2 ((List.prefix_append_right_inj _).2 h3) (key q' v' h4)

theorem clean_child {f} {bs : List Node} (hb : OrdK bs) {b : Node} (hm : b ∈ bs) (h : Clean f (denK bs)) :
    Clean f (den b) := by
  intro q v q' v' h1 h2 h3 h4
  exact h q v q' v' ((denK_eq_some hb).2 ⟨b, hm, h1⟩) h2 h3 ((denK_eq_some hb).2 ⟨b, hm, h4⟩)

theorem StepOK.mono {g g' : Rel3} {p c} (h : StepOK g p c)
    (hg : ∀ k x y z, k.head? = pkey p → g k x y z → g' k x y z) : StepOK g' p c :=
  ⟨h.ord, fun k hk => hg _ _ _ _ hk (h.den k hk), h.shape⟩

theorem GoodK.mono {g g' : Rel3} {as bs rs} (h : GoodK g as bs rs)
    (hg : ∀ k x y z, g k x y z → g' k x y z) : GoodK g' as bs rs :=
  ⟨h.ord, fun k => hg _ _ _ _ (h.den k), h.shape⟩

theorem retR_none (f m k y) : RetR f m k none y none := ⟨fun v h => (by cases h), fun _ _ => rfl⟩

/-- The members of a left-only pair have no partner on the right. -/
theorem join_left_only {as bs : List Node} (ha : OrdK as) (hb : OrdK bs) {a : Node}
    (h : (some a, none) ∈ join as bs) : ∀ b ∈ bs, b.firstByte ≠ a.firstByte := by
  intro b hm e
  obtain ⟨x, hx⟩ := firstByte_of_ne_nil (hb.mem hm).1
  have h1 := join_find ha hb x
  rw [childAt_of_mem hb hm hx, childAt_of_mem ha (join_left h) (e ▸ hx)] at h1
  have h2 := List.mem_of_find?_eq_some h1
  have hp := join_pairwise ha hb
  have : ∀ {l : List (Option Node × Option Node)} {p q},
      l.Pairwise (fun p q => rank (pkey p) < rank (pkey q)) → p ∈ l → q ∈ l → p ≠ q →
      pkey p ≠ pkey q := by
    intro l p q hl
    induction l with
    | nil => intro h; cases h
    | cons r l ih =>
      rw [List.pairwise_cons] at hl
      intro h1 h2 hne e
      rcases List.mem_cons.1 h1 with h1 | h1 <;> rcases List.mem_cons.1 h2 with h2 | h2
      · exact hne (h1.trans h2.symm)
      · have := hl.1 q h2; rw [← h1, e] at this; omega
      · have := hl.1 p h1; rw [← h2, e] at this; omega
      · exact ih hl.2 h1 h2 hne e
  exact this hp h h2 (by simp) rfl

/-! ### retain_prefix_with -/

theorem retainChildren_good (f) {as bs : List Node} (ha : OrdK as) (hb : OrdK bs)
    (ih : ∀ a ∈ as, ∀ b ∈ bs, Ord a → Ord b → Good (RetR f (den b)) a b (retainPrefixWith f a b)) :
    GoodK (RetR f (denK bs)) as bs (retainPrefixChildrenWith f as (arcOpt bs)) := by
  by_cases eb : bs = []
  · subst eb
    simp only [arcOpt, retainPrefixChildrenWith, List.isEmpty_nil, if_true]
    refine ⟨by simp [OrdK], fun k => ⟨fun v h => by simp [denK] at h, fun _ h => ?_⟩, by simp⟩
    exact absurd h (covK_none hb (by simp))
  · have e2 : arcOpt bs = some bs := by simp [arcOpt, eb]
    rw [e2]
    simp only [retainPrefixChildrenWith]
    split
    · rename_i e
      have : as = [] := by simpa using e
      subst this
      exact ⟨by simp [OrdK], fun k => by simpa [denK] using retR_none f _ k _, by simp⟩
    · rw [attach_filterMap_eq (g := fun
        | (some a, some b) => keepNonEmpty (retainPrefixWith f a b)
        | _ => none)]
      · apply joined_good (fun k => retR_none f _ k _) ha hb
        intro p hp
        match p, hp with
        | (some a, some b), hp =>
          obtain ⟨h1, h2, h3, h4⟩ := join_both ha hb hp
          refine ((ih a h1 b h2 (ha.mem h1).2 (hb.mem h2).2).step rfl h3 h4).mono ?_
          intro k x y z hk hg
          have hc : Cov f (denK bs) k ↔ Cov f (den b) k := covK_child hb h2 (hk.trans h4)
          exact ⟨fun v hv => ⟨(hg.1 v hv).1, hc.2 (hg.1 v hv).2⟩,
            fun h h' => hg.2 (clean_child hb h2 h) (hc.1 h')⟩
        | (some a, none), hp =>
          refine ⟨fun d hd => (by cases hd), fun k hk => ?_, fun h1 h2 d hd => (by cases hd)⟩
          refine ⟨fun v h => by simp at h, fun _ h => ?_⟩
          refine absurd h (covK_none hb fun b hm e => ?_)
          exact join_left_only ha hb hp b hm (e.trans hk)
        | (none, some b), hp =>
          exact ⟨fun d hd => (by cases hd), fun k hk => retR_none f _ k _, fun h1 h2 d hd => (by cases hd)⟩
        | (none, none), hp => exact absurd hp join_not_none
      · rintro ⟨_ | a, _ | b⟩ hx <;> rfl

/-- Keeping the whole left tree. -/
theorem good_keep {g : Rel3} {a b : Node} (ha : Ord a) (h : ∀ k, g k (den a k) (den b k) (den a k)) :
    Good g a b (canonicalize a) := by
  refine ⟨ord_canonicalize ha, fun k => by rw [den_canonicalize ha]; exact h k, fun p h1 _ => ?_,
    fun h _ => shape_canonicalize h.kids⟩
  rcases pfx_canonicalize a with h | h
  · rw [h]; exact Or.inl rfl
  · exact Or.inr (h1.trans h)

theorem retainPrefixWith_good (f) (a b : Node) (ha : Ord a) (hb : Ord b) :
    Good (RetR f (den b)) a b (retainPrefixWith f a b) := by
  induction a, b using pair_induct with
  | step a b ih =>
    obtain ⟨n, hn, hna, hnb, htake, hmax, hdis⟩ := commonPrefix_cut a b
    have kids : n = a.pfx.length ∨ n = b.pfx.length →
        GoodK (RetR f (denK (vk n b))) (vk n a) (vk n b)
          (retainPrefixChildrenWith f (vk n a) (arcOpt (vk n b))) := fun h =>
      retainChildren_good f (vk_ord ha hna) (vk_ord hb hnb)
        (fun c hc d hd => ih c d (vk_mem_nodes h hc hd))
    -- the recursive case: nothing selected at the cut itself
    have main : ∀ (h : n = a.pfx.length ∨ n = b.pfx.length) (hv : (vv n b).any f = false)
        (q : Bytes) (hq : q = a.pfx.take n), Good (RetR f (den b)) a b
          (canonicalize (mk q none (some (retainPrefixChildrenWith f (vk n a) (arcOpt (vk n b)))))) := by
      intro h hv q hq
      refine node_good (n := n) (fun k => retR_none f _ k _) ha hb hna hnb htake hmax ?_ ?_ hq rfl
      · refine ⟨fun v h => (by cases h), fun _ h => ?_⟩
        exfalso
        have h' := h
        rw [htake] at h'
        have := (cov_cut hb hnb []).1 (by rwa [List.append_nil])
        rcases this with h1 | ⟨q, v, h1, h2, h3⟩
        · rw [hv] at h1; cases h1
        · have : q = [] := by simpa using h1
          subst this; rw [denK_nil (vk_ord hb hnb)] at h2; cases h2
      · refine (kids h).mono ?_
        intro k x y z hg
        have hc : Cov f (den b) (a.pfx.take n ++ k) ↔ Cov f (denK (vk n b)) k := by
          rw [htake, cov_cut hb hnb, hv]; simp
        exact ⟨fun v hv => ⟨(hg.1 v hv).1, hc.2 (hg.1 v hv).2⟩,
          fun h h' => hg.2 (clean_cut hb hnb h) (hc.1 h')⟩
    -- nothing kept
    have dropAll : (∀ k, a.pfx <+: k → Clean f (den b) → ¬ Cov f (den b) k) → ∀ q,
        Good (RetR f (den b)) a b (canonicalize (mk q none none)) := by
      intro h q
      rw [canonicalize_none]
      refine good_empty fun k => ⟨fun v h => (by cases h), fun hH hc => ?_⟩
      by_cases hp : a.pfx <+: k
      · exact absurd hc (h k hp hH)
      · exact (den_none_of_not_prefix hp).symm
    -- everything kept
    have keepAll : n = b.pfx.length → ∀ v, b.val = some v → f v = true →
        Good (RetR f (den b)) a b (canonicalize a) := by
      intro h2 v hv hf
      refine good_keep ha fun k => ⟨fun w hw => ⟨hw, ?_⟩, fun _ _ => rfl⟩
      obtain ⟨r, rfl⟩ := den_cut hna hw
      refine ⟨b.pfx, v, ?_, ?_, hf⟩
      · rw [htake, h2, List.take_length]; exact List.prefix_append _ _
      · have := strip_append_self b.pfx []
        rw [List.append_nil] at this
        rw [den_eq, this]; exact hv
    unfold retainPrefixWith
    simp only [hn]
    split
    · rename_i h
      have := main (Or.inl h.1)
      rw [vk_eq h.1, vk_eq h.2, vv_eq h.2] at this
      rw [loadChildren_eq]
      have ht : a.pfx = a.pfx.take n := by rw [h.1, List.take_length]
      cases hbv : b.val with
      | none => exact this (by rw [hbv]; rfl) _ ht
      | some v =>
        cases hf : f v with
        | false => simpa [hf] using this (by rw [hbv]; exact hf) _ ht
        | true => simpa [hf] using keepAll h.2 v hbv hf
    · rename_i h1
      split
      · rename_i h2
        have h3 : n ≠ a.pfx.length := fun e => h1 ⟨e, h2⟩
        cases hbv : b.val with
        | none =>
          have := main (Or.inr h2)
          rw [vk_ne h3, vk_eq h2, vv_eq h2] at this
          simp only
          rw [loadChildren_eq, split_kids, split_val]
          exact this (by simp [hbv]) _ (split_pfx a n)
        | some v =>
          simp only
          split
          · rename_i hf
            have hf : f v = false := by simpa using hf
            apply dropAll
            intro k hk hH ⟨q, w, hq, hqd, hqf⟩
            obtain ⟨r, rfl⟩ := den_cut hnb hqd
            have hbn : b.pfx.take n = b.pfx := by rw [h2, List.take_length]
            have hself : den b b.pfx = some v := by
              have := strip_append_self b.pfx []
              rw [List.append_nil] at this
              rw [den_eq, this]; exact hbv
            have := hH b.pfx v _ w hself hf (by rw [hbn]; exact List.prefix_append _ r) hqd
            rw [hqf] at this; cases this
          · rename_i hf
            exact keepAll h2 v hbv (by simpa using hf)
      · rename_i h2
        split
        · rename_i h3
          have := main (Or.inl h3)
          rw [vk_eq h3, vk_ne h2, vv_ne h2] at this
          rw [arcOpt_singleton]
          exact this rfl _ (by rw [h3, List.take_length])
        · rename_i h3
          apply dropAll
          intro k hk _ ⟨q, w, hq, hqd, hqf⟩
          have hbq : b.pfx <+: q := by
            by_cases hp : b.pfx <+: q
            · exact hp
            · rw [den_none_of_not_prefix hp] at hqd; cases hqd
          have hbk := hbq.trans hq
          have hd := hdis h3 h2
          obtain ⟨s, rfl⟩ := hk
          obtain ⟨t, ht⟩ := hbk
          rw [← List.take_append_drop n a.pfx, ← List.take_append_drop n b.pfx, htake] at ht
          simp only [List.append_assoc, List.append_cancel_left_eq] at ht
          cases h4 : a.pfx.drop n with
          | nil => exact drop_ne_nil hna h3 h4
          | cons x xs =>
            cases h5 : b.pfx.drop n with
            | nil => exact drop_ne_nil hnb h2 h5
            | cons y ys => rw [h4, h5] at ht hd; simp at ht hd; exact hd ht.1.symm

/-! ### remove_prefix_with -/

theorem remR_none (f m k y) : RemR f m k none y none := ⟨fun _ => rfl, fun _ => rfl⟩

theorem removeChildren_good (f) {as bs : List Node} (ha : OrdK as) (hb : OrdK bs)
    (ih : ∀ a ∈ as, ∀ b ∈ bs, Ord a → Ord b → Good (RemR f (den b)) a b (removePrefixWith f a b)) :
    GoodK (RemR f (denK bs)) as bs (removePrefixChildrenWith f as (arcOpt bs)) := by
  by_cases eb : bs = []
  · subst eb
    simp only [arcOpt, removePrefixChildrenWith, List.isEmpty_nil, if_true]
    exact ⟨ha, fun k => ⟨fun h => absurd h (covK_none hb (by simp)), fun _ => rfl⟩, fun h _ => h⟩
  · have e2 : arcOpt bs = some bs := by simp [arcOpt, eb]
    rw [e2]
    simp only [removePrefixChildrenWith]
    split
    · rename_i e
      have : as = [] := by simpa using e
      subst this
      exact ⟨by simp [OrdK], fun k => by simpa [denK] using remR_none f _ k _, by simp⟩
    · rw [attach_filterMap_eq (g := fun
        | (some a, some b) => keepNonEmpty (removePrefixWith f a b)
        | (some a, none) => some a
        | _ => none)]
      · apply joined_good (fun k => remR_none f _ k _) ha hb
        intro p hp
        match p, hp with
        | (some a, some b), hp =>
          obtain ⟨h1, h2, h3, h4⟩ := join_both ha hb hp
          refine ((ih a h1 b h2 (ha.mem h1).2 (hb.mem h2).2).step rfl h3 h4).mono ?_
          intro k x y z hk hg
          have hc : Cov f (denK bs) k ↔ Cov f (den b) k := covK_child hb h2 (hk.trans h4)
          exact ⟨fun h => hg.1 (hc.1 h), fun h => hg.2 (fun h' => h (hc.2 h'))⟩
        | (some a, none), hp =>
          refine ⟨fun d hd => ?_, fun k hk => ⟨fun h => ?_, fun _ => rfl⟩, fun h1 h2 d hd => ?_⟩
          · cases hd; exact ⟨rfl, (ha.mem (join_left hp)).2⟩
          · refine absurd h (covK_none hb fun b hm e => ?_)
            exact join_left_only ha hb hp b hm (e.trans hk)
          · cases hd; exact h1 a rfl
        | (none, some b), hp =>
          exact ⟨fun d hd => (by cases hd), fun k hk => remR_none f _ k _, fun h1 h2 d hd => (by cases hd)⟩
        | (none, none), hp => exact absurd hp join_not_none
      · rintro ⟨_ | a, _ | b⟩ hx <;> rfl

theorem removePrefixWith_good (f) (a b : Node) (ha : Ord a) (hb : Ord b) :
    Good (RemR f (den b)) a b (removePrefixWith f a b) := by
  induction a, b using pair_induct with
  | step a b ih =>
    obtain ⟨n, hn, hna, hnb, htake, hmax, hdis⟩ := commonPrefix_cut a b
    have kids : n = a.pfx.length ∨ n = b.pfx.length →
        GoodK (RemR f (denK (vk n b))) (vk n a) (vk n b)
          (removePrefixChildrenWith f (vk n a) (arcOpt (vk n b))) := fun h =>
      removeChildren_good f (vk_ord ha hna) (vk_ord hb hnb)
        (fun c hc d hd => ih c d (vk_mem_nodes h hc hd))
    have main : ∀ (h : n = a.pfx.length ∨ n = b.pfx.length) (hv : (vv n b).any f = false)
        (q : Bytes) (hq : q = a.pfx.take n), Good (RemR f (den b)) a b
          (canonicalize (mk q (vv n a) (some (removePrefixChildrenWith f (vk n a) (arcOpt (vk n b)))))) := by
      intro h hv q hq
      refine node_good (n := n) (fun k => remR_none f _ k _) ha hb hna hnb htake hmax ?_ ?_ hq rfl
      · refine ⟨fun h => ?_, fun _ => rfl⟩
        exfalso
        have h' := h
        rw [htake] at h'
        have := (cov_cut hb hnb []).1 (by rwa [List.append_nil])
        rcases this with h1 | ⟨q, v, h1, h2, h3⟩
        · rw [hv] at h1; cases h1
        · have : q = [] := by simpa using h1
          subst this; rw [denK_nil (vk_ord hb hnb)] at h2; cases h2
      · refine (kids h).mono ?_
        intro k x y z hg
        have hc : Cov f (den b) (a.pfx.take n ++ k) ↔ Cov f (denK (vk n b)) k := by
          rw [htake, cov_cut hb hnb, hv]; simp
        exact ⟨fun h => hg.1 (hc.1 h), fun h => hg.2 (fun h' => h (hc.2 h'))⟩
    have dropAll : n = b.pfx.length → ∀ v, b.val = some v → f v = true →
        ∀ q, Good (RemR f (den b)) a b (canonicalize (mk q none none)) := by
      intro h2 v hbv hf q
      rw [canonicalize_none]
      refine good_empty fun k => ⟨fun _ => rfl, fun hc => ?_⟩
      cases hd : den a k with
      | none => rfl
      | some w =>
        exfalso; apply hc
        obtain ⟨r, rfl⟩ := den_cut hna hd
        refine ⟨b.pfx, v, ?_, ?_, hf⟩
        · rw [htake, h2, List.take_length]; exact List.prefix_append _ _
        · have := strip_append_self b.pfx []
          rw [List.append_nil] at this
          rw [den_eq, this]; exact hbv
    unfold removePrefixWith
    simp only [hn]
    split
    · rename_i h
      have := main (Or.inl h.1)
      rw [vk_eq h.1, vk_eq h.2, vv_eq h.2, vv_eq h.1] at this
      rw [loadChildren_eq]
      have ht : a.pfx = a.pfx.take n := by rw [h.1, List.take_length]
      cases hbv : b.val with
      | none => exact this (by rw [hbv]; rfl) _ ht
      | some v =>
        cases hf : f v with
        | false => simpa [hf] using this (by rw [hbv]; exact hf) _ ht
        | true => simpa [hf] using dropAll h.2 v hbv hf _
    · rename_i h1
      split
      · rename_i h2
        have h3 : n ≠ a.pfx.length := fun e => h1 ⟨e, h2⟩
        have := main (Or.inr h2)
        rw [vk_ne h3, vk_eq h2, vv_eq h2, vv_ne h3] at this
        rw [loadChildren_eq, split_kids, split_val]
        cases hbv : b.val with
        | none => exact this (by rw [hbv]; rfl) _ (split_pfx a n)
        | some v =>
          cases hf : f v with
          | false => simpa [hf] using this (by rw [hbv]; exact hf) _ (split_pfx a n)
          | true => simpa [hf] using dropAll h2 v hbv hf _
      · rename_i h2
        split
        · rename_i h3
          have := main (Or.inl h3)
          rw [vk_eq h3, vk_ne h2, vv_ne h2, vv_eq h3] at this
          rw [arcOpt_singleton]
          exact this rfl _ (by rw [h3, List.take_length])
        · rename_i h3
          refine good_keep ha fun k => ⟨fun hc => ?_, fun _ => rfl⟩
          obtain ⟨q, w, hq, hqd, hqf⟩ := hc
          cases hda : den a k with
          | none => rfl
          | some u =>
            exfalso
            have hk : a.pfx <+: k := by
              by_cases hp : a.pfx <+: k
              · exact hp
              · rw [den_none_of_not_prefix hp] at hda; cases hda
            have hbq : b.pfx <+: q := by
              by_cases hp : b.pfx <+: q
              · exact hp
              · rw [den_none_of_not_prefix hp] at hqd; cases hqd
            have hbk := hbq.trans hq
            have hd := hdis h3 h2
            obtain ⟨s, rfl⟩ := hk
            obtain ⟨t, ht⟩ := hbk
            rw [← List.take_append_drop n a.pfx, ← List.take_append_drop n b.pfx, htake] at ht
            simp only [List.append_assoc, List.append_cancel_left_eq] at ht
            cases h4 : a.pfx.drop n with
            | nil => exact drop_ne_nil hna h3 h4
            | cons x xs =>
              cases h5 : b.pfx.drop n with
              | nil => exact drop_ne_nil hnb h2 h5
              | cons y ys => rw [h4, h5] at ht hd; simp at ht hd; exact hd ht.1.symm

end Radix
