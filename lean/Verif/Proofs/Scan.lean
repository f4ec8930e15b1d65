import Verif.Proofs.Reach

/-
Proof-internal: scan_prefix; copying operations leave no empty children vectors.
-/

set_option linter.unusedVariables false

namespace Radix
open Node

/-- The entries below a prefix. -/
def below (t : Node) (p : Bytes) : List (Bytes × Bytes) := (iter t).filter fun e => p.isPrefixOf e.1

theorem mem_below {t : Node} (ho : Ord t) (p k v : Bytes) :
    (k, v) ∈ below t p ↔ p <+: k ∧ den t k = some v := by
  rw [below, List.mem_filter, mem_iter ho, get_eq_den t k ho]
  simp only [List.isPrefixOf_iff_prefix]
  exact And.comm

theorem below_eq {t u : Node} (ht : Ord t) (hu : Ord u) {p q : Bytes} {m : Nat} (hm : m ≤ u.pfx.length)
    (hp : p = q ++ u.pfx.take m) (h : ∀ k, den t (p ++ k) = den (u.setPrefix (u.pfx.drop m)) k) :
    below t p = ents q u := by
  refine sorted_eq ((iter_sorted ht).filter _) (ents_sorted hu q) ?_
  rintro ⟨k, v⟩
  have e : u.setPrefix (u.pfx.take m ++ u.pfx.drop m) = u := by
    rw [List.take_append_drop]; cases u; rfl
  rw [mem_below ht, mem_ents hu]
  constructor
  · rintro ⟨⟨r, rfl⟩, hd⟩
    refine ⟨u.pfx.take m ++ r, by rw [hp, List.append_assoc], ?_⟩
    rw [h, ← den_setPrefix_append u (u.pfx.take m), e] at hd
    exact hd
  · rintro ⟨r, rfl, hd⟩
    have hr : u.pfx <+: r := cmp_keys_pfx hd
    obtain ⟨s, rfl⟩ := hr
    have e2 : q ++ (u.pfx ++ s) = p ++ (u.pfx.drop m ++ s) := by
      rw [hp]; simp only [List.append_assoc]
      rw [← List.append_assoc (u.pfx.take m), List.take_append_drop]
    rw [e2]
    refine ⟨List.prefix_append _ _, ?_⟩
    rw [h, ← den_setPrefix_append u (u.pfx.take m), e, ← List.append_assoc, List.take_append_drop]
    exact hd

/-- What `scan_prefix` yields. -/
theorem scanPrefix_spec {t : Node} (ho : Ord t) (p : Bytes) :
    match find t p with
    | .found u => ∃ q, p = q ++ u.pfx ∧ below t p = ents q u ∧ scanPrefix t p = ents p u
    | .pre u m => scanPrefix t p = below t p
    | .notFound => scanPrefix t p = below t p := by
  have hs := find_spec t p ho
  unfold scanPrefix scanPrefixIter
  cases hf : find t p with
  | found u =>
    simp only [hf] at hs ⊢
    obtain ⟨h1, h2, _, ⟨q, hq⟩, _⟩ := hs
    refine ⟨q, hq, ?_, by simp [toList_eq, stackEnts, entsO, entsL]⟩
    refine below_eq ho h1 (Nat.le_refl _) (by rw [List.take_length]; exact hq) ?_
    rw [List.drop_length]; exact h2
  | pre u m =>
    simp only [hf] at hs ⊢
    obtain ⟨h1, h2, ⟨q, hq⟩, h3, _⟩ := hs
    have hl : p.take (p.length - m) = q := by
      rw [hq, List.length_append, List.length_take, Nat.min_eq_left (by omega), Nat.add_sub_cancel,
        List.take_left]
    rw [below_eq ho h1 (by omega) hq h3, hl]
    simp [toList_eq, stackEnts, entsO, entsL]
  | notFound =>
    simp only [hf] at hs ⊢
    rw [toList_eq]
    simp only [stackEnts]
    symm
    rw [List.eq_nil_iff_forall_not_mem]
    rintro ⟨k, v⟩ hm
    obtain ⟨⟨r, rfl⟩, hd⟩ := (mem_below ho p k v).1 hm
    rw [hs] at hd; cases hd

/-- The values are right in every case. -/
theorem scanPrefix_values {t : Node} (ho : Ord t) (p : Bytes) :
    (scanPrefix t p).map (·.2) = (below t p).map (·.2) := by
  have := scanPrefix_spec ho p
  cases hf : find t p with
  | found u =>
    simp only [hf] at this
    obtain ⟨q, _, h1, h2⟩ := this
    rw [h1, h2]; exact ents_vals _ _ _
  | pre u m => simp only [hf] at this; rw [this]
  | notFound => simp only [hf] at this; rw [this]

/-- The defect, exactly: if `p` is the position of a node, the last piece of `p` appears twice. -/
theorem scanPrefix_keys {t : Node} (ho : Ord t) (p : Bytes) :
    ∃ d, (d <:+ p) ∧ scanPrefix t p = (below t p).map fun e => (p ++ d ++ e.1.drop p.length, e.2) := by
  have := scanPrefix_spec ho p
  have same : below t p = (below t p).map fun e => (p ++ [] ++ e.1.drop p.length, e.2) := by
    refine (List.map_id (below t p)).symm.trans ?_
    refine List.map_congr_left fun ⟨k, v⟩ hm => ?_
    obtain ⟨⟨r, rfl⟩, hd⟩ := (mem_below ho p k v).1 hm
    simp
  cases hf : find t p with
  | found u =>
    simp only [hf] at this
    obtain ⟨q, h0, h1, h2⟩ := this
    refine ⟨u.pfx, ⟨q, h0.symm⟩, ?_⟩
    rw [h1, h2, ents_pre p, ents_pre q, List.map_map]
    have hu : Ord u := by have := find_spec t p ho; simp only [hf] at this; exact this.1
    refine List.map_congr_left fun ⟨k, v⟩ hm => ?_
    obtain ⟨r, hr⟩ := ents_prefix hu hm
    simp only [List.nil_append] at hr
    subst hr
    simp only [Function.comp, Prod.mk.injEq, and_true]
    rw [← List.append_assoc q, ← h0, List.drop_left, List.append_assoc]
  | pre u m => simp only [hf] at this; exact ⟨[], List.nil_suffix, this.trans same⟩
  | notFound => simp only [hf] at this; exact ⟨[], List.nil_suffix, this.trans same⟩

/-- If `p` is found as a node below the root, it is a key or a branching point. -/
theorem scanPrefix_ok {t : Node} (ho : Ord t) (hs : Shape t) (p : Bytes)
    (h : p = [] ∨ ∃ c, ∀ r v, den t (p ++ r) = some v → r.head? = some c) :
    scanPrefix t p = below t p := by
  have := scanPrefix_spec ho p
  cases hf : find t p with
  | found u =>
    simp only [hf] at this
    obtain ⟨q, h0, h1, h2⟩ := this
    have hfs := find_spec t p ho
    simp only [hf] at hfs
    obtain ⟨hu, hd, hcu, _, _⟩ := hfs
    rcases h with rfl | ⟨c, hc⟩
    · have : q = [] := (List.append_eq_nil_iff.1 h0.symm).1
      rw [h2, h1, this]
    · rcases hs with rfl | hcmp
      · -- the tree is empty
        have e1 : below Node.empty p = [] := by
          rw [List.eq_nil_iff_forall_not_mem]
          rintro ⟨k, v⟩ hm
          have := ((mem_below ho p k v).1 hm).2
          rw [den_empty] at this; cases this
        have := congrArg (List.map (·.2)) h2
        rw [scanPrefix_values ho, e1] at this
        have e2 : ents p u = [] := by simpa using this.symm
        rw [h2, e1, e2]
      · exfalso
        have hcu := (cmp_iff u).1 (hcu hcmp)
        rcases hcu.1 with hv | hk
        · obtain ⟨v, hv⟩ := Option.isSome_iff_exists.1 hv
          have := hd []
          rw [den_eq (u.setPrefix [])] at this
          simp only [setPrefix, pfx_mk, strip, val_mk] at this
          have := hc [] v (this.trans hv)
          cases this
        · cases hk1 : u.kids with
          | nil => simp [hk1] at hk
          | cons a l =>
            cases l with
            | nil => simp [hk1] at hk
            | cons b l =>
              have hu' := (ord_iff u).1 hu
              have first : ∀ x ∈ u.kids, x.firstByte = some c := by
                intro x hx
                obtain ⟨k, v, hkv⟩ := cmp_exists (hcu.2 x hx) (hu'.mem hx).2
                obtain ⟨y, hy⟩ := firstByte_of_ne_nil (hu'.mem hx).1
                have hh := den_firstByte hy hkv
                have h3 := hd k
                rw [den_eq (u.setPrefix [])] at h3
                simp only [setPrefix, pfx_mk, strip] at h3
                cases k with
                | nil => cases hh
                | cons z zs =>
                  simp only at h3
                  have h4 : den t (p ++ z :: zs) = some v := by
                    rw [h3]; exact (denK_eq_some hu').2 ⟨x, hx, hkv⟩
                  rw [hy, ← hh]; exact hc _ v h4
              have ha := first a (by simp [hk1])
              have hb := first b (by simp [hk1])
              rw [hk1] at hu'
              simp only [OrdK] at hu'
              have := hu'.2.2.1 b (by simp)
              rw [ha, hb] at this; omega
  | pre u m => simp only [hf] at this; exact this
  | notFound => simp only [hf] at this; exact this

/-! ### The copying operations -/

theorem nf_arc_filterMap {α} {l : List α} {step : α → Option Node}
    (h : ∀ p ∈ l, ∀ c, step p = some c → NF c) : NFO (arcOpt (l.filterMap step)) := by
  refine nfo_arcOpt fun c hc => ?_
  obtain ⟨p, hp, he⟩ := List.mem_filterMap.1 hc
  exact h p hp c he

theorem keepNonEmpty_some {r c : Node} (h : keepNonEmpty r = some c) : c = r := by
  unfold keepNonEmpty at h; split at h
  · cases h
  · exact (Option.some.inj h).symm

theorem nf_empty : NF Node.empty := by simp [Node.empty, NF, NFO]

theorem nf_detachedO' (c : Option (List Node)) : NFO (detachedO c) := nf_detachedO c

theorem nf_children {f : Node → Node → Node} {g : Option Node × Option Node → Option Node}
    {as bs : List Node} (hg : ∀ p ∈ join as bs, ∀ c, g p = some c → NF c) :
    NFO (arcOpt ((join as bs).filterMap g)) := nf_arc_filterMap hg

theorem outerCombine_nf (f) (a b : Node) : NF (outerCombine f a b) := by
  have ch : ∀ ac bc : Option (List Node),
      (∀ l m, ac = some l → bc = some m → ∀ x ∈ l, ∀ y ∈ m, NF (outerCombine f x y)) →
      NFO (outerCombineChildren f ac bc) := by
    intro ac bc ih
    rw [outerCombineChildren.eq_def]
    split
    · rename_i l m
      refine nf_arc_filterMap ?_
      rintro ⟨p, hp⟩ _ c hc
      rcases p with ⟨_ | x, _ | y⟩
      · cases hc
      · have := keepNonEmpty_some hc; subst this; exact nf_detached _
      · have := keepNonEmpty_some hc; subst this; exact nf_detached _
      · have := keepNonEmpty_some hc; subst this
        exact ih l m rfl rfl x (join_mem_both hp).1 y (join_mem_both hp).2
    · exact nf_detachedO _
    · exact nf_detachedO _
    · simp [NFO]
  have lc : ∀ {n : Node} {l}, n.loadChildren = some l → l = n.kids := by
    intro n l h; rw [← loadChildren_getD, h]; rfl
  have ind : ∀ N (a b : Node), a.nodes + b.nodes ≤ N → NF (outerCombine f a b) := by
    intro N
    induction N with
    | zero => intro a b h; have := nodes_pos a; omega
    | succ N ih =>
      intro a b h
      have ka := nodesL_kids a
      have kb := nodesL_kids b
      rw [outerCombine]
      dsimp only
      split
      · refine nf_canonicalize (nf_mk.2 (ch _ _ fun l m hl hm x hx y hy => ih x y ?_))
        rw [lc hl] at hx; rw [lc hm] at hy
        have := nodes_le_of_mem hx; have := nodes_le_of_mem hy; omega
      · split
        · refine nf_canonicalize (nf_mk.2 (ch _ _ fun l m hl hm x hx y hy => ih x y ?_))
          rw [lc hl] at hx; cases hm
          have : y.nodes = b.nodes := by
            simp only [List.mem_singleton] at hy; rw [hy, nodes_cloneShortened]
          have := nodes_le_of_mem hx; omega
        · split
          · refine nf_canonicalize (nf_mk.2 (ch _ _ fun l m hl hm x hx y hy => ih x y ?_))
            rw [lc hm] at hy; cases hl
            have : x.nodes = a.nodes := by
              simp only [List.mem_singleton] at hx; rw [hx, nodes_cloneShortened]
            have := nodes_le_of_mem hy; omega
          · refine nf_canonicalize (nf_mk.2 ?_)
            split <;> simp only [NFO, NFL] <;>
              exact ⟨by simp, nf_detached _, nf_detached _, trivial⟩
  exact ind _ a b (Nat.le_refl _)

theorem innerCombine_nf (f) (a b : Node) : NF (innerCombine f a b) := by
  have ch : ∀ ac bc : Option (List Node),
      (∀ l m, ac = some l → bc = some m → ∀ x ∈ l, ∀ y ∈ m, NF (innerCombine f x y)) →
      NFO (innerCombineChildren f ac bc) := by
    intro ac bc ih
    rw [innerCombineChildren.eq_def]
    split
    · rename_i l m
      refine nf_arc_filterMap ?_
      rintro ⟨p, hp⟩ _ c hc
      rcases p with ⟨_ | x, _ | y⟩
      · cases hc
      · cases hc
      · cases hc
      · have := keepNonEmpty_some hc; subst this
        exact ih l m rfl rfl x (join_mem_both hp).1 y (join_mem_both hp).2
    · simp [NFO]
  have lc : ∀ {n : Node} {l}, n.loadChildren = some l → l = n.kids := by
    intro n l h; rw [← loadChildren_getD, h]; rfl
  have ind : ∀ N (a b : Node), a.nodes + b.nodes ≤ N → NF (innerCombine f a b) := by
    intro N
    induction N with
    | zero => intro a b h; have := nodes_pos a; omega
    | succ N ih =>
      intro a b h
      have ka := nodesL_kids a
      have kb := nodesL_kids b
      rw [innerCombine]
      dsimp only
      split
      · refine nf_canonicalize (nf_mk.2 (ch _ _ fun l m hl hm x hx y hy => ih x y ?_))
        rw [lc hl] at hx; rw [lc hm] at hy
        have := nodes_le_of_mem hx; have := nodes_le_of_mem hy; omega
      · split
        · refine nf_canonicalize (nf_mk.2 (ch _ _ fun l m hl hm x hx y hy => ih x y ?_))
          rw [lc hl] at hx; cases hm
          have : y.nodes = b.nodes := by
            simp only [List.mem_singleton] at hy; rw [hy, nodes_cloneShortened]
          have := nodes_le_of_mem hx; omega
        · split
          · refine nf_canonicalize (nf_mk.2 (ch _ _ fun l m hl hm x hx y hy => ih x y ?_))
            rw [lc hm] at hy; cases hl
            have : x.nodes = a.nodes := by
              simp only [List.mem_singleton] at hx; rw [hx, nodes_cloneShortened]
            have := nodes_le_of_mem hy; omega
          · exact nf_canonicalize (nf_mk.2 (by simp [NFO]))
  exact ind _ a b (Nat.le_refl _)

theorem leftCombine_nf (f) (a b : Node) : NF (leftCombine f a b) := by
  have ch : ∀ ac bc : Option (List Node),
      (∀ l m, ac = some l → bc = some m → ∀ x ∈ l, ∀ y ∈ m, NF (leftCombine f x y)) →
      NFO (leftCombineChildren f ac bc) := by
    intro ac bc ih
    rw [leftCombineChildren.eq_def]
    split
    · rename_i l m
      refine nf_arc_filterMap ?_
      rintro ⟨p, hp⟩ _ c hc
      rcases p with ⟨_ | x, _ | y⟩
      · cases hc
      · cases hc
      · cases hc; exact nf_detached _
      · have := keepNonEmpty_some hc; subst this
        exact ih l m rfl rfl x (join_mem_both hp).1 y (join_mem_both hp).2
    · exact nf_detachedO _
    · simp [NFO]
  have lc : ∀ {n : Node} {l}, n.loadChildren = some l → l = n.kids := by
    intro n l h; rw [← loadChildren_getD, h]; rfl
  have ind : ∀ N (a b : Node), a.nodes + b.nodes ≤ N → NF (leftCombine f a b) := by
    intro N
    induction N with
    | zero => intro a b h; have := nodes_pos a; omega
    | succ N ih =>
      intro a b h
      have ka := nodesL_kids a
      have kb := nodesL_kids b
      rw [leftCombine]
      dsimp only
      split
      · refine nf_canonicalize (nf_mk.2 (ch _ _ fun l m hl hm x hx y hy => ih x y ?_))
        rw [lc hl] at hx; rw [lc hm] at hy
        have := nodes_le_of_mem hx; have := nodes_le_of_mem hy; omega
      · split
        · refine nf_canonicalize (nf_mk.2 (ch _ _ fun l m hl hm x hx y hy => ih x y ?_))
          rw [lc hl] at hx; cases hm
          have : y.nodes = b.nodes := by
            simp only [List.mem_singleton] at hy; rw [hy, nodes_cloneShortened]
          have := nodes_le_of_mem hx; omega
        · split
          · refine nf_canonicalize (nf_mk.2 (ch _ _ fun l m hl hm x hx y hy => ih x y ?_))
            rw [lc hm] at hy; cases hl
            have : x.nodes = a.nodes := by
              simp only [List.mem_singleton] at hx; rw [hx, nodes_cloneShortened]
            have := nodes_le_of_mem hy; omega
          · exact nf_detached _
  exact ind _ a b (Nat.le_refl _)

/-! ### Equality and leaves -/

theorem nodeEq_contents {a b : Node} (h : nodeEq a b = true)
    (ha : ∀ k, den a k ≠ some []) (hb : ∀ k, den b k ≠ some []) (k : Bytes) : den a k = den b k := by
  have := nodeEq_den h k
  have h1 := ha k; have h2 := hb k
  cases e1 : den a k <;> cases e2 : den b k <;> rw [e1, e2] at this <;> simp at this
  · subst this; exact absurd e2 h2
  · subst this; exact absurd e1 h1
  · rw [this]

theorem nodeEq_of_contents {a b : Node} (oa : Ord a) (ob : Ord b) (sa : Shape a) (sb : Shape b)
    (na : NF a) (nb : NF b) (h : ∀ k, den a k = den b k) : nodeEq a b = true := by
  have := shape_unique sa sb oa ob h
  rw [detached_nf a na, detached_nf b nb] at this
  rw [this]; exact nodeEq_refl b

theorem isLeaf_entries {t : Node} (h : t.isLeaf = true) : (iter t).length ≤ 1 := by
  rw [iter_eq]
  cases t with
  | mk p v c =>
    simp only [isLeaf, ch_mk, Option.isNone_iff_eq_none] at h
    subst h
    cases v <;> simp [ents, entsO]

theorem isLeaf_of_entries {t : Node} (ho : Ord t) (hs : Shape t) (hn : NF t) (h : (iter t).length ≤ 1) :
    t.isLeaf = true := by
  rcases hs with rfl | hc
  · rfl
  · have hnd := cmp_nodes hc []
    rw [← iter_eq] at hnd
    have hp := nodesL_kids t
    have : t.kids = [] := by
      cases hk : t.kids with
      | nil => rfl
      | cons a l => rw [hk] at hp; simp only [nodesL] at hp; have := nodes_pos a; omega
    cases t with
    | mk p v c =>
      cases c with
      | none => rfl
      | some l =>
        simp only [NF, NFO] at hn
        simp only [kids_mk_some] at this
        exact absurd this hn.1

end Radix
