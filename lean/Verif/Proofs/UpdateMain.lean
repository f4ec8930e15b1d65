import Verif.Proofs.UpdateOps
import Verif.Proofs.Reach

/-
Proof-internal: the five in-place operations on stored nodes agree with those on detached nodes.
-/

set_option linter.unusedVariables false

namespace Radix
open Node

/-! ### The children functions as joins -/

theorem outerChildrenWith_eq (c f) (l : List Node) (o : Option (List Node)) :
    outerCombineChildrenWith c f l o = outerRes c (outerCombineWith c f) l o := by
  unfold outerRes
  cases o with
  | none => simp only [outerCombineChildrenWith]
  | some ml =>
    simp only [outerCombineChildrenWith]
    split
    · rfl
    · exact attach_filterMap_eq _ _ _ (by rintro ⟨_ | a, _ | b⟩ hx <;> rfl)

theorem join_nil_filterMap (ml : List Node) (k h) : (join [] ml).filterMap (stepU k h fun _ => none) = [] := by
  rw [List.filterMap_eq_nil_iff]
  intro p hp
  have := join_mem hp
  obtain ⟨x, y⟩ := p
  cases x with
  | none => cases y <;> rfl
  | some x => have := (this.1 x rfl).1; cases this

theorem innerChildrenWith_eq (f) (l : List Node) (o : Option (List Node)) :
    innerCombineChildrenWith f l o = innerRes (innerCombineWith f) l o := by
  cases o with
  | none => simp only [innerCombineChildrenWith, innerRes]
  | some ml =>
    simp only [innerCombineChildrenWith, innerRes]
    split
    · rename_i h; simp only [List.isEmpty_iff] at h; subst h; rw [join_nil_filterMap]
    · exact attach_filterMap_eq _ _ _ (by rintro ⟨_ | a, _ | b⟩ hx <;> rfl)

theorem leftChildrenWith_eq (f) (l : List Node) (o : Option (List Node)) :
    leftCombineChildrenWith f l o = leftRes (leftCombineWith f) l o := by
  cases o with
  | none => simp only [leftCombineChildrenWith, leftRes]
  | some ml =>
    simp only [leftCombineChildrenWith, leftRes]
    split
    · rename_i h; simp only [List.isEmpty_iff] at h; subst h; rw [join_nil_filterMap]
    · exact attach_filterMap_eq _ _ _ (by rintro ⟨_ | a, _ | b⟩ hx <;> rfl)

theorem retainChildrenWith_eq (f) (l : List Node) (o : Option (List Node)) :
    retainPrefixChildrenWith f l o = innerRes (retainPrefixWith f) l o := by
  cases o with
  | none => simp only [retainPrefixChildrenWith, innerRes]
  | some ml =>
    simp only [retainPrefixChildrenWith, innerRes]
    split
    · rename_i h; simp only [List.isEmpty_iff] at h; subst h; rw [join_nil_filterMap]
    · exact attach_filterMap_eq _ _ _ (by rintro ⟨_ | a, _ | b⟩ hx <;> rfl)

theorem removeChildrenWith_eq (f) (l : List Node) (o : Option (List Node)) :
    removePrefixChildrenWith f l o = leftRes (removePrefixWith f) l o := by
  cases o with
  | none => simp only [removePrefixChildrenWith, leftRes]
  | some ml =>
    simp only [removePrefixChildrenWith, leftRes]
    split
    · rename_i h; simp only [List.isEmpty_iff] at h; subst h; rw [join_nil_filterMap]
    · exact attach_filterMap_eq _ _ _ (by rintro ⟨_ | a, _ | b⟩ hx <;> rfl)

/-! ### Sizes -/

theorem nodes_kids {n c : Node} (h : c ∈ n.kids) : c.nodes < n.nodes := by
  have := nodes_le_of_mem h
  have := nodesL_kids n
  omega

theorem nodes_load {n c : Node} (h : c ∈ n.loadChildren.getD []) : c.nodes < n.nodes := by
  rw [loadChildren_getD] at h; exact nodes_kids h

theorem height_load {n c : Node} (h : c ∈ n.loadChildren.getD []) : c.height < n.height := by
  rw [loadChildren_getD] at h; exact height_kids h

/-! ### Unions do not merge nodes -/

theorem join_length (as bs : List Node) : as.length ≤ (join as bs).length ∧ bs.length ≤ (join as bs).length := by
  fun_induction join as bs <;> simp_all <;> omega

theorem filterMap_length {α β} {f : α → Option β} {l : List α} (h : ∀ x ∈ l, (f x).isSome) :
    (l.filterMap f).length = l.length := by
  induction l with
  | nil => rfl
  | cons x l ih =>
    obtain ⟨y, hy⟩ := Option.isSome_iff_exists.1 (h x List.mem_cons_self)
    rw [List.filterMap_cons_some hy]
    simp [ih fun z hz => h z (List.mem_cons_of_mem _ hz)]

theorem outerRes_length {c : Conv} {h : Node → Node → Node} {l ml : List Node}
    (hh : ∀ a ∈ l, ∀ b ∈ ml, (h a b).isEmpty = false) :
    l.length ≤ (outerRes c h l (some ml)).length ∧ ml.length ≤ (outerRes c h l (some ml)).length := by
  unfold outerRes
  dsimp only
  split
  · rename_i e; simp only [List.isEmpty_iff] at e; subst e; simp
  · rw [filterMap_length]
    · exact join_length l ml
    · rintro ⟨_ | a, _ | b⟩ hx
      · exact absurd hx join_not_none
      · rfl
      · rfl
      · have := join_mem_both hx
        simp [stepU, keepNonEmpty, hh a this.1 b this.2]

/-- Ordered and compact. -/
def Tidy (n : Node) : Prop := Ord n ∧ Shape n

theorem Tidy.kid {n c : Node} (h : Tidy n) (hc : c ∈ n.kids) : Tidy c :=
  ⟨(((ord_iff n).1 h.1).mem hc).2, Or.inr (h.2.kids c hc)⟩

theorem outer_nonEmpty {c : Conv} {f : Bytes → Bytes → Option Bytes} (hf : ∀ x y, (f x y).isSome) {n m : Node}
    (hn : Tidy n) (hm : Tidy m) (he : n.isEmpty = false) : (outerCombineWith c f n m).isEmpty = false := by
  have hg := outerCombineWith_good c f n m hn.1 hm.1
  have hs := hg.shape hn.2 hm.2
  rw [Bool.eq_false_iff, ne_eq, isEmpty_iff hg.ord hs]
  intro hall
  have hne : ¬ ∀ k, den n k = none := by rw [← isEmpty_iff hn.1 hn.2, he]; simp
  refine hne fun k => ?_
  have := hg.den k
  rw [hall k] at this
  unfold Fn3 at this
  cases h1 : den n k with
  | none => rfl
  | some x =>
    rw [h1] at this
    cases h2 : den m k with
    | none => rw [h2] at this; cases this
    | some y =>
      rw [h2] at this
      have h3 := hf x y
      have h4 : f x y = none := this.symm
      rw [h4] at h3; cases h3

section
variable {σ τ ε : Type} {e : UEnv σ τ ε} {LA : Lawful e.SA} {LB : Lawful e.SB} {g gb : Bool} {E P : Prop}

theorem setVal_self (a : SNode) : a.setVal a.val = a := by cases a <;> rfl
theorem setVal_setVal (a : SNode) (v w : BlobV) : (a.setVal v).setVal w = a.setVal w := by cases a <;> rfl
theorem setVal_pfx (a : SNode) (v : BlobV) : (a.setVal v).pfx = a.pfx := by cases a <;> rfl
theorem setVal_val (a : SNode) (v : BlobV) : (a.setVal v).val = v := by cases a <;> rfl
theorem setVal_children (a : SNode) (v : BlobV) : (a.setVal v).children = a.children := by cases a <;> rfl

/-- The user function of a combination, on stored and on plain values. -/
def FOK (LA : Lawful e.SA) (LB : Lawful e.SB) (E P : Prop) (f : BlobV → BlobV → Res ε BlobV)
    (ff : Bytes → Bytes → Option Bytes) : Prop :=
  ∀ av bv x y, ValRep LA e.stA av (some x) → ValRep LB e.stB bv (some y) →
    RP E P (f av bv) fun v => ValRep LA e.stA v (ff x y)

/-- The user predicate of a prefix operation, on stored and on plain values. -/
def PredOK (LB : Lawful e.SB) (E P : Prop) (f : BlobV → Res ε Bool) (ff : Bytes → Bool) : Prop :=
  ∀ bv y, ValRep LB e.stB bv (some y) → RP E P (f bv) (· = ff y)

/-- The value of a union. -/
def outerVal (ff : Bytes → Bytes → Option Bytes) (x y : Option Bytes) : Option Bytes :=
  match y with
  | some bv =>
    match x with
    | some av => ff av bv
    | none => some bv
  | none => x

theorem outerValue_rep {B : Nat} {cs : SConv ε} {c : Conv} (hc : ConvOK LA LB g gb E P B cs c)
    {f : BlobV → BlobV → Res ε BlobV} {ff : Bytes → Bytes → Option Bytes} (hf : FOK LA LB E P f ff)
    {a : SNode} {n : Node} (ha : Rep LA g e.stA a n) {bv : BlobV} {y : Option Bytes} (hb : ValRep LB e.stB bv y) :
    UP E P (match bv.valueOpt with
          | some bv =>
            match a.val.valueOpt with
            | some av => stBind (f av bv, a.setVal .none) fun v a => (.ok (), a.setVal v)
            | none => stBind (cs.value bv, a) fun v a => (.ok (), a.setVal v)
          | none => (.ok (), a)) fun _ a' =>
      Rep LA g e.stA a' (mk n.pfx (outerVal ff n.val y) n.ch) ∧ a'.pfx = a.pfx ∧ a'.children = a.children := by
  have hr := rep_iff.1 ha
  rcases oval_cases (valueOpt_rep hb) with ⟨e1, e2⟩ | ⟨b', w, e1, e2, hv⟩
  · rw [e1, e2]
    refine up_ok ⟨?_, rfl, rfl⟩
    cases n; exact ha
  · rw [e1, e2]
    dsimp only
    rcases oval_cases (valueOpt_rep hr.2.1) with ⟨e3, e4⟩ | ⟨a', w', e3, e4, hv'⟩
    · rw [e3, e4]
      refine up_read (hc.value _ _ hv) fun v hv => up_ok ⟨rep_setVal ha hv, setVal_pfx _ _, setVal_children _ _⟩
    · rw [e3, e4]
      refine up_read (hf _ _ _ _ hv' hv) fun v hv => up_ok ?_
      rw [setVal_setVal]
      exact ⟨rep_setVal ha hv, setVal_pfx _ _, setVal_children _ _⟩

theorem outerCombineWithS_repH (u : UOK LA LB E P) {B : Nat} {cs : SConv ε} {c : Conv}
    (hc : ConvOK LA LB g gb E P B cs c) {f : BlobV → BlobV → Res ε BlobV} {ff : Bytes → Bytes → Option Bytes}
    (hf : FOK LA LB E P f ff) (hg : g = false ∨ ∀ x y, (ff x y).isSome) :
    ∀ (fuel : Nat) (a : SNode) (b : Ref) (n m : Node), n.height + m.height ≤ fuel → m.height ≤ B →
      (g = false ∨ Tidy n ∧ Tidy m) → Rep LA g e.stA a n → RefOK LB gb P b m →
      UP E P (outerCombineWithS e cs f fuel a b) fun _ a' => Rep LA g e.stA a' (outerCombineWith c ff n m) := by
  intro fuel
  induction fuel with
  | zero => intro a b n m hfu; have := height_pos n; omega
  | succ fuel ih =>
    intro a b n m hfu hB ht ha hb
    have hr := rep_iff.1 ha
    simp only [outerCombineWithS]
    refine up_read (rp_of_rpost u.ea (loadPrefix_rep hr.1)) fun ap eap => ?_
    subst eap
    refine up_read (hb.loadPrefix u) fun bp ebp => ?_
    subst ebp
    rw [outerCombineWith]
    dsimp only
    generalize hk : commonPrefix n.pfx m.pfx = k
    by_cases h2 : k = m.pfx.length
    · rw [if_pos h2, if_pos h2]
      by_cases h1 : k = n.pfx.length
      · -- identical prefixes
        rw [if_pos h1]
        simp only [ne_eq, h1, not_true_eq_false, if_false]
        refine up_bind (Q := fun _ a' => ∃ l, a' = .arc a.pfx a'.val l ∧ ValRep LA e.stA a'.val (outerVal ff n.val m.val) ∧
          RepL LA g e.stA l (outerRes c (outerCombineWith c ff) n.kids m.loadChildren)) ?_ ?_
        · refine up_bind (Q := fun _ a' => a' = a) (up_ok rfl) ?_
          rintro _ a1 rfl
          refine up_bind (outerValue_rep hc hf ha hb.1.val) fun _ a2 ⟨h3, h4, h5⟩ => ?_
          refine up_imp (childrenBoth_rep u h3 hb fun ac it hac hit _ => up_imp (outerChildren_rep hc
            (h := outerCombineWith c ff) (fun x hx => by have := height_load hx; omega)
            (fun a' n' b' m' hn hm ha' hb' => ih a' b' n' m' ?_ ?_ ?_ ha' hb') hac hit) fun _ r hr => hr.1) ?_
          · have := height_kids (n := n) hn; have := height_load hm; omega
          · have := height_load hm; omega
          · exact ht.imp id fun h => ⟨h.1.kid hn, h.2.kid (loadChildren_getD m ▸ hm)⟩
          · rintro _ a3 ⟨l, rfl, hl⟩
            refine ⟨l, by rw [← h4]; rfl, ?_, hl⟩
            exact (rep_iff.1 h3).2.1
        · rintro _ a3 ⟨l, e3, hv, hl⟩
          rw [e3, outerChildrenWith_eq]
          refine canon_arc hr.1 hv hl ?_
          rcases hg with hg | hff
          · exact Or.inl hg
          rcases ht with hg | ⟨tn, tm⟩
          · exact Or.inl hg
          refine Or.inr fun x hw hx => ?_
          exfalso
          have hvn : n.val = none ∧ m.val = none := by
            unfold outerVal at hw
            cases hm : m.val with
            | none => rw [hm] at hw; exact ⟨hw, rfl⟩
            | some y =>
              rw [hm] at hw
              cases hn : n.val with
              | none => rw [hn] at hw; cases hw
              | some x => rw [hn] at hw; have h3 := hff x y; have h4 : ff x y = none := hw; rw [h4] at h3; cases h3
          have hl1 : (outerRes c (outerCombineWith c ff) n.kids m.loadChildren).length = 1 := by
            rw [← repL_length hl, hx]; rfl
          have hn1 := shape_not_merge tn.2 hvn.1
          have hm1 := shape_not_merge tm.2 hvn.2
          rw [loadChildren_eq] at hl1
          by_cases hmk : m.kids = []
          · rw [hmk] at hl1
            simp only [arcOpt, List.isEmpty_nil, if_true, outerRes] at hl1
            exact hn1 hl1
          · have e2 : arcOpt m.kids = some m.kids := by simp [arcOpt, hmk]
            rw [e2] at hl1
            have := outerRes_length (c := c) (h := outerCombineWith c ff) (l := n.kids) (ml := m.kids)
              (fun a ha b hb => outer_nonEmpty hff (tn.kid ha) (tm.kid hb) (cmp_isEmpty (tn.2.kids a ha)))
            have : 0 < m.kids.length := List.length_pos_iff.2 hmk
            omega
      · -- `a` is split
        rw [if_neg h1]
        simp only [ne_eq, h1, not_false_eq_true, if_true]
        refine up_bind (Q := fun _ a' => ∃ p l, a' = .arc p a'.val l ∧ PfxRep LA g e.stA p (n.split k).pfx ∧
          p.isId = false ∧ ValRep LA e.stA a'.val m.val ∧
          RepL LA g e.stA l (outerRes c (outerCombineWith c ff) (n.split k).kids m.loadChildren) ∧
          (m.loadChildren = none → ∀ x, l = [x] → x.pfx.isId = false)) ?_ ?_
        · refine up_bind (split_rep u.ea ha k) fun _ a1 ⟨h3, h4, x, h5, h6⟩ => ?_
          refine up_bind (outerValue_rep hc hf h3 hb.1.val) fun _ a2 ⟨h7, h8, h9⟩ => ?_
          refine up_imp (childrenBoth_rep u h7 hb fun ac it hac hit hacl => up_imp (outerChildren_rep hc
            (h := outerCombineWith c ff) (fun x hx => by have := height_load hx; omega)
            (fun a' n' b' m' hn hm ha' hb' => ih a' b' n' m' ?_ ?_ ?_ ha' hb') hac hit)
            (Q' := fun _ r => RepL LA g e.stA r (outerRes c (outerCombineWith c ff) (n.split k).kids m.loadChildren) ∧
              (m.loadChildren = none → ∀ x, r = [x] → x.pfx.isId = false))
            fun _ r hr => ⟨hr.1, fun hm x hx => ?_⟩) ?_
          · have hn' : n' ∈ (n.split k).kids := hn
            rw [split_kids] at hn'
            simp only [List.mem_singleton] at hn'
            rw [hn', height_cloneShortened]
            have := height_load hm; omega
          · have := height_load hm; omega
          · have hn' : n' ∈ (n.split k).kids := hn
            rw [split_kids] at hn'
            simp only [List.mem_singleton] at hn'
            refine ht.imp id fun h => ⟨⟨?_, Or.inr ?_⟩, h.2.kid (loadChildren_getD m ▸ hm)⟩
            · rw [hn']; exact ord_cloneShortened h.1.1 k
            · rw [hn', cmp_cloneShortened]
              rcases h.1.2 with rfl | hcmp
              · rw [pfx_empty, commonPrefix_nil_left] at hk; rw [← hk] at h1; exact absurd rfl h1
              · exact hcmp
          · cases it with
            | some it => rw [hm] at hit; exact hit.elim
            | none =>
              have h10 := hr.2.1 rfl
              rw [hacl [_] (h9.trans h5)] at h10
              rw [h10] at hx
              cases hx; exact h6
          · rintro _ a3 ⟨l, rfl, hl⟩
            exact ⟨_, l, rfl, (rep_iff.1 h7).1, by rw [h8]; exact h4, by
              have := (rep_iff.1 h7).2.1
              simpa [split_val, outerVal] using (by
                rw [Node.val, split_val] at this
                have h11 : outerVal ff none m.val = m.val := by cases m.val <;> rfl
                rw [h11] at this; exact this), hl.1, hl.2⟩
        · rintro _ a3 ⟨p, l, e3, hp, hpd, hv, hl, hd⟩
          rw [e3, outerChildrenWith_eq]
          refine canon_arc hp hv hl ?_
          rcases hg with hg | hff
          · exact Or.inl hg
          rcases ht with hg | ⟨tn, tm⟩
          · exact Or.inl hg
          refine Or.inr fun x hw hx => ⟨hpd, ?_⟩
          have hm1 := shape_not_merge tm.2 hw
          have hl1 : (outerRes c (outerCombineWith c ff) (n.split k).kids m.loadChildren).length = 1 := by
            rw [← repL_length hl, hx]; rfl
          rw [loadChildren_eq] at hl1
          by_cases hmk : m.kids = []
          · refine hd ?_ x hx
            rw [loadChildren_eq, hmk]; rfl
          · exfalso
            have e2 : arcOpt m.kids = some m.kids := by simp [arcOpt, hmk]
            rw [e2, split_kids] at hl1
            have hcn : Cmp n := by
              rcases tn.2 with rfl | hcmp
              · rw [pfx_empty, commonPrefix_nil_left] at hk; rw [← hk] at h1; exact absurd rfl h1
              · exact hcmp
            have := outerRes_length (c := c) (h := outerCombineWith c ff) (l := [n.cloneShortened k]) (ml := m.kids)
              (fun a ha b hb => by
                simp only [List.mem_singleton] at ha
                have hc' : Cmp a := by rw [ha, cmp_cloneShortened]; exact hcn
                exact outer_nonEmpty hff ⟨by rw [ha]; exact ord_cloneShortened tn.1 k, Or.inr hc'⟩ (tm.kid hb)
                  (cmp_isEmpty hc'))
            have : 0 < m.kids.length := List.length_pos_iff.2 hmk
            omega
    · rw [if_neg h2, if_neg h2]
      have hcm : Tidy m → Cmp m := by
        intro tm
        rcases tm.2 with rfl | hcmp
        · rw [pfx_empty, commonPrefix_nil_right] at hk; rw [← hk] at h2; exact absurd rfl h2
        · exact hcmp
      by_cases h1 : k = n.pfx.length
      · -- `b` is below `a`
        rw [if_pos h1, if_pos h1]
        refine up_bind (Q := fun _ a' => ∃ l, a' = .arc a.pfx a.val l ∧
          RepL LA g e.stA l (outerRes c (outerCombineWith c ff) n.kids (some [m.cloneShortened k])) ∧
          (n.kids = [] → ∀ x ∈ l, x.pfx.isId = false)) ?_ ?_
        · refine childrenShort_rep u ha hb fun ac b' hac hit hbd => up_imp (outerChildren_rep hc
            (h := outerCombineWith c ff) ?_ (fun a' n' b' m' hn hm ha' hb' => ih a' b' n' m' ?_ ?_ ?_ ha' hb') hac hit)
            fun _ r hr => ⟨hr.1, fun hn => ?_⟩
          · intro x hx
            simp only [Option.getD_some, List.mem_singleton] at hx
            rw [hx, height_cloneShortened]; exact hB
          · simp only [Option.getD_some, List.mem_singleton] at hm
            rw [hm, height_cloneShortened]
            have := height_kids hn; omega
          · simp only [Option.getD_some, List.mem_singleton] at hm
            rw [hm, height_cloneShortened]; exact hB
          · simp only [Option.getD_some, List.mem_singleton] at hm
            refine ht.imp id fun h => ⟨h.1.kid hn, ?_, Or.inr ?_⟩
            · rw [hm]; exact ord_cloneShortened h.2.1 k
            · rw [hm, cmp_cloneShortened]; exact hcm h.2
          · have hac' : ac = [] := by
              rw [hn] at hac; exact (repL_nil (L := LA) (g := g)).1 hac
            exact hr.2.2 hac' b' rfl hbd
        · rintro _ a3 ⟨l, e3, hl, hd⟩
          rw [e3, outerChildrenWith_eq]
          refine canon_arc hr.1 hr.2.1 hl ?_
          rcases hg with hg | hff
          · exact Or.inl hg
          rcases ht with hg | ⟨tn, tm⟩
          · exact Or.inl hg
          refine Or.inr fun x hw hx => ?_
          rcases tn.2 with hne | hcn
          · subst hne
            refine ⟨?_, hd rfl x (by rw [hx]; simp)⟩
            rcases hr.1 with h | ⟨_, _, _, _, _, h, _⟩
            · rw [h]; rfl
            · cases h
          · exfalso
            have hl1 : (outerRes c (outerCombineWith c ff) n.kids (some [m.cloneShortened k])).length = 1 := by
              rw [← repL_length hl, hx]; rfl
            have := outerRes_length (c := c) (h := outerCombineWith c ff) (l := n.kids) (ml := [m.cloneShortened k])
              (fun a ha b hb => by
                simp only [List.mem_singleton] at hb
                refine outer_nonEmpty hff (tn.kid ha) ⟨?_, Or.inr ?_⟩ (cmp_isEmpty (tn.2.kids a ha))
                · rw [hb]; exact ord_cloneShortened tm.1 k
                · rw [hb, cmp_cloneShortened]; exact hcm tm)
            have h3 := (cmp_iff n).1 hcn
            rw [hw] at h3
            have := h3.1
            simp at this
            omega
      · -- disjoint
        rw [if_neg h1, if_neg h1]
        refine up_bind (Q := fun _ a' => ∃ p v l, a' = .arc p v l ∧ PfxRep LA g e.stA p (n.split k).pfx ∧
          ValRep LA e.stA v none ∧
          RepL LA g e.stA l (sortByFirst ((n.split k).kids ++ [c.nodeShortened m k]))) ?_ ?_
        · refine up_bind (split_rep u.ea ha k) fun _ a1 ⟨h3, h4, x, h5, h6⟩ => ?_
          refine up_bind (loadChildrenMut_rep u.ea h3) fun ac a2 ⟨h7, h8, h9, _⟩ => ?_
          refine up_read (hc.short b m k hB hb) fun y hy => up_ok ?_
          refine ⟨_, _, _, rfl, ?_, ?_, sortByFirst_rep (repL_append h7 (repL_single hy))⟩
          · rw [h8]; exact (rep_iff.1 h3).1
          · rw [h9]; exact (rep_iff.1 h3).2.1
        · rintro _ a3 ⟨p, v, l, rfl, hp, hv, hl⟩
          refine canon_arc hp hv hl (Or.inr fun x _ hx => ?_)
          exfalso
          have := repL_length hl
          rw [hx, split_kids, sortByFirst_two] at this
          split at this <;> simp at this


/-! ### Inner combination and retain_prefix -/

theorem childrenBoth_inner (u : UOK LA LB E P) {rec : SNode → Ref → Res ε Unit × SNode} {h : Node → Node → Node}
    {a : SNode} {b : Ref} {n m : Node} (ha : Rep LA g e.stA a n) (hb : RefOK LB gb P b m)
    (hrec : ∀ a' n' b' m', n' ∈ n.kids → m' ∈ m.loadChildren.getD [] → Rep LA g e.stA a' n' → RefOK LB gb P b' m' →
      UP E P (rec a' b') fun _ a'' => Rep LA g e.stA a'' (h n' m'))
    {r : List Node} (hr : r = innerRes h n.kids m.loadChildren) :
    UP E P (childrenBoth e (innerChildrenS e rec) a b) fun _ a' => ∃ l, a' = .arc a.pfx a.val l ∧ RepL LA g e.stA l r :=
  childrenBoth_rep u ha hb fun ac it hac hit _ => innerChildren_rep hrec hac hit hr

theorem childrenShort_inner (u : UOK LA LB E P) {rec : SNode → Ref → Res ε Unit × SNode} {h : Node → Node → Node}
    {a : SNode} {b : Ref} {n m : Node} {k : Nat} (ha : Rep LA g e.stA a n) (hb : RefOK LB gb P b m)
    (hrec : ∀ a' n' b' m', n' ∈ n.kids → m' = m.cloneShortened k → Rep LA g e.stA a' n' → RefOK LB gb P b' m' →
      UP E P (rec a' b') fun _ a'' => Rep LA g e.stA a'' (h n' m'))
    {r : List Node} (hr : r = innerRes h n.kids (some [m.cloneShortened k])) :
    UP E P (childrenShort e (innerChildrenS e rec) k a b) fun _ a' =>
      ∃ l, a' = .arc a.pfx a.val l ∧ RepL LA g e.stA l r :=
  childrenShort_rep u ha hb fun ac b' hac hit _ =>
    innerChildren_rep (fun a' n' b' m' hn hm => hrec a' n' b' m' hn (by simpa using hm)) hac hit hr

theorem childrenBoth_left (u : UOK LA LB E P) {rec : SNode → Ref → Res ε Unit × SNode} {h : Node → Node → Node}
    {a : SNode} {b : Ref} {n m : Node} (ha : Rep LA g e.stA a n) (hb : RefOK LB gb P b m)
    (hrec : ∀ a' n' b' m', n' ∈ n.kids → m' ∈ m.loadChildren.getD [] → Rep LA g e.stA a' n' → RefOK LB gb P b' m' →
      UP E P (rec a' b') fun _ a'' => Rep LA g e.stA a'' (h n' m'))
    {r : List Node} (hr : r = leftRes h n.kids m.loadChildren) :
    UP E P (childrenBoth e (leftChildrenS e rec) a b) fun _ a' => ∃ l, a' = .arc a.pfx a.val l ∧ RepL LA g e.stA l r :=
  childrenBoth_rep u ha hb fun ac it hac hit _ => leftChildren_rep hrec hac hit hr

theorem childrenShort_left (u : UOK LA LB E P) {rec : SNode → Ref → Res ε Unit × SNode} {h : Node → Node → Node}
    {a : SNode} {b : Ref} {n m : Node} {k : Nat} (ha : Rep LA g e.stA a n) (hb : RefOK LB gb P b m)
    (hrec : ∀ a' n' b' m', n' ∈ n.kids → m' = m.cloneShortened k → Rep LA g e.stA a' n' → RefOK LB gb P b' m' →
      UP E P (rec a' b') fun _ a'' => Rep LA g e.stA a'' (h n' m'))
    {r : List Node} (hr : r = leftRes h n.kids (some [m.cloneShortened k])) :
    UP E P (childrenShort e (leftChildrenS e rec) k a b) fun _ a' =>
      ∃ l, a' = .arc a.pfx a.val l ∧ RepL LA g e.stA l r :=
  childrenShort_rep u ha hb fun ac b' hac hit _ =>
    leftChildren_rep (fun a' n' b' m' hn hm => hrec a' n' b' m' hn (by simpa using hm)) hac hit hr

/-- Node bounds for the three kinds of recursive calls. -/
theorem bound_both {n m n' m' : Node} {fuel : Nat} (h : n.height + m.height ≤ fuel + 1) (hn : n' ∈ n.kids)
    (hm : m' ∈ m.loadChildren.getD []) : n'.height + m'.height ≤ fuel := by
  have := height_kids hn; have := height_load hm; omega

theorem bound_short {n m n' m' : Node} {fuel k : Nat} (h : n.height + m.height ≤ fuel + 1) (hn : n' ∈ n.kids)
    (hm : m' = m.cloneShortened k) : n'.height + m'.height ≤ fuel := by
  have := height_kids hn; rw [hm, height_cloneShortened]; omega

theorem bound_split {n m n' m' : Node} {fuel k : Nat} (h : n.height + m.height ≤ fuel + 1) (hn : n' ∈ (n.split k).kids)
    (hm : m' ∈ m.loadChildren.getD []) : n'.height + m'.height ≤ fuel := by
  rw [split_kids] at hn
  simp only [List.mem_singleton] at hn
  rw [hn, height_cloneShortened]
  have := height_load hm; omega

theorem rep_noVal {a : SNode} {n : Node} (h : Rep LA g e.stA a n) :
    Rep LA g e.stA (a.setVal .none) (mk n.pfx none n.ch) := rep_setVal h rfl

theorem innerCombineWithS_repH (u : UOK LA LB E P) {f : BlobV → BlobV → Res ε BlobV} {ff : Bytes → Bytes → Option Bytes}
    (hf : FOK LA LB E P f ff) :
    ∀ (fuel : Nat) (a : SNode) (b : Ref) (n m : Node), n.height + m.height ≤ fuel →
      Rep LA false e.stA a n → RefOK LB gb P b m →
      UP E P (innerCombineWithS e f fuel a b) fun _ a' => Rep LA false e.stA a' (innerCombineWith ff n m) := by
  intro fuel
  induction fuel with
  | zero => intro a b n m hfu; have := height_pos n; omega
  | succ fuel ih =>
    intro a b n m hfu ha hb
    have hr := rep_iff.1 ha
    simp only [innerCombineWithS]
    refine up_read (rp_of_rpost u.ea (loadPrefix_rep hr.1)) fun ap eap => ?_
    subst eap
    refine up_read (hb.loadPrefix u) fun bp ebp => ?_
    subst ebp
    rw [innerCombineWith]
    dsimp only
    generalize hk : commonPrefix n.pfx m.pfx = k
    by_cases h12 : k = n.pfx.length ∧ k = m.pfx.length
    · rw [if_pos h12, if_pos h12]
      refine up_bind (Q := fun _ a' => ∃ v l, a' = .arc a.pfx v l ∧
          ValRep LA e.stA v (match n.val, m.val with | some av, some bv => ff av bv | _, _ => none) ∧
          RepL LA false e.stA l (innerCombineChildrenWith ff n.kids m.loadChildren)) ?_ ?_
      · refine up_bind (Q := fun _ a' => ∃ v, a' = a.setVal v ∧
          ValRep LA e.stA v (match n.val, m.val with | some av, some bv => ff av bv | _, _ => none)) ?_ ?_
        · rcases oval_cases (valueOpt_rep hr.2.1) with ⟨e1, e2⟩ | ⟨a', w', e1, e2, hv'⟩
          · rw [e1, e2]; exact up_ok ⟨_, rfl, rfl⟩
          · rcases oval_cases (valueOpt_rep hb.1.val) with ⟨e3, e4⟩ | ⟨b', w, e3, e4, hv⟩
            · rw [e1, e2, e3, e4]; exact up_ok ⟨_, rfl, rfl⟩
            · rw [e1, e2, e3, e4]
              refine up_read (hf _ _ _ _ hv' hv) fun v hv => up_ok ⟨v, setVal_setVal _ _ _, hv⟩
        · rintro _ a1 ⟨v, rfl, hv⟩
          refine up_imp (childrenBoth_inner u (rep_setVal ha hv) hb (h := innerCombineWith ff)
            (fun a' n' b' m' hn hm ha' hb' => ih a' b' n' m' (bound_both hfu hn hm) ha' hb')
            (innerChildrenWith_eq _ _ _)) ?_
          rintro _ a2 ⟨l, rfl, hl⟩
          exact ⟨v, l, by rw [setVal_pfx, setVal_val], hv, hl⟩
      · rintro _ a3 ⟨v, l, rfl, hv, hl⟩
        exact canon_arc hr.1 hv hl (Or.inl rfl)
    · rw [if_neg h12, if_neg h12]
      by_cases h1 : k = n.pfx.length
      · rw [if_pos h1, if_pos h1]
        refine up_bind (childrenShort_inner u (rep_noVal ha) hb (h := innerCombineWith ff)
            (fun a' n' b' m' hn hm ha' hb' => ih a' b' n' m' (bound_short hfu hn hm) ha' hb')
            (innerChildrenWith_eq _ _ _)) ?_
        rintro _ a2 ⟨l, rfl, hl⟩
        rw [setVal_pfx, setVal_val]
        exact canon_arc hr.1 (w := none) rfl hl (Or.inl rfl)
      · rw [if_neg h1, if_neg h1]
        by_cases h2 : k = m.pfx.length
        · rw [if_pos h2, if_pos h2]
          refine up_bind (Q := fun _ a' => ∃ p v l, a' = .arc p v l ∧ PfxRep LA false e.stA p (n.split k).pfx ∧
            ValRep LA e.stA v none ∧
            RepL LA false e.stA l (innerCombineChildrenWith ff (n.split k).kids m.loadChildren)) ?_ ?_
          · refine up_bind (split_rep u.ea ha k) fun _ a1 ⟨h3, _⟩ => ?_
            refine up_imp (childrenBoth_inner u h3 hb (h := innerCombineWith ff)
              (fun a' n' b' m' hn hm ha' hb' => ih a' b' n' m' (bound_split hfu hn hm) ha' hb')
              (innerChildrenWith_eq _ _ _)) ?_
            rintro _ a2 ⟨l, rfl, hl⟩
            exact ⟨_, _, l, rfl, (rep_iff.1 h3).1, (rep_iff.1 h3).2.1, hl⟩
          · rintro _ a3 ⟨p, v, l, rfl, hp, hv, hl⟩
            exact canon_arc hp hv hl (Or.inl rfl)
        · rw [if_neg h2, if_neg h2]
          exact up_bind (Q := fun _ a' => a' = (a.setVal .none).noChildren) (up_ok rfl) fun _ a' e' =>
            e' ▸ canon_nuke _ hr.1

/-- `canonicalize` on a node of a compact tree, or on any node of a detached tree. -/
theorem canon_gen {dbg : Bool} (hdbg : dbg = true → P ∨ Plain LA e.stA) {a : SNode} {n : Node}
    (h : Rep LA false e.stA a n) (hs : Shape n ∨ Plain LA e.stA) :
    UP E P (canonicalizeS (ε := ε) dbg a) fun _ a => Rep LA false e.stA a n.canonicalize := by
  by_cases hp : Plain LA e.stA
  · have hr := rep_iff.1 h
    cases n with
    | mk q w ch =>
      cases a with
      | arc p v l =>
        cases ch with
        | none => have := hr.2.2; simp [RepC, SNode.children, Node.ch] at this
        | some rs =>
          have := hr.2.2
          simp only [RepC, SNode.children, Node.ch] at this
          rcases this with ⟨as, e1, h1⟩ | ⟨_, _, _, e1, _⟩
          · cases e1; exact canon_arc hr.1 hr.2.1 h1 (Or.inl rfl)
          · cases e1
      | ref p v i =>
        cases ch with
        | some rs =>
          have := hr.2.2
          simp only [RepC, SNode.children, Node.ch] at this
          rcases this with ⟨as, e1, h1⟩ | ⟨_, _, _, _, _, _, h1, _⟩
          · cases e1
          · exact absurd h1 (hp _ _)
        | none =>
          have h3 : i = [] := by have := hr.2.2; simpa [RepC, SNode.children, Node.ch] using this
          subst h3
          have h4 : (SNode.ref p v []).assertsHold = true := by
            unfold SNode.assertsHold
            simp only [SNode.children, Bool.true_and]
            split
            · rename_i h5; cases h5
            · rfl
          have h5 : (SNode.ref p v []).merge = .ref p v [] := by
            unfold SNode.merge; split
            · rename_i h5; cases h5
            · rfl
          unfold canonicalizeS Node.canonicalize
          rw [h4]
          simp only [Bool.not_true, Bool.and_false, Bool.false_eq_true, if_false, h5]
          have h6 : (mk q w none).mergeOnlyChild = mk q w none := by
            unfold mergeOnlyChild; split
            · rename_i h7; cases h7
            · rfl
          rw [h6]
          exact up_ok (canon_tail h)
  · exact canon_any (fun h => (hdbg h).resolve_right hp) h (hs.resolve_right hp)

/-- Ops on the children keep the side condition of `canon_gen`. -/
theorem calm_kids {X : Prop} {n : Node} (h : Shape n ∨ X) : ∀ x ∈ n.kids, Shape x ∨ X := fun x hx =>
  h.imp (fun h => Or.inr (h.kids x hx)) id

theorem calm_split {X : Prop} {n : Node} (h : Shape n ∨ X) (k : Nat) (hk : k < n.pfx.length) :
    ∀ x ∈ (n.split k).kids, Shape x ∨ X := by
  intro x hx
  rw [split_kids] at hx
  simp only [List.mem_singleton] at hx
  refine h.imp (fun h => ?_) id
  rcases h with rfl | hc
  · simp at hk
  · rw [hx]; exact Or.inr ((cmp_cloneShortened _).2 hc)

theorem retainPrefixWithS_repH (u : UOK LA LB E P) (hdbg : e.dbg = true → P ∨ Plain LA e.stA) {f : BlobV → Res ε Bool} {ff : Bytes → Bool}
    (hf : PredOK LB E P f ff) :
    ∀ (fuel : Nat) (a : SNode) (b : Ref) (n m : Node), n.height + m.height ≤ fuel → Shape n ∨ Plain LA e.stA →
      Rep LA false e.stA a n → RefOK LB gb P b m →
      UP E P (retainPrefixWithS e f fuel a b) fun _ a' => Rep LA false e.stA a' (retainPrefixWith ff n m) := by
  intro fuel
  induction fuel with
  | zero => intro a b n m hfu; have := height_pos n; omega
  | succ fuel ih =>
    intro a b n m hfu hsh ha hb
    have hr := rep_iff.1 ha
    have hskid := calm_kids hsh
    have hssplit := calm_split hsh
    simp only [retainPrefixWithS]
    refine up_read (rp_of_rpost u.ea (loadPrefix_rep hr.1)) fun ap eap => ?_
    subst eap
    refine up_read (hb.loadPrefix u) fun bp ebp => ?_
    subst ebp
    rw [retainPrefixWith]
    try dsimp only
    have hkn : commonPrefix n.pfx m.pfx ≤ n.pfx.length := by
      obtain ⟨_, h1, h2, _⟩ := commonPrefix_cut n m; omega
    generalize hk : commonPrefix n.pfx m.pfx = k at hkn ⊢
    by_cases h12 : k = n.pfx.length ∧ k = m.pfx.length
    · rw [if_pos h12, if_pos h12]
      obtain ⟨go, hgo⟩ : ∃ go : Bool, (match m.val with | none => true | some bv => !ff bv) = go := ⟨_, rfl⟩
      change UP E P _ fun _ a' => Rep LA false e.stA a' (if (match m.val with | none => true | some bv => !ff bv) = true then _ else _)
      rw [hgo]
      refine up_bind (Q := fun _ a' =>
          if go then ∃ l, a' = .arc a.pfx .none l ∧
            RepL LA false e.stA l (retainPrefixChildrenWith ff n.kids m.loadChildren) else a' = a) ?_ ?_
      · refine up_bind (Q := fun go' a' => a' = a ∧ go' = go) ?_ ?_
        · rcases oval_cases (valueOpt_rep hb.1.val) with ⟨e3, e4⟩ | ⟨b', w, e3, e4, hv⟩
          · rw [e3]; rw [e4] at hgo; exact up_ok ⟨rfl, hgo⟩
          · rw [e3]; rw [e4] at hgo
            refine up_read (hf _ _ hv) fun x hx => up_ok ⟨rfl, by rw [hx]; exact hgo⟩
        · rintro _ a1 ⟨rfl, rfl⟩
          split
          · refine up_imp (childrenBoth_inner u (rep_noVal ha) hb (h := retainPrefixWith ff)
              (fun a' n' b' m' hn hm ha' hb' => ih a' b' n' m' (bound_both hfu hn hm) (hskid _ hn) ha' hb')
              (retainChildrenWith_eq _ _ _)) ?_
            rintro _ a2 ⟨l, rfl, hl⟩
            exact ⟨l, by rw [setVal_pfx, setVal_val], hl⟩
          · exact up_ok rfl
      · intro _ a3 h3
        split at h3
        · rename_i hgo
          obtain ⟨l, rfl, hl⟩ := h3
          rw [if_pos hgo]
          exact canon_arc hr.1 (w := none) rfl hl (Or.inl rfl)
        · rename_i hgo
          rw [if_neg hgo, h3]
          exact canon_gen hdbg ha hsh
    · rw [if_neg h12, if_neg h12]
      by_cases h2 : k = m.pfx.length
      · rw [if_pos h2, if_pos h2]
        have hk1 : k < n.pfx.length := by omega
        rcases oval_cases (valueOpt_rep hb.1.val) with ⟨e3, e4⟩ | ⟨b', w, e3, e4, hv⟩
        · rw [e3, e4]
          refine up_bind (Q := fun _ a' => ∃ p v l, a' = .arc p v l ∧ PfxRep LA false e.stA p (n.split k).pfx ∧
            ValRep LA e.stA v (n.split k).val ∧
            RepL LA false e.stA l (retainPrefixChildrenWith ff (n.split k).kids m.loadChildren)) ?_ ?_
          · refine up_bind (split_rep u.ea ha k) fun _ a1 ⟨h3, _⟩ => ?_
            refine up_imp (childrenBoth_inner u h3 hb (h := retainPrefixWith ff)
              (fun a' n' b' m' hn hm ha' hb' => ih a' b' n' m' (bound_split hfu hn hm) (hssplit k hk1 _ hn) ha' hb')
              (retainChildrenWith_eq _ _ _)) ?_
            rintro _ a2 ⟨l, rfl, hl⟩
            exact ⟨_, _, l, rfl, (rep_iff.1 h3).1, (rep_iff.1 h3).2.1, hl⟩
          · rintro _ a3 ⟨p, v, l, rfl, hp, hv, hl⟩
            exact canon_arc hp hv hl (Or.inl rfl)
        · rw [e3, e4]
          dsimp only
          refine up_bind (Q := fun _ a' => a' = if !ff w then (a.setVal .none).noChildren else a) ?_ ?_
          · refine up_read (hf _ _ hv) fun x hx => up_ok (by rw [hx])
          · rintro _ a3 rfl
            split
            · exact canon_nuke _ hr.1
            · exact canon_gen hdbg ha hsh
      · rw [if_neg h2, if_neg h2]
        by_cases h1 : k = n.pfx.length
        · rw [if_pos h1, if_pos h1]
          refine up_bind (childrenShort_inner u (rep_noVal ha) hb (h := retainPrefixWith ff)
              (fun a' n' b' m' hn hm ha' hb' => ih a' b' n' m' (bound_short hfu hn hm) (hskid _ hn) ha' hb')
              (retainChildrenWith_eq _ _ _)) ?_
          rintro _ a2 ⟨l, rfl, hl⟩
          rw [setVal_pfx, setVal_val]
          exact canon_arc hr.1 (w := none) rfl hl (Or.inl rfl)
        · rw [if_neg h1, if_neg h1]
          exact up_bind (Q := fun _ a' => a' = (a.setVal .none).noChildren) (up_ok rfl) fun _ a' e' =>
            e' ▸ canon_nuke _ hr.1

/-! ### Left combination and remove_prefix -/

theorem leftCombineWithS_repH (u : UOK LA LB E P) (hdbg : e.dbg = true → P ∨ Plain LA e.stA) {f : BlobV → BlobV → Res ε BlobV}
    {ff : Bytes → Bytes → Option Bytes} (hf : FOK LA LB E P f ff) :
    ∀ (fuel : Nat) (a : SNode) (b : Ref) (n m : Node), n.height + m.height ≤ fuel → Shape n ∨ Plain LA e.stA →
      Rep LA false e.stA a n → RefOK LB gb P b m →
      UP E P (leftCombineWithS e f fuel a b) fun _ a' => Rep LA false e.stA a' (leftCombineWith ff n m) := by
  intro fuel
  induction fuel with
  | zero => intro a b n m hfu; have := height_pos n; omega
  | succ fuel ih =>
    intro a b n m hfu hsh ha hb
    have hr := rep_iff.1 ha
    have hskid := calm_kids hsh
    have hssplit := calm_split hsh
    simp only [leftCombineWithS]
    refine up_read (rp_of_rpost u.ea (loadPrefix_rep hr.1)) fun ap eap => ?_
    subst eap
    refine up_read (hb.loadPrefix u) fun bp ebp => ?_
    subst ebp
    rw [leftCombineWith]
    dsimp only
    have hkn : commonPrefix n.pfx m.pfx ≤ n.pfx.length := by
      obtain ⟨_, h1, h2, _⟩ := commonPrefix_cut n m; omega
    generalize hk : commonPrefix n.pfx m.pfx = k at hkn ⊢
    by_cases h12 : k = n.pfx.length ∧ k = m.pfx.length
    · rw [if_pos h12, if_pos h12]
      refine up_bind (Q := fun _ a' => ∃ v l, a' = .arc a.pfx v l ∧
          ValRep LA e.stA v (match m.val with
            | some bv => (match n.val with | some av => ff av bv | none => none)
            | none => n.val) ∧
          RepL LA false e.stA l (leftCombineChildrenWith ff n.kids m.loadChildren)) ?_ ?_
      · refine up_bind (Q := fun _ a' => ∃ v, a' = a.setVal v ∧
          ValRep LA e.stA v (match m.val with
            | some bv => (match n.val with | some av => ff av bv | none => none)
            | none => n.val)) ?_ ?_
        · rcases oval_cases (valueOpt_rep hb.1.val) with ⟨e3, e4⟩ | ⟨b', w, e3, e4, hv⟩
          · rw [e3, e4]; exact up_ok ⟨a.val, (setVal_self a).symm, hr.2.1⟩
          · rcases oval_cases (valueOpt_rep hr.2.1) with ⟨e1, e2⟩ | ⟨a', w', e1, e2, hv'⟩
            · rw [e1, e2, e3, e4]; exact up_ok ⟨a.val, (setVal_self a).symm, by
                have := hr.2.1; rw [e2] at this; exact this⟩
            · rw [e1, e2, e3, e4]
              refine up_read (hf _ _ _ _ hv' hv) fun v hv => up_ok ⟨v, setVal_setVal _ _ _, hv⟩
        · rintro _ a1 ⟨v, rfl, hv⟩
          refine up_imp (childrenBoth_left u (rep_setVal ha hv) hb (h := leftCombineWith ff)
            (fun a' n' b' m' hn hm ha' hb' => ih a' b' n' m' (bound_both hfu hn hm) (hskid _ hn) ha' hb')
            (leftChildrenWith_eq _ _ _)) ?_
          rintro _ a2 ⟨l, rfl, hl⟩
          exact ⟨v, l, by rw [setVal_pfx, setVal_val], hv, hl⟩
      · rintro _ a3 ⟨v, l, rfl, hv, hl⟩
        exact canon_arc hr.1 hv hl (Or.inl rfl)
    · rw [if_neg h12, if_neg h12]
      by_cases h1 : k = n.pfx.length
      · rw [if_pos h1, if_pos h1]
        refine up_bind (childrenShort_left u ha hb (h := leftCombineWith ff)
            (fun a' n' b' m' hn hm ha' hb' => ih a' b' n' m' (bound_short hfu hn hm) (hskid _ hn) ha' hb')
            (leftChildrenWith_eq _ _ _)) ?_
        rintro _ a2 ⟨l, rfl, hl⟩
        exact canon_arc hr.1 hr.2.1 hl (Or.inl rfl)
      · rw [if_neg h1, if_neg h1]
        by_cases h2 : k = m.pfx.length
        · rw [if_pos h2, if_pos h2]
          refine up_bind (Q := fun _ a' => ∃ p v l, a' = .arc p v l ∧ PfxRep LA false e.stA p (n.split k).pfx ∧
            ValRep LA e.stA v none ∧
            RepL LA false e.stA l (leftCombineChildrenWith ff (n.split k).kids m.loadChildren)) ?_ ?_
          · refine up_bind (split_rep u.ea ha k) fun _ a1 ⟨h3, _⟩ => ?_
            refine up_imp (childrenBoth_left u h3 hb (h := leftCombineWith ff)
              (fun a' n' b' m' hn hm ha' hb' => ih a' b' n' m' (bound_split hfu hn hm)
                (hssplit k (by omega) _ hn) ha' hb')
              (leftChildrenWith_eq _ _ _)) ?_
            rintro _ a2 ⟨l, rfl, hl⟩
            exact ⟨_, _, l, rfl, (rep_iff.1 h3).1, (rep_iff.1 h3).2.1, hl⟩
          · rintro _ a3 ⟨p, v, l, rfl, hp, hv, hl⟩
            exact canon_arc hp hv hl (Or.inl rfl)
        · rw [if_neg h2, if_neg h2]
          exact up_bind (Q := fun _ a' => a' = a) (up_ok rfl) fun _ a' e' => e' ▸ canon_gen hdbg ha hsh

theorem removePrefixWithS_repH (u : UOK LA LB E P) (hdbg : e.dbg = true → P ∨ Plain LA e.stA) {f : BlobV → Res ε Bool} {ff : Bytes → Bool}
    (hf : PredOK LB E P f ff) :
    ∀ (fuel : Nat) (a : SNode) (b : Ref) (n m : Node), n.height + m.height ≤ fuel → Shape n ∨ Plain LA e.stA →
      Rep LA false e.stA a n → RefOK LB gb P b m →
      UP E P (removePrefixWithS e f fuel a b) fun _ a' => Rep LA false e.stA a' (removePrefixWith ff n m) := by
  intro fuel
  induction fuel with
  | zero => intro a b n m hfu; have := height_pos n; omega
  | succ fuel ih =>
    intro a b n m hfu hsh ha hb
    have hr := rep_iff.1 ha
    have hskid := calm_kids hsh
    have hssplit := calm_split hsh
    simp only [removePrefixWithS]
    refine up_read (rp_of_rpost u.ea (loadPrefix_rep hr.1)) fun ap eap => ?_
    subst eap
    refine up_read (hb.loadPrefix u) fun bp ebp => ?_
    subst ebp
    rw [removePrefixWith]
    try dsimp only
    have hkn : commonPrefix n.pfx m.pfx ≤ n.pfx.length := by
      obtain ⟨_, h1, h2, _⟩ := commonPrefix_cut n m; omega
    generalize hk : commonPrefix n.pfx m.pfx = k at hkn ⊢
    obtain ⟨go, hgo⟩ : ∃ go : Bool, (match m.val with | some bv => ff bv | none => false) = go := ⟨_, rfl⟩
    change UP E P _ fun _ a' => Rep LA false e.stA a' (if k = n.pfx.length ∧ k = m.pfx.length then (if (match m.val with | some bv => ff bv | none => false) = true then _ else _) else if k = m.pfx.length then
      (if (match m.val with | some bv => ff bv | none => false) = true then _ else _) else _)
    rw [hgo]
    have hnuke : UP E P (match b.val.valueOpt with
          | none => (.ok false, a)
          | some bv => (f bv, a)) (fun go' a' => a' = a ∧ go' = go) := by
      rcases oval_cases (valueOpt_rep hb.1.val) with ⟨e3, e4⟩ | ⟨b', w, e3, e4, hv⟩
      · rw [e3]; rw [e4] at hgo; exact up_ok ⟨rfl, hgo⟩
      · rw [e3]; rw [e4] at hgo
        exact rp_imp (hf _ _ hv) fun x hx => ⟨rfl, hx.trans hgo⟩
    by_cases h2 : k = m.pfx.length
    · rw [if_pos h2]
      by_cases h1 : k = n.pfx.length
      · rw [if_pos ⟨h1, h2⟩]
        refine up_bind (Q := fun _ a' =>
            if go then a' = (a.setVal .none).noChildren
            else ∃ l, a' = .arc a.pfx a.val l ∧
              RepL LA false e.stA l (removePrefixChildrenWith ff n.kids m.loadChildren)) ?_ ?_
        · refine up_bind hnuke ?_
          rintro _ a1 ⟨rfl, rfl⟩
          split
          · exact up_ok rfl
          · simp only [ne_eq, h1, not_true_eq_false, if_false]
            refine up_bind (Q := fun _ a' => a' = a1) (up_ok rfl) ?_
            rintro _ _ rfl
            exact childrenBoth_left u ha hb (h := removePrefixWith ff)
              (fun a' n' b' m' hn hm ha' hb' => ih a' b' n' m' (bound_both hfu hn hm) (hskid _ hn) ha' hb')
              (removeChildrenWith_eq _ _ _)
        · intro _ a3 h3
          split at h3
          · rename_i hgo
            rw [if_pos hgo, h3]
            exact canon_nuke _ hr.1
          · rename_i hgo
            rw [if_neg hgo]
            obtain ⟨l, rfl, hl⟩ := h3
            exact canon_arc hr.1 hr.2.1 hl (Or.inl rfl)
      · rw [if_neg (fun h => h1 h.1), if_pos h2]
        refine up_bind (Q := fun _ a' =>
            if go then a' = (a.setVal .none).noChildren
            else ∃ p v l, a' = .arc p v l ∧ PfxRep LA false e.stA p (n.split k).pfx ∧
            ValRep LA e.stA v (n.split k).val ∧
            RepL LA false e.stA l (removePrefixChildrenWith ff (n.split k).kids m.loadChildren)) ?_ ?_
        · refine up_bind hnuke ?_
          rintro _ a1 ⟨rfl, rfl⟩
          split
          · exact up_ok rfl
          · try simp only [ne_eq, h1, not_false_eq_true, if_true]
            refine up_bind (split_rep u.ea ha k) fun _ a1 ⟨h3, _⟩ => ?_
            refine up_imp (childrenBoth_left u h3 hb (h := removePrefixWith ff)
              (fun a' n' b' m' hn hm ha' hb' => ih a' b' n' m' (bound_split hfu hn hm)
                (hssplit k (by omega) _ hn) ha' hb')
              (removeChildrenWith_eq _ _ _)) ?_
            rintro _ a2 ⟨l, rfl, hl⟩
            exact ⟨_, _, l, rfl, (rep_iff.1 h3).1, (rep_iff.1 h3).2.1, hl⟩
        · intro _ a3 h3
          split at h3
          · rename_i hgo
            rw [if_pos hgo, h3]
            exact canon_nuke _ hr.1
          · rename_i hgo
            rw [if_neg hgo]
            obtain ⟨p, v, l, rfl, hp, hv, hl⟩ := h3
            exact canon_arc hp hv hl (Or.inl rfl)
    · rw [if_neg h2, if_neg (show ¬ (k = n.pfx.length ∧ k = m.pfx.length) from fun h => h2 h.2), if_neg h2]
      by_cases h1 : k = n.pfx.length
      · rw [if_pos h1, if_pos h1]
        refine up_bind (childrenShort_left u ha hb (h := removePrefixWith ff)
            (fun a' n' b' m' hn hm ha' hb' => ih a' b' n' m' (bound_short hfu hn hm) (hskid _ hn) ha' hb')
            (removeChildrenWith_eq _ _ _)) ?_
        rintro _ a2 ⟨l, rfl, hl⟩
        exact canon_arc hr.1 hr.2.1 hl (Or.inl rfl)
      · rw [if_neg h1, if_neg h1]
        exact up_bind (Q := fun _ a' => a' = a) (up_ok rfl) fun _ a' e' => e' ▸ canon_gen hdbg ha hsh

/-! ### Bounds by the number of nodes -/

theorem outerCombineWithS_rep (u : UOK LA LB E P) {B : Nat} {cs : SConv ε} {c : Conv}
    (hc : ConvOK LA LB g gb E P B cs c) {f : BlobV → BlobV → Res ε BlobV} {ff : Bytes → Bytes → Option Bytes}
    (hf : FOK LA LB E P f ff) (hg : g = false ∨ ∀ x y, (ff x y).isSome) :
    ∀ (fuel : Nat) (a : SNode) (b : Ref) (n m : Node), n.nodes + m.nodes ≤ fuel → m.nodes ≤ B →
      (g = false ∨ Tidy n ∧ Tidy m) → Rep LA g e.stA a n → RefOK LB gb P b m →
      UP E P (outerCombineWithS e cs f fuel a b) fun _ a' => Rep LA g e.stA a' (outerCombineWith c ff n m) :=
  fun fuel a b n m hfu hB => outerCombineWithS_repH u hc hf hg fuel a b n m (by have := height_le_nodes n; have := height_le_nodes m; omega) (Nat.le_trans (height_le_nodes m) hB)

theorem innerCombineWithS_rep (u : UOK LA LB E P) {f : BlobV → BlobV → Res ε BlobV} {ff : Bytes → Bytes → Option Bytes}
    (hf : FOK LA LB E P f ff) :
    ∀ (fuel : Nat) (a : SNode) (b : Ref) (n m : Node), n.nodes + m.nodes ≤ fuel →
      Rep LA false e.stA a n → RefOK LB gb P b m →
      UP E P (innerCombineWithS e f fuel a b) fun _ a' => Rep LA false e.stA a' (innerCombineWith ff n m) :=
  fun fuel a b n m hfu => innerCombineWithS_repH u hf fuel a b n m (by have := height_le_nodes n; have := height_le_nodes m; omega)

theorem leftCombineWithS_rep (u : UOK LA LB E P) (hdbg : e.dbg = true → P ∨ Plain LA e.stA) {f : BlobV → BlobV → Res ε BlobV}
    {ff : Bytes → Bytes → Option Bytes} (hf : FOK LA LB E P f ff) :
    ∀ (fuel : Nat) (a : SNode) (b : Ref) (n m : Node), n.nodes + m.nodes ≤ fuel → Shape n ∨ Plain LA e.stA →
      Rep LA false e.stA a n → RefOK LB gb P b m →
      UP E P (leftCombineWithS e f fuel a b) fun _ a' => Rep LA false e.stA a' (leftCombineWith ff n m) :=
  fun fuel a b n m hfu => leftCombineWithS_repH u hdbg hf fuel a b n m (by have := height_le_nodes n; have := height_le_nodes m; omega)

theorem retainPrefixWithS_rep (u : UOK LA LB E P) (hdbg : e.dbg = true → P ∨ Plain LA e.stA) {f : BlobV → Res ε Bool} {ff : Bytes → Bool}
    (hf : PredOK LB E P f ff) :
    ∀ (fuel : Nat) (a : SNode) (b : Ref) (n m : Node), n.nodes + m.nodes ≤ fuel → Shape n ∨ Plain LA e.stA →
      Rep LA false e.stA a n → RefOK LB gb P b m →
      UP E P (retainPrefixWithS e f fuel a b) fun _ a' => Rep LA false e.stA a' (retainPrefixWith ff n m) :=
  fun fuel a b n m hfu => retainPrefixWithS_repH u hdbg hf fuel a b n m (by have := height_le_nodes n; have := height_le_nodes m; omega)

theorem removePrefixWithS_rep (u : UOK LA LB E P) (hdbg : e.dbg = true → P ∨ Plain LA e.stA) {f : BlobV → Res ε Bool} {ff : Bytes → Bool}
    (hf : PredOK LB E P f ff) :
    ∀ (fuel : Nat) (a : SNode) (b : Ref) (n m : Node), n.nodes + m.nodes ≤ fuel → Shape n ∨ Plain LA e.stA →
      Rep LA false e.stA a n → RefOK LB gb P b m →
      UP E P (removePrefixWithS e f fuel a b) fun _ a' => Rep LA false e.stA a' (removePrefixWith ff n m) :=
  fun fuel a b n m hfu => removePrefixWithS_repH u hdbg hf fuel a b n m (by have := height_le_nodes n; have := height_le_nodes m; omega)

end

end Radix
