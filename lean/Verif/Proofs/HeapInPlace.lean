import Verif.Proofs.HeapCombine

/- The five in-place functions on nodes in memory do what those on trees do. -/

set_option linter.unusedVariables false

namespace Radix.Heap
open Node (nodesL nodesO)

/-- The values and then the children. -/
theorem valKids_spec {V F rv ac bc r} {R h} {x y : Raw} {a b : Node} (hV : OptSpec V a.val b.val rv) (hF : ChSpec F ac bc r)
    (hi : Inv h (x.refs ++ R)) (hx : Rep h x a) (hb : Bor R h y b) (hac : a.kids = ac) (hbc : b.loadChildren = bc) :
    ∃ z h', (do let v ← V x.val y.val
                let ac ← x.takeChildren
                let bc ← y.loadChildren
                let cs ← F ac bc
                Raw.setKids ⟨x.pfx, v, Fld.none⟩ cs : H Raw) h = some (z, h') ∧ Post R h h' z.refs ∧ Rep h' z (.mk a.pfx rv (some r)) := by
  obtain ⟨v, h1, e1, p1, r1⟩ := hV (x.pfx.refs ++ x.ch.refs ++ R) h x.val y.val (hi.mono (by cnt_tac)) hx.val (hb.val.mono (by sub_tac))
  have k1 : Keep R h h1 := p1.keep.mono (by sub_tac)
  obtain ⟨z, h2, e2, p2, r2⟩ := kids_spec hF (x := x) (v := v) (c := a.ch) (p1.inv.mono (by cnt_tac)) (hx.pfx.keep p1.keep (reach_of_mem (by sub_tac))) r1
    (hx.ch.keep p1.keep (reach_of_mem (by sub_tac))) (hb.keep k1) hac hbc
  exact ⟨z, h2, by rw [run_bind e1, e2], ⟨p2.inv, k1.trans p2.keep⟩, r2⟩

theorem kidsOf_spec {F ac bc r} {R h} {x y : Raw} {a b : Node} (hF : ChSpec F ac bc r)
    (hi : Inv h (x.refs ++ R)) (hx : Rep h x a) (hb : Bor R h y b) (hac : a.kids = ac) (hbc : b.loadChildren = bc) :
    ∃ z h', (do let ac ← x.takeChildren
                let bc ← y.loadChildren
                let cs ← F ac bc
                Raw.setKids ⟨x.pfx, x.val, Fld.none⟩ cs : H Raw) h = some (z, h') ∧ Post R h h' z.refs ∧ Rep h' z (.mk a.pfx a.val (some r)) :=
  kids_spec hF (x := x) (v := x.val) (c := a.ch) (hi.mono (by cnt_tac)) hx.pfx hx.val hx.ch hb hac hbc

theorem kidsShortOf_spec {F ac r} {n : Nat} {R h} {x y : Raw} {a b : Node} (hF : ChSpec F ac (some [b.cloneShortened n]) r)
    (hi : Inv h (x.refs ++ R)) (hx : Rep h x a) (hb : Bor R h y b) (hac : a.kids = ac) :
    ∃ z h', (do let ac ← x.takeChildren
                let t ← y.cloneShortened n
                let cs ← F ac (some [t])
                dropAll [t]
                Raw.setKids ⟨x.pfx, x.val, Fld.none⟩ cs : H Raw) h = some (z, h') ∧ Post R h h' z.refs ∧ Rep h' z (.mk a.pfx a.val (some r)) :=
  kidsShort_spec hF (x := x) (v := x.val) (c := a.ch) (hi.mono (by cnt_tac)) hx.pfx hx.val hx.ch hb hac

/-- One operation after the other on the same node. -/
theorem then_spec {α : Type} {R h h1} {b1 : H α} {x1 : α} {own1 : List Ref} {body : α → H Raw} {m : Node} (e1 : b1 h = some (x1, h1)) (p1 : Post R h h1 own1)
    (h2 : ∃ z h', body x1 h1 = some (z, h') ∧ Post R h1 h' z.refs ∧ Rep h' z m) :
    ∃ z h', (b1 >>= body) h = some (z, h') ∧ Post R h h' z.refs ∧ Rep h' z m := by
  obtain ⟨z, h', e, p, r⟩ := h2
  exact ⟨z, h', by rw [run_bind e1, e], ⟨p.inv, p1.keep.trans p.keep⟩, r⟩

theorem clearAll_spec {R h} {x : Raw} {a : Node} (hi : Inv h (x.refs ++ R)) (hx : Rep h x a) :
    ∃ z h', (do let a ← x.clearValue
                a.clearChildren : H Raw) h = some (z, h') ∧ Post R h h' z.refs ∧ Rep h' z (.mk a.pfx none none) := by
  obtain ⟨y, h1, e1, p1, r1⟩ := clearValue_spec hi hx
  exact then_spec e1 p1 (clearChildren_spec p1.inv r1)

theorem canonThen {R h} {body : H Raw} {m : Node} (h1 : ∃ z h', body h = some (z, h') ∧ Post R h h' z.refs ∧ Rep h' z m) :
    ∃ z h', (body >>= fun r => r.canonicalize : H Raw) h = some (z, h') ∧ Post R h h' z.refs ∧ Rep h' z m.canonicalize := by
  obtain ⟨z, h', e, p, r⟩ := h1
  exact canon_step e p r

theorem keepNode_spec {R h} {x : Raw} {a : Node} (hi : Inv h (x.refs ++ R)) (hx : Rep h x a) :
    ∃ z h', (pure x : H Raw) h = some (z, h') ∧ Post R h h' z.refs ∧ Rep h' z a := ⟨x, h, rfl, ⟨hi, Keep.refl _ _⟩, hx⟩

/-! ### `outer_combine_with` -/

theorem outerChildren_spec {n c f g} (hrec : ∀ a b, a.nodes + b.nodes ≤ n → CombSpec (outerCombineWith n c f) a b (Radix.outerCombineWith c g a b))
    {ac bc} (hn : nodesL ac + nodesO bc ≤ n) : ChSpec (outerChildrenWith n c f) ac bc (outerCombineChildrenWith c g ac bc) := by
  intro R h xs o hi hx ho
  rw [outerChildrenWith_eq]
  cases bc with
  | none =>
    simp only [OptBor] at ho
    subst ho
    simp only [outerChildrenWith, outerRes]
    exact ⟨xs, h, rfl, ⟨hi, Keep.refl _ _⟩, hx⟩
  | some bc =>
    obtain ⟨ys, rfl, hy⟩ := ho
    simp only [outerChildrenWith, outerRes]
    simp only [nodesO] at hn
    rw [hx.isEmpty]
    by_cases he : ac.isEmpty = true
    · rw [if_pos he, if_pos he]
      have : ac = [] := by simpa using he
      subst this
      rw [RepL.nil_iff] at hx; subst hx
      exact mapH_spec bc (fun m hm => convNode_spec (n + 1) c m (by have := nodes_le_of_mem hm; omega)) R h ys hi hy
    · rw [if_neg he, if_neg he]
      refine run_loop (fun a b ha hb => hrec a b ?_) (fun a => keepIt_spec a) (fun b hb => ?_) hi hx hy
      · have := nodes_le_of_mem ha; have := nodes_le_of_mem hb; omega
      · intro R h x hi hx
        obtain ⟨z, h', e, p, r⟩ := convNode_spec (n + 1) c b (by have := nodes_le_of_mem hb; omega) R h x hi hx
        exact ⟨[z], h', by show (convNode (n + 1) c x >>= fun z => pure [z]) h = _; rw [run_bind e]; rfl, ⟨p.inv.mono (by cnt_tac), p.keep⟩, RepL.cons r RepL.nil⟩

theorem outer_spec {c f g} (hf : ValSpec f g) : ∀ (n : Nat) (a b : Node), a.nodes + b.nodes ≤ n →
    CombSpec (outerCombineWith n c f) a b (Radix.outerCombineWith c g a b) := by
  intro n
  induction n with
  | zero => intro a b hn; have := nodes_pos a; omega
  | succ n ih =>
    intro a b hn R h x y hi hx hb
    have ha1 := nodesL_kids a
    have hb1 := nodesO_loadChildren b
    rw [outerCombineWith.eq_def, Radix.outerCombineWith.eq_def]
    dsimp only
    rw [run_bind (slice_spec hx.pfx), run_bind (slice_spec hb.1.pfx)]
    by_cases h1 : commonPrefix a.pfx b.pfx = b.pfx.length
    · rw [if_pos h1, if_pos h1]
      by_cases h2 : commonPrefix a.pfx b.pfx = a.pfx.length
      · rw [if_pos h2, if_neg (by simpa using h2)]
        apply canonThen
        rw [run_bind (run_pure x h)]
        exact valKids_spec (outerValue_spec hf a.val b.val) (outerChildren_spec ih (by omega)) hi hx hb rfl rfl
      · rw [if_neg h2, if_pos h2]
        apply canonThen
        obtain ⟨x1, h3, e3, p3, r3⟩ := split_spec (commonPrefix a.pfx b.pfx) hi hx
        refine then_spec e3 p3 ?_
        have hv : outerVal g (a.split (commonPrefix a.pfx b.pfx)).val b.val = b.val := by
          generalize b.val = bv; cases a; cases bv <;> rfl
        have := valKids_spec (outerValue_spec hf (a.split (commonPrefix a.pfx b.pfx)).val b.val) (outerChildren_spec (c := c) ih (ac := (a.split (commonPrefix a.pfx b.pfx)).kids)
          (bc := b.loadChildren) (by rw [nodesL_split]; omega)) p3.inv r3 (hb.keep p3.keep) rfl rfl
        rw [hv] at this
        exact this
    · rw [if_neg h1, if_neg h1]
      by_cases h2 : commonPrefix a.pfx b.pfx = a.pfx.length
      · rw [if_pos h2, if_pos h2]
        apply canonThen
        exact kidsShortOf_spec (outerChildren_spec ih (by rw [nodesO_single, nodes_cloneShortened]; omega)) hi hx hb rfl
      · rw [if_neg h2, if_neg h2]
        apply canonThen
        obtain ⟨x1, h3, e3, p3, r3⟩ := split_spec (commonPrefix a.pfx b.pfx) hi hx
        refine then_spec e3 p3 ?_
        obtain ⟨cs, h4, e4, i4, k4, r4, r5, r6⟩ := takeChildren_spec p3.inv r3
        refine then_spec (own1 := x1.pfx.refs ++ x1.val.refs ++ refsL cs) e4 ⟨i4, k4⟩ ?_
        obtain ⟨t, h5, e5, p5, r7⟩ := convShortened_spec (n + 1) c b (commonPrefix a.pfx b.pfx) (by omega) (x1.pfx.refs ++ x1.val.refs ++ refsL cs ++ R) h4 y i4
          (((hb.keep p3.keep).keep k4).mono (by sub_tac))
        refine then_spec (own1 := x1.pfx.refs ++ x1.val.refs ++ refsL cs ++ t.refs) e5 ⟨p5.inv.mono (by cnt_tac), p5.keep.mono (by sub_tac)⟩ ?_
        have r6' : RepL h5 (cs ++ [t]) ((a.split (commonPrefix a.pfx b.pfx)).kids ++ [c.nodeShortened b (commonPrefix a.pfx b.pfx)]) :=
          (r6.keep p5.keep (reach_of_mem (by sub_tac))).append (RepL.cons r7 RepL.nil)
        obtain ⟨ds, e6, r8, c8⟩ := sortByFirst_spec r6'
        rw [run_bind e6]
        have hv : (a.split (commonPrefix a.pfx b.pfx)).val = none := by cases a; rfl
        rw [hv] at r5
        exact setKids_spec (R := R) (p5.inv.mono (by
          intro r
          have := c8 r
          simp only [refsL_append, refsL_cons, refsL_nil, List.append_nil, List.count_append] at this ⊢
          omega)) (r4.keep p5.keep (reach_of_mem (by sub_tac))) (r5.keep p5.keep (reach_of_mem (by sub_tac))) r8

/-! ### `inner_combine_with` -/

theorem innerChildren_spec {n f g} (hrec : ∀ a b, a.nodes + b.nodes ≤ n → CombSpec (innerCombineWith n f) a b (Radix.innerCombineWith g a b))
    {ac bc} (hn : nodesL ac + nodesO bc ≤ n) : ChSpec (innerChildrenWith n f) ac bc (innerCombineChildrenWith g ac bc) := by
  intro R h xs o hi hx ho
  rw [innerChildrenWith_eq]
  cases bc with
  | none =>
    simp only [OptBor] at ho
    subst ho
    simp only [innerChildrenWith, innerRes]
    obtain ⟨h', e, i, k⟩ := dropAll_spec hi hx
    exact ⟨[], h', by rw [run_bind e]; rfl, ⟨i, k⟩, RepL.nil⟩
  | some bc =>
    obtain ⟨ys, rfl, hy⟩ := ho
    simp only [innerChildrenWith, innerRes]
    simp only [nodesO] at hn
    rw [hx.isEmpty]
    by_cases he : ac.isEmpty = true
    · rw [if_pos he]
      have : ac = [] := by simpa using he
      subst this
      rw [join_nil_filterMap]
      exact ⟨xs, h, rfl, ⟨hi, Keep.refl _ _⟩, hx⟩
    · rw [if_neg he]
      refine run_loop (fun a b ha hb => hrec a b ?_) (fun a => dropIt_spec a) (fun b hb => skipIt_spec b) hi hx hy
      have := nodes_le_of_mem ha; have := nodes_le_of_mem hb; omega

theorem inner_spec {f g} (hf : ValSpec f g) : ∀ (n : Nat) (a b : Node), a.nodes + b.nodes ≤ n →
    CombSpec (innerCombineWith n f) a b (Radix.innerCombineWith g a b) := by
  intro n
  induction n with
  | zero => intro a b hn; have := nodes_pos a; omega
  | succ n ih =>
    intro a b hn R h x y hi hx hb
    have ha1 := nodesL_kids a
    have hb1 := nodesO_loadChildren b
    rw [innerCombineWith.eq_def, Radix.innerCombineWith.eq_def]
    dsimp only
    rw [run_bind (slice_spec hx.pfx), run_bind (slice_spec hb.1.pfx)]
    by_cases h1 : commonPrefix a.pfx b.pfx = a.pfx.length ∧ commonPrefix a.pfx b.pfx = b.pfx.length
    · rw [if_pos h1, if_pos h1]
      apply canonThen
      exact valKids_spec (innerValue_spec hf a.val b.val) (innerChildren_spec ih (by omega)) hi hx hb rfl rfl
    · rw [if_neg h1, if_neg h1]
      by_cases h2 : commonPrefix a.pfx b.pfx = a.pfx.length
      · rw [if_pos h2, if_pos h2]
        apply canonThen
        obtain ⟨x1, h3, e3, p3, r3⟩ := clearValue_spec hi hx
        exact then_spec e3 p3 (kidsShortOf_spec (innerChildren_spec ih (by rw [nodesO_single, nodes_cloneShortened]; omega)) p3.inv r3 (hb.keep p3.keep) (by cases a; rfl))
      · rw [if_neg h2, if_neg h2]
        by_cases h4 : commonPrefix a.pfx b.pfx = b.pfx.length
        · rw [if_pos h4, if_pos h4]
          apply canonThen
          obtain ⟨x1, h3, e3, p3, r3⟩ := split_spec (commonPrefix a.pfx b.pfx) hi hx
          have hv : (a.split (commonPrefix a.pfx b.pfx)).val = none := by cases a; rfl
          have := kidsOf_spec (innerChildren_spec ih (ac := (a.split (commonPrefix a.pfx b.pfx)).kids) (bc := b.loadChildren) (by rw [nodesL_split]; omega)) p3.inv r3 (hb.keep p3.keep) rfl rfl
          rw [hv] at this
          exact then_spec e3 p3 this
        · rw [if_neg h4, if_neg h4]
          apply canonThen
          exact clearAll_spec hi hx

/-! ### `left_combine_with` -/

theorem leftChildren_spec {n f g} (hrec : ∀ a b, a.nodes + b.nodes ≤ n → CombSpec (leftCombineWith n f) a b (Radix.leftCombineWith g a b))
    {ac bc} (hn : nodesL ac + nodesO bc ≤ n) : ChSpec (leftChildrenWith n f) ac bc (leftCombineChildrenWith g ac bc) := by
  intro R h xs o hi hx ho
  rw [leftChildrenWith_eq]
  cases bc with
  | none =>
    simp only [OptBor] at ho
    subst ho
    simp only [leftChildrenWith, leftRes]
    exact ⟨xs, h, rfl, ⟨hi, Keep.refl _ _⟩, hx⟩
  | some bc =>
    obtain ⟨ys, rfl, hy⟩ := ho
    simp only [leftChildrenWith, leftRes]
    simp only [nodesO] at hn
    rw [hx.isEmpty]
    by_cases he : ac.isEmpty = true
    · rw [if_pos he]
      have : ac = [] := by simpa using he
      subst this
      rw [join_nil_filterMap]
      exact ⟨xs, h, rfl, ⟨hi, Keep.refl _ _⟩, hx⟩
    · rw [if_neg he]
      refine run_loop (fun a b ha hb => hrec a b ?_) (fun a => keepIt_spec a) (fun b hb => skipIt_spec b) hi hx hy
      have := nodes_le_of_mem ha; have := nodes_le_of_mem hb; omega

theorem left_spec {f g} (hf : ValSpec f g) : ∀ (n : Nat) (a b : Node), a.nodes + b.nodes ≤ n →
    CombSpec (leftCombineWith n f) a b (Radix.leftCombineWith g a b) := by
  intro n
  induction n with
  | zero => intro a b hn; have := nodes_pos a; omega
  | succ n ih =>
    intro a b hn R h x y hi hx hb
    have ha1 := nodesL_kids a
    have hb1 := nodesO_loadChildren b
    rw [leftCombineWith.eq_def, Radix.leftCombineWith.eq_def]
    dsimp only
    rw [run_bind (slice_spec hx.pfx), run_bind (slice_spec hb.1.pfx)]
    by_cases h1 : commonPrefix a.pfx b.pfx = a.pfx.length ∧ commonPrefix a.pfx b.pfx = b.pfx.length
    · rw [if_pos h1, if_pos h1]
      apply canonThen
      exact valKids_spec (leftValue_spec hf a.val b.val) (leftChildren_spec ih (by omega)) hi hx hb rfl rfl
    · rw [if_neg h1, if_neg h1]
      by_cases h2 : commonPrefix a.pfx b.pfx = a.pfx.length
      · rw [if_pos h2, if_pos h2]
        apply canonThen
        exact kidsShortOf_spec (leftChildren_spec ih (by rw [nodesO_single, nodes_cloneShortened]; omega)) hi hx hb rfl
      · rw [if_neg h2, if_neg h2]
        by_cases h4 : commonPrefix a.pfx b.pfx = b.pfx.length
        · rw [if_pos h4, if_pos h4]
          apply canonThen
          obtain ⟨x1, h3, e3, p3, r3⟩ := split_spec (commonPrefix a.pfx b.pfx) hi hx
          have hv : (a.split (commonPrefix a.pfx b.pfx)).val = none := by cases a; rfl
          have := kidsOf_spec (leftChildren_spec ih (ac := (a.split (commonPrefix a.pfx b.pfx)).kids) (bc := b.loadChildren) (by rw [nodesL_split]; omega)) p3.inv r3 (hb.keep p3.keep) rfl rfl
          rw [hv] at this
          exact then_spec e3 p3 this
        · rw [if_neg h4, if_neg h4]
          apply canonThen
          exact keepNode_spec hi hx

/-! ### `retain_prefix_with` -/

theorem retainChildren_spec {n f} (hrec : ∀ a b, a.nodes + b.nodes ≤ n → CombSpec (retainPrefixWith n f) a b (Radix.retainPrefixWith f a b))
    {ac bc} (hn : nodesL ac + nodesO bc ≤ n) : ChSpec (retainChildrenWith n f) ac bc (retainPrefixChildrenWith f ac bc) := by
  intro R h xs o hi hx ho
  rw [retainChildrenWith_eq]
  cases bc with
  | none =>
    simp only [OptBor] at ho
    subst ho
    simp only [retainChildrenWith, innerRes]
    obtain ⟨h', e, i, k⟩ := dropAll_spec hi hx
    exact ⟨[], h', by rw [run_bind e]; rfl, ⟨i, k⟩, RepL.nil⟩
  | some bc =>
    obtain ⟨ys, rfl, hy⟩ := ho
    simp only [retainChildrenWith, innerRes]
    simp only [nodesO] at hn
    rw [hx.isEmpty]
    by_cases he : ac.isEmpty = true
    · rw [if_pos he]
      have : ac = [] := by simpa using he
      subst this
      rw [join_nil_filterMap]
      exact ⟨xs, h, rfl, ⟨hi, Keep.refl _ _⟩, hx⟩
    · rw [if_neg he]
      refine run_loop (fun a b ha hb => hrec a b ?_) (fun a => dropIt_spec a) (fun b hb => skipIt_spec b) hi hx hy
      have := nodes_le_of_mem ha; have := nodes_le_of_mem hb; omega

theorem retain_spec {f} : ∀ (n : Nat) (a b : Node), a.nodes + b.nodes ≤ n →
    CombSpec (retainPrefixWith n f) a b (Radix.retainPrefixWith f a b) := by
  intro n
  induction n with
  | zero => intro a b hn; have := nodes_pos a; omega
  | succ n ih =>
    intro a b hn R h x y hi hx hb
    have ha1 := nodesL_kids a
    have hb1 := nodesO_loadChildren b
    rw [retainPrefixWith.eq_def, Radix.retainPrefixWith.eq_def]
    dsimp only
    rw [run_bind (slice_spec hx.pfx), run_bind (slice_spec hb.1.pfx)]
    by_cases h1 : commonPrefix a.pfx b.pfx = a.pfx.length ∧ commonPrefix a.pfx b.pfx = b.pfx.length
    · rw [if_pos h1, if_pos h1]
      have hs := selected_spec f hb.val
      have hF : ∀ R h, Inv h (x.refs ++ R) → Rep h x a → Bor R h y b → ∃ z h', (do
          let a ← x.clearValue
          let ac ← a.takeChildren
          let bc ← y.loadChildren
          let cs ← retainChildrenWith n f ac bc
          Raw.setKids ⟨a.pfx, a.val, Fld.none⟩ cs : H Raw) h = some (z, h') ∧ Post R h h' z.refs ∧
            Rep h' z (.mk a.pfx none (some (retainPrefixChildrenWith f a.kids b.loadChildren))) := by
        intro R h hi hx hb
        obtain ⟨x1, h3, e3, p3, r3⟩ := clearValue_spec hi hx
        exact then_spec e3 p3 (kidsOf_spec (retainChildren_spec ih (by omega)) p3.inv r3 (hb.keep p3.keep) (by cases a; rfl) rfl)
      rcases hbv : b.val with _ | bv
      · rw [hbv] at hs
        dsimp only
        rw [if_pos rfl]
        apply canonThen
        rw [run_bind hs]
        exact hF R h hi hx hb
      · rw [hbv] at hs
        dsimp only
        by_cases hfv : f bv = true
        · rw [if_neg (by rw [hfv]; decide)]
          apply canonThen
          rw [run_bind hs]
          simp only [Option.any_some, hfv, if_true]
          exact keepNode_spec hi hx
        · rw [if_pos (by simpa using hfv)]
          apply canonThen
          rw [run_bind hs]
          simp only [Option.any_some, hfv, Bool.false_eq_true, if_false]
          exact hF R h hi hx hb
    · rw [if_neg h1, if_neg h1]
      by_cases h4 : commonPrefix a.pfx b.pfx = b.pfx.length
      · rw [if_pos h4, if_pos h4, hb.1.val.isSome]
        have hbv0 := hb.1.val
        cases hbv : b.val with
        | none =>
          dsimp only
          apply canonThen
          obtain ⟨x1, h3, e3, p3, r3⟩ := split_spec (commonPrefix a.pfx b.pfx) hi hx
          exact then_spec e3 p3 (kidsOf_spec (retainChildren_spec ih (by rw [nodesL_split]; omega)) p3.inv r3 (hb.keep p3.keep) rfl rfl)
        | some bv =>
          dsimp only
          rw [hbv] at hbv0
          have hs : applyPred f y.val h = some (f bv, h) := by unfold applyPred; rw [run_bind (slice_spec hbv0)]; rfl
          simp only [Option.isSome_some, if_true]
          by_cases hfv : f bv = true
          · rw [if_neg (c := (!f bv) = true) (by rw [hfv]; decide)]
            apply canonThen
            rw [run_bind hs]
            simp only [hfv, if_true]
            exact keepNode_spec hi hx
          · rw [if_pos (c := (!f bv) = true) (by simpa using hfv)]
            apply canonThen
            rw [run_bind hs]
            simp only [hfv, Bool.false_eq_true, if_false]
            exact clearAll_spec hi hx
      · rw [if_neg h4, if_neg h4]
        by_cases h2 : commonPrefix a.pfx b.pfx = a.pfx.length
        · rw [if_pos h2, if_pos h2]
          apply canonThen
          obtain ⟨x1, h3, e3, p3, r3⟩ := clearValue_spec hi hx
          exact then_spec e3 p3 (kidsShortOf_spec (retainChildren_spec ih (by rw [nodesO_single, nodes_cloneShortened]; omega)) p3.inv r3 (hb.keep p3.keep) (by cases a; rfl))
        · rw [if_neg h2, if_neg h2]
          apply canonThen
          exact clearAll_spec hi hx

/-! ### `remove_prefix_with` -/

theorem removeChildren_spec {n f} (hrec : ∀ a b, a.nodes + b.nodes ≤ n → CombSpec (removePrefixWith n f) a b (Radix.removePrefixWith f a b))
    {ac bc} (hn : nodesL ac + nodesO bc ≤ n) : ChSpec (removeChildrenWith n f) ac bc (removePrefixChildrenWith f ac bc) := by
  intro R h xs o hi hx ho
  rw [removeChildrenWith_eq]
  cases bc with
  | none =>
    simp only [OptBor] at ho
    subst ho
    simp only [removeChildrenWith, leftRes]
    exact ⟨xs, h, rfl, ⟨hi, Keep.refl _ _⟩, hx⟩
  | some bc =>
    obtain ⟨ys, rfl, hy⟩ := ho
    simp only [removeChildrenWith, leftRes]
    simp only [nodesO] at hn
    rw [hx.isEmpty]
    by_cases he : ac.isEmpty = true
    · rw [if_pos he]
      have : ac = [] := by simpa using he
      subst this
      rw [join_nil_filterMap]
      exact ⟨xs, h, rfl, ⟨hi, Keep.refl _ _⟩, hx⟩
    · rw [if_neg he]
      refine run_loop (fun a b ha hb => hrec a b ?_) (fun a => keepIt_spec a) (fun b hb => skipIt_spec b) hi hx hy
      have := nodes_le_of_mem ha; have := nodes_le_of_mem hb; omega

theorem removePrefixWith_any (f : Bytes → Bool) (a b : Node) : Radix.removePrefixWith f a b =
    if commonPrefix a.pfx b.pfx = a.pfx.length ∧ commonPrefix a.pfx b.pfx = b.pfx.length then
      if b.val.any f = true then Node.canonicalize (.mk a.pfx none none)
      else Node.canonicalize (.mk a.pfx a.val (some (removePrefixChildrenWith f a.kids b.loadChildren)))
    else if commonPrefix a.pfx b.pfx = b.pfx.length then
      if b.val.any f = true then Node.canonicalize (.mk a.pfx none none)
      else Node.canonicalize (.mk (a.split (commonPrefix a.pfx b.pfx)).pfx (a.split (commonPrefix a.pfx b.pfx)).val
        (some (removePrefixChildrenWith f (a.split (commonPrefix a.pfx b.pfx)).kids b.loadChildren)))
    else if commonPrefix a.pfx b.pfx = a.pfx.length then
      Node.canonicalize (.mk a.pfx a.val (some (removePrefixChildrenWith f a.kids (some [b.cloneShortened (commonPrefix a.pfx b.pfx)]))))
    else a.canonicalize := by
  rw [Radix.removePrefixWith.eq_def]
  dsimp only
  rcases hbv : b.val with _ | bv <;> rfl

theorem remove_spec {f} : ∀ (n : Nat) (a b : Node), a.nodes + b.nodes ≤ n →
    CombSpec (removePrefixWith n f) a b (Radix.removePrefixWith f a b) := by
  intro n
  induction n with
  | zero => intro a b hn; have := nodes_pos a; omega
  | succ n ih =>
    intro a b hn R h x y hi hx hb
    have ha1 := nodesL_kids a
    have hb1 := nodesO_loadChildren b
    have hs := selected_spec f hb.val
    rw [removePrefixWith.eq_def, removePrefixWith_any]
    dsimp only
    rw [run_bind (slice_spec hx.pfx), run_bind (slice_spec hb.1.pfx)]
    by_cases h1 : commonPrefix a.pfx b.pfx = a.pfx.length ∧ commonPrefix a.pfx b.pfx = b.pfx.length
    · rw [if_pos h1, if_pos h1]
      cases hv : b.val.any f with
      | true =>
        rw [hv] at hs
        rw [if_pos rfl]
        apply canonThen
        rw [run_bind hs]
        exact clearAll_spec hi hx
      | false =>
        rw [hv] at hs
        rw [if_neg (by decide)]
        apply canonThen
        rw [run_bind hs]
        exact kidsOf_spec (removeChildren_spec ih (by omega)) hi hx hb rfl rfl
    · rw [if_neg h1, if_neg h1]
      by_cases h4 : commonPrefix a.pfx b.pfx = b.pfx.length
      · rw [if_pos h4, if_pos h4]
        cases hv : b.val.any f with
        | true =>
          rw [hv] at hs
          rw [if_pos rfl]
          apply canonThen
          rw [run_bind hs]
          exact clearAll_spec hi hx
        | false =>
          rw [hv] at hs
          rw [if_neg (by decide)]
          apply canonThen
          rw [run_bind hs]
          obtain ⟨x1, h3, e3, p3, r3⟩ := split_spec (commonPrefix a.pfx b.pfx) hi hx
          exact then_spec e3 p3 (kidsOf_spec (removeChildren_spec ih (by rw [nodesL_split]; omega)) p3.inv r3 (hb.keep p3.keep) rfl rfl)
      · rw [if_neg h4, if_neg h4]
        by_cases h2 : commonPrefix a.pfx b.pfx = a.pfx.length
        · rw [if_pos h2, if_pos h2]
          apply canonThen
          exact kidsShortOf_spec (removeChildren_spec ih (by rw [nodesO_single, nodes_cloneShortened]; omega)) hi hx hb rfl
        · rw [if_neg h2, if_neg h2]
          apply canonThen
          exact keepNode_spec hi hx

end Radix.Heap
