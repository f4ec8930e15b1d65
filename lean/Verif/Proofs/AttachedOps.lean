import Verif.Proofs.AttachedLoop

/- The five in-place operations, insertion and removal on trees in memory that may refer to a store. -/

set_option linter.unusedVariables false

namespace Radix.Heap.Att

section
variable {σ τ ε : Type}

/-! ### Values -/

/-- What a user function on values does. -/
def FnOk (f : ValFn ε) (fv : BlobV → BlobV → Res ε BlobV) : Prop :=
  ∀ R h x v a b, Inv h (x.refs ++ R) → RepBV h x a → BorHV R h v b →
    match fv a b with
    | .ok w => ∃ y h', f x v h = some ((.ok (), y), h') ∧ Post R h h' y.refs ∧ RepBV h' y w
    | .err e => ∃ y h' w, f x v h = some ((.error e, y), h') ∧ Post R h h' y.refs ∧ RepBV h' y w
    | .panic => True
    | .deep => True

theorem RepS.setVal {h p v c pd vd cd} (h1 : RepBV h p pd) (h2 : RepBV h v vd) (h3 : RepCh h c cd) : RepS h ⟨p, v, c⟩ (.ofParts pd vd cd) := RepS.of h1 h2 h3

theorem setVal_setVal (m : SNode) (v w : BlobV) : (m.setVal v).setVal w = m.setVal w := by
  unfold SNode.setVal; rw [ofParts_pfx, ofParts_children]

/-- A value that is cloned into the node and dropped. -/
theorem install_spec {R h} {x : Raw} {m : SNode} {av : Fld} {w : BlobV} (hi : Inv h (av.refs ++ (x.pfx.refs ++ x.ch.refs ++ R))) (h1 : RepBV h x.pfx m.pfx) (h2 : RepCh h x.ch m.children)
    (h3 : RepBV h av w) :
    ∃ v h', ((av.clone >>= fun v => av.drop >>= fun _ => pure (Except.ok (ε := ε) (), (⟨x.pfx, v, x.ch⟩ : Raw))) h) = some ((.ok (), ⟨x.pfx, v, x.ch⟩), h') ∧
      Post R h h' (Raw.refs ⟨x.pfx, v, x.ch⟩) ∧ RepS h' ⟨x.pfx, v, x.ch⟩ (m.setVal w) := by
  obtain ⟨h4, e4, i4, k4⟩ := clone_specS hi ⟨h3, reach_of_mem (by sub_tac)⟩
  have h3' : RepBV h4 av w := h3.keep k4 (reach_of_mem (by sub_tac))
  obtain ⟨h5, e5, i5, k5⟩ := drop_specS (R := av.refs ++ (x.pfx.refs ++ x.ch.refs ++ R)) (i4.mono (by cnt_tac)) h3'
  refine ⟨av, h5, by rw [run_bind e4, run_bind e5]; rfl, ⟨i5.mono (by cnt_tac), (k4.mono (by sub_tac)).trans (k5.mono (by sub_tac))⟩, ?_⟩
  refine RepS.setVal ?_ ?_ ?_
  · exact (h1.keep k4 (reach_of_mem (by sub_tac))).keep k5 (reach_of_mem (by sub_tac))
  · exact h3'.keep k5 (reach_of_mem (by sub_tac))
  · exact (h2.keep k4 (reach_of_mem (by sub_tac))).keep k5 (reach_of_mem (by sub_tac))

theorem applyFn_specS {f : ValFn ε} {fv : BlobV → BlobV → Res ε BlobV} (hf : FnOk f fv) {R h x m v b} (hi : Inv h (x.refs ++ R)) (hr : RepS h x m) (hb : BorHV R h v b) :
    SimN R h (applyFn f x v) (stBind (fv m.val b, m.setVal .none) fun w a => (.ok (), a.setVal w)) := by
  have h0 := hf (x.pfx.refs ++ x.ch.refs ++ R) h x.val v m.val b (hi.mono (by cnt_tac)) hr.val (hb.mono (by sub_tac))
  unfold applyFn
  cases hv : fv m.val b with
  | ok w =>
    rw [hv] at h0
    obtain ⟨av, h1, e1, p1, r1⟩ := h0
    obtain ⟨y, h2, e2, p2, r2⟩ := install_spec (ε := ε) (R := R) (x := x) (m := m) p1.inv (hr.pfx.keep p1.keep (reach_of_mem (by sub_tac))) (hr.ch.keep p1.keep (reach_of_mem (by sub_tac))) r1
    refine ⟨_, h2, (run_bind e1).trans e2, ⟨p2.inv, (p1.keep.mono (by sub_tac)).trans p2.keep⟩, ?_⟩
    show RepS h2 _ ((m.setVal .none).setVal w)
    rw [setVal_setVal]
    exact r2
  | err e =>
    rw [hv] at h0
    obtain ⟨av, h1, w, e1, p1, r1⟩ := h0
    obtain ⟨h2, e2, i2, k2⟩ := drop_specS p1.inv r1
    refine ⟨⟨x.pfx, Fld.none, x.ch⟩, h2, ?_, ⟨i2.mono (by intro r; simp only [Raw.refs, fld_none_refs, List.count_append, List.count_nil]; omega), (p1.keep.mono (by sub_tac)).trans (k2.mono (by sub_tac))⟩, ?_⟩
    · rw [run_bind e1]; show (Fld.drop av >>= _) h1 = _; rw [run_bind e2]; rfl
    · exact RepS.setVal ((hr.pfx.keep p1.keep (reach_of_mem (by sub_tac))).keep k2 (reach_of_mem (by sub_tac))) (repBV_none _)
        ((hr.ch.keep p1.keep (reach_of_mem (by sub_tac))).keep k2 (reach_of_mem (by sub_tac)))
  | panic => trivial
  | deep => trivial

theorem valueOpt_cases (b : BlobV) : (b.valueOpt = none ∧ b = .none) ∨ b.valueOpt = some b := by
  unfold BlobV.valueOpt; by_cases h : b = .none <;> simp [h]

theorem setVal_none_self {m : SNode} (h : m.val.valueOpt = none) : m.setVal .none = m := by
  rcases valueOpt_cases m.val with ⟨_, h2⟩ | h2
  · unfold SNode.setVal; rw [← h2, ofParts_self]
  · rw [h2] at h; cases h

theorem setConv_spec {S : BlobStore τ ε} {st : τ} {c : Conv} {n : Nat} {cv : SConv ε} (hc : ConvOk S st c n cv) {R h x m v b} (hi : Inv h (x.refs ++ R)) (hr : RepS h x m)
    (hn : m.val.valueOpt = none) (hb : BorHV R h v b) : SimN R h (setConv c x v) (stBind (cv.value b, m) fun w a => (.ok (), a.setVal w)) := by
  have hx : x.val.refs = [] := by
    rcases valueOpt_cases m.val with ⟨_, h2⟩ | h2
    · rcases (hr.val).refs with ⟨_, h3, _⟩ | ⟨h3, _⟩
      · exact h3
      · have h4 := hr.val.2.1
        rw [h2] at h4
        rw [h4] at h3
        cases h3
    · rw [h2] at hn; cases hn
  unfold setConv
  cases hv : cv.value b with
  | ok w =>
    obtain ⟨av, h1, e1, p1, r1⟩ := hc.value (R := x.pfx.refs ++ x.ch.refs ++ R) (hi.mono (by intro r; simp only [Raw.refs, hx, List.count_append, List.count_nil]; omega)) (hb.mono (by sub_tac)) w hv
    obtain ⟨y, h2, e2, p2, r2⟩ := install_spec (ε := ε) (R := R) (x := x) (m := m) p1.inv (hr.pfx.keep p1.keep (reach_of_mem (by sub_tac))) (hr.ch.keep p1.keep (reach_of_mem (by sub_tac))) r1
    exact ⟨_, h2, (run_bind e1).trans e2, ⟨p2.inv, (p1.keep.mono (by sub_tac)).trans p2.keep⟩, r2⟩
  | err e => exact (hc.noErr _ _ hv).elim
  | panic => trivial
  | deep => trivial

theorem setFn_ok (ch : BlobV → BlobV → Except ε Choice) : FnOk (setFn ch) (setFnS ch) := by
  intro R h x v a b hi hr hb
  have e0 : ∀ q, (setFn ch x v) h = q ↔ ((match ch a b with
      | .error e => return (.error e, x)
      | .ok .keep => return (.ok (), x)
      | .ok .clear => do
        x.drop
        return (.ok (), Fld.none)
      | .ok .take => do
        x.drop
        let v ← v.toOwned
        return (.ok (), v) : H (Except ε Unit × Fld)) h = q) := by
    intro q
    unfold setFn
    rw [run_bind (blobV_spec hr), run_bind (hval_blobV hb)]
    cases ch a b with
    | error e => exact Iff.rfl
    | ok c => cases c <;> exact Iff.rfl
  unfold setFnS
  cases hc : ch a b with
  | error e => exact ⟨x, h, a, (e0 _).2 (by rw [hc]; rfl), ⟨hi, Keep.refl _ _⟩, hr⟩
  | ok c =>
    cases c with
    | keep => exact ⟨x, h, (e0 _).2 (by rw [hc]; rfl), ⟨hi, Keep.refl _ _⟩, hr⟩
    | clear =>
      obtain ⟨h1, e1, i1, k1⟩ := drop_specS hi hr
      refine ⟨Fld.none, h1, (e0 _).2 ?_, ⟨by rw [fld_none_refs]; exact i1, k1⟩, repBV_none _⟩
      rw [hc]; show (Fld.drop x >>= _) h = _; rw [run_bind e1]; rfl
    | take =>
      obtain ⟨h1, e1, i1, k1⟩ := drop_specS hi hr
      obtain ⟨f, h2, e2, p2, r2⟩ := hval_toOwned i1 (hb.keep k1)
      refine ⟨f, h2, (e0 _).2 ?_, ⟨p2.inv, k1.trans p2.keep⟩, r2⟩
      rw [hc]; show (Fld.drop x >>= _) h = _; rw [run_bind e1, run_bind e2]; rfl

theorem applyPred_spec {f : BlobV → Except ε Bool} {R h v b} (hb : BorHV R h v b) : OutP h (applyPred f v) (predS f b) := by
  unfold applyPred predS OutP
  cases hf : f b with
  | ok x => show (v.blobV >>= _) h = _; rw [run_bind (hval_blobV hb)]; show some (f b, h) = _; rw [hf]
  | error x => show (v.blobV >>= _) h = _; rw [run_bind (hval_blobV hb)]; show some (f b, h) = _; rw [hf]

/-! ### The operations -/

theorem optSplit_spec {S : BlobStore σ ε} {st : σ} {R h x m} (n k : Nat) (hi : Inv h (x.refs ++ R)) (hr : RepS h x m) :
    SimN R h (if n ≠ k then split S st n x else return (.ok (), x)) (if n ≠ k then splitS S st n m else (.ok (), m)) := by
  by_cases h : n ≠ k
  · rw [if_pos h, if_pos h]; exact split_specS n hi hr
  · rw [if_neg h, if_neg h]; exact Sim.ret () hi hr

theorem clear_sim {R h x m} (hi : Inv h (x.refs ++ R)) (hr : RepS h x m) :
    SimN (ε := ε) R h (do let a ← clear x; return (.ok (), a)) (.ok (), (m.setVal .none).noChildren) := by
  obtain ⟨y, h1, e1, p1, r1⟩ := clear_spec hi hr
  exact ⟨y, h1, by rw [run_bind e1]; rfl, p1, r1⟩

theorem clearValue_sim {R h x m} {k : Raw → H (Except ε Unit × Raw)} {kv : SNode → Res ε Unit × SNode} (hi : Inv h (x.refs ++ R)) (hr : RepS h x m)
    (hk : ∀ y h', Inv h' (y.refs ++ R) → Keep R h h' → RepS h' y (m.setVal .none) → SimN R h' (k y) (kv (m.setVal .none))) :
    SimN R h (x.clearValue >>= k) (kv (m.setVal .none)) := by
  obtain ⟨y, h1, e1, p1, r1⟩ := clearValue_specS hi hr
  exact Sim.after (h' := h1) (run_bind e1) p1.keep (hk y h1 p1.inv p1.keep r1)

theorem outerCombineWith_spec (e : HEnv σ τ ε) {c : Conv} {cv : SConv ε} {k : Nat} (hc : ConvOk e.SB e.stB c k cv) {f : ValFn ε} {fv : BlobV → BlobV → Res ε BlobV} (hf : FnOk f fv) :
    ∀ fuel, CombS (outerCombineWith e c f k fuel) (outerCombineWithS e.toU cv fv fuel) := by
  intro fuel
  induction fuel with
  | zero => intro R h x m b bv hi hr hb; trivial
  | succ fuel ih =>
    have hch : ChS (outerChildren e.mask (convNode e.SB e.stB k c) (outerCombineWith e c f k fuel)) (outerChildrenS e.toU cv (outerCombineWithS e.toU cv fv fuel)) :=
      outerChildren_spec e (fun R h b bv hi hb => hc.node hi hb) ih
    intro R h x m b bv hi hr hb
    simp only [outerCombineWith, outerCombineWithS]
    refine Sim.bindP (loadPrefix_spec hr.pfx) hi hr fun ap _ => ?_
    refine Sim.bindP (href_loadPrefix hb) hi hr fun bp _ => ?_
    refine Sim.bind ?_ (fun _ y h' _ hi hk hr => finish_spec hi hr)
    by_cases c1 : commonPrefix ap bp = bp.length
    · rw [if_pos c1, if_pos c1]
      refine Sim.bind (optSplit_spec _ _ hi hr) fun _ x1 h1 _ i1 k1 r1 => ?_
      refine Sim.bind ?_ fun _ x2 h2 _ i2 k2 r2 => childrenBoth_spec e hch R h2 _ _ b bv i2 r2 ((hb.keep k1).keep k2)
      rcases href_valueOpt (hb.keep k1) with ⟨q1, q2⟩ | ⟨v, w, q1, q2, q3⟩
      · rw [q1, q2]; exact Sim.ret () i1 r1
      · rw [q1, q2]
        simp only
        rw [r1.val.isSome]
        generalize (if commonPrefix ap bp ≠ ap.length then splitS e.toU.SA e.toU.stA (commonPrefix ap bp) m else ((.ok (), m) : Res ε Unit × SNode)).2 = m1 at r1
        rcases valueOpt_cases m1.val with ⟨h3, _⟩ | h3
        · rw [h3]; exact setConv_spec hc i1 r1 h3 q3
        · rw [h3]; exact applyFn_specS hf i1 r1 q3
    · rw [if_neg c1, if_neg c1]
      by_cases c2 : commonPrefix ap bp = ap.length
      · rw [if_pos c2, if_pos c2]
        exact childrenShort_spec e hch _ R h _ _ b bv hi hr hb
      · rw [if_neg c2, if_neg c2]
        refine Sim.bind (split_specS _ hi hr) fun _ x1 h1 _ i1 k1 r1 => ?_
        have hb1 := hb.keep k1
        refine Sim.children (kv := fun l => stBind (cv.shortened bv (commonPrefix ap bp), l) fun x l => (.ok (), sortByFirstS (l ++ [x]))) i1 r1 ?_ ?_
        · intro l
          show stBind (cv.shortened bv (commonPrefix ap bp), _) _ = _
          cases cv.shortened bv (commonPrefix ap bp) <;> rfl
        · intro cs l h2 i2 r2 k2
          have h0 := hc.short (commonPrefix ap bp) i2 ((hb1.keep k2).mono (R' := refsL cs ++ (x1.pfx.refs ++ x1.val.refs ++ R)) (by sub_tac))
          unfold NewN New at h0
          cases hv : cv.shortened bv (commonPrefix ap bp) with
          | ok b' =>
            rw [hv] at h0
            obtain ⟨t, h3, e3, p3, r3⟩ := h0
            obtain ⟨ys, e4, r4, c4⟩ := sortByFirst_specS ((r2.keep p3.keep (reach_of_mem (by sub_tac))).append (RepSL.cons r3 RepSL.nil))
            refine ⟨ys, h3, ?_, ⟨p3.inv.mono (by intro r; have := c4 r; simp only [refsL_append, refsL_cons, refsL_nil, List.count_append, List.count_nil] at this ⊢; omega), p3.keep.mono (by sub_tac)⟩, r4⟩
            rw [run_bind e3]; show (sortByFirst (cs ++ [t]) >>= _) h3 = _; rw [run_bind e4]; rfl
          | err e' =>
            rw [hv] at h0
            obtain ⟨h3, e3, i3, k3⟩ := h0
            exact ⟨cs, h3, by rw [run_bind e3]; rfl, ⟨i3, k3.mono (by sub_tac)⟩, r2.keep k3 (reach_of_mem (by sub_tac))⟩
          | panic => trivial
          | deep => trivial

theorem innerCombineWith_spec (e : HEnv σ τ ε) {f : ValFn ε} {fv : BlobV → BlobV → Res ε BlobV} (hf : FnOk f fv) :
    ∀ fuel, CombS (innerCombineWith e f fuel) (innerCombineWithS e.toU fv fuel) := by
  intro fuel
  induction fuel with
  | zero => intro R h x m b bv hi hr hb; trivial
  | succ fuel ih =>
    have hch := innerChildren_spec e ih
    intro R h x m b bv hi hr hb
    simp only [innerCombineWith, innerCombineWithS]
    refine Sim.bindP (loadPrefix_spec hr.pfx) hi hr fun ap _ => ?_
    refine Sim.bindP (href_loadPrefix hb) hi hr fun bp _ => ?_
    refine Sim.bind ?_ (fun _ y h' _ hi hk hr => finish_spec hi hr)
    by_cases c1 : commonPrefix ap bp = ap.length ∧ commonPrefix ap bp = bp.length
    · rw [if_pos c1, if_pos c1]
      refine Sim.bind ?_ fun _ x2 h2 _ i2 k2 r2 => childrenBoth_spec e hch R h2 _ _ b bv i2 r2 (hb.keep k2)
      rcases href_valueOpt hb with ⟨q1, q2⟩ | ⟨v, w, q1, q2, q3⟩
      · rw [q1, q2]
        have sub : SimN (ε := ε) R h (x.clearValue >>= fun a => return (.ok (), a)) (.ok (), m.setVal .none) :=
          clearValue_sim (kv := fun a => (.ok (), a)) hi hr fun y h' i k r => Sim.ret () i r
        cases m.val.valueOpt <;> exact sub
      · rw [q1, q2]
        simp only
        rw [hr.val.isSome]
        rcases valueOpt_cases m.val with ⟨h3, _⟩ | h3
        · rw [h3]
          show SimN R h (return (.ok (), x)) (.ok (), m.setVal .none)
          rw [setVal_none_self h3]
          exact Sim.ret () hi hr
        · rw [h3]; exact applyFn_specS hf hi hr q3
    · rw [if_neg c1, if_neg c1]
      by_cases c2 : commonPrefix ap bp = ap.length
      · rw [if_pos c2, if_pos c2]
        exact clearValue_sim (kv := fun a => Radix.childrenShort e.toU _ _ a bv) hi hr fun y h' i k r => childrenShort_spec e hch _ R h' _ _ b bv i r (hb.keep k)
      · rw [if_neg c2, if_neg c2]
        by_cases c3 : commonPrefix ap bp = bp.length
        · rw [if_pos c3, if_pos c3]
          exact Sim.bind (split_specS _ hi hr) fun _ x2 h2 _ i2 k2 r2 => childrenBoth_spec e hch R h2 _ _ b bv i2 r2 (hb.keep k2)
        · rw [if_neg c3, if_neg c3]
          exact clear_sim hi hr

theorem leftCombineWith_spec (e : HEnv σ τ ε) {f : ValFn ε} {fv : BlobV → BlobV → Res ε BlobV} (hf : FnOk f fv) :
    ∀ fuel, CombS (leftCombineWith e f fuel) (leftCombineWithS e.toU fv fuel) := by
  intro fuel
  induction fuel with
  | zero => intro R h x m b bv hi hr hb; trivial
  | succ fuel ih =>
    have hch := leftChildren_spec e ih
    intro R h x m b bv hi hr hb
    simp only [leftCombineWith, leftCombineWithS]
    refine Sim.bindP (loadPrefix_spec hr.pfx) hi hr fun ap _ => ?_
    refine Sim.bindP (href_loadPrefix hb) hi hr fun bp _ => ?_
    refine Sim.bind ?_ (fun _ y h' _ hi hk hr => finish_spec hi hr)
    by_cases c1 : commonPrefix ap bp = ap.length ∧ commonPrefix ap bp = bp.length
    · rw [if_pos c1, if_pos c1]
      refine Sim.bind ?_ fun _ x2 h2 _ i2 k2 r2 => childrenBoth_spec e hch R h2 _ _ b bv i2 r2 (hb.keep k2)
      rcases href_valueOpt hb with ⟨q1, q2⟩ | ⟨v, w, q1, q2, q3⟩
      · rw [q1, q2]
        exact Sim.ret () hi hr
      · rw [q1, q2]
        simp only
        rw [hr.val.isSome]
        rcases valueOpt_cases m.val with ⟨h3, _⟩ | h3
        · rw [h3]; exact Sim.ret () hi hr
        · rw [h3]; exact applyFn_specS hf hi hr q3
    · rw [if_neg c1, if_neg c1]
      by_cases c2 : commonPrefix ap bp = ap.length
      · rw [if_pos c2, if_pos c2]
        exact childrenShort_spec e hch _ R h _ _ b bv hi hr hb
      · rw [if_neg c2, if_neg c2]
        by_cases c3 : commonPrefix ap bp = bp.length
        · rw [if_pos c3, if_pos c3]
          exact Sim.bind (split_specS _ hi hr) fun _ x2 h2 _ i2 k2 r2 => childrenBoth_spec e hch R h2 _ _ b bv i2 r2 (hb.keep k2)
        · rw [if_neg c3, if_neg c3]
          exact Sim.ret () hi hr

theorem not_bind {α : Type} (v : Res ε Bool) (m : SNode) (k : Bool → SNode → Res ε α × SNode) :
    stBind (stBind (v, m) fun x a => ((.ok !x, a) : Res ε Bool × SNode)) k = stBind (v, m) fun x a => k (!x) a := by cases v <;> rfl

theorem retainPrefixWith_spec (e : HEnv σ τ ε) (f : BlobV → Except ε Bool) :
    ∀ fuel, CombS (retainPrefixWith e f fuel) (retainPrefixWithS e.toU (predS f) fuel) := by
  intro fuel
  induction fuel with
  | zero => intro R h x m b bv hi hr hb; trivial
  | succ fuel ih =>
    have hch := innerChildren_spec e ih
    intro R h x m b bv hi hr hb
    simp only [retainPrefixWith, retainPrefixWithS]
    refine Sim.bindP (loadPrefix_spec hr.pfx) hi hr fun ap _ => ?_
    refine Sim.bindP (href_loadPrefix hb) hi hr fun bp _ => ?_
    refine Sim.bind ?_ (fun _ y h' _ hi hk hr => finish_spec hi hr)
    by_cases c1 : commonPrefix ap bp = ap.length ∧ commonPrefix ap bp = bp.length
    · rw [if_pos c1, if_pos c1]
      rcases href_valueOpt hb with ⟨q1, q2⟩ | ⟨v, w, q1, q2, q3⟩
      · rw [q1, q2]
        refine Sim.after (h' := h) (run_seq_ok rfl) (Keep.refl _ _) ?_
        exact clearValue_sim (kv := fun a => Radix.childrenBoth e.toU _ a bv) hi hr fun y h' i k r => childrenBoth_spec e hch R h' _ _ b bv i r (hb.keep k)
      · rw [q1, q2]
        simp only
        rw [not_bind]
        refine Sim.bindP (applyPred_spec q3) hi hr fun p _ => ?_
        cases p with
        | true => exact Sim.ret () hi hr
        | false => exact clearValue_sim (kv := fun a => Radix.childrenBoth e.toU _ a bv) hi hr fun y h' i k r => childrenBoth_spec e hch R h' _ _ b bv i r (hb.keep k)
    · rw [if_neg c1, if_neg c1]
      by_cases c2 : commonPrefix ap bp = bp.length
      · rw [if_pos c2, if_pos c2]
        rcases href_valueOpt hb with ⟨q1, q2⟩ | ⟨v, w, q1, q2, q3⟩
        · rw [q1, q2]
          exact Sim.bind (split_specS _ hi hr) fun _ x2 h2 _ i2 k2 r2 => childrenBoth_spec e hch R h2 _ _ b bv i2 r2 (hb.keep k2)
        · rw [q1, q2]
          refine Sim.bindP (applyPred_spec q3) hi hr fun p _ => ?_
          cases p with
          | true => exact Sim.ret () hi hr
          | false => exact clear_sim hi hr
      · rw [if_neg c2, if_neg c2]
        by_cases c3 : commonPrefix ap bp = ap.length
        · rw [if_pos c3, if_pos c3]
          exact clearValue_sim (kv := fun a => Radix.childrenShort e.toU _ _ a bv) hi hr fun y h' i k r => childrenShort_spec e hch _ R h' _ _ b bv i r (hb.keep k)
        · rw [if_neg c3, if_neg c3]
          exact clear_sim hi hr

theorem removePrefixWith_spec (e : HEnv σ τ ε) (f : BlobV → Except ε Bool) :
    ∀ fuel, CombS (removePrefixWith e f fuel) (removePrefixWithS e.toU (predS f) fuel) := by
  intro fuel
  induction fuel with
  | zero => intro R h x m b bv hi hr hb; trivial
  | succ fuel ih =>
    have hch := leftChildren_spec e ih
    intro R h x m b bv hi hr hb
    simp only [removePrefixWith, removePrefixWithS]
    refine Sim.bindP (loadPrefix_spec hr.pfx) hi hr fun ap _ => ?_
    refine Sim.bindP (href_loadPrefix hb) hi hr fun bp _ => ?_
    refine Sim.bind ?_ (fun _ y h' _ hi hk hr => finish_spec hi hr)
    -- the part after the test
    have rest : ∀ (p : Bool), SimN R h (if p = true then do
            let a ← clear x
            return (.ok (), a)
          else
            seq (if commonPrefix ap bp ≠ ap.length then split e.SA e.stA (commonPrefix ap bp) x else return (.ok (), x)) fun _ a =>
            childrenBoth e (leftChildren e.mask (removePrefixWith e f fuel)) a b)
        (if p = true then (.ok (), (m.setVal .none).noChildren)
          else
            stBind (if commonPrefix ap bp ≠ ap.length then splitS e.toU.SA e.toU.stA (commonPrefix ap bp) m else (.ok (), m)) fun _ a =>
            Radix.childrenBoth e.toU (leftChildrenS e.toU (removePrefixWithS e.toU (predS f) fuel)) a bv) := by
      intro p
      cases p with
      | true => exact clear_sim hi hr
      | false =>
        simp only [Bool.false_eq_true, if_false]
        exact Sim.bind (optSplit_spec _ _ hi hr) fun _ x2 h2 _ i2 k2 r2 => childrenBoth_spec e hch R h2 _ _ b bv i2 r2 (hb.keep k2)
    by_cases c1 : commonPrefix ap bp = bp.length
    · rw [if_pos c1, if_pos c1]
      rcases href_valueOpt hb with ⟨q1, q2⟩ | ⟨v, w, q1, q2, q3⟩
      · rw [q1, q2]
        exact Sim.after (h' := h) (run_seq_ok rfl) (Keep.refl _ _) (rest false)
      · rw [q1, q2]
        exact Sim.bindP (applyPred_spec q3) hi hr fun p _ => rest p
    · rw [if_neg c1, if_neg c1]
      by_cases c3 : commonPrefix ap bp = ap.length
      · rw [if_pos c3, if_pos c3]
        exact childrenShort_spec e hch _ R h _ _ b bv hi hr hb
      · rw [if_neg c3, if_neg c3]
        exact Sim.ret () hi hr

/-! ### The API -/

theorem withSingle_spec {op : Raw → HRef → H (Except ε Unit × Raw)} {opv : SNode → Radix.Ref → Res ε Unit × SNode} (ho : CombS op opv) (k v : Bytes) {R h x m}
    (hi : Inv h (x.refs ++ R)) (hr : RepS h x m) : SimN R h (withSingle k v (op x)) (opv m (singleRef k v)) := by
  obtain ⟨t, h1, e1, p1, r1⟩ := single_specS k v hi
  have h2 := ho (t.refs ++ R) h1 x m (.owned t) (singleRef k v) (p1.inv.mono (by cnt_tac)) (hr.keep p1.keep (reach_of_mem (by sub_tac)))
    (show BorR _ _ (.owned t) (.owned _) from ⟨r1, reach_of_mem (by sub_tac)⟩)
  unfold withSingle
  unfold SimN Sim at h2 ⊢
  have k1 : Keep R h h1 := p1.keep.mono (by sub_tac)
  cases hv : (opv m (singleRef k v)).1 with
  | ok u =>
    rw [hv] at h2
    obtain ⟨y, h3, e3, p3, r3⟩ := h2
    obtain ⟨h4, e4, i4, k4⟩ := dropOne_specS (R := y.refs ++ R) (p3.inv.mono (by cnt_tac)) (r1.keep p3.keep (reach_of_mem (by sub_tac)))
    exact ⟨y, h4, by rw [run_bind e1, run_bind e3, run_bind e4]; rfl, ⟨i4, (k1.trans (p3.keep.mono (by sub_tac))).trans (k4.mono (by sub_tac))⟩, r3.keep k4 (reach_of_mem (by sub_tac))⟩
  | err u =>
    rw [hv] at h2
    obtain ⟨y, h3, e3, p3, r3⟩ := h2
    obtain ⟨h4, e4, i4, k4⟩ := dropOne_specS (R := y.refs ++ R) (p3.inv.mono (by cnt_tac)) (r1.keep p3.keep (reach_of_mem (by sub_tac)))
    exact ⟨y, h4, by rw [run_bind e1, run_bind e3, run_bind e4]; rfl, ⟨i4, (k1.trans (p3.keep.mono (by sub_tac))).trans (k4.mono (by sub_tac))⟩, r3.keep k4 (reach_of_mem (by sub_tac))⟩
  | panic => trivial
  | deep => trivial

theorem insert_specS {S : BlobStore σ ε} {st : σ} {mask fuel R h x m} (k v : Bytes) (hi : Inv h (x.refs ++ R)) (hr : RepS h x m) :
    SimN R h (insert S st mask fuel x k v) (insertS S st false (maskAb mask) fuel m k v) :=
  withSingle_spec (outerCombineWith_spec (singleEnv S st mask) (convOk_downcast fuel) (setFn_ok fun _ _ => .ok .take) fuel) k v hi hr

theorem remove_specS {S : BlobStore σ ε} {st : σ} {mask fuel R h x m} (k : Bytes) (hi : Inv h (x.refs ++ R)) (hr : RepS h x m) :
    SimN R h (remove S st mask fuel x k) (removeS S st false (maskAb mask) fuel m k) :=
  withSingle_spec (leftCombineWith_spec (singleEnv S st mask) (setFn_ok fun _ _ => .ok .clear) fuel) k [] hi hr

theorem removePrefix_specS {S : BlobStore σ ε} {st : σ} {mask fuel R h x m} (p : Bytes) (hi : Inv h (x.refs ++ R)) (hr : RepS h x m) :
    SimN R h (removePrefix S st mask fuel x p) (removePrefixS S st false (maskAb mask) fuel m p) :=
  withSingle_spec (removePrefixWith_spec (singleEnv S st mask) (fun _ => .ok true) fuel) p [] hi hr

end

end Radix.Heap.Att
