import Verif.Proofs.AttachedCombine

/- Detaching, converting and walking over children in memory, for trees that may refer to a store. -/

set_option linter.unusedVariables false

namespace Radix.Heap.Att

section
variable {σ τ ε : Type}

theorem New.after {ρ γ : Type} {rep : Mem → ρ → γ → Prop} {refs : ρ → List Heap.Ref} {R h h'} {x x' : H (Except ε ρ)} {v : Res ε γ} (e : x h = x' h')
    (hk : Keep R h h') (hs : New rep refs R h' x' v) : New rep refs R h x v := by
  unfold New at hs ⊢
  rw [e]
  cases v with
  | ok b => obtain ⟨z, h3, e3, p3, r3⟩ := hs; exact ⟨z, h3, e3, ⟨p3.inv, hk.trans p3.keep⟩, r3⟩
  | err b => obtain ⟨h3, e3, p3, r3⟩ := hs; exact ⟨h3, e3, p3, hk.trans r3⟩
  | panic => trivial
  | deep => trivial

theorem run_orDrop_ok {α β : Type} {done : List Raw} {x : H (Except ε α)} {k : α → H (Except ε β)} {h h' a} (e : x h = some (.ok a, h')) :
    orDrop done x k h = k a h' := by unfold orDrop; rw [run_bind e]

theorem run_orDrop_err {α β : Type} {done : List Raw} {x : H (Except ε α)} {k : α → H (Except ε β)} {h h' h2 e0} (e : x h = some (.error e0, h'))
    (e2 : dropAll done h' = some ((), h2)) : orDrop done x k h = some (.error e0, h2) := by
  unfold orDrop; rw [run_bind e]; show (dropAll done >>= _) h' = _; rw [run_bind e2]; rfl

theorem embed_parts (p : Bytes) (v : Option Bytes) : embed (.mk p v none) = .ref (.data p) (embedVal v) [] := rfl

/-- A node without children. -/
theorem repS_leaf {h pf vf p v} (h1 : RepBV h pf p) (h2 : RepBV h vf v) : RepS h ⟨pf, vf, Fld.none⟩ (.ref p v []) :=
  RepS.iff.2 ⟨h1, h2, repCh_none h⟩

theorem leaf_refs (pf vf : Fld) : (Raw.refs ⟨pf, vf, Fld.none⟩) = pf.refs ++ vf.refs := by simp [Raw.refs, fld_none_refs]

theorem dropLeaf_spec {R h pf vf p v} (hi : Inv h (pf.refs ++ vf.refs ++ R)) (h1 : RepBV h pf p) (h2 : RepBV h vf v) :
    ∃ h', dropAll [⟨pf, vf, Fld.none⟩] h = some ((), h') ∧ Inv h' R ∧ Keep R h h' :=
  dropOne_specS (by rw [leaf_refs]; exact hi) (repS_leaf h1 h2)

/-! ### Detaching -/

/-- What detaching a node does. -/
def DetS (f : Raw → H (Except ε Raw)) (fv : SNode → Res ε Node) : Prop :=
  ∀ R h x m, Inv h R → BorS R h x m → NewN R h (f x) ((fv m).bind fun n => .ok (embed n))

theorem embedL_append (l k : List Node) : embedL (l ++ k) = embedL l ++ embedL k := by
  induction l with
  | nil => rfl
  | cons n l ih => simp only [List.cons_append, embedL, ih]

theorem detachedLoop_none {f : Raw → H (Except ε Raw)} {done it} (hn : it.next = none) : detachedLoop f done it = return .ok done := by
  rw [detachedLoop.eq_def]
  split
  · rfl
  · rename_i q; rw [hn] at q; cases q
  · rename_i q; rw [hn] at q; cases q

theorem detachedLoop_owned {f : Raw → H (Except ε Raw)} {done it x it'} (hn : it.next = some (.owned x, it')) :
    detachedLoop f done it = orDrop done (f x) fun y => detachedLoop f (done ++ [y]) it' := by
  rw [detachedLoop.eq_def]
  split
  · rename_i q; rw [hn] at q; cases q
  · rename_i q; rw [hn] at q; cases q; rfl
  · rename_i q; rw [hn] at q; cases q

theorem detachedLoop_borrowed {f : Raw → H (Except ε Raw)} {done it r it'} (hn : it.next = some (.borrowed r, it')) :
    detachedLoop f done it = (do
      let t ← recToOwned r
      let o ← f t
      dropAll [t]
      orDrop done (return o) fun y => detachedLoop f (done ++ [y]) it') := by
  rw [detachedLoop.eq_def]
  split
  · rename_i q; rw [hn] at q; cases q
  · rename_i q; rw [hn] at q; cases q
  · rename_i q; rw [hn] at q; cases q; rfl

theorem detachedLoopS_none {f : SNode → Res ε Node} {it : TIter} (hn : it.next = none) : Radix.detachedLoop f it = .ok [] := by
  rw [Radix.detachedLoop.eq_def]
  split
  · rfl
  · rename_i q; rw [hn] at q; cases q

theorem detachedLoopS_some {f : SNode → Res ε Node} {it it' : TIter} {c} (hn : it.next = some (c, it')) :
    Radix.detachedLoop f it = (Ref.toOwned c).bind fun a => (f a).bind fun n => (Radix.detachedLoop f it').bind fun l => .ok (n :: l) := by
  rw [Radix.detachedLoop.eq_def]
  split
  · rename_i q; rw [hn] at q; cases q
  · rename_i q; rw [hn] at q; cases q; rfl

theorem detachedLoop_spec {f : Raw → H (Except ε Raw)} {fv : SNode → Res ε Node} (hf : DetS f fv) : ∀ (N : Nat) (itv : TIter), itv.size ≤ N →
    ∀ {R h done dl it}, Inv h (refsL done ++ R) → RepSL h done dl → BorI R h it itv →
      New RepSL refsL R h (detachedLoop f done it) ((Radix.detachedLoop fv itv).bind fun l => .ok (dl ++ embedL l)) := by
  intro N
  induction N with
  | zero =>
    intro itv hN R h done dl it hi hr hb
    rcases iter_next hb with ⟨n1, n2⟩ | ⟨b, it', bv, itv', n1, n2, _, _⟩
    · rw [detachedLoop_none n1, detachedLoopS_none n2]
      exact ⟨done, h, rfl, ⟨hi, Keep.refl _ _⟩, by simpa [embedL] using hr⟩
    · have := TIter.next_size n2; omega
  | succ N ih =>
    intro itv hN R h done dl it hi hr hb
    rcases iter_next hb with ⟨n1, n2⟩ | ⟨b, it', bv, itv', n1, n2, hb1, hb2⟩
    · rw [detachedLoop_none n1, detachedLoopS_none n2]
      exact ⟨done, h, rfl, ⟨hi, Keep.refl _ _⟩, by simpa [embedL] using hr⟩
    · have hsz := TIter.next_size n2
      rw [detachedLoopS_some n2]
      -- the rest of the loop
      have rest : ∀ {n y h'}, Inv h' (y.refs ++ (refsL done ++ R)) → Keep (refsL done ++ R) h h' → RepS h' y (embed n) →
          New RepSL refsL R h' (detachedLoop f (done ++ [y]) it') (((Radix.detachedLoop fv itv').bind fun l => .ok (n :: l)).bind fun l => .ok (dl ++ embedL l)) := by
        intro n y h' i1 k1 r1
        have := ih itv' (by omega) (R := R) (h := h') (done := done ++ [y]) (dl := dl ++ [embed n]) (it := it') (i1.mono (by cnt_tac))
          ((hr.keep k1 (reach_of_mem (by sub_tac))).append (RepSL.cons r1 RepSL.nil)) (hb2.keep (k1.mono (by sub_tac)))
        cases hl : Radix.detachedLoop fv itv' with
        | ok l => rw [hl] at this; simpa [Res.bind, embedL] using this
        | err e => rw [hl] at this; exact this
        | panic => trivial
        | deep => trivial
      -- an error
      have bad : ∀ {e : ε} {h'}, Inv h' (refsL done ++ R) → Keep (refsL done ++ R) h h' → ∃ h2, dropAll done h' = some ((), h2) ∧ Inv h2 R ∧ Keep R h h2 := by
        intro e h' i1 k1
        obtain ⟨h2, e2, i2, k2⟩ := dropAll_specS i1 (hr.keep k1 (reach_of_mem (by sub_tac)))
        exact ⟨h2, e2, i2, (k1.mono (by sub_tac)).trans k2⟩
      cases b with
      | owned x =>
        cases bv with
        | borrowed _ => exact hb1.elim
        | owned m =>
          rw [detachedLoop_owned n1]
          have hx := hf _ h x m hi (hb1.mono (R' := refsL done ++ R) (by sub_tac))
          show New RepSL refsL R h _ (((fv m).bind _).bind _)
          cases hv : fv m with
          | ok n =>
            rw [hv] at hx
            obtain ⟨y, h1, e1, p1, r1⟩ := hx
            exact New.after (run_orDrop_ok e1) (p1.keep.mono (by sub_tac)) (rest p1.inv p1.keep r1)
          | err e =>
            rw [hv] at hx
            obtain ⟨h1, e1, i1, k1⟩ := hx
            obtain ⟨h2, e2, i2, k2⟩ := bad (e := e) i1 k1
            exact ⟨h2, run_orDrop_err e1 e2, i2, k2⟩
          | panic => trivial
          | deep => trivial
      | borrowed r =>
        cases bv with
        | owned _ => exact hb1.elim
        | borrowed r' =>
          obtain ⟨rfl, ho⟩ := hb1
          rw [detachedLoop_borrowed n1]
          show New RepSL refsL R h _ ((r.toOwned.bind _).bind _)
          cases hm : r.toOwned (ε := ε) with
          | ok m =>
            obtain ⟨t, h1, e1, p1, r1⟩ := recToOwned_spec (ε := ε) hi ho hm
            have hx := hf _ h1 t m p1.inv ⟨r1, reach_of_mem (by sub_tac)⟩
            show New RepSL refsL R h _ (((fv m).bind _).bind _)
            cases hv : fv m with
            | ok n =>
              rw [hv] at hx
              obtain ⟨y, h2, e2, p2, r2⟩ := hx
              have hrt : RepS h2 t m := r1.keep p2.keep (reach_of_mem (by sub_tac))
              obtain ⟨h3, e3, i3, k3⟩ := dropOne_specS (R := y.refs ++ (refsL done ++ R)) (p2.inv.mono (by cnt_tac)) hrt
              have k4 : Keep (refsL done ++ R) h h3 := (p1.keep.trans (p2.keep.mono (by sub_tac))).trans (k3.mono (by sub_tac))
              refine New.after (h' := h3) ?_ (k4.mono (by sub_tac)) (rest i3 k4 (r2.keep k3 (reach_of_mem (by sub_tac))))
              rw [run_bind e1, run_bind e2, run_bind e3]
              exact run_orDrop_ok rfl
            | err e =>
              rw [hv] at hx
              obtain ⟨h2, e2, i2, k2⟩ := hx
              have hrt : RepS h2 t m := r1.keep k2 (reach_of_mem (by sub_tac))
              obtain ⟨h3, e3, i3, k3⟩ := dropOne_specS (R := refsL done ++ R) i2 hrt
              have k4 : Keep (refsL done ++ R) h h3 := (p1.keep.trans (k2.mono (by sub_tac))).trans (k3.mono (by sub_tac))
              obtain ⟨h5, e5, i5, k5⟩ := bad (e := e) i3 k4
              refine ⟨h5, ?_, i5, k5⟩
              rw [run_bind e1, run_bind e2, run_bind e3]
              exact run_orDrop_err rfl e5
            | panic => trivial
            | deep => trivial
          | err e => exact (recToOwned_noErr hm).elim
          | panic => trivial
          | deep => trivial

theorem ofOpt_spec {R h} (v : Option Bytes) (hi : Inv h R) :
    ∃ f h', ofOptData v h = some (f, h') ∧ Post R h h' f.refs ∧ RepBV h' f (embedVal v) := by
  cases v with
  | none => exact ⟨Fld.none, h, rfl, ⟨by rw [fld_none_refs]; exact hi, Keep.refl _ _⟩, repBV_none h⟩
  | some d => exact ofData_specS d hi

theorem detached_spec {S : BlobStore σ ε} {st : σ} : ∀ n, DetS (detached S st n) (detachedS S st n) := by
  intro n
  induction n with
  | zero => intro R h x m hi hb; trivial
  | succ n ih =>
    intro R h x m hi hb
    simp only [detached, detachedS]
    have h0 := loadPrefix_spec (S := S) (st := st) hb.1.pfx
    unfold OutP at h0
    cases hp : Radix.loadPrefix S st m.pfx with
    | err e => rw [hp] at h0; exact ⟨h, by rw [run_bind h0]; rfl, hi, Keep.refl _ _⟩
    | panic => trivial
    | deep => trivial
    | ok p =>
      rw [hp] at h0
      simp only at h0
      obtain ⟨pf, h1, e1, p1, r1⟩ := ofData_specS p hi
      have hb1 : BorS (pf.refs ++ R) h1 x m := (hb.keep p1.keep).mono (by sub_tac)
      refine New.after (h' := h1) (by rw [run_bind h0]; show (ofData p >>= _) h = _; rw [run_bind e1]) p1.keep ?_
      have hv0 := loadValue_spec (S := S) (st := st) hb1.1.val
      unfold OutP at hv0
      show New RepS Raw.refs R h1 _ (((Radix.loadValue S st m.val).bind _).bind _)
      cases hv : Radix.loadValue S st m.val with
      | err e =>
        rw [hv] at hv0
        obtain ⟨h2, e2, i2, k2⟩ := dropLeaf_spec (R := R) (vf := Fld.none) (by simpa [fld_none_refs] using p1.inv) r1 (repBV_none h1)
        exact ⟨h2, run_orDrop_err hv0 e2, i2, k2⟩
      | panic => trivial
      | deep => trivial
      | ok v =>
        rw [hv] at hv0
        simp only at hv0
        obtain ⟨vf, h2, e2, p2, r2⟩ := ofOpt_spec v p1.inv
        have r1' : RepBV h2 pf (.data p) := r1.keep p2.keep (reach_of_mem (by sub_tac))
        have i2 : Inv h2 (pf.refs ++ vf.refs ++ R) := p2.inv.mono (by cnt_tac)
        have hb2 : BorS (pf.refs ++ vf.refs ++ R) h2 x m := (hb1.keep p2.keep).mono (by sub_tac)
        refine New.after (h' := h2) (by rw [run_orDrop_ok hv0, run_bind e2]) (p2.keep.mono (by sub_tac)) ?_
        have hc0 := loadChildrenRaw_spec (S := S) (st := st) hb2
        unfold IterOut at hc0
        show New RepS Raw.refs R h2 _ (((m.loadChildren S st).bind _).bind _)
        cases hc : m.loadChildren S st with
        | err e =>
          rw [hc] at hc0
          obtain ⟨h3, e3, i3, k3⟩ := dropLeaf_spec (R := R) i2 r1' r2
          exact ⟨h3, run_orDrop_err hc0 e3, i3, k3⟩
        | panic => trivial
        | deep => trivial
        | ok o =>
          rw [hc] at hc0
          obtain ⟨o', e3, b3⟩ := hc0
          refine New.after (h' := h2) (run_orDrop_ok e3) (Keep.refl _ _) ?_
          cases o with
          | none =>
            cases o' with
            | some _ => exact b3.elim
            | none => exact ⟨_, h2, rfl, ⟨by rw [leaf_refs]; exact i2, Keep.refl _ _⟩, repS_leaf r1' r2⟩
          | some itv =>
            cases o' with
            | none => exact b3.elim
            | some it =>
              have hl0 := detachedLoop_spec ih itv.size itv (Nat.le_refl _) (R := pf.refs ++ vf.refs ++ R) (h := h2) (done := []) (dl := []) (it := it) i2 RepSL.nil b3
              show New RepS Raw.refs R h2 _ (((Radix.detachedLoop (detachedS S st n) itv).bind _).bind _)
              cases hl : Radix.detachedLoop (detachedS S st n) itv with
              | err e =>
                rw [hl] at hl0
                obtain ⟨h3, e4, i3, k3⟩ := hl0
                obtain ⟨h4, e5, i4, k4⟩ := dropLeaf_spec (R := R) i3 (r1'.keep k3 (reach_of_mem (by sub_tac))) (r2.keep k3 (reach_of_mem (by sub_tac)))
                exact ⟨h4, run_orDrop_err e4 e5, i4, (k3.mono (by sub_tac)).trans k4⟩
              | panic => trivial
              | deep => trivial
              | ok l =>
                rw [hl] at hl0
                obtain ⟨ds, h3, e4, p3, r3⟩ := hl0
                obtain ⟨y, h4, e5, p4, r4⟩ := setKids_specS (R := R) (p3.inv.mono (by cnt_tac)) (r1'.keep p3.keep (reach_of_mem (by sub_tac)))
                  (r2.keep p3.keep (reach_of_mem (by sub_tac))) r3
                refine ⟨y, h4, ?_, ⟨p4.inv, (p3.keep.mono (by sub_tac)).trans p4.keep⟩, r4⟩
                rw [run_orDrop_ok e4, run_bind e5]; rfl

theorem href_detached {S : BlobStore σ ε} {st : σ} {R h x n} (k : Nat) (hi : Inv h R) (hb : BorR R h x n) :
    NewN R h (x.detached S st k) ((n.detached S st k).bind fun n => .ok (embed n)) := by
  cases x <;> cases n
  · exact detached_spec k R h _ _ hi hb
  · exact hb.elim
  · exact hb.elim
  · rename_i r r'
    obtain ⟨rfl, ho⟩ := hb
    show New RepS Raw.refs R h _ ((r.toOwned.bind _).bind _)
    cases hm : r.toOwned (ε := ε) with
    | ok m =>
      obtain ⟨t, h1, e1, p1, r1⟩ := recToOwned_spec (ε := ε) hi ho hm
      have hx := detached_spec (S := S) (st := st) k _ h1 t m p1.inv ⟨r1, reach_of_mem (by sub_tac)⟩
      show New RepS Raw.refs R h _ ((detachedS S st k m).bind _)
      cases hv : detachedS S st k m with
      | ok n =>
        rw [hv] at hx
        obtain ⟨y, h2, e2, p2, r2⟩ := hx
        obtain ⟨h3, e3, i3, k3⟩ := dropOne_specS (R := y.refs ++ R) (p2.inv.mono (by cnt_tac)) (r1.keep p2.keep (reach_of_mem (by sub_tac)))
        refine ⟨y, h3, ?_, ⟨i3, (p1.keep.trans (p2.keep.mono (by sub_tac))).trans (k3.mono (by sub_tac))⟩, r2.keep k3 (reach_of_mem (by sub_tac))⟩
        unfold HRef.detached
        show (recToOwned r >>= _) h = _
        rw [run_bind e1, run_bind e2, run_bind e3]; rfl
      | err e =>
        rw [hv] at hx
        obtain ⟨h2, e2, i2, k2⟩ := hx
        obtain ⟨h3, e3, i3, k3⟩ := dropOne_specS (R := R) i2 (r1.keep k2 (reach_of_mem (by sub_tac)))
        refine ⟨h3, ?_, i3, (p1.keep.trans (k2.mono (by sub_tac))).trans k3⟩
        unfold HRef.detached
        show (recToOwned r >>= _) h = _
        rw [run_bind e1, run_bind e2, run_bind e3]; rfl
      | panic => trivial
      | deep => trivial
    | err e => exact (recToOwned_noErr hm).elim
    | panic => trivial
    | deep => trivial

/-! ### Converters -/

/-- A converter in memory does what one on plain values does. -/
structure ConvOk (S : BlobStore τ ε) (st : τ) (c : Conv) (m : Nat) (cv : SConv ε) : Prop where
  node : ∀ {R h b bv}, Inv h R → BorR R h b bv → NewN R h (convNode S st m c b) (cv.node bv)
  short : ∀ {R h b bv} n, Inv h R → BorR R h b bv → NewN R h (convShortened S st m c b n) (cv.shortened bv n)
  value : ∀ {R h v bv}, Inv h R → BorHV R h v bv → ∀ w, cv.value bv = .ok w → ∃ f h', convValue c v h = some (f, h') ∧ Post R h h' f.refs ∧ RepBV h' f w
  noErr : ∀ b e, cv.value b ≠ .err e

theorem downcastE_spec {R h} {x : H (Except ε Raw)} {v : Res ε SNode} (hx : NewN R h x v) : NewN R h (x >>= downcastE) v := by
  cases v with
  | ok n =>
    obtain ⟨y, h1, e1, p1, r1⟩ := hx
    obtain ⟨z, h2, e2, p2, r2⟩ := downcast_specS p1.inv r1
    exact ⟨z, h2, by rw [run_bind e1]; show (Raw.downcast y >>= _) h1 = _; rw [run_bind e2]; rfl, ⟨p2.inv, p1.keep.trans p2.keep⟩, r2⟩
  | err e =>
    obtain ⟨h1, e1, i1, k1⟩ := hx
    exact ⟨h1, by rw [run_bind e1]; rfl, i1, k1⟩
  | panic => trivial
  | deep => trivial

theorem convOk_downcast (m : Nat) : ConvOk (detachedStore ε) () .downcast m (.downcast ε) where
  node := by
    intro R h b bv hi hb
    cases b <;> cases bv
    · rename_i x n
      obtain ⟨h', e, p, r⟩ := rawClone_postS hi hb
      exact ⟨x, h', by show (Raw.clone x >>= _) h = _; rw [run_bind e]; rfl, p, r⟩
    · exact hb.elim
    · exact hb.elim
    · trivial
  short := by
    intro R h b bv n hi hb
    have h0 := cloneShortened_specS (S := detachedStore ε) (st := ()) n hi hb
    show NewN R h _ (bv.cloneShortened (detachedStore ε) () n)
    cases hv : bv.cloneShortened (detachedStore ε) () n with
    | ok a =>
      rw [hv] at h0
      obtain ⟨y, h1, e1, p1, r1⟩ := h0
      obtain ⟨z, h2, e2, p2, r2⟩ := downcast_specS p1.inv r1
      exact ⟨z, h2, by unfold convShortened; rw [run_bind e1]; show (Raw.downcast y >>= _) h1 = _; rw [run_bind e2]; rfl, ⟨p2.inv, p1.keep.trans p2.keep⟩, r2⟩
    | err e =>
      rw [hv] at h0
      obtain ⟨h1, e1, i1, k1⟩ := h0
      exact ⟨h1, by unfold convShortened; rw [run_bind e1]; rfl, i1, k1⟩
    | panic => trivial
    | deep => trivial
  value := by
    intro R h v bv hi hb w hw
    cases hw
    exact hval_toOwned hi hb
  noErr := by intro b e h; cases h

theorem convOk_identity (S : BlobStore τ ε) (st : τ) (m : Nat) : ConvOk S st .identity m (.identity S st) where
  node := by
    intro R h b bv hi hb
    show NewN R h _ bv.toOwned
    cases hv : bv.toOwned (ε := ε) with
    | ok a =>
      obtain ⟨y, h1, e1, p1, r1⟩ := href_toOwned (ε := ε) hi hb hv
      refine ⟨y, h1, ?_, p1, r1⟩
      have : convNode S st m .identity b = (do let y ← b.toOwned; return .ok y) := by cases b <;> rfl
      rw [this, run_bind e1]; rfl
    | err e => exact (toOwned_noErr hv).elim
    | panic => trivial
    | deep => trivial
  short := by
    intro R h b bv n hi hb
    have h0 := cloneShortened_specS (S := S) (st := st) n hi hb
    show NewN R h _ (bv.cloneShortened S st n)
    cases hv : bv.cloneShortened S st n with
    | ok a =>
      rw [hv] at h0
      obtain ⟨y, h1, e1, p1, r1⟩ := h0
      exact ⟨y, h1, by unfold convShortened; rw [run_bind e1]; rfl, p1, r1⟩
    | err e =>
      rw [hv] at h0
      obtain ⟨h1, e1, i1, k1⟩ := h0
      exact ⟨h1, by unfold convShortened; rw [run_bind e1]; rfl, i1, k1⟩
    | panic => trivial
    | deep => trivial
  value := by
    intro R h v bv hi hb w hw
    cases hw
    exact hval_toOwned hi hb
  noErr := by intro b e h; cases h

theorem convNode_detach {S : BlobStore τ ε} {st : τ} {m : Nat} {b : HRef} : convNode S st m .detach b = (b.detached S st m >>= downcastE) := by cases b <;> rfl

theorem convOk_detach (S : BlobStore τ ε) (st : τ) (m : Nat) : ConvOk S st .detach m (.detach S st m) where
  node := by
    intro R h b bv hi hb
    rw [convNode_detach]
    exact downcastE_spec (href_detached m hi hb)
  short := by
    intro R h b bv n hi hb
    have h0 := cloneShortened_specS (S := S) (st := st) n hi hb
    show NewN R h _ ((bv.cloneShortened S st n).bind _)
    cases hv : bv.cloneShortened S st n with
    | ok a =>
      rw [hv] at h0
      obtain ⟨y, h1, e1, p1, r1⟩ := h0
      have h2 : NewN (y.refs ++ R) h1 (convNode S st m .detach (.owned y) >>= downcastE) ((Ref.detached S st m (.owned a)).bind fun n => .ok (embed n)) := by
        rw [convNode_detach]
        exact downcastE_spec (downcastE_spec (href_detached m p1.inv (show BorR _ _ (.owned y) (.owned a) from ⟨r1, reach_of_mem (by sub_tac)⟩)))
      show NewN R h _ ((Ref.detached S st m (.owned a)).bind fun n => .ok (embed n))
      have e0 : ∀ g, (convShortened S st m .detach b n) h = g ↔ (convNode S st m .detach (.owned y) >>= downcastE >>= fun r => dropAll [y] >>= fun _ => pure r) h1 = g := by
        intro g
        unfold convShortened
        rw [run_bind e1]
        show (convNode S st m .detach (.owned y) >>= fun o => downcastE o >>= _) h1 = g ↔ _
        exact Iff.of_eq (congrArg (fun q => H.run q h1 = g) (H.bind_bind _ _ _).symm)
      unfold NewN New at h2 ⊢
      cases hd : (Ref.detached S st m (.owned a)).bind (fun n => (.ok (embed n) : Res ε SNode)) with
      | ok k =>
        rw [hd] at h2
        obtain ⟨z, h3, e3, p3, r3⟩ := h2
        obtain ⟨h4, e4, i4, k4⟩ := dropOne_specS (R := z.refs ++ R) (p3.inv.mono (by cnt_tac)) (r1.keep p3.keep (reach_of_mem (by sub_tac)))
        refine ⟨z, h4, (e0 _).2 ?_, ⟨i4, (p1.keep.trans (p3.keep.mono (by sub_tac))).trans (k4.mono (by sub_tac))⟩, r3.keep k4 (reach_of_mem (by sub_tac))⟩
        rw [run_bind e3, run_bind e4]; rfl
      | err e =>
        rw [hd] at h2
        obtain ⟨h3, e3, i3, k3⟩ := h2
        obtain ⟨h4, e4, i4, k4⟩ := dropOne_specS (R := R) i3 (r1.keep k3 (reach_of_mem (by sub_tac)))
        refine ⟨h4, (e0 _).2 ?_, i4, (p1.keep.trans (k3.mono (by sub_tac))).trans k4⟩
        rw [run_bind e3, run_bind e4]; rfl
      | panic => trivial
      | deep => trivial
    | err e =>
      rw [hv] at h0
      obtain ⟨h1, e1, i1, k1⟩ := h0
      exact ⟨h1, by unfold convShortened; rw [run_bind e1]; rfl, i1, k1⟩
    | panic => trivial
    | deep => trivial
  value := by
    intro R h v bv hi hb w hw
    cases bv with
    | id i => cases hw
    | data d =>
      cases hw
      obtain ⟨f, h1, e1, p1, r1⟩ := hval_toOwned hi hb
      refine ⟨f, h1, ?_, p1, r1⟩
      unfold convValue
      show (v.blobV >>= _) h = _
      rw [run_bind (hval_blobV hb)]
      exact e1
  noErr := by intro b e h; cases b <;> cases h

/-! ### The loop -/

theorem count_pick {r} : ∀ (bs : List Bool) (xs : List Raw), (refsL (pick bs xs)).count r + (refsL (unpick bs xs)).count r = (refsL xs).count r
  | [], xs => by simp [pick, unpick, refsL_nil]
  | _ :: _, [] => by simp [pick, unpick, refsL_nil]
  | b :: bs, x :: xs => by
    have := count_pick (r := r) bs xs
    cases b <;> simp only [pick, unpick, if_true, Bool.false_eq_true, if_false, refsL_cons, List.count_append] <;> omega

theorem rep_pick {h} : ∀ (bs : List Bool) {xs l}, RepSL h xs l → RepSL h (pick bs xs) (pick bs l)
  | [], xs, l, hr => by simp only [pick]; exact RepSL.nil
  | b :: bs, xs, [], hr => by rw [RepSL.nil_iff] at hr; subst hr; exact RepSL.nil
  | b :: bs, xs, m :: l, hr => by
    obtain ⟨y, ys, rfl, h1, h2⟩ := RepSL.cons_iff.1 hr
    have := rep_pick bs h2
    cases b
    · exact this
    · exact RepSL.cons h1 this

theorem mem_unpick : ∀ (bs : List Bool) (xs : List Raw), ∀ y ∈ unpick bs xs, y ∈ xs
  | [], xs, y, hy => by simpa [unpick] using hy
  | _ :: _, [], y, hy => by simp [unpick] at hy
  | b :: bs, x :: xs, y, hy => by
    cases b
    · simp only [unpick, Bool.false_eq_true, if_false, List.mem_cons] at hy
      rcases hy with rfl | hy
      · exact List.mem_cons_self
      · exact List.mem_cons_of_mem _ (mem_unpick bs xs y hy)
    · exact List.mem_cons_of_mem _ (mem_unpick bs xs y hy)

theorem abandon_spec {R h done src dl sl} (mask : Nat → Nat → List Bool) (hi : Inv h (refsL done ++ refsL src ++ R)) (h1 : RepSL h done dl) (h2 : RepSL h src sl) :
    ∃ l h', abandon mask done src h = some (l, h') ∧ Post R h h' (refsL l) ∧ RepSL h' l (pick (mask dl.length sl.length) (dl ++ sl)) := by
  have hr := h1.append h2
  have hp := rep_pick (mask done.length src.length) hr
  have hc : Inv h (refsL (unpick (mask done.length src.length) (done ++ src)) ++ (refsL (pick (mask done.length src.length) (done ++ src)) ++ R)) := by
    refine hi.mono fun r => ?_
    have := count_pick (r := r) (mask done.length src.length) (done ++ src)
    simp only [refsL_append, List.count_append] at this ⊢
    omega
  obtain ⟨h', e, i, k⟩ := dropAll_specS' hc (fun x hx => hr.mem x (mem_unpick _ _ x hx))
  refine ⟨_, h', by unfold abandon; rw [run_bind e]; rfl, ⟨i, k.mono (by sub_tac)⟩, ?_⟩
  rw [← h1.length, ← h2.length]
  exact hp.keep k (reach_of_mem (by sub_tac))

/-- What an operation on a node does. -/
def CombS (f : Raw → HRef → H (Except ε Unit × Raw)) (fv : SNode → Radix.Ref → Res ε Unit × SNode) : Prop :=
  ∀ R h x m b bv, Inv h (x.refs ++ R) → RepS h x m → BorR R h b bv → SimN R h (f x b) (fv m bv)

/-- What is pushed for an element without partner. -/
def GreaterS (g : HRef → H (Except ε (Option Raw))) (gv : Radix.Ref → Res ε (Option SNode)) : Prop :=
  ∀ R h b bv, Inv h R → BorR R h b bv → New (fun h (o : Option Raw) (ov : Option SNode) => RepSL h o.toList ov.toList) (fun o => refsL o.toList) R h (g b) (gv bv)

section
variable {rec : Raw → HRef → H (Except ε Unit × Raw)} {keep : Bool} {greater : HRef → H (Except ε (Option Raw))} {mask : Nat → Nat → List Bool}

theorem loop_nn {done it} (hn : it.next = none) : loop rec keep greater mask done [] it = return (.ok (), done) := by
  rw [loop.eq_def]
  split
  · rfl
  · rename_i q1 q2; cases q1
  · rename_i q1 q2; rw [hn] at q2; cases q2
  · rename_i q1 q2; cases q1

theorem loop_cn {done a src it} (hn : it.next = none) : loop rec keep greater mask done (a :: src) it =
    (if keep then loop rec keep greater mask (done ++ [a]) src it
    else do
      dropAll [a]
      loop rec keep greater mask done src it) := by
  rw [loop.eq_def]
  split
  · rename_i q1 q2; cases q1
  · rename_i q1 q2; rw [hn] at q2; cases q2; cases q1; rfl
  · rename_i q1 q2; cases q1
  · rename_i q1 q2; rw [hn] at q2; cases q2

theorem loop_ns {done it b it'} (hn : it.next = some (b, it')) : loop rec keep greater mask done [] it = (do
    match ← greater b with
    | .ok o => loop rec keep greater mask (done ++ o.toList) [] it'
    | .error e => do
      let l ← abandon mask done []
      return (.error e, l)) := by
  rw [loop.eq_def]
  split
  · rename_i q1 q2; rw [hn] at q2; cases q2
  · rename_i q1 q2; cases q1
  · rename_i q1 q2; rw [hn] at q2; cases q2; cases q1; rfl
  · rename_i q1 q2; cases q1

theorem loop_cs {done a src it b it'} (hn : it.next = some (b, it')) : loop rec keep greater mask done (a :: src) it = (do
    let ra ← a.rank
    let rb ← b.rank
    if ra < rb then
      if keep then loop rec keep greater mask (done ++ [a]) src it
      else do
        dropAll [a]
        loop rec keep greater mask done src it
    else if rb < ra then do
      match ← greater b with
      | .ok o => loop rec keep greater mask (done ++ o.toList) (a :: src) it'
      | .error e => do
        let l ← abandon mask done (a :: src)
        return (.error e, l)
    else do
      let (r, a') ← rec a b
      match r with
      | .ok _ =>
        if a'.isEmpty then do
          dropAll [a']
          loop rec keep greater mask done src it'
        else loop rec keep greater mask (done ++ [a']) src it'
      | .error e => do
        let l ← abandon mask done (a' :: src)
        return (.error e, l)) := by
  rw [loop.eq_def]
  split
  · rename_i q1 q2; cases q1
  · rename_i q1 q2; rw [hn] at q2; cases q2
  · rename_i q1 q2; cases q1
  · rename_i q1 q2; rw [hn] at q2; cases q2; cases q1; rfl

end

theorem loopS_nn {recv : SNode → Radix.Ref → Res ε Unit × SNode} {keep gv ab done} {it : TIter} (hn : it.next = none) :
    loopS recv keep gv ab done [] it = (.ok (), done) := by
  rw [loopS.eq_def]
  split
  · rfl
  · rename_i q1 q2; cases q1
  · rename_i q1 q2; rw [hn] at q2; cases q2
  · rename_i q1 q2; cases q1

theorem loopS_cn {recv : SNode → Radix.Ref → Res ε Unit × SNode} {keep gv ab done a src} {it : TIter} (hn : it.next = none) :
    loopS recv keep gv ab done (a :: src) it = loopS recv keep gv ab (if keep then done ++ [a] else done) src it := by
  rw [loopS.eq_def]
  split
  · rename_i q1 q2; cases q1
  · rename_i q1 q2; cases q1; rfl
  · rename_i q1 q2; cases q1
  · rename_i q1 q2; rw [hn] at q2; cases q2

theorem loopS_ns {recv : SNode → Radix.Ref → Res ε Unit × SNode} {keep gv ab done} {it it' : TIter} {b} (hn : it.next = some (b, it')) :
    loopS recv keep gv ab done [] it = stBind (gv b, ab done []) fun o _ => loopS recv keep gv ab (done ++ o.toList) [] it' := by
  rw [loopS.eq_def]
  split
  · rename_i q1 q2; rw [hn] at q2; cases q2
  · rename_i q1 q2; cases q1
  · rename_i q1 q2; rw [hn] at q2; cases q2; rfl
  · rename_i q1 q2; cases q1

theorem loopS_cs {recv : SNode → Radix.Ref → Res ε Unit × SNode} {keep gv ab done a src} {it it' : TIter} {b} (hn : it.next = some (b, it')) :
    loopS recv keep gv ab done (a :: src) it =
    if Node.rank a.pfx.firstByte < Node.rank b.pfx.firstByte then
      loopS recv keep gv ab (if keep then done ++ [a] else done) src it
    else if Node.rank b.pfx.firstByte < Node.rank a.pfx.firstByte then
      stBind (gv b, ab done (a :: src)) fun o _ => loopS recv keep gv ab (done ++ o.toList) (a :: src) it'
    else stBind ((recv a b).1, ab done ((recv a b).2 :: src)) fun _ _ =>
      loopS recv keep gv ab (if (recv a b).2.isEmpty then done else done ++ [(recv a b).2]) src it' := by
  rw [loopS.eq_def]
  split
  · rename_i q1 q2; cases q1
  · rename_i q1 q2; rw [hn] at q2; cases q2
  · rename_i q1 q2; cases q1
  · rename_i q1 q2; rw [hn] at q2; cases q2; cases q1; rfl

theorem loop_specS {rec : Raw → HRef → H (Except ε Unit × Raw)} {recv : SNode → Radix.Ref → Res ε Unit × SNode} {keep : Bool}
    {greater : HRef → H (Except ε (Option Raw))} {gv : Radix.Ref → Res ε (Option SNode)} {mask : Nat → Nat → List Bool} (hc : CombS rec recv) (hg : GreaterS greater gv) :
    ∀ (N : Nat) (sl : List SNode) (itv : TIter), sl.length + itv.size ≤ N → ∀ {R h done dl src it}, Inv h (refsL done ++ refsL src ++ R) → RepSL h done dl → RepSL h src sl →
      BorI R h it itv → SimL R h (loop rec keep greater mask done src it) (loopS recv keep gv (fun done src => pick (mask done.length src.length) (done ++ src)) dl sl itv) := by
  intro N
  induction N with
  | zero =>
    intro sl itv hN R h done dl src it hi hd hs hb
    cases sl with
    | cons m sl => simp only [List.length_cons] at hN; omega
    | nil =>
      rw [RepSL.nil_iff] at hs
      subst hs
      rcases iter_next hb with ⟨n1, n2⟩ | ⟨b, it', bv, itv', n1, n2, _, _⟩
      · rw [loop_nn n1, loopS_nn n2]
        exact Sim.ret () (hi.mono (by cnt_tac)) hd
      · have := TIter.next_size n2; omega
  | succ N ih =>
    intro sl itv hN R h done dl src it hi hd hs hb
    -- an element without partner
    have skip : ∀ {m sl a src}, sl.length + itv.size ≤ N → Inv h (refsL done ++ refsL (a :: src) ++ R) → RepS h a m → RepSL h src sl →
        SimL R h (if keep then loop rec keep greater mask (done ++ [a]) src it else do
            dropAll [a]
            loop rec keep greater mask done src it)
          (loopS recv keep gv (fun done src => pick (mask done.length src.length) (done ++ src)) (if keep then dl ++ [m] else dl) sl itv) := by
      intro m sl a src hN hi hm hs
      cases keep with
      | true => exact ih sl itv hN (hi.mono (by cnt_tac)) (hd.append (RepSL.cons hm RepSL.nil)) hs hb
      | false =>
        obtain ⟨h1, e1, i1, k1⟩ := dropOne_specS (R := refsL done ++ refsL src ++ R) (hi.mono (by cnt_tac)) hm
        exact Sim.after (h' := h1) (by simp only [Bool.false_eq_true, if_false]; rw [run_bind e1]) (k1.mono (by sub_tac))
          (ih sl itv hN i1 (hd.keep k1 (reach_of_mem (by sub_tac))) (hs.keep k1 (reach_of_mem (by sub_tac))) (hb.keep (k1.mono (by sub_tac))))
    -- an element of the other tree without partner
    have other : ∀ {b bv it' itv'}, sl.length + itv'.size ≤ N → BorR R h b bv → BorI R h it' itv' →
        SimL R h (do
            match ← greater b with
            | .ok o => loop rec keep greater mask (done ++ o.toList) src it'
            | .error e => do
              let l ← abandon mask done src
              return (.error e, l))
          (stBind (gv bv, pick (mask dl.length sl.length) (dl ++ sl)) fun o _ =>
            loopS recv keep gv (fun done src => pick (mask done.length src.length) (done ++ src)) (dl ++ o.toList) sl itv') := by
      intro b bv it' itv' hN hb1 hb2
      have h0 := hg _ h b bv hi (hb1.mono (by sub_tac))
      unfold New at h0
      cases hv : gv bv with
      | ok o =>
        rw [hv] at h0
        obtain ⟨y, h1, e1, p1, r1⟩ := h0
        refine Sim.after (h' := h1) (by rw [run_bind e1]) (p1.keep.mono (by sub_tac)) ?_
        exact ih sl itv' hN (p1.inv.mono (by cnt_tac)) ((hd.keep p1.keep (reach_of_mem (by sub_tac))).append r1) (hs.keep p1.keep (reach_of_mem (by sub_tac)))
          (hb2.keep (p1.keep.mono (by sub_tac)))
      | err e =>
        rw [hv] at h0
        obtain ⟨h1, e1, i1, k1⟩ := h0
        obtain ⟨l, h2, e2, p2, r2⟩ := abandon_spec mask i1 (hd.keep k1 (reach_of_mem (by sub_tac))) (hs.keep k1 (reach_of_mem (by sub_tac)))
        refine ⟨l, h2, ?_, ⟨p2.inv, (k1.mono (by sub_tac)).trans p2.keep⟩, r2⟩
        rw [run_bind e1]; show (abandon mask done src >>= _) h1 = _; rw [run_bind e2]; rfl
      | panic => trivial
      | deep => trivial
    cases sl with
    | nil =>
      have hs' := hs
      rw [RepSL.nil_iff] at hs'
      subst hs'
      rcases iter_next hb with ⟨n1, n2⟩ | ⟨b, it', bv, itv', n1, n2, hb1, hb2⟩
      · rw [loop_nn n1, loopS_nn n2]
        exact Sim.ret () (hi.mono (by cnt_tac)) hd
      · have := TIter.next_size n2
        rw [loop_ns n1, loopS_ns n2]
        exact other (by simp only [List.length_nil] at hN ⊢; omega) hb1 hb2
    | cons m sl =>
      obtain ⟨a, src', rfl, hm, hs'⟩ := RepSL.cons_iff.1 hs
      rcases iter_next hb with ⟨n1, n2⟩ | ⟨b, it', bv, itv', n1, n2, hb1, hb2⟩
      · rw [loop_cn n1, loopS_cn n2]
        exact skip (by simp only [List.length_cons] at hN; omega) hi hm hs'
      · have hsz := TIter.next_size n2
        rw [loop_cs n1, loopS_cs n2]
        refine Sim.after (h' := h) ((run_bind (rank_specS hm)).trans (run_bind (href_rank hb1))) (Keep.refl _ _) ?_
        dsimp only
        by_cases c1 : Node.rank m.pfx.firstByte < Node.rank bv.pfx.firstByte
        · rw [if_pos c1, if_pos c1]
          exact skip (by simp only [List.length_cons] at hN; omega) hi hm hs'
        · rw [if_neg c1, if_neg c1]
          by_cases c2 : Node.rank bv.pfx.firstByte < Node.rank m.pfx.firstByte
          · rw [if_pos c2, if_pos c2]
            exact other (by simp only [List.length_cons] at hN ⊢; omega) hb1 hb2
          · rw [if_neg c2, if_neg c2]
            have h0 := hc (refsL done ++ refsL src' ++ R) h a m b bv (hi.mono (by cnt_tac)) hm (hb1.mono (by sub_tac))
            unfold SimN Sim at h0
            cases hv : (recv m bv).1 with
            | ok u =>
              rw [hv] at h0
              obtain ⟨y, h1, e1, p1, r1⟩ := h0
              have hd1 := hd.keep p1.keep (reach_of_mem (by sub_tac))
              have hs1 := hs'.keep p1.keep (reach_of_mem (by sub_tac))
              have hb3 := hb2.keep (p1.keep.mono (by sub_tac))
              refine Sim.after (h' := h1) (by rw [run_bind e1]) (p1.keep.mono (by sub_tac)) ?_
              show SimL R h1 (if y.isEmpty then _ else _) (loopS _ _ _ _ _ _ _)
              rw [r1.isEmpty]
              cases hem : (recv m bv).2.isEmpty with
              | true =>
                simp only [if_true]
                obtain ⟨h2, e2, i2, k2⟩ := dropOne_specS (R := refsL done ++ refsL src' ++ R) p1.inv r1
                exact Sim.after (h' := h2) (by rw [run_bind e2]) (k2.mono (by sub_tac))
                  (ih sl itv' (by simp only [List.length_cons] at hN; omega) i2 (hd1.keep k2 (reach_of_mem (by sub_tac))) (hs1.keep k2 (reach_of_mem (by sub_tac))) (hb3.keep (k2.mono (by sub_tac))))
              | false =>
                simp only [Bool.false_eq_true, if_false]
                exact ih sl itv' (by simp only [List.length_cons] at hN; omega) (p1.inv.mono (by cnt_tac)) (hd1.append (RepSL.cons r1 RepSL.nil)) hs1 hb3
            | err e =>
              rw [hv] at h0
              obtain ⟨y, h1, e1, p1, r1⟩ := h0
              obtain ⟨l, h2, e2, p2, r2⟩ := abandon_spec (R := R) mask (done := done) (src := y :: src') (p1.inv.mono (by cnt_tac)) (hd.keep p1.keep (reach_of_mem (by sub_tac)))
                (RepSL.cons r1 (hs'.keep p1.keep (reach_of_mem (by sub_tac))))
              refine ⟨l, h2, ?_, ⟨p2.inv, (p1.keep.mono (by sub_tac)).trans p2.keep⟩, r2⟩
              rw [run_bind e1]; show (abandon mask done (y :: src') >>= _) h1 = _; rw [run_bind e2]; rfl
            | panic => trivial
            | deep => trivial

/-! ### The children -/

theorem pushAll_none {f : HRef → H (Except ε Raw)} {done it} (hn : it.next = none) : pushAll f done it = return (.ok (), done) := by
  rw [pushAll.eq_def]
  split
  · rfl
  · rename_i q; rw [hn] at q; cases q

theorem pushAll_some {f : HRef → H (Except ε Raw)} {done it b it'} (hn : it.next = some (b, it')) : pushAll f done it = (do
    match ← f b with
    | .ok x => pushAll f (done ++ [x]) it'
    | .error e => return (.error e, done)) := by
  rw [pushAll.eq_def]
  split
  · rename_i q; rw [hn] at q; cases q
  · rename_i q; rw [hn] at q; cases q; rfl

theorem pushAllS_none {c : SConv ε} {done} {it : TIter} (hn : it.next = none) : Radix.pushAll c done it = (.ok (), done) := by
  rw [Radix.pushAll.eq_def]
  split
  · rfl
  · rename_i q; rw [hn] at q; cases q

theorem pushAllS_some {c : SConv ε} {done} {it it' : TIter} {b} (hn : it.next = some (b, it')) :
    Radix.pushAll c done it = stBind (c.node b, done) fun a done => Radix.pushAll c (done ++ [a]) it' := by
  rw [Radix.pushAll.eq_def]
  split
  · rename_i q; rw [hn] at q; cases q
  · rename_i q; rw [hn] at q; cases q; rfl

theorem pushAll_spec {f : HRef → H (Except ε Raw)} {c : SConv ε} (hf : ∀ R h b bv, Inv h R → BorR R h b bv → NewN R h (f b) (c.node bv)) :
    ∀ (N : Nat) (itv : TIter), itv.size ≤ N → ∀ {R h done dl it}, Inv h (refsL done ++ R) → RepSL h done dl → BorI R h it itv →
      SimL R h (pushAll f done it) (Radix.pushAll c dl itv) := by
  intro N
  induction N with
  | zero =>
    intro itv hN R h done dl it hi hr hb
    rcases iter_next hb with ⟨n1, n2⟩ | ⟨b, it', bv, itv', n1, n2, _, _⟩
    · rw [pushAll_none n1, pushAllS_none n2]
      exact Sim.ret () hi hr
    · have := TIter.next_size n2; omega
  | succ N ih =>
    intro itv hN R h done dl it hi hr hb
    rcases iter_next hb with ⟨n1, n2⟩ | ⟨b, it', bv, itv', n1, n2, hb1, hb2⟩
    · rw [pushAll_none n1, pushAllS_none n2]
      exact Sim.ret () hi hr
    · have hsz := TIter.next_size n2
      rw [pushAll_some n1, pushAllS_some n2]
      have h0 := hf _ h b bv hi (hb1.mono (R' := refsL done ++ R) (by sub_tac))
      unfold NewN New at h0
      cases hv : c.node bv with
      | ok a =>
        rw [hv] at h0
        obtain ⟨y, h1, e1, p1, r1⟩ := h0
        exact Sim.after (h' := h1) (by rw [run_bind e1]) (p1.keep.mono (by sub_tac))
          (ih itv' (by omega) (p1.inv.mono (by cnt_tac)) ((hr.keep p1.keep (reach_of_mem (by sub_tac))).append (RepSL.cons r1 RepSL.nil)) (hb2.keep (p1.keep.mono (by sub_tac))))
      | err e =>
        rw [hv] at h0
        obtain ⟨h1, e1, i1, k1⟩ := h0
        exact ⟨done, h1, by rw [run_bind e1]; rfl, ⟨i1, k1.mono (by sub_tac)⟩, hr.keep k1 (reach_of_mem (by sub_tac))⟩
      | panic => trivial
      | deep => trivial

/-- What an operation on two vectors of children does. -/
def ChS (k : List Raw → Option HIter → H (Except ε Unit × List Raw)) (kv : List SNode → Option TIter → Res ε Unit × List SNode) : Prop :=
  ∀ R h cs l o ov, Inv h (refsL cs ++ R) → RepSL h cs l → BorIO R h o ov → SimL R h (k cs o) (kv l ov)

theorem none_greater : GreaterS (fun _ => return .ok none : HRef → H (Except ε (Option Raw))) (fun _ => .ok none) := by
  intro R h b bv hi hb
  exact ⟨none, h, rfl, ⟨hi, Keep.refl _ _⟩, RepSL.nil⟩

theorem pushIt_greater {f : HRef → H (Except ε Raw)} {c : SConv ε} (hf : ∀ R h b bv, Inv h R → BorR R h b bv → NewN R h (f b) (c.node bv)) :
    GreaterS (pushIt f) (fun b => (c.node b).bind fun a => .ok (some a)) := by
  intro R h b bv hi hb
  have h0 := hf R h b bv hi hb
  unfold NewN New at h0
  show New _ _ R h _ ((c.node bv).bind _)
  cases hv : c.node bv with
  | ok a =>
    rw [hv] at h0
    obtain ⟨y, h1, e1, p1, r1⟩ := h0
    exact ⟨some y, h1, by unfold pushIt; rw [run_bind e1]; rfl, ⟨p1.inv.mono (by intro r; simp [refsL_cons, refsL_nil]), p1.keep⟩, RepSL.cons r1 RepSL.nil⟩
  | err e =>
    rw [hv] at h0
    obtain ⟨h1, e1, i1, k1⟩ := h0
    exact ⟨h1, by unfold pushIt; rw [run_bind e1]; rfl, i1, k1⟩
  | panic => trivial
  | deep => trivial

theorem RepSL.isEmpty {h xs l} (hr : RepSL h xs l) : xs.isEmpty = l.isEmpty := by
  have := hr.length
  cases xs <;> cases l <;> simp_all

section
variable (e : HEnv σ τ ε) {rec : Raw → HRef → H (Except ε Unit × Raw)} {recv : SNode → Radix.Ref → Res ε Unit × SNode}

theorem outerChildren_spec {f : HRef → H (Except ε Raw)} {c : SConv ε} (hf : ∀ R h b bv, Inv h R → BorR R h b bv → NewN R h (f b) (c.node bv)) (hc : CombS rec recv) :
    ChS (outerChildren e.mask f rec) (outerChildrenS e.toU c recv) := by
  intro R h cs l o ov hi hr hb
  cases ov with
  | none =>
    cases o with
    | some _ => exact hb.elim
    | none => exact Sim.ret () hi hr
  | some itv =>
    cases o with
    | none => exact hb.elim
    | some it =>
      simp only [outerChildren, outerChildrenS]
      rw [hr.isEmpty]
      cases hl : l.isEmpty with
      | true => exact pushAll_spec hf _ itv (Nat.le_refl _) hi hr hb
      | false => exact loop_specS hc (pushIt_greater hf) _ l itv (Nat.le_refl _) (done := []) hi RepSL.nil hr hb

theorem innerChildren_spec (hc : CombS rec recv) : ChS (innerChildren e.mask rec) (innerChildrenS e.toU recv) := by
  intro R h cs l o ov hi hr hb
  cases ov with
  | none =>
    cases o with
    | some _ => exact hb.elim
    | none =>
      obtain ⟨h1, e1, i1, k1⟩ := dropAll_specS hi hr
      exact ⟨[], h1, by show (dropAll cs >>= _) h = _; rw [run_bind e1]; rfl, ⟨i1, k1⟩, RepSL.nil⟩
  | some itv =>
    cases o with
    | none => exact hb.elim
    | some it =>
      simp only [innerChildren, innerChildrenS]
      rw [hr.isEmpty]
      cases hl : l.isEmpty with
      | true => exact Sim.ret () hi hr
      | false => exact loop_specS hc none_greater _ l itv (Nat.le_refl _) (done := []) hi RepSL.nil hr hb

theorem leftChildren_spec (hc : CombS rec recv) : ChS (leftChildren e.mask rec) (leftChildrenS e.toU recv) := by
  intro R h cs l o ov hi hr hb
  cases ov with
  | none =>
    cases o with
    | some _ => exact hb.elim
    | none => exact Sim.ret () hi hr
  | some itv =>
    cases o with
    | none => exact hb.elim
    | some it =>
      simp only [leftChildren, leftChildrenS]
      rw [hr.isEmpty]
      cases hl : l.isEmpty with
      | true => exact Sim.ret () hi hr
      | false => exact loop_specS hc none_greater _ l itv (Nat.le_refl _) (done := []) hi RepSL.nil hr hb

variable {k : List Raw → Option HIter → H (Except ε Unit × List Raw)} {kv : List SNode → Option TIter → Res ε Unit × List SNode}

theorem childrenBoth_spec (hk : ChS k kv) : CombS (childrenBoth e k) (Radix.childrenBoth e.toU kv) := by
  intro R h x m b bv hi hr hb
  unfold childrenBoth Radix.childrenBoth
  refine Sim.children (kv := fun l => stBind (bv.loadChildren e.SB e.stB, l) fun bc l => kv l bc) hi hr ?_ ?_
  · intro l
    show stBind (bv.loadChildren e.SB e.stB, _) _ = _
    cases bv.loadChildren e.SB e.stB <;> rfl
  · intro cs l h1 i1 r1 k1
    have hb1 : BorR (x.pfx.refs ++ x.val.refs ++ R) h1 b bv := (hb.keep k1).mono (by sub_tac)
    have h0 := href_loadChildren (S := e.SB) (st := e.stB) hb1
    unfold IterOut at h0
    cases hv : bv.loadChildren e.SB e.stB with
    | ok o =>
      rw [hv] at h0
      obtain ⟨o', e1, b1⟩ := h0
      exact Sim.after (h' := h1) (by rw [run_bind e1]) (Keep.refl _ _) (hk _ h1 cs l o' o i1 r1 b1)
    | err e' =>
      rw [hv] at h0
      exact ⟨cs, h1, by rw [run_bind h0]; rfl, ⟨i1, Keep.refl _ _⟩, r1⟩
    | panic => trivial
    | deep => trivial

theorem childrenShort_spec (hk : ChS k kv) (n : Nat) : CombS (childrenShort e k n) (Radix.childrenShort e.toU kv n) := by
  intro R h x m b bv hi hr hb
  unfold childrenShort Radix.childrenShort
  refine Sim.children (kv := fun l => stBind (bv.cloneShortened e.SB e.stB n, l) fun b' l => kv l (iterFromSlice [b'])) hi hr ?_ ?_
  · intro l
    show stBind (bv.cloneShortened e.SB e.stB n, _) _ = _
    cases bv.cloneShortened e.SB e.stB n <;> rfl
  · intro cs l h1 i1 r1 k1
    have hb1 : BorR (refsL cs ++ (x.pfx.refs ++ x.val.refs ++ R)) h1 b bv := (hb.keep k1).mono (by sub_tac)
    have h0 := cloneShortened_specS (S := e.SB) (st := e.stB) n i1 hb1
    unfold NewN New at h0
    cases hv : bv.cloneShortened e.SB e.stB n with
    | ok b' =>
      rw [hv] at h0
      obtain ⟨t, h2, e2, p2, r2⟩ := h0
      have h3 := hk (t.refs ++ (x.pfx.refs ++ x.val.refs ++ R)) h2 cs l (fromSlice [t]) (iterFromSlice [b']) (p2.inv.mono (by cnt_tac))
        (r1.keep p2.keep (reach_of_mem (by sub_tac))) (fromSlice_bor ⟨RepSL.cons r2 RepSL.nil, reach_of_mem (by sub_tac)⟩)
      show SimL _ h1 _ (kv l (iterFromSlice [b']))
      unfold SimL Sim at h3 ⊢
      have k2 : Keep (x.pfx.refs ++ x.val.refs ++ R) h1 h2 := p2.keep.mono (by sub_tac)
      cases hv2 : (kv l (iterFromSlice [b'])).1 with
      | ok u =>
        rw [hv2] at h3
        obtain ⟨ds, h4, e4, p4, r4⟩ := h3
        obtain ⟨h5, e5, i5, k5⟩ := dropOne_specS (R := refsL ds ++ (x.pfx.refs ++ x.val.refs ++ R)) (p4.inv.mono (by cnt_tac)) (r2.keep p4.keep (reach_of_mem (by sub_tac)))
        refine ⟨ds, h5, ?_, ⟨i5, (k2.trans (p4.keep.mono (by sub_tac))).trans (k5.mono (by sub_tac))⟩, r4.keep k5 (reach_of_mem (by sub_tac))⟩
        rw [run_bind e2]; show (k cs (fromSlice [t]) >>= _) h2 = _; rw [run_bind e4, run_bind e5]; rfl
      | err u =>
        rw [hv2] at h3
        obtain ⟨ds, h4, e4, p4, r4⟩ := h3
        obtain ⟨h5, e5, i5, k5⟩ := dropOne_specS (R := refsL ds ++ (x.pfx.refs ++ x.val.refs ++ R)) (p4.inv.mono (by cnt_tac)) (r2.keep p4.keep (reach_of_mem (by sub_tac)))
        refine ⟨ds, h5, ?_, ⟨i5, (k2.trans (p4.keep.mono (by sub_tac))).trans (k5.mono (by sub_tac))⟩, r4.keep k5 (reach_of_mem (by sub_tac))⟩
        rw [run_bind e2]; show (k cs (fromSlice [t]) >>= _) h2 = _; rw [run_bind e4, run_bind e5]; rfl
      | panic => trivial
      | deep => trivial
    | err e' =>
      rw [hv] at h0
      obtain ⟨h2, e2, i2, k2⟩ := h0
      exact ⟨cs, h2, by rw [run_bind e2]; rfl, ⟨i2, k2.mono (by sub_tac)⟩, r1.keep k2 (reach_of_mem (by sub_tac))⟩
    | panic => trivial
    | deep => trivial

end

end

end Radix.Heap.Att
