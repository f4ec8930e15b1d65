import Verif.Proofs.HeapApi

/- The combinations that make a new tree out of two borrowed ones do in memory what they do on trees. -/

set_option linter.unusedVariables false

namespace Radix.Heap
open Node (nodesL nodesO)

/-! ### The loop -/

/-- The pairs of the loop, both borrowed. -/
def BorP (R : List Ref) (h : Mem) : List (Option Raw × Option Raw) → List (Option Node × Option Node) → Prop
  | [], [] => True
  | p :: ps, q :: qs => BorO R h p.1 q.1 ∧ BorO R h p.2 q.2 ∧ BorP R h ps qs
  | _, _ => False

theorem BorP.keep {R h h'} (hk : Keep R h h') : ∀ {ps qs}, BorP R h ps qs → BorP R h' ps qs
  | [], [], h1 => h1
  | p :: ps, q :: qs, h1 => ⟨h1.1.keep hk, h1.2.1.keep hk, BorP.keep hk h1.2.2⟩
  | [], _ :: _, h1 => h1.elim
  | _ :: _, [], h1 => h1.elim

theorem BorP.mono {R R' h} (hs : ∀ r ∈ R, r ∈ R') : ∀ {ps qs}, BorP R h ps qs → BorP R' h ps qs
  | [], [], h1 => h1
  | p :: ps, q :: qs, h1 => ⟨h1.1.mono hs, h1.2.1.mono hs, BorP.mono hs h1.2.2⟩
  | [], _ :: _, h1 => h1.elim
  | _ :: _, [], h1 => h1.elim

theorem RepP.borP {R h} : ∀ {ps qs}, (∀ r ∈ aRefs ps, Reach h R r) → RepP R h ps qs → BorP R h ps qs
  | [], [], _, h1 => h1
  | (oa, ob) :: ps, (ma, mb) :: qs, hr, h1 => by
    refine ⟨?_, h1.2.1, RepP.borP (fun r hx => hr r (by simp [hx])) h1.2.2⟩
    cases oa <;> cases ma <;> try exact h1.1
    exact ⟨h1.1, fun r hx => hr r (by simp [orefsR, hx])⟩
  | [], _ :: _, _, h1 => h1.elim
  | _ :: _, [], _, h1 => h1.elim

theorem joinBor_spec {R h l k xs ys} (h1 : BorL R h xs l) (h2 : BorL R h ys k) :
    ∃ ps, join xs ys h = some (ps, h) ∧ BorP R h ps (Radix.join l k) := by
  obtain ⟨ps, e, r, c⟩ := join_spec h1.1 h2
  refine ⟨ps, e, r.borP fun r hr => h1.2 r ?_⟩
  have := List.count_pos_iff.2 hr
  rw [c r] at this
  exact List.count_pos_iff.1 this

/-- A function of two borrowed nodes. -/
def NewSpec (f : Raw → Raw → H Raw) (a b r : Node) : Prop :=
  ∀ R h x y, Inv h R → Bor R h x a → Bor R h y b → ∃ z h', f x y h = some (z, h') ∧ Post R h h' z.refs ∧ Rep h' z r

/-- What one pair gives. -/
def stepN (g : Node → Node → Node) (gA gB : Node → Option Node) : Option Node × Option Node → Option Node
  | (some a, some b) => Radix.keepNonEmpty (g a b)
  | (some a, none) => gA a
  | (none, some b) => gB b
  | (none, none) => none

theorem newLoop_spec {both : Raw → Raw → H Raw} {onlyA onlyB : Raw → H (List Raw)} {g : Node → Node → Node} {gA gB : Node → Option Node} :
    ∀ (qs : List (Option Node × Option Node)), (∀ q ∈ qs, q ≠ (none, none)) → (∀ a b, (some a, some b) ∈ qs → NewSpec both a b (g a b)) →
      (∀ a, (some a, none) ∈ qs → TakeSpec onlyA a (gA a)) → (∀ b, (none, some b) ∈ qs → TakeSpec onlyB b (gB b)) →
      ∀ (R : List Ref) (h : Mem) (ps : List (Option Raw × Option Raw)), Inv h R → BorP R h ps qs →
        ∃ cs h', newLoop both onlyA onlyB ps h = some (cs, h') ∧ Post R h h' (refsL cs) ∧ RepL h' cs (qs.filterMap (stepN g gA gB)) := by
  intro qs
  induction qs with
  | nil =>
    intro h0 h1 h2 h3 R h ps hi hr
    cases ps with
    | nil => exact ⟨[], h, rfl, ⟨hi, Keep.refl _ _⟩, RepL.nil⟩
    | cons p ps => exact hr.elim
  | cons q qs ih =>
    intro h0 h1 h2 h3 R h ps hi hr
    cases ps with
    | nil => exact hr.elim
    | cons p ps =>
      obtain ⟨r1, r2, r3⟩ := hr
      -- what one step gives
      have step : ∃ (k : H (List Raw)) (zs : List Raw) (h' : Mem), (∀ g', newLoop both onlyA onlyB (p :: ps) g' = (k >>= fun k => newLoop both onlyA onlyB ps >>= fun rest => pure (k ++ rest)) g') ∧
          k h = some (zs, h') ∧ Post R h h' (refsL zs) ∧ RepL h' zs (stepN g gA gB q).toList := by
        obtain ⟨oa, ob⟩ := p
        obtain ⟨ma, mb⟩ := q
        cases oa with
        | none =>
          cases ma with
          | some _ => exact r1.elim
          | none =>
            cases ob with
            | none =>
              cases mb with
              | some _ => exact r2.elim
              | none => exact (h0 _ (by simp) rfl).elim
            | some y =>
              cases mb with
              | none => exact r2.elim
              | some b =>
                obtain ⟨zs, h', e, p1, p2⟩ := h3 b (by simp) R h y hi r2
                exact ⟨onlyB y, zs, h', fun g' => by simp only [newLoop], e, p1, p2⟩
        | some x =>
          cases ma with
          | none => exact r1.elim
          | some a =>
            cases ob with
            | none =>
              cases mb with
              | some _ => exact r2.elim
              | none =>
                obtain ⟨zs, h', e, p1, p2⟩ := h2 a (by simp) R h x hi r1
                exact ⟨onlyA x, zs, h', fun g' => by simp only [newLoop], e, p1, p2⟩
            | some y =>
              cases mb with
              | none => exact r2.elim
              | some b =>
                obtain ⟨z, h', e, p1, p2⟩ := h1 a b (by simp) R h x y hi r1 r2
                obtain ⟨zs, h'', e', p1', p2'⟩ := keepNonEmpty_spec _ R h' z p1.inv p2
                refine ⟨both x y >>= keepNonEmpty, zs, h'', fun g' => ?_, by rw [run_bind e, e'], ⟨p1'.inv, p1.keep.trans p1'.keep⟩, p2'⟩
                simp only [newLoop]
                exact congrArg (fun x => H.run x g') (H.bind_bind _ _ _).symm
      obtain ⟨k, zs, h', e0, e1, p1, p2⟩ := step
      have r4 : BorP R h' ps qs := r3.keep p1.keep
      obtain ⟨cs, h'', e2, p3, p4⟩ := ih (fun q hq => h0 q (by simp [hq])) (fun a b hab => h1 a b (by simp [hab])) (fun a ha => h2 a (by simp [ha])) (fun b hb => h3 b (by simp [hb])) (refsL zs ++ R) h' ps
        p1.inv (r4.mono (by intro r hr; simp [hr]))
      refine ⟨zs ++ cs, h'', ?_, ⟨p3.inv.mono (by cnt_tac), p1.keep.trans (p3.keep.mono (by sub_tac))⟩, ?_⟩
      · rw [e0, run_bind e1, run_bind e2]; rfl
      · have h5 : RepL h'' zs (stepN g gA gB q).toList := p2.keep p3.keep (reach_of_mem (by sub_tac))
        have h6 := h5.append p4
        rw [List.filterMap_cons]
        cases hq : stepN g gA gB q with
        | none => rw [hq] at h6; simpa using h6
        | some m => rw [hq] at h6; simpa using h6

theorem join_ne (l k : List Node) : ∀ q ∈ Radix.join l k, q ≠ (none, none) := by
  intro q hq hc
  subst hc
  fun_induction Radix.join l k with
  | case1 => simp at hq
  | case2 a as ih => simp at hq; exact ih hq
  | case3 b bs ih => simp at hq; exact ih hq
  | case4 a as b bs hlt ih => simp at hq; exact ih hq
  | case5 a as b bs hlt hgt ih => simp at hq; exact ih hq
  | case6 a as b bs hlt hgt ih => simp at hq; exact ih hq

/-- References of optional children. -/
def olRefs : Option (List Raw) → List Ref
  | some l => refsL l
  | none => []

/-- A function on the optional children of two borrowed nodes. -/
def ChNSpec (f : Option (List Raw) → Option (List Raw) → H (Option (List Raw))) (ac bc r : Option (List Node)) : Prop :=
  ∀ R h oa ob, Inv h R → OptBor R h oa ac → OptBor R h ob bc → ∃ cs h', f oa ob h = some (cs, h') ∧ Post R h h' (olRefs cs) ∧ OptRep h' cs r

theorem runNew {both : Raw → Raw → H Raw} {onlyA onlyB : Raw → H (List Raw)} {g : Node → Node → Node} {gA gB : Node → Option Node}
    {ac bc : List Node} (h1 : ∀ a b, a ∈ ac → b ∈ bc → NewSpec both a b (g a b)) (h2 : ∀ a ∈ ac, TakeSpec onlyA a (gA a))
    (h3 : ∀ b ∈ bc, TakeSpec onlyB b (gB b)) {R h xs ys} (hi : Inv h R) (hx : BorL R h xs ac) (hy : BorL R h ys bc) :
    ∃ cs h', (do let ps ← join xs ys
                 let cs ← newLoop both onlyA onlyB ps
                 return arcOpt cs : H (Option (List Raw))) h = some (cs, h') ∧ Post R h h' (olRefs cs) ∧
      OptRep h' cs (Radix.arcOpt ((Radix.join ac bc).filterMap (stepN g gA gB))) := by
  obtain ⟨ps, e, r⟩ := joinBor_spec hx hy
  obtain ⟨cs, h', e', p', r'⟩ := newLoop_spec (Radix.join ac bc) (join_ne ac bc) (fun a b hab => h1 a b (join_mem_both hab).1 (join_mem_both hab).2)
    (fun a ha => h2 a ((join_mem ha).1 a rfl).1) (fun b hb => h3 b ((join_mem hb).2.1 b rfl).1) R h ps hi r
  refine ⟨arcOpt cs, h', by rw [run_bind e, run_bind e']; rfl, ?_, ?_⟩
  · unfold arcOpt
    cases cs with
    | nil => exact p'
    | cons c cs => exact p'
  · unfold arcOpt Radix.arcOpt
    rw [r'.isEmpty]
    split
    · rfl
    · exact ⟨cs, rfl, r'⟩

theorem detachNonEmpty_spec (n : Nat) (m : Node) (hn : m.nodes ≤ n) : TakeSpec (detachNonEmpty n) m (Radix.keepNonEmpty m.detached) := by
  intro R h x hi hb
  obtain ⟨y, h1, e1, p1, r1⟩ := detached_spec n m hn R h x hi hb
  obtain ⟨zs, h2, e2, p2, r2⟩ := keepNonEmpty_spec _ R h1 y p1.inv r1
  exact ⟨zs, h2, by unfold detachNonEmpty; rw [run_bind e1, e2], ⟨p2.inv, p1.keep.trans p2.keep⟩, r2⟩

theorem detachOne_spec (n : Nat) (m : Node) (hn : m.nodes ≤ n) : TakeSpec (detachOne n) m (some m.detached) := by
  intro R h x hi hb
  obtain ⟨y, h1, e1, p1, r1⟩ := detached_spec n m hn R h x hi hb
  exact ⟨[y], h1, by unfold detachOne; rw [run_bind e1]; rfl, ⟨p1.inv.mono (by cnt_tac), p1.keep⟩, RepL.cons r1 RepL.nil⟩

theorem detachAll_spec {n : Nat} {l : List Node} (hl : l ≠ []) (hn : nodesL l ≤ n) {R h xs} (hi : Inv h R) (hx : BorL R h xs l) :
    ∃ cs h', (do return some (← mapH (Raw.detached n) xs) : H (Option (List Raw))) h = some (cs, h') ∧ Post R h h' (olRefs cs) ∧ OptRep h' cs (Node.detachedO (some l)) := by
  obtain ⟨ys, h1, e1, p1, r1⟩ := mapH_spec l (fun m hm => detached_spec n m (by have := nodes_le_of_mem hm; omega)) R h xs hi hx
  refine ⟨some ys, h1, by rw [run_bind e1]; rfl, p1, ?_⟩
  rw [detachedO_some]
  cases l with
  | nil => exact (hl rfl).elim
  | cons a l => exact ⟨ys, rfl, r1⟩

theorem loadChildren_ne (m : Node) : m.loadChildren ≠ some [] := by
  unfold Node.loadChildren
  split <;> simp_all

/-! ### The end -/

theorem setValue_spec {R h f v} (hi : Inv h (f.refs ++ R)) (hr : RepV h f v) :
    ∃ z h', setValue f h = some (z, h') ∧ Post R h h' z.refs ∧ RepV h' z v := by
  obtain ⟨z, h1, e1, p1, r1⟩ := copyValue_spec hi hr
  obtain ⟨h2, e2, i2, k2⟩ := drop_spec (R := z.refs ++ R) (p1.inv.mono (by cnt_tac)) (hr.keep p1.keep (reach_of_mem (by sub_tac)))
  exact ⟨z, h2, by unfold setValue; rw [run_bind e1, run_bind e2]; rfl, ⟨i2, (p1.keep.mono (by sub_tac)).trans (k2.mono (by sub_tac))⟩, r1.keep k2 (reach_of_mem (by sub_tac))⟩

theorem OptRep.keep {R h h' o c} (hk : Keep R h h') (hr : ∀ r ∈ olRefs o, Reach h R r) (h1 : OptRep h o c) : OptRep h' o c := by
  cases c with
  | none => exact h1
  | some l => obtain ⟨xs, rfl, h2⟩ := h1; exact ⟨xs, rfl, h2.keep hk hr⟩

theorem build_spec {R h v cs vd c} (p : Bytes) (hi : Inv h (v.refs ++ olRefs cs ++ R)) (hv : RepV h v vd) (hc : OptRep h cs c) :
    ∃ z h', build p v cs h = some (z, h') ∧ Post R h h' z.refs ∧ Rep h' z (Node.canonicalize (.mk p vd c)) := by
  obtain ⟨pf, h1, e1, p1, r1⟩ := ofData_spec p hi
  have hv1 := hv.keep p1.keep (reach_of_mem (by sub_tac))
  have hc1 := hc.keep p1.keep (reach_of_mem (by sub_tac))
  obtain ⟨vf, h2, e2, p2, r2⟩ := setValue_spec (R := pf.refs ++ olRefs cs ++ R) (p1.inv.mono (by cnt_tac)) hv1
  have hc2 := hc1.keep p2.keep (reach_of_mem (by sub_tac))
  have r1' := r1.keep p2.keep (reach_of_mem (by sub_tac))
  have k2 : Keep R h h2 := (p1.keep.mono (by sub_tac)).trans (p2.keep.mono (by sub_tac))
  have h3 : ∃ y h3, Raw.setKidsOpt ⟨pf, vf, Fld.none⟩ cs h2 = some (y, h3) ∧ Post R h2 h3 y.refs ∧ Rep h3 y (.mk p vd c) := by
    cases c with
    | none =>
      simp only [OptRep] at hc2
      subst hc2
      refine ⟨_, h2, rfl, ⟨p2.inv.mono ?_, Keep.refl _ _⟩, Rep.of r1' r2 (repC_none _)⟩
      intro r; simp only [Raw.refs, fld_none_refs, olRefs, List.count_append, List.count_nil]; omega
    | some l =>
      obtain ⟨xs, rfl, hl⟩ := hc2
      exact setKids_spec (p2.inv.mono (by intro r; simp only [olRefs, List.count_append]; omega)) r1' r2 hl
  obtain ⟨y, h3, e3, p3, r3⟩ := h3
  obtain ⟨z, h4, e4, p4, r4⟩ := canonicalize_spec p3.inv r3
  exact ⟨z, h4, by unfold build; rw [run_bind e1, run_bind e2, run_bind e3, e4], ⟨p4.inv, (k2.trans p3.keep).trans p4.keep⟩, r4⟩

/-! ### Values -/

/-- A function on the values of two borrowed nodes. -/
def OptNSpec (f : Fld → Fld → H Fld) (av bv r : Option Bytes) : Prop :=
  ∀ R h x y, Inv h R → BorV R h x av → BorV R h y bv → ∃ z h', f x y h = some (z, h') ∧ Post R h h' z.refs ∧ RepV h' z r

theorem cloneValue_spec {R h f v} (hi : Inv h R) (hb : BorV R h f v) : ∃ z h', cloneValue f h = some (z, h') ∧ Post R h h' z.refs ∧ RepV h' z v := by
  unfold cloneValue
  rw [hb.1.isSome]
  cases v with
  | none => exact ⟨Fld.none, h, rfl, ⟨hi, Keep.refl _ _⟩, repV_none _⟩
  | some d => obtain ⟨h2, e2, p2, r2⟩ := cloneV_post hi hb; exact ⟨f, h2, e2, p2, r2⟩

theorem noValue_spec {R h} (hi : Inv h R) : ∃ z h', (pure Fld.none : H Fld) h = some (z, h') ∧ Post R h h' z.refs ∧ RepV h' z none :=
  ⟨Fld.none, h, rfl, ⟨hi, Keep.refl _ _⟩, repV_none _⟩

/-- What the user function gives. -/
abbrev chF (ch : Bytes → Bytes → Choice) : Bytes → Bytes → Option Bytes := fun a b => (ch a b).apply a b

theorem outerValueNew_spec (ch : Bytes → Bytes → Choice) (av bv : Option Bytes) : OptNSpec (outerValueNew ch) av bv (outerVal (chF ch) av bv) := by
  intro R h x y hi hx hy
  unfold outerValueNew
  rw [hy.1.isSome, hx.1.isSome]
  cases bv with
  | none => exact cloneValue_spec hi hx
  | some bv =>
    cases av with
    | some av => exact newFn_spec ch hi hx hy
    | none => exact cloneValue_spec hi hy

/-- The value in `innerCombine`. -/
def innerValN (g : Bytes → Bytes → Option Bytes) (av bv : Option Bytes) : Option Bytes :=
  match bv with
  | some bv =>
    match av with
    | some av => g av bv
    | none => none
  | none => none

/-- The value in `leftCombine`. -/
def leftValN (g : Bytes → Bytes → Option Bytes) (av bv : Option Bytes) : Option Bytes :=
  match av with
  | some av =>
    match bv with
    | some bv => g av bv
    | none => some av
  | none => none

theorem innerValueNew_spec (ch : Bytes → Bytes → Choice) (av bv : Option Bytes) : OptNSpec (innerValueNew ch) av bv (innerValN (chF ch) av bv) := by
  intro R h x y hi hx hy
  unfold innerValueNew
  rw [hy.1.isSome, hx.1.isSome]
  cases bv with
  | none => cases av <;> exact noValue_spec hi
  | some bv =>
    cases av with
    | some av => exact newFn_spec ch hi hx hy
    | none => exact noValue_spec hi

theorem leftValueNew_spec (ch : Bytes → Bytes → Choice) (av bv : Option Bytes) : OptNSpec (leftValueNew ch) av bv (leftValN (chF ch) av bv) := by
  intro R h x y hi hx hy
  unfold leftValueNew
  rw [hy.1.isSome, hx.1.isSome]
  cases av with
  | none => cases bv <;> exact noValue_spec hi
  | some av =>
    cases bv with
    | some bv => exact newFn_spec ch hi hx hy
    | none => exact cloneValue_spec hi hx

/-! ### Nodes -/

theorem OptBor.mono {R R' h o c} (hs : ∀ r ∈ R, r ∈ R') (h1 : OptBor R h o c) : OptBor R' h o c := by
  cases c with
  | none => exact h1
  | some l => obtain ⟨xs, h2, h3⟩ := h1; exact ⟨xs, h2, h3.mono hs⟩

theorem OptBor.keep {R h h' o c} (h1 : OptBor R h o c) (hk : Keep R h h') : OptBor R h' o c := by
  cases c with
  | none => exact h1
  | some l => obtain ⟨xs, h2, h3⟩ := h1; exact ⟨xs, h2, h3.keep hk⟩

/-- Both prefixes are the same. -/
theorem newSame_spec {R h} {x y : Raw} {a b : Node} {V : H Fld} {F rv r} (p : Bytes)
    (hV : ∃ z h', V h = some (z, h') ∧ Post R h h' z.refs ∧ RepV h' z rv) (hF : ChNSpec F a.loadChildren b.loadChildren r)
    (hx : Bor R h x a) (hy : Bor R h y b) :
    ∃ z h', (do let v ← V
                let ac ← x.loadChildren
                let bc ← y.loadChildren
                let cs ← F ac bc
                build p v cs : H Raw) h = some (z, h') ∧ Post R h h' z.refs ∧ Rep h' z (Node.canonicalize (.mk p rv r)) := by
  obtain ⟨v, h1, e1, p1, r1⟩ := hV
  obtain ⟨oa, e2, r2⟩ := loadChildren_bor (hx.keep p1.keep)
  obtain ⟨ob, e3, r3⟩ := loadChildren_bor (hy.keep p1.keep)
  obtain ⟨cs, h4, e4, p4, r4⟩ := hF (v.refs ++ R) h1 oa ob p1.inv (r2.mono (by sub_tac)) (r3.mono (by sub_tac))
  obtain ⟨z, h5, e5, p5, r5⟩ := build_spec p (R := R) (p4.inv.mono (by cnt_tac)) (r1.keep p4.keep (reach_of_mem (by sub_tac))) r4
  exact ⟨z, h5, by rw [run_bind e1, run_bind e2, run_bind e3, run_bind e4, e5], ⟨p5.inv, (p1.keep.trans (p4.keep.mono (by sub_tac))).trans p5.keep⟩, r5⟩

/-- The children and a node. -/
theorem newRight_spec {R h} {x y : Raw} {a b : Node} {V : H Fld} {F rv r} (p : Bytes) (k : Nat)
    (hV : ∃ z h', V h = some (z, h') ∧ Post R h h' z.refs ∧ RepV h' z rv) (hF : ChNSpec F a.loadChildren (some [b.cloneShortened k]) r)
    (hx : Bor R h x a) (hy : Bor R h y b) :
    ∃ z h', (do let v ← V
                let ac ← x.loadChildren
                let t ← y.cloneShortened k
                let cs ← F ac (some [t])
                dropAll [t]
                build p v cs : H Raw) h = some (z, h') ∧ Post R h h' z.refs ∧ Rep h' z (Node.canonicalize (.mk p rv r)) := by
  obtain ⟨v, h1, e1, p1, r1⟩ := hV
  obtain ⟨oa, e2, r2⟩ := loadChildren_bor (hx.keep p1.keep)
  obtain ⟨t, h3, e3, p3, r3⟩ := cloneShortened_spec (R := v.refs ++ R) k p1.inv ((hy.keep p1.keep).mono (by sub_tac))
  obtain ⟨cs, h4, e4, p4, r4⟩ := hF (t.refs ++ (v.refs ++ R)) h3 oa (some [t]) p3.inv (((r2.mono (R' := v.refs ++ R) (by sub_tac)).keep p3.keep).mono (by sub_tac))
    ⟨[t], rfl, RepL.cons r3 RepL.nil, reach_of_mem (by sub_tac)⟩
  have r1' := (r1.keep p3.keep (reach_of_mem (by sub_tac))).keep p4.keep (reach_of_mem (by sub_tac))
  obtain ⟨h6, e6, i6, k6⟩ := dropOne_spec (R := olRefs cs ++ v.refs ++ R) (p4.inv.mono (by cnt_tac)) (r3.keep p4.keep (reach_of_mem (by sub_tac)))
  obtain ⟨z, h5, e5, p5, r5⟩ := build_spec p (R := R) (i6.mono (by cnt_tac)) (r1'.keep k6 (reach_of_mem (by sub_tac))) (r4.keep k6 (reach_of_mem (by sub_tac)))
  exact ⟨z, h5, by rw [run_bind e1, run_bind e2, run_bind e3, run_bind e4, run_bind e6, e5],
    ⟨p5.inv, (((p1.keep.trans (p3.keep.mono (by sub_tac))).trans (p4.keep.mono (by sub_tac))).trans (k6.mono (by sub_tac))).trans p5.keep⟩, r5⟩

/-- A node and the children. -/
theorem newLeft_spec {R h} {x y : Raw} {a b : Node} {V : H Fld} {F rv r} (p : Bytes) (k : Nat)
    (hV : ∃ z h', V h = some (z, h') ∧ Post R h h' z.refs ∧ RepV h' z rv) (hF : ChNSpec F (some [a.cloneShortened k]) b.loadChildren r)
    (hx : Bor R h x a) (hy : Bor R h y b) :
    ∃ z h', (do let v ← V
                let t ← x.cloneShortened k
                let bc ← y.loadChildren
                let cs ← F (some [t]) bc
                dropAll [t]
                build p v cs : H Raw) h = some (z, h') ∧ Post R h h' z.refs ∧ Rep h' z (Node.canonicalize (.mk p rv r)) := by
  obtain ⟨v, h1, e1, p1, r1⟩ := hV
  obtain ⟨t, h3, e3, p3, r3⟩ := cloneShortened_spec (R := v.refs ++ R) k p1.inv ((hx.keep p1.keep).mono (by sub_tac))
  have hy3 : Bor (t.refs ++ (v.refs ++ R)) h3 y b := (((hy.keep p1.keep).mono (R' := v.refs ++ R) (by sub_tac)).keep p3.keep).mono (by sub_tac)
  obtain ⟨ob, e2, r2⟩ := loadChildren_bor hy3
  obtain ⟨cs, h4, e4, p4, r4⟩ := hF (t.refs ++ (v.refs ++ R)) h3 (some [t]) ob p3.inv ⟨[t], rfl, RepL.cons r3 RepL.nil, reach_of_mem (by sub_tac)⟩ r2
  have r1' := (r1.keep p3.keep (reach_of_mem (by sub_tac))).keep p4.keep (reach_of_mem (by sub_tac))
  obtain ⟨h6, e6, i6, k6⟩ := dropOne_spec (R := olRefs cs ++ v.refs ++ R) (p4.inv.mono (by cnt_tac)) (r3.keep p4.keep (reach_of_mem (by sub_tac)))
  obtain ⟨z, h5, e5, p5, r5⟩ := build_spec p (R := R) (i6.mono (by cnt_tac)) (r1'.keep k6 (reach_of_mem (by sub_tac))) (r4.keep k6 (reach_of_mem (by sub_tac)))
  exact ⟨z, h5, by rw [run_bind e1, run_bind e3, run_bind e2, run_bind e4, run_bind e6, e5],
    ⟨p5.inv, (((p1.keep.trans (p3.keep.mono (by sub_tac))).trans (p4.keep.mono (by sub_tac))).trans (k6.mono (by sub_tac))).trans p5.keep⟩, r5⟩

/-! ### `outer_combine` -/

theorem outerNewChildren_spec {n ch} (hrec : ∀ a b, a.nodes + b.nodes ≤ n → NewSpec (outerCombine n ch) a b (Radix.outerCombine (chF ch) a b))
    {ac bc} (hn : nodesO ac + nodesO bc ≤ n) (ha : ac ≠ some []) (hb : bc ≠ some []) :
    ChNSpec (outerCombineChildren n ch) ac bc (Radix.outerCombineChildren (chF ch) ac bc) := by
  intro R h oa ob hi h1 h2
  cases ac with
  | none =>
    simp only [OptBor] at h1; subst h1
    cases bc with
    | none =>
      simp only [OptBor] at h2; subst h2
      simp only [outerCombineChildren, Radix.outerCombineChildren]
      exact ⟨none, h, rfl, ⟨hi, Keep.refl _ _⟩, rfl⟩
    | some bc =>
      obtain ⟨ys, rfl, hy⟩ := h2
      simp only [outerCombineChildren, Radix.outerCombineChildren]
      exact detachAll_spec (by simpa using hb) (by simp only [nodesO] at hn; omega) hi hy
  | some ac =>
    obtain ⟨xs, rfl, hx⟩ := h1
    cases bc with
    | none =>
      simp only [OptBor] at h2; subst h2
      simp only [outerCombineChildren, Radix.outerCombineChildren]
      exact detachAll_spec (by simpa using ha) (by simp only [nodesO] at hn; omega) hi hx
    | some bc =>
      obtain ⟨ys, rfl, hy⟩ := h2
      simp only [nodesO] at hn
      rw [outerCombineChildren, Radix.outerCombineChildren]
      rw [attach_filterMap_eq (g := stepN (Radix.outerCombine (chF ch)) (fun m => Radix.keepNonEmpty m.detached) (fun m => Radix.keepNonEmpty m.detached))
        _ _ (by rintro ⟨_ | a, _ | b⟩ hx <;> rfl)]
      refine runNew (fun a b ha hb => hrec a b ?_) (fun a ha => detachNonEmpty_spec _ a ?_) (fun b hb => detachNonEmpty_spec _ b ?_) hi hx hy
      · have := nodes_le_of_mem ha; have := nodes_le_of_mem hb; omega
      · have := nodes_le_of_mem ha; omega
      · have := nodes_le_of_mem hb; omega

theorem outerNew_spec (ch : Bytes → Bytes → Choice) : ∀ (n : Nat) (a b : Node), a.nodes + b.nodes ≤ n →
    NewSpec (outerCombine n ch) a b (Radix.outerCombine (chF ch) a b) := by
  intro n
  induction n with
  | zero => intro a b hn; have := nodes_pos a; omega
  | succ n ih =>
    intro a b hn R h x y hi hx hy
    have ha1 := nodesO_loadChildren a
    have hb1 := nodesO_loadChildren b
    have ha2 := loadChildren_ne a
    have hb2 := loadChildren_ne b
    rw [outerCombine.eq_def, Radix.outerCombine.eq_def]
    dsimp only
    rw [run_bind (slice_spec hx.1.pfx), run_bind (slice_spec hy.1.pfx)]
    by_cases h1 : commonPrefix a.pfx b.pfx = a.pfx.length ∧ commonPrefix a.pfx b.pfx = b.pfx.length
    · rw [if_pos h1, if_pos h1]
      exact newSame_spec _ (outerValueNew_spec ch _ _ R h _ _ hi hx.val hy.val) (outerNewChildren_spec ih (by omega) ha2 hb2) hx hy
    rw [if_neg h1, if_neg h1]
    by_cases h2 : commonPrefix a.pfx b.pfx = a.pfx.length
    · rw [if_pos h2, if_pos h2]
      exact newRight_spec _ _ (cloneValue_spec hi hx.val) (outerNewChildren_spec ih (by rw [nodesO_single, nodes_cloneShortened]; omega) ha2 (by simp)) hx hy
    rw [if_neg h2, if_neg h2]
    by_cases h3 : commonPrefix a.pfx b.pfx = b.pfx.length
    · rw [if_pos h3, if_pos h3]
      exact newLeft_spec _ _ (cloneValue_spec hi hy.val) (outerNewChildren_spec ih (by rw [nodesO_single, nodes_cloneShortened]; omega) (by simp) hb2) hx hy
    rw [if_neg h3, if_neg h3]
    obtain ⟨s, h4, e4, p4, r4⟩ := convShortened_spec (n + 1) .detach a (commonPrefix a.pfx b.pfx) (by omega) R h x hi hx
    obtain ⟨t, h5, e5, p5, r5⟩ := convShortened_spec (n + 1) .detach b (commonPrefix a.pfx b.pfx) (by omega) (s.refs ++ R) h4 y p4.inv ((hy.keep p4.keep).mono (by sub_tac))
    have r4' := r4.keep p5.keep (reach_of_mem (by sub_tac))
    rw [run_bind e4, run_bind e5, run_bind (rank_spec r4'), run_bind (rank_spec r5)]
    have k5 : Keep R h h5 := p4.keep.trans (p5.keep.mono (by sub_tac))
    have hn0 : Fld.none.refs = [] := rfl
    by_cases hlt : Node.rank (Conv.detach.nodeShortened b (commonPrefix a.pfx b.pfx)).firstByte < Node.rank (Conv.detach.nodeShortened a (commonPrefix a.pfx b.pfx)).firstByte
    · rw [if_pos hlt, if_pos hlt]
      obtain ⟨z, h6, e6, p6, r6⟩ := build_spec (a.pfx.take (commonPrefix a.pfx b.pfx)) (R := R) (h := h5) (v := Fld.none) (cs := some [t, s])
        (p5.inv.mono (by simp only [hn0, olRefs]; cnt_tac)) (repV_none _) (c := some [_, _]) ⟨_, rfl, RepL.cons r5 (RepL.cons r4' RepL.nil)⟩
      exact ⟨z, h6, e6, ⟨p6.inv, k5.trans p6.keep⟩, r6⟩
    · rw [if_neg hlt, if_neg hlt]
      obtain ⟨z, h6, e6, p6, r6⟩ := build_spec (a.pfx.take (commonPrefix a.pfx b.pfx)) (R := R) (h := h5) (v := Fld.none) (cs := some [s, t])
        (p5.inv.mono (by simp only [hn0, olRefs]; cnt_tac)) (repV_none _) (c := some [_, _]) ⟨_, rfl, RepL.cons r4' (RepL.cons r5 RepL.nil)⟩
      exact ⟨z, h6, e6, ⟨p6.inv, k5.trans p6.keep⟩, r6⟩

/-! ### `inner_combine` -/

theorem innerNewChildren_spec {n ch} (hrec : ∀ a b, a.nodes + b.nodes ≤ n → NewSpec (innerCombine n ch) a b (Radix.innerCombine (chF ch) a b))
    {ac bc} (hn : nodesO ac + nodesO bc ≤ n) :
    ChNSpec (innerCombineChildren n ch) ac bc (Radix.innerCombineChildren (chF ch) ac bc) := by
  intro R h oa ob hi h1 h2
  cases ac with
  | none =>
    simp only [OptBor] at h1; subst h1
    simp only [innerCombineChildren, Radix.innerCombineChildren]
    exact ⟨none, h, rfl, ⟨hi, Keep.refl _ _⟩, rfl⟩
  | some ac =>
    obtain ⟨xs, rfl, hx⟩ := h1
    cases bc with
    | none =>
      simp only [OptBor] at h2; subst h2
      simp only [innerCombineChildren, Radix.innerCombineChildren]
      exact ⟨none, h, rfl, ⟨hi, Keep.refl _ _⟩, rfl⟩
    | some bc =>
      obtain ⟨ys, rfl, hy⟩ := h2
      simp only [nodesO] at hn
      rw [innerCombineChildren, Radix.innerCombineChildren]
      rw [attach_filterMap_eq (g := stepN (Radix.innerCombine (chF ch)) (fun m => none) (fun m => none))
        _ _ (by rintro ⟨_ | a, _ | b⟩ hx <;> rfl)]
      refine runNew (fun a b ha hb => hrec a b ?_) (fun a ha => skipIt_spec a) (fun b hb => skipIt_spec b) hi hx hy
      have := nodes_le_of_mem ha; have := nodes_le_of_mem hb; omega

theorem innerNew_spec (ch : Bytes → Bytes → Choice) : ∀ (n : Nat) (a b : Node), a.nodes + b.nodes ≤ n →
    NewSpec (innerCombine n ch) a b (Radix.innerCombine (chF ch) a b) := by
  intro n
  induction n with
  | zero => intro a b hn; have := nodes_pos a; omega
  | succ n ih =>
    intro a b hn R h x y hi hx hy
    have ha1 := nodesO_loadChildren a
    have hb1 := nodesO_loadChildren b
    rw [innerCombine.eq_def, Radix.innerCombine.eq_def]
    dsimp only
    rw [run_bind (slice_spec hx.1.pfx), run_bind (slice_spec hy.1.pfx)]
    by_cases h1 : commonPrefix a.pfx b.pfx = a.pfx.length ∧ commonPrefix a.pfx b.pfx = b.pfx.length
    · rw [if_pos h1, if_pos h1]
      exact newSame_spec _ (innerValueNew_spec ch _ _ R h _ _ hi hx.val hy.val) (innerNewChildren_spec ih (by omega)) hx hy
    rw [if_neg h1, if_neg h1]
    by_cases h2 : commonPrefix a.pfx b.pfx = a.pfx.length
    · rw [if_pos h2, if_pos h2]
      have := newRight_spec (a.pfx.take (commonPrefix a.pfx b.pfx)) _ (noValue_spec hi) (innerNewChildren_spec ih (ac := a.loadChildren) (bc := some [b.cloneShortened (commonPrefix a.pfx b.pfx)])
        (by rw [nodesO_single, nodes_cloneShortened]; omega)) hx hy
      exact this
    rw [if_neg h2, if_neg h2]
    by_cases h3 : commonPrefix a.pfx b.pfx = b.pfx.length
    · rw [if_pos h3, if_pos h3]
      have := newLeft_spec (a.pfx.take (commonPrefix a.pfx b.pfx)) _ (noValue_spec hi) (innerNewChildren_spec ih (ac := some [a.cloneShortened (commonPrefix a.pfx b.pfx)]) (bc := b.loadChildren)
        (by rw [nodesO_single, nodes_cloneShortened]; omega)) hx hy
      exact this
    rw [if_neg h3, if_neg h3]
    exact build_spec (cs := none) _ hi (repV_none _) rfl

/-! ### `left_combine` -/

theorem leftNewChildren_spec {n ch} (hrec : ∀ a b, a.nodes + b.nodes ≤ n → NewSpec (leftCombine n ch) a b (Radix.leftCombine (chF ch) a b))
    {ac bc} (hn : nodesO ac + nodesO bc ≤ n) (ha : ac ≠ some []) :
    ChNSpec (leftCombineChildren n ch) ac bc (Radix.leftCombineChildren (chF ch) ac bc) := by
  intro R h oa ob hi h1 h2
  cases ac with
  | none =>
    simp only [OptBor] at h1; subst h1
    simp only [leftCombineChildren, Radix.leftCombineChildren]
    exact ⟨none, h, rfl, ⟨hi, Keep.refl _ _⟩, rfl⟩
  | some ac =>
    obtain ⟨xs, rfl, hx⟩ := h1
    cases bc with
    | none =>
      simp only [OptBor] at h2; subst h2
      simp only [leftCombineChildren, Radix.leftCombineChildren]
      exact detachAll_spec (by simpa using ha) (by simp only [nodesO] at hn; omega) hi hx
    | some bc =>
      obtain ⟨ys, rfl, hy⟩ := h2
      simp only [nodesO] at hn
      rw [leftCombineChildren, Radix.leftCombineChildren]
      rw [attach_filterMap_eq (g := stepN (Radix.leftCombine (chF ch)) (fun m => some m.detached) (fun m => none))
        _ _ (by rintro ⟨_ | a, _ | b⟩ hx <;> rfl)]
      refine runNew (fun a b ha hb => hrec a b ?_) (fun a ha => detachOne_spec _ a ?_) (fun b hb => skipIt_spec b) hi hx hy
      · have := nodes_le_of_mem ha; have := nodes_le_of_mem hb; omega
      · have := nodes_le_of_mem ha; omega

theorem leftNew_spec (ch : Bytes → Bytes → Choice) : ∀ (n : Nat) (a b : Node), a.nodes + b.nodes ≤ n →
    NewSpec (leftCombine n ch) a b (Radix.leftCombine (chF ch) a b) := by
  intro n
  induction n with
  | zero => intro a b hn; have := nodes_pos a; omega
  | succ n ih =>
    intro a b hn R h x y hi hx hy
    have ha1 := nodesO_loadChildren a
    have hb1 := nodesO_loadChildren b
    have ha2 := loadChildren_ne a
    rw [leftCombine.eq_def, Radix.leftCombine.eq_def]
    dsimp only
    rw [run_bind (slice_spec hx.1.pfx), run_bind (slice_spec hy.1.pfx)]
    by_cases h1 : commonPrefix a.pfx b.pfx = a.pfx.length ∧ commonPrefix a.pfx b.pfx = b.pfx.length
    · rw [if_pos h1, if_pos h1]
      exact newSame_spec _ (leftValueNew_spec ch _ _ R h _ _ hi hx.val hy.val) (leftNewChildren_spec ih (by omega) ha2) hx hy
    rw [if_neg h1, if_neg h1]
    by_cases h2 : commonPrefix a.pfx b.pfx = a.pfx.length
    · rw [if_pos h2, if_pos h2]
      exact newRight_spec _ _ (cloneValue_spec hi hx.val) (leftNewChildren_spec ih (by rw [nodesO_single, nodes_cloneShortened]; omega) ha2) hx hy
    rw [if_neg h2, if_neg h2]
    by_cases h3 : commonPrefix a.pfx b.pfx = b.pfx.length
    · rw [if_pos h3, if_pos h3]
      have := newLeft_spec (a.pfx.take (commonPrefix a.pfx b.pfx)) _ (noValue_spec hi) (leftNewChildren_spec ih (ac := some [a.cloneShortened (commonPrefix a.pfx b.pfx)]) (bc := b.loadChildren)
        (by rw [nodesO_single, nodes_cloneShortened]; omega) (by simp)) hx hy
      exact this
    rw [if_neg h3, if_neg h3]
    exact detached_spec (n + 1) a (by omega) R h x hi hx

/-! ### Predicates -/

/-- A test of two borrowed nodes. -/
def PredSpec (f : Raw → Raw → H Bool) (a b : Node) (r : Bool) : Prop :=
  ∀ R h x y, Inv h R → Bor R h x a → Bor R h y b → ∃ h', f x y h = some (r, h') ∧ Inv h' R ∧ Keep R h h'

theorem anyH_spec {f : Raw → H Bool} {g : Node → Bool} {Q : List Ref} : ∀ (l : List Node) (xs : List Raw) (h : Mem), Inv h Q → BorL Q h xs l →
    (∀ m ∈ l, ∀ h' x, Inv h' Q → Keep Q h h' → Bor Q h' x m → ∃ h'', f x h' = some (g m, h'') ∧ Inv h'' Q ∧ Keep Q h' h'') →
    ∃ h', anyH f xs h = some (l.any g, h') ∧ Inv h' Q ∧ Keep Q h h'
  | [], xs, h, hi, hb, _ => by rw [BorL.nil_iff] at hb; subst hb; exact ⟨h, rfl, hi, Keep.refl _ _⟩
  | m :: l, xs, h, hi, hb, hf => by
    obtain ⟨y, ys, rfl, h1, h2⟩ := BorL.cons_iff.1 hb
    obtain ⟨h', e1, i1, k1⟩ := hf m (by simp) h y hi (Keep.refl _ _) h1
    unfold anyH
    rw [run_bind e1]
    cases hg : g m with
    | true => exact ⟨h', by simp [hg]; rfl, i1, k1⟩
    | false =>
      obtain ⟨h2', e2, i2, k2⟩ := anyH_spec l ys h' i1 (h2.keep k1) (fun m hm h'' x a b c => hf m (by simp [hm]) h'' x a (k1.trans b) c)
      exact ⟨h2', by simp only [Bool.false_eq_true, if_false, List.any_cons, hg, Bool.false_or]; exact e2, i2, k1.trans k2⟩

/-- What one pair gives. -/
def stepT (g : Node → Node → Bool) (onlyA : Bool) : Option Node × Option Node → Bool
  | (some a, some b) => g a b
  | (some _, none) => onlyA
  | _ => false

theorem anyPairs_spec {f : Raw → Raw → H Bool} {g : Node → Node → Bool} {onlyA : Bool} {R : List Ref} : ∀ (qs : List (Option Node × Option Node)) (ps : List (Option Raw × Option Raw)) (h : Mem),
    (∀ a b, (some a, some b) ∈ qs → PredSpec f a b (g a b)) → Inv h R → BorP R h ps qs →
    ∃ h', anyPairs f onlyA ps h = some (qs.any (stepT g onlyA), h') ∧ Inv h' R ∧ Keep R h h'
  | [], [], h, _, hi, _ => ⟨h, rfl, hi, Keep.refl _ _⟩
  | [], _ :: _, h, _, hi, hb => hb.elim
  | _ :: _, [], h, _, hi, hb => hb.elim
  | (ma, mb) :: qs, (oa, ob) :: ps, h, hf, hi, hb => by
    obtain ⟨h1, h2, h3⟩ := hb
    have rest : ∀ h', Inv h' R → Keep R h h' → ∃ h'', anyPairs f onlyA ps h' = some (qs.any (stepT g onlyA), h'') ∧ Inv h'' R ∧ Keep R h h'' := by
      intro h' i k
      obtain ⟨h'', e, i', k'⟩ := anyPairs_spec qs ps h' (fun a b hab => hf a b (by simp [hab])) i (h3.keep k)
      exact ⟨h'', e, i', k.trans k'⟩
    cases oa with
    | none =>
      cases ma with
      | some _ => exact h1.elim
      | none =>
        obtain ⟨h'', e, i, k⟩ := rest h hi (Keep.refl _ _)
        exact ⟨h'', by simp only [anyPairs, List.any_cons, stepT, Bool.false_or]; exact e, i, k⟩
    | some x =>
      cases ma with
      | none => exact h1.elim
      | some a =>
        cases ob with
        | none =>
          cases mb with
          | some _ => exact h2.elim
          | none =>
            simp only [anyPairs, List.any_cons, stepT]
            cases onlyA with
            | true => exact ⟨h, rfl, hi, Keep.refl _ _⟩
            | false => obtain ⟨h'', e, i, k⟩ := rest h hi (Keep.refl _ _); exact ⟨h'', e, i, k⟩
        | some y =>
          cases mb with
          | none => exact h2.elim
          | some b =>
            obtain ⟨h', e1, i1, k1⟩ := hf a b (by simp) R h x y hi h1 h2
            simp only [anyPairs, List.any_cons, stepT]
            rw [run_bind e1]
            cases hg : g a b with
            | true => exact ⟨h', rfl, i1, k1⟩
            | false => obtain ⟨h'', e, i, k⟩ := rest h' i1 k1; exact ⟨h'', e, i, k⟩

/-- The test of two values of `inner_combine_pred`. -/
def tvalI (f : Bytes → Bytes → Bool) (av bv : Option Bytes) : Bool :=
  match av, bv with | some av, some bv => f av bv | _, _ => false

/-- The test of two values of `left_combine_pred`. -/
def tvalL (f : Bytes → Bytes → Bool) (av bv : Option Bytes) : Bool :=
  match av, bv with
  | some av, some bv => f av bv
  | some _, none => true
  | _, _ => false

theorem testValues_spec {R h x y av bv} (f : Bytes → Bytes → Bool) (onlyA : Bool) (hx : BorV R h x av) (hy : BorV R h y bv) :
    testValues f onlyA x y h = some (if onlyA then tvalL f av bv else tvalI f av bv, h) := by
  unfold testValues
  rw [hx.1.isSome, hy.1.isSome]
  cases av with
  | none => cases onlyA <;> rfl
  | some av =>
    cases bv with
    | none => cases onlyA <;> rfl
    | some bv =>
      simp only [Option.isSome_some, if_true]
      rw [run_bind (slice_spec hx.1), run_bind (slice_spec hy.1)]; cases onlyA <;> rfl

/-- A test of the children of two borrowed nodes. -/
def ChPSpec (f : Option (List Raw) → Option (List Raw) → H Bool) (ac bc : Option (List Node)) (r : Bool) : Prop :=
  ∀ R h oa ob, Inv h R → OptBor R h oa ac → OptBor R h ob bc → ∃ h', f oa ob h = some (r, h') ∧ Inv h' R ∧ Keep R h h'

theorem predKids_spec {R h} {x y : Raw} {a b : Node} {F r} (hF : ChPSpec F a.loadChildren b.loadChildren r) (hi : Inv h R) (hx : Bor R h x a) (hy : Bor R h y b) :
    ∃ h', (do let ac ← x.loadChildren
              let bc ← y.loadChildren
              F ac bc : H Bool) h = some (r, h') ∧ Inv h' R ∧ Keep R h h' := by
  obtain ⟨oa, e2, r2⟩ := loadChildren_bor hx
  obtain ⟨ob, e3, r3⟩ := loadChildren_bor hy
  rw [run_bind e2, run_bind e3]
  exact hF R h oa ob hi r2 r3

theorem runPred {f : Raw → Raw → H Bool} {g : Node → Node → Bool} {onlyA : Bool} {ac bc : List Node} (h1 : ∀ a b, a ∈ ac → b ∈ bc → PredSpec f a b (g a b))
    {R h xs ys} (hi : Inv h R) (hx : BorL R h xs ac) (hy : BorL R h ys bc) :
    ∃ h', (do let ps ← join xs ys
              anyPairs f onlyA ps : H Bool) h = some ((Radix.join ac bc).any (stepT g onlyA), h') ∧ Inv h' R ∧ Keep R h h' := by
  obtain ⟨ps, e, r⟩ := joinBor_spec hx hy
  rw [run_bind e]
  exact anyPairs_spec (Radix.join ac bc) ps h (fun a b hab => h1 a b (join_mem_both hab).1 (join_mem_both hab).2) hi r

theorem innerPredChildren_spec {n f} (hrec : ∀ a b, a.nodes + b.nodes ≤ n → PredSpec (innerCombinePred n f) a b (Radix.innerCombinePred f a b))
    {ac bc} (hn : nodesO ac + nodesO bc ≤ n) : ChPSpec (innerCombineChildrenPred n f) ac bc (Radix.innerCombineChildrenPred f ac bc) := by
  intro R h oa ob hi h1 h2
  cases ac with
  | none =>
    simp only [OptBor] at h1; subst h1
    simp only [innerCombineChildrenPred, Radix.innerCombineChildrenPred]
    exact ⟨h, rfl, hi, Keep.refl _ _⟩
  | some ac =>
    obtain ⟨xs, rfl, hx⟩ := h1
    cases bc with
    | none =>
      simp only [OptBor] at h2; subst h2
      simp only [innerCombineChildrenPred, Radix.innerCombineChildrenPred]
      exact ⟨h, rfl, hi, Keep.refl _ _⟩
    | some bc =>
      obtain ⟨ys, rfl, hy⟩ := h2
      simp only [nodesO] at hn
      rw [innerCombineChildrenPred, Radix.innerCombineChildrenPred]
      rw [attach_any_eq (g := stepT (Radix.innerCombinePred f) false) _ _ (by rintro ⟨_ | a, _ | b⟩ hx <;> rfl)]
      refine runPred (fun a b ha hb => hrec a b ?_) hi hx hy
      have := nodes_le_of_mem ha; have := nodes_le_of_mem hb; omega

theorem leftPredChildren_spec {n f} (hrec : ∀ a b, a.nodes + b.nodes ≤ n → PredSpec (leftCombinePred n f) a b (Radix.leftCombinePred f a b))
    {ac bc} (hn : nodesO ac + nodesO bc ≤ n) : ChPSpec (leftCombineChildrenPred n f) ac bc (Radix.leftCombineChildrenPred f ac bc) := by
  intro R h oa ob hi h1 h2
  cases ac with
  | none =>
    simp only [OptBor] at h1; subst h1
    simp only [leftCombineChildrenPred, Radix.leftCombineChildrenPred]
    exact ⟨h, rfl, hi, Keep.refl _ _⟩
  | some ac =>
    obtain ⟨xs, rfl, hx⟩ := h1
    cases bc with
    | none =>
      simp only [OptBor] at h2; subst h2
      simp only [leftCombineChildrenPred, Radix.leftCombineChildrenPred]
      exact ⟨h, rfl, hi, Keep.refl _ _⟩
    | some bc =>
      obtain ⟨ys, rfl, hy⟩ := h2
      simp only [nodesO] at hn
      rw [leftCombineChildrenPred, Radix.leftCombineChildrenPred]
      rw [attach_any_eq (g := stepT (Radix.leftCombinePred f) true) _ _ (by rintro ⟨_ | a, _ | b⟩ hx <;> rfl)]
      refine runPred (fun a b ha hb => hrec a b ?_) hi hx hy
      have := nodes_le_of_mem ha; have := nodes_le_of_mem hb; omega

theorem optBor_getD {R h o c} (h1 : OptBor R h o c) : BorL R h (o.getD []) (c.getD []) := by
  cases c with
  | none => simp only [OptBor] at h1; subst h1; exact BorL.nil_iff.2 rfl
  | some l => obtain ⟨xs, rfl, h2⟩ := h1; exact h2

theorem optBor_one {R h x m} (h1 : Bor R h x m) : OptBor R h (some [x]) (some [m]) := ⟨[x], rfl, BorL.cons_iff.2 ⟨x, [], rfl, h1, BorL.nil_iff.2 rfl⟩⟩

theorem innerPred_spec (f : Bytes → Bytes → Bool) : ∀ (n : Nat) (a b : Node), a.nodes + b.nodes ≤ n →
    PredSpec (innerCombinePred n f) a b (Radix.innerCombinePred f a b) := by
  intro n
  induction n with
  | zero => intro a b hn; have := nodes_pos a; omega
  | succ n ih =>
    intro a b hn R h x y hi hx hy
    have ha1 := nodesO_loadChildren a
    have hb1 := nodesO_loadChildren b
    rw [innerCombinePred.eq_def, Radix.innerCombinePred.eq_def]
    dsimp only
    rw [run_bind (slice_spec hx.1.pfx), run_bind (slice_spec hy.1.pfx)]
    by_cases h1 : commonPrefix a.pfx b.pfx = a.pfx.length ∧ commonPrefix a.pfx b.pfx = b.pfx.length
    · rw [if_pos h1, if_pos h1, run_bind (testValues_spec f false hx.val hy.val)]
      simp only [Bool.false_eq_true, if_false]
      show ∃ h', (if tvalI f a.val b.val = true then _ else _ : H Bool) h = some ((if tvalI f a.val b.val = true then _ else _), h') ∧ _
      split
      · exact ⟨h, rfl, hi, Keep.refl _ _⟩
      · exact predKids_spec (innerPredChildren_spec ih (by omega)) hi hx hy
    rw [if_neg h1, if_neg h1]
    by_cases h2 : commonPrefix a.pfx b.pfx = a.pfx.length
    · rw [if_pos h2, if_pos h2]
      obtain ⟨t, h3, e3, p3, r3⟩ := cloneShortened_spec (commonPrefix a.pfx b.pfx) hi hy
      obtain ⟨oa, e4, r4⟩ := loadChildren_bor (hx.keep p3.keep)
      have b3 : Bor (t.refs ++ R) h3 t (b.cloneShortened (commonPrefix a.pfx b.pfx)) := ⟨r3, reach_of_mem (by sub_tac)⟩
      obtain ⟨h5, e5, i5, k5⟩ := anyH_spec (f := fun z => innerCombinePred n f z t) (g := fun z => Radix.innerCombinePred f z (b.cloneShortened (commonPrefix a.pfx b.pfx))) _ _ h3 p3.inv (optBor_getD (r4.mono (by sub_tac))) (by
        intro m hm h' z i' k' bz
        refine ih m _ ?_ _ h' z t i' bz (b3.keep k')
        rw [nodes_cloneShortened]
        cases hl : a.loadChildren with
        | none => rw [hl] at hm; simp at hm
        | some l => rw [hl] at hm ha1; have := nodes_le_of_mem hm; simp only [nodesO] at ha1; simp only [Option.getD_some] at this; omega)
      obtain ⟨h6, e6, i6, k6⟩ := dropOne_spec i5 (b3.keep k5).1
      rw [run_bind e3, run_bind e4, run_bind e5, run_bind e6]
      refine ⟨h6, ?_, i6, (p3.keep.trans (k5.mono (by sub_tac))).trans k6⟩
      split
      · rename_i l hl
        rw [hl, Option.getD_some, attach_any_eq (g := fun z => Radix.innerCombinePred f z (b.cloneShortened (commonPrefix a.pfx b.pfx))) _ _ (fun _ _ => rfl)]; rfl
      · rename_i hl
        rw [hl]; rfl
    rw [if_neg h2, if_neg h2]
    by_cases h3 : commonPrefix a.pfx b.pfx = b.pfx.length
    · rw [if_pos h3, if_pos h3]
      obtain ⟨t, h3, e3, p3, r3⟩ := cloneShortened_spec (commonPrefix a.pfx b.pfx) hi hx
      obtain ⟨oa, e4, r4⟩ := loadChildren_bor (hy.keep p3.keep)
      have b3 : Bor (t.refs ++ R) h3 t (a.cloneShortened (commonPrefix a.pfx b.pfx)) := ⟨r3, reach_of_mem (by sub_tac)⟩
      obtain ⟨h5, e5, i5, k5⟩ := anyH_spec (f := fun z => innerCombinePred n f t z) (g := fun z => Radix.innerCombinePred f (a.cloneShortened (commonPrefix a.pfx b.pfx)) z) _ _ h3 p3.inv (optBor_getD (r4.mono (by sub_tac))) (by
        intro m hm h' z i' k' bz
        refine ih _ m ?_ _ h' t z i' (b3.keep k') bz
        rw [nodes_cloneShortened]
        cases hl : b.loadChildren with
        | none => rw [hl] at hm; simp at hm
        | some l => rw [hl] at hm hb1; have := nodes_le_of_mem hm; simp only [nodesO] at hb1; simp only [Option.getD_some] at this; omega)
      obtain ⟨h6, e6, i6, k6⟩ := dropOne_spec i5 (b3.keep k5).1
      rw [run_bind e3, run_bind e4, run_bind e5, run_bind e6]
      refine ⟨h6, ?_, i6, (p3.keep.trans (k5.mono (by sub_tac))).trans k6⟩
      split
      · rename_i l hl
        rw [hl, Option.getD_some, attach_any_eq (g := fun z => Radix.innerCombinePred f (a.cloneShortened (commonPrefix a.pfx b.pfx)) z) _ _ (fun _ _ => rfl)]; rfl
      · rename_i hl
        rw [hl]; rfl
    rw [if_neg h3, if_neg h3]
    exact ⟨h, rfl, hi, Keep.refl _ _⟩

theorem leftPred_spec (f : Bytes → Bytes → Bool) : ∀ (n : Nat) (a b : Node), a.nodes + b.nodes ≤ n →
    PredSpec (leftCombinePred n f) a b (Radix.leftCombinePred f a b) := by
  intro n
  induction n with
  | zero => intro a b hn; have := nodes_pos a; omega
  | succ n ih =>
    intro a b hn R h x y hi hx hy
    have ha1 := nodesO_loadChildren a
    have hb1 := nodesO_loadChildren b
    rw [leftCombinePred.eq_def, Radix.leftCombinePred.eq_def]
    dsimp only
    rw [run_bind (slice_spec hx.1.pfx), run_bind (slice_spec hy.1.pfx)]
    by_cases h1 : commonPrefix a.pfx b.pfx = a.pfx.length ∧ commonPrefix a.pfx b.pfx = b.pfx.length
    · rw [if_pos h1, if_pos h1, run_bind (testValues_spec f true hx.val hy.val)]
      simp only [if_true]
      show ∃ h', (if tvalL f a.val b.val = true then _ else _ : H Bool) h = some ((if tvalL f a.val b.val = true then _ else _), h') ∧ _
      split
      · exact ⟨h, rfl, hi, Keep.refl _ _⟩
      · exact predKids_spec (leftPredChildren_spec ih (by omega)) hi hx hy
    rw [if_neg h1, if_neg h1]
    by_cases h2 : commonPrefix a.pfx b.pfx = a.pfx.length
    · rw [if_pos h2, if_pos h2, hx.val.1.isSome]
      split
      · exact ⟨h, rfl, hi, Keep.refl _ _⟩
      obtain ⟨t, h3, e3, p3, r3⟩ := cloneShortened_spec (commonPrefix a.pfx b.pfx) hi hy
      obtain ⟨oa, e4, r4⟩ := loadChildren_bor hx
      have b3 : Bor (t.refs ++ R) h3 t (b.cloneShortened (commonPrefix a.pfx b.pfx)) := ⟨r3, reach_of_mem (by sub_tac)⟩
      obtain ⟨h5, e5, i5, k5⟩ := leftPredChildren_spec ih (ac := a.loadChildren) (bc := some [b.cloneShortened (commonPrefix a.pfx b.pfx)])
        (by rw [nodesO_single, nodes_cloneShortened]; omega) (t.refs ++ R) h3 oa (some [t]) p3.inv ((r4.keep p3.keep).mono (by sub_tac)) (optBor_one b3)
      obtain ⟨h6, e6, i6, k6⟩ := dropOne_spec i5 (b3.keep k5).1
      exact ⟨h6, by rw [run_bind e4, run_bind e3, run_bind e5, run_bind e6]; rfl, i6, (p3.keep.trans (k5.mono (by sub_tac))).trans k6⟩
    rw [if_neg h2, if_neg h2]
    by_cases h3 : commonPrefix a.pfx b.pfx = b.pfx.length
    · rw [if_pos h3, if_pos h3]
      obtain ⟨t, h3, e3, p3, r3⟩ := cloneShortened_spec (commonPrefix a.pfx b.pfx) hi hx
      obtain ⟨oa, e4, r4⟩ := loadChildren_bor (hy.keep p3.keep)
      have b3 : Bor (t.refs ++ R) h3 t (a.cloneShortened (commonPrefix a.pfx b.pfx)) := ⟨r3, reach_of_mem (by sub_tac)⟩
      obtain ⟨h5, e5, i5, k5⟩ := leftPredChildren_spec ih (ac := some [a.cloneShortened (commonPrefix a.pfx b.pfx)]) (bc := b.loadChildren)
        (by rw [nodesO_single, nodes_cloneShortened]; omega) (t.refs ++ R) h3 (some [t]) oa p3.inv (optBor_one b3) (r4.mono (by sub_tac))
      obtain ⟨h6, e6, i6, k6⟩ := dropOne_spec i5 (b3.keep k5).1
      exact ⟨h6, by rw [run_bind e3, run_bind e4, run_bind e5, run_bind e6]; rfl, i6, (p3.keep.trans (k5.mono (by sub_tac))).trans k6⟩
    rw [if_neg h3, if_neg h3]
    exact ⟨h, rfl, hi, Keep.refl _ _⟩

/-! ### First and last values -/

theorem firstValue_spec : ∀ (n : Nat) (m : Node) (x : Raw) (R : List Ref) (h : Mem), m.nodes ≤ n → Inv h R → Bor R h x m →
    ∃ o h', firstValue n x h = some (o, h') ∧ Post R h h' (ovRefs o) ∧ RepOV h' o (Radix.firstValue m) := by
  intro n
  induction n with
  | zero => intro m x R h hn; have := nodes_pos m; omega
  | succ n ih =>
    intro m x R h hn hi hb
    rw [Radix.firstValue]
    unfold firstValue
    obtain ⟨o, h1, e1, p1, r1, s1⟩ := ownedValue_spec hi hb.val
    rw [run_bind e1]
    cases hv : m.val with
    | some d =>
      rw [hv] at r1
      cases o with
      | none => exact r1.elim
      | some f => exact ⟨_, h1, rfl, p1, r1⟩
    | none =>
      rw [hv] at r1
      cases o with
      | some f => exact r1.elim
      | none =>
        dsimp only
        have hb1 := hb.keep p1.keep
        obtain ⟨o, e, ho⟩ := loadChildren_bor hb1
        have hno := nodesO_loadChildren m
        have p1i : Inv h1 R := p1.inv
        split
        · rename_i c l hl
          rw [hl] at ho hno
          obtain ⟨xs, rfl, hxs⟩ := ho
          obtain ⟨y, ys, rfl, hy, _⟩ := BorL.cons_iff.1 hxs
          rw [run_bind e]
          dsimp only
          simp only [Node.nodesO, Node.nodesL] at hno
          obtain ⟨o, h', e', p', r'⟩ := ih c y R h1 (by omega) p1i hy
          exact ⟨o, h', e', ⟨p'.inv, p1.keep.trans p'.keep⟩, r'⟩
        · rename_i hl
          rw [run_bind e]
          cases o with
          | none => exact ⟨none, h1, rfl, p1, trivial⟩
          | some xs =>
            cases xs with
            | nil => exact ⟨none, h1, rfl, p1, trivial⟩
            | cons y ys =>
              exfalso
              cases hl2 : m.loadChildren with
              | none => rw [hl2] at ho; cases ho
              | some l =>
                rw [hl2] at ho
                obtain ⟨_, e2, hxs⟩ := ho
                cases e2
                cases l with
                | nil => have := BorL.nil_iff.1 hxs; cases this
                | cons c l => exact hl c l hl2

theorem lastValue_spec : ∀ (n : Nat) (m : Node) (x : Raw) (R : List Ref) (h : Mem), m.nodes ≤ n → Inv h R → Bor R h x m →
    ∃ o h', lastValue n x h = some (o, h') ∧ Post R h h' (ovRefs o) ∧ RepOV h' o (Radix.lastValue m) := by
  intro n
  induction n with
  | zero => intro m x R h hn; have := nodes_pos m; omega
  | succ n ih =>
    intro m x R h hn hi hb
    rw [Radix.lastValue]
    unfold lastValue
    obtain ⟨o, e, ho⟩ := loadChildren_bor hb
    have hno := nodesO_loadChildren m
    split
    · rename_i cs hl
      rw [hl] at ho hno
      obtain ⟨xs, rfl, hxs⟩ := ho
      have hg := hxs.get (xs.length - 1)
      rw [hxs.1.length] at hg
      rw [← hxs.1.length, ← List.getLast?_eq_getElem?, hxs.1.length, ← List.getLast?_eq_getElem?] at hg
      split
      · rename_i c hl2
        rw [hl2] at hg
        rw [run_bind e]
        dsimp only
        have h5 := nodes_le_of_mem (List.mem_of_getLast? hl2)
        simp only [Node.nodesO] at hno
        cases hx : xs.getLast? with
        | none => rw [hx] at hg; exact hg.elim
        | some y =>
          rw [hx] at hg
          exact ih c y R h (by omega) hi hg
      · rename_i hl2
        rw [hl2] at hg
        cases hx : xs.getLast? with
        | none => exact ⟨none, h, by rw [run_bind e]; dsimp only; rw [hx]; rfl, ⟨hi, Keep.refl _ _⟩, trivial⟩
        | some y => rw [hx] at hg; exact hg.elim
    · rename_i hl
      rw [hl] at ho
      cases ho
      rw [run_bind e]
      dsimp only
      obtain ⟨o, h1, e1, p1, r1, s1⟩ := ownedValue_spec hi hb.val
      exact ⟨o, h1, e1, p1, r1⟩

/-! ### Equality and `is_leaf` -/

theorem sliceV_spec {h f v} (hr : RepV h f v) : f.slice h = some (v.getD [], h) := by
  cases v with
  | some d => exact slice_spec hr
  | none =>
    obtain ⟨e, b, hb⟩ := hr
    unfold Fld.slice
    rw [e, hb]
    rfl

theorem Rep.isLeaf {h x m} (hr : Rep h x m) : x.isLeaf = m.isLeaf := by
  unfold Raw.isLeaf Node.isLeaf
  rcases hr.ch.refs with ⟨q1, q0, _⟩ | ⟨q1, a, ys, l, q2, _⟩
  · rw [q1, q0]; decide +kernel
  · rw [q1, q2, hdr_arc_ne_none]; rfl

theorem nodeEqL_spec {n} {h : Mem} (hrec : ∀ a b : Node, a.nodes ≤ n → ∀ x y, Rep h x a → Rep h y b → nodeEq n x y h = some (Radix.nodeEq a b, h)) :
    ∀ (l k : List Node) (xs ys : List Raw), nodesL l ≤ n → RepL h xs l → RepL h ys k → nodeEqL n xs ys h = some (Radix.nodeEqL l k, h)
  | [], [], xs, ys, _, hx, hy => by
    simp only [RepL] at hx hy; subst hx; subst hy
    rw [nodeEqL]; rfl
  | [], b :: k, xs, ys, _, hx, hy => by
    simp only [RepL] at hx hy; subst hx; obtain ⟨y, ys, rfl, _⟩ := hy
    rw [nodeEqL.eq_def]; rfl
  | a :: l, [], xs, ys, _, hx, hy => by
    simp only [RepL] at hx hy; subst hy; obtain ⟨x, xs, rfl, _⟩ := hx
    rw [nodeEqL.eq_def]; rfl
  | a :: l, b :: k, xs, ys, hn, hx, hy => by
    simp only [RepL] at hx hy
    obtain ⟨x, xs, rfl, hx1, hx2⟩ := hx
    obtain ⟨y, ys, rfl, hy1, hy2⟩ := hy
    simp only [nodesL] at hn
    rw [nodeEqL, run_bind (hrec a b (by omega) x y hx1 hy1)]
    simp only [Radix.nodeEqL]
    cases Radix.nodeEq a b with
    | true => exact nodeEqL_spec hrec l k xs ys (by omega) hx2 hy2
    | false => rfl

theorem nodeEq_spec : ∀ (n : Nat) (a b : Node), a.nodes ≤ n → ∀ (h : Mem) (x y : Raw), Rep h x a → Rep h y b →
    nodeEq n x y h = some (Radix.nodeEq a b, h) := by
  intro n
  induction n with
  | zero => intro a b hn; have := nodes_pos a; omega
  | succ n ih =>
    intro a b hn h x y hx hy
    rw [nodeEq.eq_def]
    dsimp only
    obtain ⟨oa, ea, ra⟩ := children_spec hx.ch
    obtain ⟨ob, eb, rb⟩ := children_spec hy.ch
    cases a with
    | mk p v c =>
      cases b with
      | mk p' v' c' =>
        simp only [Rep] at hx hy
        obtain ⟨hx1, hx2, hx3⟩ := hx
        obtain ⟨hy1, hy2, hy3⟩ := hy
        rw [run_bind (slice_spec hx1), run_bind (slice_spec hy1)]
        simp only [Radix.nodeEq]
        cases p == p' with
        | false => rfl
        | true =>
          simp only [if_true, Bool.true_and]
          rw [run_bind (sliceV_spec hx2), run_bind (sliceV_spec hy2)]
          cases v.getD [] == v'.getD [] with
          | false => rfl
          | true =>
            simp only [if_true, Bool.true_and]
            rw [run_bind ea, run_bind eb]
            simp only [Node.nodes] at hn
            simp only [Node.ch] at ra rb
            cases c with
            | none =>
              simp only [OptRep] at ra; subst ra
              cases c' with
              | none => simp only [OptRep] at rb; subst rb; rfl
              | some k => obtain ⟨ys, rfl, _⟩ := rb; rfl
            | some l =>
              obtain ⟨xs, rfl, hl⟩ := ra
              cases c' with
              | none => simp only [OptRep] at rb; subst rb; rfl
              | some k =>
                obtain ⟨ys, rfl, hk⟩ := rb
                simp only [nodesO] at hn
                exact nodeEqL_spec (fun a b hab x y => ih a b hab h x y) l k xs ys (by omega) hl hk

end Radix.Heap
