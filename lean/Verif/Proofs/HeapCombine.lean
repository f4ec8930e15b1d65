import Verif.Proofs.HeapNode
import Verif.Proofs.UpdateMain

/- The in-place operations on nodes in memory: loops over children, values and the five functions. -/

set_option linter.unusedVariables false

namespace Radix.Heap

/-! ### Children in order -/

/-- The nodes with the ranks of the trees. -/
def zipRank : List Node → List Raw → List (Nat × Raw)
  | m :: l, x :: xs => (Node.rank m.firstByte, x) :: zipRank l xs
  | _, _ => []

theorem rank_spec {h x m} (hr : Rep h x m) : x.rank h = some (Node.rank m.firstByte, h) := by
  unfold Raw.rank
  rw [run_bind (slice_spec hr.pfx)]; rfl

theorem ranked_spec {h} : ∀ {l xs}, RepL h xs l → ranked xs h = some (zipRank l xs, h)
  | [], xs, hr => by rw [RepL.nil_iff] at hr; subst hr; rfl
  | m :: l, xs, hr => by
    obtain ⟨y, ys, rfl, h1, h2⟩ := RepL.cons_iff.1 hr
    have := ranked_spec h2
    unfold ranked at this ⊢
    unfold mapH
    have e : (do return (← y.rank, y) : H (Nat × Raw)) h = some ((Node.rank m.firstByte, y), h) := by rw [run_bind (rank_spec h1)]; rfl
    rw [run_bind e, run_bind this]; rfl

/-- An owned half of a pair. -/
def RepO (h : Mem) : Option Raw → Option Node → Prop
  | some x, some m => Rep h x m
  | none, none => True
  | _, _ => False

/-- A borrowed half of a pair. -/
def BorO (R : List Ref) (h : Mem) : Option Raw → Option Node → Prop
  | some x, some m => Bor R h x m
  | none, none => True
  | _, _ => False

/-- The pairs of the loop. -/
def RepP (R : List Ref) (h : Mem) : List (Option Raw × Option Raw) → List (Option Node × Option Node) → Prop
  | [], [] => True
  | p :: ps, q :: qs => RepO h p.1 q.1 ∧ BorO R h p.2 q.2 ∧ RepP R h ps qs
  | _, _ => False

/-- References owned by an optional node. -/
def orefsR : Option Raw → List Ref
  | some x => x.refs
  | none => []

/-- References owned by the pairs. -/
def aRefs (ps : List (Option Raw × Option Raw)) : List Ref := ps.flatMap fun p => orefsR p.1

@[simp] theorem aRefs_nil : aRefs [] = [] := rfl
@[simp] theorem aRefs_cons (p ps) : aRefs (p :: ps) = orefsR p.1 ++ aRefs ps := rfl

theorem RepO.keep {R h h' o m} (hk : Keep R h h') (hr : ∀ r ∈ orefsR o, Reach h R r) (h1 : RepO h o m) : RepO h' o m := by
  cases o <;> cases m <;> try exact h1
  exact Rep.keep (m := _) hk hr h1

theorem BorO.keep {R h h' o m} (hk : Keep R h h') (h1 : BorO R h o m) : BorO R h' o m := by
  cases o <;> cases m <;> try exact h1
  exact Bor.keep (f := _) (d := _) h1 hk

theorem BorO.mono {R R' h o m} (h1 : BorO R h o m) (hs : ∀ r ∈ R, r ∈ R') : BorO R' h o m := by
  cases o <;> cases m <;> try exact h1
  exact Bor.mono (f := _) (d := _) h1 hs

theorem RepP.keep {R R' h h'} (hk : Keep R' h h') (hs : ∀ r ∈ R, r ∈ R') : ∀ {ps qs}, (∀ r ∈ aRefs ps, r ∈ R') → RepP R h ps qs → RepP R h' ps qs
  | [], [], _, h1 => h1
  | p :: ps, q :: qs, hm, h1 => ⟨h1.1.keep hk (reach_of_mem fun r hr => hm r (by simp [hr])), h1.2.1.keep (hk.mono hs),
      RepP.keep hk hs (fun r hr => hm r (by simp [hr])) h1.2.2⟩
  | [], _ :: _, _, h1 => h1.elim
  | _ :: _, [], _, h1 => h1.elim

theorem RepP.mono {R R' h} (hs : ∀ r ∈ R, r ∈ R') : ∀ {ps qs}, RepP R h ps qs → RepP R' h ps qs
  | [], [], h1 => h1
  | p :: ps, q :: qs, h1 => ⟨h1.1, h1.2.1.mono hs, RepP.mono hs h1.2.2⟩
  | [], _ :: _, h1 => h1.elim
  | _ :: _, [], h1 => h1.elim

theorem joinR_spec {R h} (l k : List Node) : ∀ (xs ys : List Raw), RepL h xs l → BorL R h ys k →
    RepP R h (joinR (zipRank l xs) (zipRank k ys)) (Radix.join l k) ∧ ∀ r, (aRefs (joinR (zipRank l xs) (zipRank k ys))).count r = (refsL xs).count r := by
  fun_induction Radix.join l k with
  | case1 =>
    intro xs ys h1 h2
    rw [RepL.nil_iff] at h1; rw [BorL.nil_iff] at h2
    subst h1; subst h2
    simp only [zipRank, joinR]
    exact ⟨trivial, fun r => rfl⟩
  | case2 a as ih =>
    intro xs ys h1 h2
    obtain ⟨x, xs, rfl, h3, h4⟩ := RepL.cons_iff.1 h1
    have h5 := ih xs ys h4 h2
    rw [BorL.nil_iff] at h2; subst h2
    simp only [zipRank, joinR] at h5 ⊢
    exact ⟨⟨h3, trivial, h5.1⟩, fun r => by simp only [aRefs_cons, orefsR, refsL_cons, List.count_append, h5.2 r]⟩
  | case3 b bs ih =>
    intro xs ys h1 h2
    obtain ⟨y, ys, rfl, h3, h4⟩ := BorL.cons_iff.1 h2
    have h5 := ih xs ys h1 h4
    rw [RepL.nil_iff] at h1; subst h1
    simp only [zipRank, joinR] at h5 ⊢
    exact ⟨⟨trivial, h3, h5.1⟩, fun r => by simp only [aRefs_cons, orefsR, List.nil_append, h5.2 r]⟩
  | case4 a as b bs hlt ih =>
    intro xs ys h1 h2
    obtain ⟨x, xs, rfl, h3, h4⟩ := RepL.cons_iff.1 h1
    have h5 := ih xs ys h4 h2
    obtain ⟨y, ys, rfl, h6, h7⟩ := BorL.cons_iff.1 h2
    simp only [zipRank, joinR] at h5 ⊢
    rw [if_pos hlt]
    exact ⟨⟨h3, trivial, h5.1⟩, fun r => by simp only [aRefs_cons, orefsR, refsL_cons, List.count_append, h5.2 r]⟩
  | case5 a as b bs hlt hgt ih =>
    intro xs ys h1 h2
    obtain ⟨y, ys, rfl, h6, h7⟩ := BorL.cons_iff.1 h2
    have h5 := ih xs ys h1 h7
    obtain ⟨x, xs, rfl, h3, h4⟩ := RepL.cons_iff.1 h1
    simp only [zipRank, joinR] at h5 ⊢
    rw [if_neg hlt, if_pos hgt]
    exact ⟨⟨trivial, h6, h5.1⟩, fun r => by simp only [aRefs_cons, orefsR, List.nil_append, h5.2 r]⟩
  | case6 a as b bs hlt hgt ih =>
    intro xs ys h1 h2
    obtain ⟨y, ys, rfl, h6, h7⟩ := BorL.cons_iff.1 h2
    obtain ⟨x, xs, rfl, h3, h4⟩ := RepL.cons_iff.1 h1
    have h5 := ih xs ys h4 h7
    simp only [zipRank, joinR] at h5 ⊢
    rw [if_neg hlt, if_neg hgt]
    exact ⟨⟨h3, h6, h5.1⟩, fun r => by simp only [aRefs_cons, orefsR, refsL_cons, List.count_append, h5.2 r]⟩

theorem join_spec {R h l k xs ys} (h1 : RepL h xs l) (h2 : BorL R h ys k) :
    ∃ ps, join xs ys h = some (ps, h) ∧ RepP R h ps (Radix.join l k) ∧ ∀ r, (aRefs ps).count r = (refsL xs).count r := by
  refine ⟨_, ?_, joinR_spec l k xs ys h1 h2⟩
  unfold join
  rw [run_bind (ranked_spec h1), run_bind (ranked_spec h2.1)]; rfl

/-! ### Sorting -/

/-- The second halves, and the ranks are right. -/
def RepK (h : Mem) : List (Nat × Raw) → List Node → Prop
  | [], [] => True
  | p :: ps, m :: l => p.1 = Node.rank m.firstByte ∧ Rep h p.2 m ∧ RepK h ps l
  | _, _ => False

/-- The references of the second halves. -/
def kRefs (ps : List (Nat × Raw)) : List Ref := refsL (ps.map (·.2))

theorem insertR_spec {h} {p : Nat × Raw} {m} (h1 : p.1 = Node.rank m.firstByte) (h2 : Rep h p.2 m) :
    ∀ {ps l}, RepK h ps l → RepK h (insertR p ps) (insertByFirst m l) ∧ ∀ r, (kRefs (insertR p ps)).count r = (kRefs (p :: ps)).count r
  | [], [], h3 => ⟨⟨h1, h2, trivial⟩, fun r => rfl⟩
  | q :: ps, n :: l, h3 => by
    simp only [insertR, insertByFirst]
    rw [h1, h3.1]
    by_cases hc : Node.rank m.firstByte ≤ Node.rank n.firstByte
    · rw [if_pos hc, if_pos hc]; exact ⟨⟨h1, h2, h3⟩, fun r => rfl⟩
    · rw [if_neg hc, if_neg hc]
      have h4 := insertR_spec h1 h2 h3.2.2
      refine ⟨⟨h3.1, h3.2.1, h4.1⟩, fun r => ?_⟩
      have h5 := h4.2 r
      simp only [kRefs, List.map_cons, refsL_cons, List.count_append] at h5 ⊢
      omega
  | [], _ :: _, h3 => h3.elim
  | _ :: _, [], h3 => h3.elim

theorem sortR_spec {h} : ∀ {ps l}, RepK h ps l → RepK h (sortR ps) (Radix.sortByFirst l) ∧ ∀ r, (kRefs (sortR ps)).count r = (kRefs ps).count r
  | [], [], h3 => ⟨trivial, fun r => rfl⟩
  | q :: ps, n :: l, h3 => by
    have h4 := sortR_spec h3.2.2
    have h5 := insertR_spec h3.1 h3.2.1 h4.1
    refine ⟨h5.1, fun r => ?_⟩
    have h6 := h4.2 r
    have h7 := h5.2 r
    simp only [sortR] at h7 ⊢
    rw [h7]
    simp only [kRefs, List.map_cons, refsL_cons, List.count_append] at h6 ⊢
    omega
  | [], _ :: _, h3 => h3.elim
  | _ :: _, [], h3 => h3.elim

theorem zipRank_repK {h} : ∀ {l xs}, RepL h xs l → RepK h (zipRank l xs) l ∧ (zipRank l xs).map (·.2) = xs
  | [], xs, hr => by rw [RepL.nil_iff] at hr; subst hr; exact ⟨trivial, rfl⟩
  | m :: l, xs, hr => by
    obtain ⟨y, ys, rfl, h1, h2⟩ := RepL.cons_iff.1 hr
    have := zipRank_repK h2
    exact ⟨⟨rfl, h1, this.1⟩, by simp only [zipRank, List.map_cons, this.2]⟩

theorem RepK.repL {h} : ∀ {ps l}, RepK h ps l → RepL h (ps.map (·.2)) l
  | [], [], _ => RepL.nil
  | p :: ps, m :: l, h1 => RepL.cons h1.2.1 (RepK.repL h1.2.2)
  | [], _ :: _, h3 => h3.elim
  | _ :: _, [], h3 => h3.elim

theorem sortByFirst_spec {h xs l} (hr : RepL h xs l) : ∃ ys, sortByFirst xs h = some (ys, h) ∧ RepL h ys (Radix.sortByFirst l) ∧
    ∀ r, (refsL ys).count r = (refsL xs).count r := by
  have h1 := zipRank_repK hr
  have h2 := sortR_spec h1.1
  refine ⟨(sortR (zipRank l xs)).map (·.2), ?_, h2.1.repL, fun r => ?_⟩
  · unfold sortByFirst; rw [run_bind (ranked_spec hr)]; rfl
  · have := h2.2 r
    simp only [kRefs, h1.2] at this
    exact this

/-! ### The loop -/

/-- A function that changes a node in place, with a borrowed one. -/
def CombSpec (f : Raw → Raw → H Raw) (a b r : Node) : Prop :=
  ∀ R h x y, Inv h (x.refs ++ R) → Rep h x a → Bor R h y b → ∃ z h', f x y h = some (z, h') ∧ Post R h h' z.refs ∧ Rep h' z r

/-- What happens to a node without partner. -/
def KeepSpec (f : Raw → H (List Raw)) (a : Node) (r : Option Node) : Prop :=
  ∀ R h x, Inv h (x.refs ++ R) → Rep h x a → ∃ zs h', f x h = some (zs, h') ∧ Post R h h' (refsL zs) ∧ RepL h' zs r.toList

/-- What happens to a borrowed node without partner. -/
def TakeSpec (f : Raw → H (List Raw)) (b : Node) (r : Option Node) : Prop :=
  ∀ R h x, Inv h R → Bor R h x b → ∃ zs h', f x h = some (zs, h') ∧ Post R h h' (refsL zs) ∧ RepL h' zs r.toList

theorem keepNonEmpty_spec (a : Node) : KeepSpec keepNonEmpty a (Radix.keepNonEmpty a) := by
  intro R h x hi hr
  unfold keepNonEmpty Radix.keepNonEmpty
  rw [hr.isEmpty]
  by_cases he : a.isEmpty = true
  · rw [if_pos he, if_pos he]
    obtain ⟨h', e, i, k⟩ := dropOne_spec hi hr
    exact ⟨[], h', by rw [run_bind e]; rfl, ⟨i, k⟩, RepL.nil⟩
  · rw [if_neg he, if_neg he]
    exact ⟨[x], h, rfl, ⟨hi.mono (by cnt_tac), Keep.refl _ _⟩, RepL.cons hr RepL.nil⟩

theorem keepIt_spec (a : Node) : KeepSpec keepIt a (some a) := fun R h x hi hr =>
  ⟨[x], h, rfl, ⟨hi.mono (by cnt_tac), Keep.refl _ _⟩, RepL.cons hr RepL.nil⟩

theorem dropIt_spec (a : Node) : KeepSpec dropIt a none := by
  intro R h x hi hr
  obtain ⟨h', e, i, k⟩ := dropOne_spec hi hr
  exact ⟨[], h', by unfold dropIt; rw [run_bind e]; rfl, ⟨i, k⟩, RepL.nil⟩

theorem skipIt_spec (b : Node) : TakeSpec skipIt b none := fun R h x hi hr => ⟨[], h, rfl, ⟨hi, Keep.refl _ _⟩, RepL.nil⟩

theorem loop_spec {both : Raw → Raw → H Raw} {onlyA onlyB : Raw → H (List Raw)} {g : Node → Node → Node} {keep : Bool} {gB : Node → Option Node} :
    ∀ (qs : List (Option Node × Option Node)), (∀ a b, (some a, some b) ∈ qs → CombSpec both a b (g a b)) →
      (∀ a, KeepSpec onlyA a (if keep then some a else none)) → (∀ b, (none, some b) ∈ qs → TakeSpec onlyB b (gB b)) →
      ∀ (R : List Ref) (h : Mem) (ps : List (Option Raw × Option Raw)), Inv h (aRefs ps ++ R) → RepP R h ps qs →
        ∃ cs h', loop both onlyA onlyB ps h = some (cs, h') ∧ Post R h h' (refsL cs) ∧ RepL h' cs (qs.filterMap (stepU keep g gB)) := by
  intro qs
  induction qs with
  | nil =>
    intro h1 h2 h3 R h ps hi hr
    cases ps with
    | nil => exact ⟨[], h, rfl, ⟨hi, Keep.refl _ _⟩, RepL.nil⟩
    | cons p ps => exact hr.elim
  | cons q qs ih =>
    intro h1 h2 h3 R h ps hi hr
    cases ps with
    | nil => exact hr.elim
    | cons p ps =>
      obtain ⟨r1, r2, r3⟩ := hr
      -- what one step gives
      have step : ∃ (k : H (List Raw)) (zs : List Raw) (h' : Mem), (∀ g', loop both onlyA onlyB (p :: ps) g' = (k >>= fun k => loop both onlyA onlyB ps >>= fun rest => pure (k ++ rest)) g') ∧
          k h = some (zs, h') ∧ Post (aRefs ps ++ R) h h' (refsL zs) ∧ RepL h' zs (stepU keep g gB q).toList := by
        obtain ⟨oa, ob⟩ := p
        obtain ⟨ma, mb⟩ := q
        cases oa with
        | none =>
          cases ma with
          | some _ => exact r1.elim
          | none =>
            cases ob with
            | none =>
              cases mb with
              | some _ => exact r2.elim
              | none =>
                refine ⟨pure [], [], h, fun g' => ?_, rfl, ⟨hi, Keep.refl _ _⟩, RepL.nil⟩
                rw [run_bind (run_pure [] g')]
                simp only [loop, List.nil_append]
                exact congrArg (fun x => H.run x g') (H.bind_done _).symm
            | some y =>
              cases mb with
              | none => exact r2.elim
              | some b =>
                obtain ⟨zs, h', e, p1, p2⟩ := h3 b (by simp) (aRefs ps ++ R) h y hi (r2.mono (by intro r hr; simp [hr]))
                exact ⟨onlyB y, zs, h', fun g' => by simp only [loop], e, p1, p2⟩
        | some x =>
          cases ma with
          | none => exact r1.elim
          | some a =>
            cases ob with
            | none =>
              cases mb with
              | some _ => exact r2.elim
              | none =>
                obtain ⟨zs, h', e, p1, p2⟩ := h2 a (aRefs ps ++ R) h x (hi.mono (by intro r; simp only [aRefs_cons, orefsR, List.count_append]; omega)) r1
                exact ⟨onlyA x, zs, h', fun g' => by simp only [loop], e, p1, p2⟩
            | some y =>
              cases mb with
              | none => exact r2.elim
              | some b =>
                obtain ⟨z, h', e, p1, p2⟩ := h1 a b (by simp) (aRefs ps ++ R) h x y (hi.mono (by intro r; simp only [aRefs_cons, orefsR, List.count_append]; omega)) r1
                  (r2.mono (by intro r hr; simp [hr]))
                obtain ⟨zs, h'', e', p1', p2'⟩ := keepNonEmpty_spec _ (aRefs ps ++ R) h' z p1.inv p2
                refine ⟨both x y >>= keepNonEmpty, zs, h'', fun g' => ?_, by rw [run_bind e, e'], ⟨p1'.inv, p1.keep.trans p1'.keep⟩, p2'⟩
                simp only [loop]
                exact congrArg (fun x => H.run x g') (H.bind_bind _ _ _).symm
      obtain ⟨k, zs, h', e0, e1, p1, p2⟩ := step
      have r4 : RepP R h' ps qs := r3.keep p1.keep (by intro r hr; simp [hr]) (by intro r hr; simp [hr])
      obtain ⟨cs, h'', e2, p3, p4⟩ := ih (fun a b hab => h1 a b (by simp [hab])) h2 (fun b hb => h3 b (by simp [hb])) (refsL zs ++ R) h' ps
        (p1.inv.mono (by intro r; simp only [List.count_append]; omega)) (r4.mono (by intro r hr; simp [hr]))
      refine ⟨zs ++ cs, h'', ?_, ⟨p3.inv.mono (by cnt_tac), (p1.keep.mono (by sub_tac)).trans (p3.keep.mono (by sub_tac))⟩, ?_⟩
      · rw [e0, run_bind e1, run_bind e2]; rfl
      · have h5 : RepL h'' zs (stepU keep g gB q).toList := p2.keep p3.keep (reach_of_mem (by sub_tac))
        have h6 := h5.append p4
        rw [List.filterMap_cons]
        cases hq : stepU keep g gB q with
        | none => rw [hq] at h6; simpa using h6
        | some m => rw [hq] at h6; simpa using h6

/-! ### Values -/

/-- A function of the user on values. -/
def ValSpec (f : ValFn) (g : Bytes → Bytes → Option Bytes) : Prop :=
  ∀ R h x y av bv, Inv h (x.refs ++ R) → RepB h x av → BorB R h y bv → ∃ z h', f x y h = some (z, h') ∧ Post R h h' z.refs ∧ RepV h' z (g av bv)

theorem applyFn_spec {f g} (hf : ValSpec f g) {R h x y av bv} (hi : Inv h (x.refs ++ R)) (hx : RepB h x av) (hy : BorB R h y bv) :
    ∃ z h', applyFn f x y h = some (z, h') ∧ Post R h h' z.refs ∧ RepV h' z (g av bv) := by
  obtain ⟨z, h1, e1, p1, r1⟩ := hf R h x y av bv hi hx hy
  obtain ⟨h2, e2, i2, c2⟩ := clone_spec p1.inv ⟨r1, reach_of_mem (by sub_tac)⟩
  have r2 : RepV h2 z (g av bv) := r1.keep c2 (reach_of_mem (by sub_tac))
  obtain ⟨h3, e3, i3, k3⟩ := drop_spec (R := z.refs ++ R) (i2.mono (by cnt_tac)) r2
  refine ⟨z, h3, ?_, ⟨i3, (p1.keep.trans (c2.mono (by sub_tac))).trans (k3.mono (by sub_tac))⟩, r2.keep k3 (reach_of_mem (by sub_tac))⟩
  unfold applyFn
  rw [run_bind e1, run_bind e2, run_bind e3]; rfl

theorem convValue_spec {R h y v} (hi : Inv h R) (hy : BorV R h y v) :
    ∃ h', convValue y h = some (y, h') ∧ Post R h h' y.refs ∧ RepV h' y v := by
  obtain ⟨h1, e1, i1, c1⟩ := clone_spec hi hy
  have hy1 : BorV R h1 y v := hy.keep c1
  obtain ⟨h2, e2, i2, c2⟩ := clone_spec i1 (hy1.mono (by sub_tac))
  have hy2 : BorV R h2 y v := hy1.keep (c2.mono (by sub_tac))
  obtain ⟨h3, e3, i3, k3⟩ := drop_spec (R := y.refs ++ R) (i2.mono (by cnt_tac)) hy2.1
  refine ⟨h3, ?_, ⟨i3, (c1.trans (c2.mono (by sub_tac))).trans (k3.mono (by sub_tac))⟩, hy2.1.keep k3 (reach_of_mem (by sub_tac))⟩
  unfold convValue
  rw [run_bind e1, run_bind e2, run_bind e3]; rfl

/-- A function on the values of two nodes. -/
def OptSpec (f : Fld → Fld → H Fld) (av bv r : Option Bytes) : Prop :=
  ∀ R h x y, Inv h (x.refs ++ R) → RepV h x av → BorV R h y bv → ∃ z h', f x y h = some (z, h') ∧ Post R h h' z.refs ∧ RepV h' z r

theorem keepVal_spec {R h x v} (hi : Inv h (x.refs ++ R)) (hx : RepV h x v) :
    ∃ z h', (pure x : H Fld) h = some (z, h') ∧ Post R h h' z.refs ∧ RepV h' z v := ⟨x, h, rfl, ⟨hi, Keep.refl _ _⟩, hx⟩

/-- The value in `outerCombineWith`. -/
def outerVal (g : Bytes → Bytes → Option Bytes) (av bv : Option Bytes) : Option Bytes :=
  match bv with
  | some bv =>
    match av with
    | some av => g av bv
    | none => some bv
  | none => av

theorem outerValue_spec {f g} (hf : ValSpec f g) (av bv : Option Bytes) : OptSpec (outerValue f) av bv (outerVal g av bv) := by
  intro R h x y hi hx hy
  unfold outerValue
  rw [hy.1.isSome, hx.isSome]
  cases bv with
  | none => exact keepVal_spec hi hx
  | some bv =>
    cases av with
    | some av => exact applyFn_spec hf hi hx hy
    | none =>
      have hx0 : x.refs = [] := by obtain ⟨b, hb⟩ := hx.2; simp [Fld.refs, hb, Word.refs]
      rw [hx0] at hi
      obtain ⟨h', e, p, r⟩ := convValue_spec hi hy
      exact ⟨y, h', e, p, r⟩

/-- The value in `innerCombineWith`. -/
def innerVal (g : Bytes → Bytes → Option Bytes) (av bv : Option Bytes) : Option Bytes :=
  match av, bv with
  | some av, some bv => g av bv
  | _, _ => none

theorem innerValue_spec {f g} (hf : ValSpec f g) (av bv : Option Bytes) : OptSpec (innerValue f) av bv (innerVal g av bv) := by
  intro R h x y hi hx hy
  unfold innerValue
  rw [hy.1.isSome, hx.isSome]
  cases av with
  | none => exact keepVal_spec hi hx
  | some av =>
    cases bv with
    | some bv => exact applyFn_spec hf hi hx hy
    | none =>
      obtain ⟨h1, e1, i1, k1⟩ := drop_spec hi hx
      exact ⟨Fld.none, h1, by simp only [Option.isSome_some, Option.isSome_none, Bool.false_eq_true, if_true, if_false]; rw [run_bind e1]; rfl, ⟨i1, k1⟩, repV_none _⟩

/-- The value in `leftCombineWith`. -/
def leftVal (g : Bytes → Bytes → Option Bytes) (av bv : Option Bytes) : Option Bytes :=
  match bv with
  | some bv =>
    match av with
    | some av => g av bv
    | none => none
  | none => av

theorem leftValue_spec {f g} (hf : ValSpec f g) (av bv : Option Bytes) : OptSpec (leftValue f) av bv (leftVal g av bv) := by
  intro R h x y hi hx hy
  unfold leftValue
  rw [hy.1.isSome, hx.isSome]
  cases bv with
  | none => exact keepVal_spec hi hx
  | some bv =>
    cases av with
    | some av => exact applyFn_spec hf hi hx hy
    | none => exact keepVal_spec hi hx

theorem selected_spec {R h y v} (f : Bytes → Bool) (hy : BorV R h y v) : selected f y h = some (v.any f, h) := by
  unfold selected
  rw [hy.1.isSome]
  cases v with
  | none => rfl
  | some d =>
    simp only [Option.isSome_some, if_true]
    unfold applyPred
    rw [run_bind (slice_spec hy.1)]; rfl

/-! ### Children -/

/-- A function on the children of two nodes. -/
def ChSpec (f : List Raw → Option (List Raw) → H (List Raw)) (ac : List Node) (bc : Option (List Node)) (r : List Node) : Prop :=
  ∀ R h xs o, Inv h (refsL xs ++ R) → RepL h xs ac → OptBor R h o bc → ∃ cs h', f xs o h = some (cs, h') ∧ Post R h h' (refsL cs) ∧ RepL h' cs r

/-- Combining the children with those of the other node. -/
theorem kids_spec {F ac bc r} (hF : ChSpec F ac bc r) {R h} {x : Raw} {v : Fld} {p vv c y b} (hi : Inv h (x.pfx.refs ++ v.refs ++ x.ch.refs ++ R)) (h1 : RepB h x.pfx p)
    (h2 : RepV h v vv) (h3 : RepC h x.ch c) (hb : Bor R h y b) (hac : c.getD [] = ac) (hbc : b.loadChildren = bc) :
    ∃ z h', (do let ac ← x.takeChildren
                let bc ← y.loadChildren
                let cs ← F ac bc
                Raw.setKids ⟨x.pfx, v, Fld.none⟩ cs : H Raw) h = some (z, h') ∧ Post R h h' z.refs ∧ Rep h' z (.mk p vv (some r)) := by
  obtain ⟨cs, h4, e4, i4, k4, r4, r5, r6⟩ := takeChildren_spec (x := ⟨x.pfx, v, x.ch⟩) (m := .mk p vv c) (R := R) (hi.mono (by cnt_tac)) (Rep.of h1 h2 h3)
  obtain ⟨o, e5, r7⟩ := loadChildren_bor (hb.keep k4)
  rw [hbc] at r7
  have r7' : OptBor (x.pfx.refs ++ v.refs ++ R) h4 o bc := by
    cases bc with
    | none => exact r7
    | some l => obtain ⟨xs, q1, q2⟩ := r7; exact ⟨xs, q1, q2.mono (by sub_tac)⟩
  have r6' : RepL h4 cs ac := by rw [← hac]; exact r6
  obtain ⟨ds, h8, e8, p8, r8⟩ := hF (x.pfx.refs ++ v.refs ++ R) h4 cs o (i4.mono (by cnt_tac)) r6' r7'
  obtain ⟨z, h9, e9, p9, r9⟩ := setKids_spec (R := R) (p8.inv.mono (by cnt_tac)) (r4.keep p8.keep (reach_of_mem (by sub_tac)))
    (r5.keep p8.keep (reach_of_mem (by sub_tac))) r8
  refine ⟨z, h9, ?_, ⟨p9.inv, (k4.trans (p8.keep.mono (by sub_tac))).trans p9.keep⟩, r9⟩
  have e4' : x.takeChildren h = some (cs, h4) := e4
  rw [run_bind e4', run_bind e5, run_bind e8, e9]

/-- Combining the children with the other node, shortened. -/
theorem kidsShort_spec {F ac r} {n : Nat} {R h} {x : Raw} {v : Fld} {p vv c y} {b : Node} (hF : ChSpec F ac (some [b.cloneShortened n]) r) (hi : Inv h (x.pfx.refs ++ v.refs ++ x.ch.refs ++ R)) (h1 : RepB h x.pfx p)
    (h2 : RepV h v vv) (h3 : RepC h x.ch c) (hb : Bor R h y b) (hac : c.getD [] = ac) :
    ∃ z h', (do let ac ← x.takeChildren
                let t ← y.cloneShortened n
                let cs ← F ac (some [t])
                dropAll [t]
                Raw.setKids ⟨x.pfx, v, Fld.none⟩ cs : H Raw) h = some (z, h') ∧ Post R h h' z.refs ∧ Rep h' z (.mk p vv (some r)) := by
  obtain ⟨cs, h4, e4, i4, k4, r4, r5, r6⟩ := takeChildren_spec (x := ⟨x.pfx, v, x.ch⟩) (m := .mk p vv c) (R := R) (hi.mono (by cnt_tac)) (Rep.of h1 h2 h3)
  have r6' : RepL h4 cs ac := by rw [← hac]; exact r6
  obtain ⟨t, h5, e5, p5, r7⟩ := cloneShortened_spec (R := x.pfx.refs ++ v.refs ++ refsL cs ++ R) n (i4.mono (by cnt_tac)) ((hb.keep k4).mono (by sub_tac))
  have r4' := r4.keep p5.keep (reach_of_mem (by sub_tac))
  have r5' := r5.keep p5.keep (reach_of_mem (by sub_tac))
  have r6'' := r6'.keep p5.keep (reach_of_mem (by sub_tac))
  obtain ⟨ds, h8, e8, p8, r8⟩ := hF (t.refs ++ x.pfx.refs ++ v.refs ++ R) h5 cs (some [t]) (p5.inv.mono (by cnt_tac)) r6''
    ⟨[t], rfl, RepL.cons r7 RepL.nil, reach_of_mem (by sub_tac)⟩
  have r7' := r7.keep p8.keep (reach_of_mem (by sub_tac))
  obtain ⟨h10, e10, i10, k10⟩ := dropOne_spec (R := refsL ds ++ x.pfx.refs ++ v.refs ++ R) (p8.inv.mono (by cnt_tac)) r7'
  obtain ⟨z, h9, e9, p9, r9⟩ := setKids_spec (R := R) (i10.mono (by cnt_tac)) ((r4'.keep p8.keep (reach_of_mem (by sub_tac))).keep k10 (reach_of_mem (by sub_tac)))
    ((r5'.keep p8.keep (reach_of_mem (by sub_tac))).keep k10 (reach_of_mem (by sub_tac))) (r8.keep k10 (reach_of_mem (by sub_tac)))
  refine ⟨z, h9, ?_, ⟨p9.inv, (((k4.trans (p5.keep.mono (by sub_tac))).trans (p8.keep.mono (by sub_tac))).trans (k10.mono (by sub_tac))).trans p9.keep⟩, r9⟩
  have e4' : x.takeChildren h = some (cs, h4) := e4
  rw [run_bind e4', run_bind e5, run_bind e8, run_bind e10, e9]

/-- The last step of all five functions. -/
theorem canon_step {R h body z0 h0 m} (e : body h = some (z0, h0)) (p : Post R h h0 z0.refs) (r : Rep h0 z0 m) :
    ∃ z h', (body >>= fun r => r.canonicalize : H Raw) h = some (z, h') ∧ Post R h h' z.refs ∧ Rep h' z m.canonicalize := by
  obtain ⟨z, h1, e1, p1, r1⟩ := canonicalize_spec p.inv r
  exact ⟨z, h1, by rw [run_bind e, e1], ⟨p1.inv, p.keep.trans p1.keep⟩, r1⟩

theorem RepL.isEmpty {h xs l} (hr : RepL h xs l) : xs.isEmpty = l.isEmpty := by
  cases l with
  | nil => rw [RepL.nil_iff] at hr; subst hr; rfl
  | cons m l => obtain ⟨y, ys, rfl, _, _⟩ := RepL.cons_iff.1 hr; rfl

/-- Running the loop over the children. -/
theorem run_loop {both : Raw → Raw → H Raw} {onlyA onlyB : Raw → H (List Raw)} {g : Node → Node → Node} {keep : Bool} {gB : Node → Option Node}
    {ac bc : List Node} (h1 : ∀ a b, a ∈ ac → b ∈ bc → CombSpec both a b (g a b)) (h2 : ∀ a, KeepSpec onlyA a (if keep then some a else none))
    (h3 : ∀ b ∈ bc, TakeSpec onlyB b (gB b)) {R h xs ys} (hi : Inv h (refsL xs ++ R)) (hx : RepL h xs ac) (hy : BorL R h ys bc) :
    ∃ cs h', (do let ps ← join xs ys
                 loop both onlyA onlyB ps : H (List Raw)) h = some (cs, h') ∧ Post R h h' (refsL cs) ∧
      RepL h' cs ((Radix.join ac bc).filterMap (stepU keep g gB)) := by
  obtain ⟨ps, e, r, c⟩ := join_spec hx hy
  obtain ⟨cs, h', e', p', r'⟩ := loop_spec (Radix.join ac bc) (fun a b hab => h1 a b (join_mem_both hab).1 (join_mem_both hab).2) h2
    (fun b hb => h3 b ((join_mem hb).2.1 b rfl).1) R h ps (hi.mono (by intro r; simp only [List.count_append, c r])) r
  exact ⟨cs, h', by rw [run_bind e, e'], p', r'⟩

end Radix.Heap
