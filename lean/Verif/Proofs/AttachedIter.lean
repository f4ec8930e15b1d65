import Verif.Heap.AttIter
import Verif.Stored.Caught
import Verif.Proofs.AttachedRead
import Verif.Proofs.HeapIter

/- Iterators over trees in memory that may refer to a store do what those of `Verif/Stored/Read.lean` do, and give back what they hold when the store fails. -/

set_option linter.unusedVariables false

namespace Radix.Heap.Att

section
variable {σ ε : Type}

/-! ### Vectors that are kept -/

theorem dropArc_specS {h R a xs l} (hi : Inv h ([.kids a] ++ R)) (hc : cK h a = some xs) (hr : RepSL h xs l) :
    ∃ h', dropArc a h = some ((), h') ∧ Inv h' R ∧ Keep R h h' := by
  obtain ⟨ns, h1, e1, i1, k1, k1', hn, _⟩ := decKids_spec hi
  have hl : ∃ l', RepSL h1 ns l' := by
    rcases hn xs hc with rfl | rfl
    · exact ⟨l, hr.keep k1 (reach_of_mem (by sub_tac))⟩
    · exact ⟨[], RepSL.nil⟩
  obtain ⟨l', hl⟩ := hl
  obtain ⟨h2, e2, i2, k2⟩ := dropAll_specS i1 hl
  exact ⟨h2, by unfold dropArc; rw [run_bind e1, e2], i2, k1'.trans k2⟩

theorem fromArc_specS {h R a xs l} (hi : Inv h ([.kids a] ++ R)) (hc : cK h a = some xs) (hr : RepSL h xs l) :
    ∃ h', fromArc a h = some (⟨a, 0⟩, h') ∧ Inv h' ([.kids a] ++ R) ∧ Keep ([.kids a] ++ R) h h' := by
  obtain ⟨h1, e1, i1, c1⟩ := incKids_spec (a := a) hi (.root (by simp))
  have k1 : Keep ([.kids a] ++ R) h h1 := c1
  have hc1 : cK h1 a = some xs := content_cK (c1 _ (.root (by simp))) hc
  have hr1 : RepSL h1 xs l := hr.keep k1 fun r hr => .step (.root (by simp)) hc hr
  obtain ⟨h2, e2, i2, k2⟩ := dropArc_specS (R := [.kids a] ++ R) i1 hc1 hr1
  exact ⟨h2, by unfold fromArc; rw [run_bind e1, run_bind e2]; rfl, i2, k1.trans k2⟩

/-- References of an iterator over children. -/
def AIt.refs : AIt → List Heap.Ref
  | kids i => [.kids i.owner]
  | buf _ => []

/-- References of an optional iterator. -/
def oaRefs : Option AIt → List Heap.Ref
  | some it => it.refs
  | none => []

/-- An iterator in memory still has to give what the plain one has to give. -/
def RepA (h : Mem) : AIt → TIter → Prop
  | .kids i, .owned l => ∃ xs l0, cK h i.owner = some xs ∧ RepSL h xs l0 ∧ l = l0.drop i.pos
  | .buf bs, .borrowed bs' => bs = bs'
  | _, _ => False

/-- An optional iterator. -/
def RepOA (h : Mem) : Option AIt → Option TIter → Prop
  | some it, some l => RepA h it l
  | none, none => True
  | _, _ => False

theorem RepA.keep {R h h' it l} (hk : Keep R h h') (hr : ∀ r ∈ it.refs, Reach h R r) (h1 : RepA h it l) : RepA h' it l := by
  cases it <;> cases l <;> try exact h1
  obtain ⟨xs, l0, h2, h3, h4⟩ := h1
  have hr' := hr (.kids _) (List.mem_singleton.2 rfl)
  exact ⟨xs, l0, content_cK (hk _ hr') h2, h3.keep hk fun r hx => .step hr' h2 hx, h4⟩

theorem RepOA.keep {R h h' o l} (hk : Keep R h h') (hr : ∀ r ∈ oaRefs o, Reach h R r) (h1 : RepOA h o l) : RepOA h' o l := by
  cases o <;> cases l <;> try exact h1
  exact RepA.keep hk hr h1

theorem itDrop_spec {h R it itv} (hi : Inv h (it.refs ++ R)) (hr : RepA h it itv) : ∃ h', it.drop h = some ((), h') ∧ Inv h' R ∧ Keep R h h' := by
  cases it <;> cases itv
  · obtain ⟨xs, l0, h2, h3, h4⟩ := hr
    exact dropArc_specS hi h2 h3
  · exact hr.elim
  · exact hr.elim
  · exact ⟨h, rfl, hi, Keep.refl _ _⟩

theorem itNext_spec {R h it itv} (hr : ∀ r ∈ it.refs, Reach h R r) (h1 : RepA h it itv) :
    (it.next h = some (none, h) ∧ itv.next = none) ∨
    ∃ b it' bv itv', it.next h = some (some (b, it'), h) ∧ itv.next = some (bv, itv') ∧ BorR R h b bv ∧ RepA h it' itv' ∧ it'.refs = it.refs := by
  cases it <;> cases itv
  · rename_i i l
    obtain ⟨xs, l0, h2, h3, h4⟩ := h1
    have hr' := hr (.kids _) (List.mem_singleton.2 rfl)
    have e0 : i.next h = some (xs[i.pos]?, h) := by
      unfold KidsIter.next; rw [run_bind (readKids_spec h2)]; rfl
    have hb : BorSL R h xs l0 := ⟨h3, fun r hx => .step hr' h2 hx⟩
    have h5 := hb.get i.pos
    have e1 : AIt.next (.kids i) h = some (xs[i.pos]?.map fun x => (.owned x, .kids ⟨i.owner, i.pos + 1⟩), h) := by
      unfold AIt.next; rw [run_bind e0]; rfl
    cases hx : xs[i.pos]? with
    | none =>
      rw [hx] at e1 h5
      refine .inl ⟨e1, ?_⟩
      cases hl : l0[i.pos]? with
      | some m => rw [hl] at h5; exact h5.elim
      | none =>
        have : l = [] := by rw [h4]; exact List.drop_eq_nil_of_le (List.getElem?_eq_none_iff.1 hl)
        subst this; rfl
    | some x =>
      rw [hx] at e1 h5
      cases hl : l0[i.pos]? with
      | none => rw [hl] at h5; exact h5.elim
      | some m =>
        rw [hl] at h5
        have h6 : l = m :: l0.drop (i.pos + 1) := by
          rw [h4]
          obtain ⟨hlt, hg⟩ := List.getElem?_eq_some_iff.1 hl
          rw [List.drop_eq_getElem_cons hlt, hg]
        refine .inr ⟨.owned x, .kids ⟨i.owner, i.pos + 1⟩, .owned m, .owned (l0.drop (i.pos + 1)), e1, by rw [h6]; rfl, h5, ⟨xs, l0, h2, h3, rfl⟩, rfl⟩
  · exact h1.elim
  · exact h1.elim
  · rename_i bs bs'
    have h1' : bs = bs' := h1
    subst h1'
    cases e : readOne bs with
    | none => exact .inl ⟨by unfold AIt.next; dsimp only; rw [e]; rfl, by unfold TIter.next; dsimp only; rw [e]; rfl⟩
    | some p =>
      obtain ⟨r, rest⟩ := p
      exact .inr ⟨.borrowed r, .buf rest, .borrowed r, .borrowed rest, by unfold AIt.next; dsimp only; rw [e]; rfl, by unfold TIter.next; dsimp only; rw [e]; rfl, ⟨rfl, readOne_ok e⟩, rfl, rfl⟩

/-- What `load_children_owned` gives. -/
abbrev NewA (R : List Heap.Ref) (h : Mem) (x : H (Except ε (Option AIt))) (v : Res ε (Option TIter)) : Prop := New RepOA oaRefs R h x v

theorem keepBuf_spec {R h} {o : Option HIter} {ov : Option TIter} (hi : Inv h R) (hb : BorIO R h o ov) (hn : ∀ l, ov ≠ some (.owned l)) :
    NewA (ε := ε) R h (keepBuf o) (.ok ov) := by
  cases o with
  | none =>
    cases ov with
    | none => exact ⟨none, h, rfl, postRefl hi, trivial⟩
    | some it => exact hb.elim
  | some it =>
    cases ov with
    | none => exact hb.elim
    | some itv =>
      cases it <;> cases itv
      · rename_i l; exact absurd rfl (hn l)
      · exact hb.elim
      · rename_i l; exact absurd rfl (hn l)
      · rename_i bs bs'
        have : bs = bs' := hb
        subst this
        exact ⟨some (.buf bs), h, rfl, postRefl hi, rfl⟩

theorem loadBuf_spec {S : BlobStore σ ε} {st : σ} {R h} (i : Bytes) (hi : Inv h R) :
    NewA R h (andThen (loadIter S st i) keepBuf) (Radix.loadIter S st i) := by
  have h1 := loadIter_spec (S := S) (st := st) (R := R) (h := h) i
  cases hv : Radix.loadIter S st i with
  | ok o =>
    rw [hv] at h1
    obtain ⟨o', e, hb, hn⟩ := h1
    exact New.after (run_andThen_ok e) (Keep.refl _ _) (keepBuf_spec hi hb hn)
  | err e => rw [hv] at h1; exact ⟨h, run_andThen_err h1, hi, Keep.refl _ _⟩
  | panic => trivial
  | deep => trivial

theorem loadOwned_specS {S : BlobStore σ ε} {st : σ} {R h} {x : HRef} {n : Radix.Ref} (hi : Inv h R) (hb : BorR R h x n) :
    NewA R h (x.loadChildrenOwned S st) (n.loadChildrenOwned S st) := by
  cases x <;> cases n
  · rename_i x m
    have hb' : BorS R h x m := hb
    show NewA R h (HRef.loadChildrenOwned S st (.owned x)) (m.loadChildrenOwned S st)
    unfold HRef.loadChildrenOwned SNode.loadChildrenOwned
    dsimp only
    rcases hb'.1.ch.refs with ⟨i, q1, q2, q3⟩ | ⟨q1, a, ys, l, q2, q3, q4, q5, q6⟩
    · rw [q3, q1]; simp only [if_true]
      exact New.after (run_bind (slice_specS q2)) (Keep.refl _ _) (loadBuf_spec i hi)
    · rw [q1, q2, q3, hdr_arc_isId]; simp only [Bool.false_eq_true, if_false]
      have hra : Reach h R (.kids a) := hb'.2 _ (by simp [Raw.refs, q4])
      obtain ⟨h', e1, i1, c1⟩ := incKids_spec (a := a) hi hra
      have k1 : Keep R h h' := c1
      have hc1 : cK h' a = some ys := content_cK (c1 _ hra) q5
      have hr1 : RepSL h' ys l := q6.keep k1 fun r hr => .step hra q5 hr
      obtain ⟨h2, e2, i2, k2⟩ := fromArc_specS i1 hc1 hr1
      refine ⟨some (.kids ⟨a, 0⟩), h2, by rw [run_bind e1, run_bind e2]; rfl, ⟨i2, k1.trans (k2.mono (by sub_tac))⟩, ys, l, ?_, ?_, rfl⟩
      · exact content_cK (k2 _ (.root (by simp))) hc1
      · exact hr1.keep k2 fun r hr => .step (.root (by simp)) hc1 hr
  · exact hb.elim
  · exact hb.elim
  · rename_i r r'
    obtain ⟨rfl, h0⟩ := hb
    show NewA R h (HRef.loadChildrenOwned S st (.borrowed r)) (r.loadChildren S st)
    unfold HRef.loadChildrenOwned HRef.loadChildren Rec.loadChildren
    dsimp only
    cases hc : r.ch with
    | data d => trivial
    | id i =>
      cases i with
      | nil => exact ⟨none, h, rfl, postRefl hi, trivial⟩
      | cons b i => exact loadBuf_spec (b :: i) hi

/-! ### Stacks -/

/-- References of a stack. -/
def stRefs : List (Nat × Option AIt) → List Heap.Ref
  | [] => []
  | f :: fs => oaRefs f.2 ++ stRefs fs

/-- A stack in memory. -/
def RepSt (h : Mem) : List (Nat × Option AIt) → List (Nat × Option TIter) → Prop
  | [], [] => True
  | f :: fs, g :: gs => f.1 = g.1 ∧ RepOA h f.2 g.2 ∧ RepSt h fs gs
  | _, _ => False

theorem RepSt.keep {R h h'} (hk : Keep R h h') : ∀ {fs gs}, (∀ r ∈ stRefs fs, Reach h R r) → RepSt h fs gs → RepSt h' fs gs
  | [], [], _, h1 => h1
  | f :: fs, g :: gs, hr, h1 => ⟨h1.1, h1.2.1.keep hk fun r hx => hr r (by simp [stRefs, hx]), RepSt.keep hk (fun r hx => hr r (by simp [stRefs, hx])) h1.2.2⟩
  | [], _ :: _, _, h1 => h1.elim
  | _ :: _, [], _, h1 => h1.elim

/-- References of an iterator. -/
def AKV.refs (s : AKV) : List Heap.Ref := [.blob s.path] ++ stRefs s.stack

/-- An iterator in memory. After the end its path does not matter. -/
def RepAKV (h : Mem) (s : AKV) (m : SIter) : Prop := (∃ d, cB h s.path = some d ∧ (m.stack ≠ [] → d = m.path)) ∧ RepSt h s.stack m.stack

theorem RepAKV.keep {R h h' s m} (hk : Keep R h h') (hr : ∀ r ∈ s.refs, Reach h R r) (h1 : RepAKV h s m) : RepAKV h' s m :=
  let ⟨⟨d, h2, h3⟩, h4⟩ := h1
  ⟨⟨d, content_cB (hk _ (hr _ (by simp [AKV.refs]))) h2, h3⟩, h4.keep hk fun r hx => hr r (by simp [AKV.refs, hx])⟩

/-- An entry that an iterator gave out: a key that is a reference, and a value. -/
def RepKB (h : Mem) : Option (Nat × Fld) → Option (Bytes × BlobV) → Prop
  | some (a, f), some (k, d) => cB h a = some k ∧ RepBV h f d
  | none, none => True
  | _, _ => False

/-- Sublists of the references of iterators. -/
macro "asub_tac" : tactic => `(tactic| (intro r hr; simp only [AKV.refs, keRefs, stRefs, oaRefs, ovRefs, onRefs, AIt.refs, Raw.refs, refsL_cons, refsL_nil, refsL_append, List.mem_append, List.not_mem_nil, false_or, or_false] at hr ⊢; grind))

/-- Comparing the numbers of references of iterators. -/
macro "acnt_tac" : tactic => `(tactic| (intro r; simp only [AKV.refs, keRefs, stRefs, oaRefs, ovRefs, onRefs, AIt.refs, Raw.refs, refsL_cons, refsL_nil, refsL_append, List.count_append, List.count_nil, List.nil_append, List.append_nil] <;> omega))

/-- A step of an iterator. On an error the iterator still owns what it owned, and what it stands for no longer matters. -/
def NextS {α β : Type} (rep : Mem → Option β → Option α → Prop) (refs : Option β → List Heap.Ref) (R : List Heap.Ref) (h : Mem)
    (x : H (Except ε (Option β) × AKV)) (v : Res ε (Option α × SIter)) : Prop :=
  match v with
  | .ok (o, m) => ∃ ov s h', x h = some ((.ok ov, s), h') ∧ Post R h h' (refs ov ++ s.refs) ∧ rep h' ov o ∧ RepAKV h' s m
  | .err e => ∃ s h' m, x h = some ((.error e, s), h') ∧ Post R h h' s.refs ∧ RepAKV h' s m
  | .panic => True
  | .deep => True

theorem NextS.after {α β : Type} {rep : Mem → Option β → Option α → Prop} {refs : Option β → List Heap.Ref} {R h h'}
    {x x' : H (Except ε (Option β) × AKV)} {v : Res ε (Option α × SIter)} (e : x h = x' h') (hk : Keep R h h') (hs : NextS rep refs R h' x' v) :
    NextS rep refs R h x v := by
  cases v with
  | ok p =>
    obtain ⟨ov, s, h2, e2, p2, r2, r3⟩ := hs
    exact ⟨ov, s, h2, e.trans e2, ⟨p2.inv, hk.trans p2.keep⟩, r2, r3⟩
  | err e0 =>
    obtain ⟨s, h2, m, e2, p2, r2⟩ := hs
    exact ⟨s, h2, m, e.trans e2, ⟨p2.inv, hk.trans p2.keep⟩, r2⟩
  | panic => trivial
  | deep => trivial

/-- A step of an iterator, with its state at a failure. -/
def NextE {α β ρ γ : Type} (rep : Mem → Option β → Option α → Prop) (refs : Option β → List Heap.Ref) (repS : Mem → ρ → γ → Prop) (refsS : ρ → List Heap.Ref) (R : List Heap.Ref) (h : Mem)
    (x : H (Except ε (Option β) × ρ)) (v : Res Empty (Except ε (Option α) × γ)) : Prop :=
  match v with
  | .ok (.ok o, m) => ∃ ov s h', x h = some ((.ok ov, s), h') ∧ Post R h h' (refs ov ++ refsS s) ∧ rep h' ov o ∧ repS h' s m
  | .ok (.error e, m) => ∃ s h', x h = some ((.error e, s), h') ∧ Post R h h' (refsS s) ∧ repS h' s m
  | _ => True

theorem NextE.after {α β ρ γ : Type} {rep : Mem → Option β → Option α → Prop} {refs : Option β → List Heap.Ref} {repS : Mem → ρ → γ → Prop} {refsS : ρ → List Heap.Ref} {R h h'}
    {x x' : H (Except ε (Option β) × ρ)} {v : Res Empty (Except ε (Option α) × γ)} (e : x h = x' h') (hk : Keep R h h') (hs : NextE rep refs repS refsS R h' x' v) :
    NextE rep refs repS refsS R h x v := by
  cases v with
  | ok p =>
    obtain ⟨o, m⟩ := p
    cases o with
    | ok o =>
      obtain ⟨ov, s, h2, e2, p2, r2, r3⟩ := hs
      exact ⟨ov, s, h2, e.trans e2, ⟨p2.inv, hk.trans p2.keep⟩, r2, r3⟩
    | error e0 =>
      obtain ⟨s, h2, e2, p2, r2⟩ := hs
      exact ⟨s, h2, e.trans e2, ⟨p2.inv, hk.trans p2.keep⟩, r2⟩
  | err e => exact e.elim
  | panic => trivial
  | deep => trivial

/-- A step without its state at a failure. -/
def forget {α γ : Type} : Res Empty (Except ε α × γ) → Res ε (α × γ)
  | .ok (.ok o, m) => .ok (o, m)
  | .ok (.error e, _) => .err e
  | .panic => .panic
  | .deep => .deep

theorem dropOpt_spec {h R o v} (hi : Inv h (ovRefs o ++ R)) (hr : RepOBV h o v) : ∃ h', dropOpt o h = some ((), h') ∧ Inv h' R ∧ Keep R h h' := by
  cases o with
  | none => exact ⟨h, rfl, hi, Keep.refl _ _⟩
  | some f =>
    cases v with
    | none => exact hr.elim
    | some b => exact drop_specS hi hr

theorem RepOBV.keep {R h h' o v} (hk : Keep R h h') (hr : ∀ r ∈ ovRefs o, Reach h R r) (h1 : RepOBV h o v) : RepOBV h' o v := by
  cases o <;> cases v <;> try exact h1
  exact RepBV.keep hk hr h1

theorem next0_nil {S : BlobStore σ ε} {st : σ} {n : Nat} {p : Nat} : AKV.next0 S st (n + 1) ⟨p, []⟩ = return (.ok none, ⟨p, []⟩) := by
  rw [AKV.next0]

theorem step_spec {S : BlobStore σ ε} {st : σ} : ∀ (n : Nat) (m : SIter) (s : AKV) (R : List Heap.Ref) (h : Mem), Inv h (s.refs ++ R) → RepAKV h s m →
    NextE RepKB keRefs RepAKV AKV.refs R h (AKV.next0 S st n s) (SIter.step S st n m) := by
  intro n
  induction n with
  | zero => intro m s R h hi hr; trivial
  | succ n ih =>
    intro m s R h hi hr
    obtain ⟨mp, ms⟩ := m
    obtain ⟨sp, ss⟩ := s
    obtain ⟨⟨d, hp, hd⟩, hs⟩ := hr
    dsimp only at hp hs hd
    unfold AKV.next0 SIter.step
    dsimp only
    cases ms with
    | nil =>
      cases ss with
      | cons _ _ => exact hs.elim
      | nil => exact ⟨none, ⟨sp, []⟩, h, rfl, ⟨hi, Keep.refl _ _⟩, trivial, ⟨d, hp, hd⟩, trivial⟩
    | cons g gs =>
      have hd := hd (by simp)
      subst hd
      cases ss with
      | nil => exact hs.elim
      | cons f fs =>
        obtain ⟨plen, oi⟩ := f
        obtain ⟨plen', ol⟩ := g
        obtain ⟨rfl, h2, h3⟩ := hs
        dsimp only at h2
        cases oi with
        | none =>
          cases ol with
          | some _ => exact h2.elim
          | none =>
            dsimp only
            obtain ⟨b, h1, e1, i1, k1, c1⟩ := changeKey_spec (R := stRefs fs ++ R) (fun x => x.take (x.length - plen)) (hi.mono (by acnt_tac)) hp
            have h31 := h3.keep k1 (reach_of_mem (by sub_tac))
            have e1' : keyPop sp plen h = some (b, h1) := e1
            exact NextE.after (run_bind e1') (k1.mono (by sub_tac)) (ih ⟨pathPop d plen, gs⟩ ⟨b, fs⟩ R h1 (i1.mono (by acnt_tac)) ⟨⟨_, c1, fun _ => rfl⟩, h31⟩)
        | some it =>
          cases ol with
          | none => exact h2.elim
          | some itv =>
            have h2' : RepA h it itv := h2
            dsimp only
            have hit : ∀ r ∈ it.refs, Reach h (AKV.refs ⟨sp, (plen, some it) :: fs⟩ ++ R) r := reach_of_mem (by asub_tac)
            rcases itNext_spec hit h2' with ⟨e0, e0'⟩ | ⟨b, it', bv, itv', e0, e0', hb, hrest, hrefs⟩
            · rw [e0']
              dsimp only
              obtain ⟨h1, e1, i1, k1⟩ := itDrop_spec (R := [.blob sp] ++ stRefs fs ++ R) (hi.mono (by acnt_tac)) h2'
              have h31 := h3.keep k1 (reach_of_mem (by sub_tac))
              have hp1 : cB h1 sp = some d := content_cB (k1 _ (.root (by simp))) hp
              refine NextE.after (h' := h1) ?_ (k1.mono (by sub_tac)) (ih ⟨d, (plen, none) :: gs⟩ ⟨sp, (plen, none) :: fs⟩ R h1 (i1.mono (by acnt_tac)) ⟨⟨_, hp1, fun _ => rfl⟩, rfl, trivial, h31⟩)
              rw [run_bind e0]; dsimp only; rw [run_bind e1]
            · rw [e0']
              dsimp only
              obtain ⟨ov, h1, e1, p1, r1⟩ := ownValue_spec hi hb
              have hb1 := hb.keep p1.keep
              have hit1 : RepA h1 it' itv' := hrest.keep p1.keep (by rw [hrefs]; exact hit)
              have h31 : RepSt h1 fs gs := h3.keep p1.keep (reach_of_mem (by asub_tac))
              have hp1 : cB h1 sp = some d := content_cB (p1.keep _ (.root (by simp [AKV.refs]))) hp
              have i1 : Inv h1 (ovRefs ov ++ (AKV.refs ⟨sp, (plen, some it') :: fs⟩ ++ R)) := p1.inv.mono (by simp only [AKV.refs, stRefs, oaRefs, hrefs]; acnt_tac)
              have k1 : Keep R h h1 := p1.keep.mono (by sub_tac)
              have h4 := href_loadPrefix (S := S) (st := st) hb1
              have herr : ∀ h2 (k2 : Keep (ovRefs ov ++ (AKV.refs ⟨sp, (plen, some it') :: fs⟩ ++ R)) h1 h2) (i2 : Inv h2 (ovRefs ov ++ (AKV.refs ⟨sp, (plen, some it') :: fs⟩ ++ R))),
                  ∃ h3, dropOpt ov h2 = some ((), h3) ∧ Post R h h3 (AKV.refs ⟨sp, (plen, some it') :: fs⟩) ∧ RepAKV h3 ⟨sp, (plen, some it') :: fs⟩ ⟨d, (plen, some itv') :: gs⟩ := by
                intro h2 k2 i2
                obtain ⟨h3, e3, i3, k3⟩ := dropOpt_spec i2 (r1.keep k2 (reach_of_mem (by sub_tac)))
                have hk : RepAKV h1 ⟨sp, (plen, some it') :: fs⟩ ⟨d, (plen, some itv') :: gs⟩ := ⟨⟨_, hp1, fun _ => rfl⟩, rfl, hit1, h31⟩
                refine ⟨h3, e3, ⟨i3, k1.trans ((k2.mono (by sub_tac)).trans (k3.mono (by sub_tac)))⟩, ?_⟩
                exact (hk.keep k2 (reach_of_mem (by sub_tac))).keep k3 (reach_of_mem (by sub_tac))
              cases hl : Radix.loadPrefix S st bv.pfx with
              | panic => trivial
              | deep => trivial
              | err e =>
                rw [hl] at h4
                obtain ⟨h3, e3, p3, r3⟩ := herr h1 (Keep.refl _ _) i1
                refine ⟨⟨sp, (plen, some it') :: fs⟩, h3, ?_, p3, r3⟩
                rw [run_bind e0]; dsimp only; rw [run_bind e1, run_bind h4]; dsimp only; rw [run_bind e3]; rfl
              | ok p =>
                rw [hl] at h4
                have h4 : HRef.loadPrefix S st b h1 = some (.ok p, h1) := h4
                have h5 := loadOwned_specS (S := S) (st := st) i1 (hb1.mono (R' := ovRefs ov ++ (AKV.refs ⟨sp, (plen, some it') :: fs⟩ ++ R)) (by simp only [AKV.refs, stRefs, oaRefs, hrefs]; sub_tac))
                dsimp only
                cases hc : bv.loadChildrenOwned S st with
                | panic => trivial
                | deep => trivial
                | err e =>
                  rw [hc] at h5
                  obtain ⟨h2, e2, i2, k2⟩ := h5
                  obtain ⟨h3, e3, p3, r3⟩ := herr h2 k2 i2
                  refine ⟨⟨sp, (plen, some it') :: fs⟩, h3, ?_, p3, r3⟩
                  rw [run_bind e0]; dsimp only; rw [run_bind e1, run_bind h4]; dsimp only; rw [run_bind e2]; dsimp only; rw [run_bind e3]; rfl
                | ok oc =>
                  rw [hc] at h5
                  obtain ⟨oa, h2, e2, p2, r2⟩ := h5
                  have hp2 : cB h2 sp = some d := content_cB (p2.keep _ (.root (by simp [AKV.refs]))) hp1
                  obtain ⟨k, h3', e4, i4, k4, c4⟩ := changeKey_spec (h := h2) (a := sp) (R := oaRefs oa ++ ovRefs ov ++ it'.refs ++ stRefs fs ++ R) (fun x => x ++ p)
                    (p2.inv.mono (by acnt_tac)) hp2
                  have e4' : keyAppend sp p h2 = some (k, h3') := e4
                  have s4 : RepSt h3' ((p.length, oa) :: (plen, some it') :: fs) ((p.length, oc) :: (plen, some itv') :: gs) := by
                    refine ⟨rfl, r2.keep k4 (reach_of_mem (by asub_tac)), rfl, ?_, ?_⟩
                    · exact (RepA.keep (it := it') p2.keep (reach_of_mem (by asub_tac)) hit1).keep k4 (reach_of_mem (by asub_tac))
                    · exact (h31.keep p2.keep (reach_of_mem (by asub_tac))).keep k4 (reach_of_mem (by asub_tac))
                  have r4 : RepOBV h3' ov bv.val.valueOpt := (r1.keep p2.keep (reach_of_mem (by asub_tac))).keep k4 (reach_of_mem (by asub_tac))
                  have k14 : Keep R h h3' := k1.trans ((p2.keep.mono (by asub_tac)).trans (k4.mono (by asub_tac)))
                  dsimp only
                  cases ov with
                  | none =>
                    cases hv : bv.val.valueOpt with
                    | some d => rw [hv] at r4; exact r4.elim
                    | none =>
                      dsimp only
                      refine NextE.after (h' := h3') ?_ k14 (ih ⟨pathAppend d p, (p.length, oc) :: (plen, some itv') :: gs⟩ ⟨k, (p.length, oa) :: (plen, some it') :: fs⟩ R h3'
                        (i4.mono (by acnt_tac)) ⟨⟨_, c4, fun _ => rfl⟩, s4⟩)
                      rw [run_bind e0]; dsimp only; rw [run_bind e1, run_bind h4]; dsimp only; rw [run_bind e2]; dsimp only; rw [run_bind e4']
                  | some fv =>
                    cases hv : bv.val.valueOpt with
                    | none => rw [hv] at r4; exact r4.elim
                    | some v =>
                      rw [hv] at r4
                      have r4' : RepBV h3' fv v := r4
                      dsimp only
                      obtain ⟨h5, e5, i5, c5⟩ := incBlob_spec (a := k) i4 (.root (by simp))
                      refine ⟨some (k, fv), ⟨k, (p.length, oa) :: (plen, some it') :: fs⟩, h5, ?_, ⟨?_, k14.trans (c5.mono (by asub_tac))⟩, ⟨?_, ?_⟩, ⟨_, ?_, fun _ => rfl⟩, ?_⟩
                      · rw [run_bind e0]; dsimp only; rw [run_bind e1, run_bind h4]; dsimp only; rw [run_bind e2]; dsimp only; rw [run_bind e4', run_bind e5]; rfl
                      · have i5' : Inv h5 ([.blob k] ++ ([.blob k] ++ (oaRefs oa ++ ovRefs (some fv) ++ it'.refs ++ stRefs fs ++ R))) := i5
                        exact i5'.mono (by acnt_tac)
                      · exact content_cB (c5 _ (.root (by simp))) c4
                      · exact r4'.keep c5 (reach_of_mem (by asub_tac))
                      · exact content_cB (c5 _ (.root (by simp))) c4
                      · exact s4.keep c5 (reach_of_mem (by asub_tac))

theorem step_forget {S : BlobStore σ ε} {st : σ} : ∀ (n : Nat) (m : SIter), SIter.next0 S st n m = forget (SIter.step S st n m)
  | 0, _ => rfl
  | n + 1, ⟨path, []⟩ => rfl
  | n + 1, ⟨path, (plen, none) :: rest⟩ => by
    unfold SIter.next0 SIter.step
    exact step_forget n _
  | n + 1, ⟨path, (plen, some it) :: rest⟩ => by
    unfold SIter.next0 SIter.step
    dsimp only
    rcases it.next with _ | ⟨node, it'⟩
    · exact step_forget n _
    · dsimp only
      cases Radix.loadPrefix S st node.pfx with
      | ok p =>
        dsimp only [Res.bind]
        cases node.loadChildrenOwned S st with
        | ok cs =>
          dsimp only [Res.bind]
          cases node.val.valueOpt with
          | some v => rfl
          | none => exact step_forget n _
        | _ => rfl
      | _ => rfl

theorem NextE.forget {α β : Type} {rep : Mem → Option β → Option α → Prop} {refs : Option β → List Heap.Ref} {R h} {x : H (Except ε (Option β) × AKV)}
    {v : Res Empty (Except ε (Option α) × SIter)} (hs : NextE rep refs RepAKV AKV.refs R h x v) : NextS rep refs R h x (forget v) := by
  cases v with
  | ok p =>
    obtain ⟨o, m⟩ := p
    cases o with
    | ok o => exact hs
    | error e0 =>
      obtain ⟨s, h2, e2, p2, r2⟩ := hs
      exact ⟨s, h2, m, e2, p2, r2⟩
  | err e => exact e.elim
  | panic => trivial
  | deep => trivial

/-! ### The end of an iteration -/

theorem dropStack_specS : ∀ (fs : List (Nat × Option AIt)) (gs : List (Nat × Option TIter)) (R : List Heap.Ref) (h : Mem), Inv h (stRefs fs ++ R) → RepSt h fs gs →
    ∃ h', dropStack fs h = some ((), h') ∧ Inv h' R ∧ Keep R h h'
  | [], _, R, h, hi, _ => ⟨h, rfl, hi, Keep.refl _ _⟩
  | (_, none) :: fs, [], R, h, hi, hr => hr.elim
  | (_, some it) :: fs, [], R, h, hi, hr => hr.elim
  | (_, none) :: fs, (_, _) :: gs, R, h, hi, hr => dropStack_specS fs gs R h (hi.mono (by acnt_tac)) hr.2.2
  | (_, some it) :: fs, (_, none) :: gs, R, h, hi, hr => hr.2.1.elim
  | (_, some it) :: fs, (_, some l) :: gs, R, h, hi, hr => by
    obtain ⟨_, h2, h3⟩ := hr
    have h2' : RepA h it l := h2
    obtain ⟨h1, e1, i1, k1⟩ := itDrop_spec (R := stRefs fs ++ R) (hi.mono (by acnt_tac)) h2'
    obtain ⟨h2, e2, i2, k2⟩ := dropStack_specS fs gs R h1 i1 (h3.keep k1 (reach_of_mem (by sub_tac)))
    exact ⟨h2, by unfold dropStack; rw [run_bind e1, e2], i2, (k1.mono (by sub_tac)).trans k2⟩

theorem akvDrop_spec {R h s m} (hi : Inv h (s.refs ++ R)) (hr : RepAKV h s m) :
    ∃ h', s.drop h = some ((), h') ∧ Inv h' R ∧ Keep R h h' := by
  obtain ⟨h1, e1, i1, k1, _⟩ := decBlob_spec (R := stRefs s.stack ++ R) (a := s.path) hi
  obtain ⟨h2, e2, i2, k2⟩ := dropStack_specS s.stack m.stack R h1 i1 (hr.2.keep k1 (reach_of_mem (by sub_tac)))
  exact ⟨h2, by unfold AKV.drop; rw [run_bind e1, e2], i2, (k1.mono (by sub_tac)).trans k2⟩

/-- What `Iterator::next` gives. -/
def RepNext {α β : Type} (rep : Mem → Option β → Option α → Prop) (h : Mem) : Option (Except ε β) → Option (Except ε α) → Prop
  | none, none => True
  | some (.ok b), some (.ok a) => rep h (some b) (some a)
  | some (.error e), some (.error e') => e = e'
  | _, _ => False

/-- The references of it. -/
def nextRefs {β : Type} (refs : Option β → List Heap.Ref) : Option (Except ε β) → List Heap.Ref
  | some (.ok b) => refs (some b)
  | _ => []

/-- A step of an iterator, as `Iterator::next` does it. -/
def StepS {α β ρ γ : Type} (rep : Mem → Option β → Option α → Prop) (refs : Option β → List Heap.Ref) (repS : Mem → ρ → γ → Prop) (refsS : ρ → List Heap.Ref)
    (R : List Heap.Ref) (h : Mem) (x : H (Option (Except ε β) × ρ)) (v : Res Empty (Option (Except ε α) × γ)) : Prop :=
  match v with
  | .ok (o, m) => ∃ ov s h', x h = some ((ov, s), h') ∧ Post R h h' (nextRefs refs ov ++ refsS s) ∧ RepNext rep h' ov o ∧ repS h' s m
  | _ => True

/-- The end of a step of a plain iterator. -/
def finishS {α : Type} (p : Bytes) : Res ε (Option α × SIter) → Res Empty (Option (Except ε α) × SIter)
  | .ok (some a, s) => .ok (some (.ok a), s)
  | .ok (none, s) => .ok (none, s)
  | .err e => .ok (some (.error e), ⟨p, []⟩)
  | .panic => .panic
  | .deep => .deep

theorem finish_specS {α β : Type} {rep : Mem → Option β → Option α → Prop} {refs : Option β → List Heap.Ref} {R h} {x : H (Except ε (Option β) × AKV)}
    {v : Res ε (Option α × SIter)} (p : Bytes) (hn : (∀ h a, ¬ rep h none (some a)) ∧ ∀ h b, ¬ rep h (some b) none) (h0 : refs none = [])
    (hx : NextS rep refs R h x v) :
    StepS rep refs RepAKV AKV.refs R h (AKV.finish x) (finishS p v) := by
  cases v with
  | ok q =>
    obtain ⟨o, m⟩ := q
    obtain ⟨ov, s, h', e, p1, r1, r2⟩ := hx
    cases o with
    | none =>
      cases ov with
      | some b => exact absurd r1 (hn.2 h' b)
      | none => exact ⟨none, s, h', by unfold AKV.finish; rw [run_bind e]; rfl, by rw [h0] at p1; exact p1, trivial, r2⟩
    | some a =>
      cases ov with
      | none => exact absurd r1 (hn.1 h' a)
      | some b => exact ⟨some (.ok b), s, h', by unfold AKV.finish; rw [run_bind e]; rfl, p1, r1, r2⟩
  | err e =>
    obtain ⟨s, h', m, e1, p1, r1⟩ := hx
    obtain ⟨h2, e2, i2, k2⟩ := dropStack_specS s.stack m.stack ([.blob s.path] ++ R) h' (p1.inv.mono (by acnt_tac)) r1.2
    obtain ⟨⟨d, hp, _⟩, _⟩ := r1
    refine ⟨some (.error e), ⟨s.path, []⟩, h2, ?_, ⟨i2.mono (by simp only [nextRefs]; acnt_tac), p1.keep.trans (k2.mono (by sub_tac))⟩, rfl, ⟨d, content_cB (k2 _ (.root (by simp))) hp, by simp⟩, trivial⟩
    unfold AKV.finish; rw [run_bind e1]; dsimp only; rw [run_bind e2]; rfl
  | panic => trivial
  | deep => trivial

theorem repKB_cases : (∀ h a, ¬ RepKB h none (some a)) ∧ ∀ h b, ¬ RepKB h (some b) none := ⟨fun _ _ h => h, fun _ _ h => h⟩

theorem next_specS {S : BlobStore σ ε} {st : σ} {R h s m} (n : Nat) (hi : Inv h (s.refs ++ R)) (hr : RepAKV h s m) :
    StepS RepKB keRefs RepAKV AKV.refs R h (AKV.next S st n s) (SIter.next S st n m) := by
  have h1 : SIter.next S st n m = finishS m.path (SIter.next0 S st n m) := by
    unfold SIter.next
    rcases SIter.next0 S st n m with ⟨_ | _, _⟩ | _ | _ | _ <;> rfl
  rw [h1]
  rw [step_forget]
  exact finish_specS m.path repKB_cases rfl (step_spec n m s R h hi hr).forget

/-! ### Making iterators -/

theorem oneKid_specS {R h x m} (hi : Inv h (x.refs ++ R)) (hr : RepS h x m) :
    ∃ a h1 h', alloc (.kids 1 [x]) h = some (a, h1) ∧ fromArc a h1 = some (⟨a, 0⟩, h') ∧ Inv h' ([.kids a] ++ R) ∧ Keep R h h' ∧ RepA h' (.kids ⟨a, 0⟩) (.owned [m]) := by
  obtain ⟨a, h1, e1, c1, i1, k1⟩ := allocKids_spec (R := R) [x] (hi.mono (by cnt_tac))
  have hr1 : RepSL h1 [x] [m] := RepSL.cons (hr.keep k1 (reach_of_mem (by sub_tac))) RepSL.nil
  obtain ⟨h2, e2, i2, k2⟩ := fromArc_specS i1 c1 hr1
  refine ⟨a, h1, h2, e1, e2, i2, (k1.mono (by sub_tac)).trans (k2.mono (by sub_tac)), [x], [m], ?_, ?_, rfl⟩
  · exact content_cK (k2 _ (.root (by simp))) c1
  · exact hr1.keep k2 fun r hr => .step (.root (by simp)) c1 hr

/-- What a computation that makes an iterator does. -/
def MakeS (R : List Heap.Ref) (h : Mem) (f : H AKV) (m : SIter) : Prop := ∃ s h', f h = some (s, h') ∧ Post R h h' s.refs ∧ RepAKV h' s m

theorem akvNew_spec {R h x m} (p : Bytes) (hi : Inv h (x.refs ++ R)) (hr : RepS h x m) : MakeS R h (AKV.new x p) ⟨p, [(0, some (.owned [m]))]⟩ := by
  obtain ⟨a, h1, h2, e1, e2, i2, k2, r2⟩ := oneKid_specS hi hr
  obtain ⟨b, h3, e3, c3, i3, k3⟩ := allocBlob_spec p i2
  refine ⟨⟨b, [(0, some (.kids ⟨a, 0⟩))]⟩, h3, ?_, ⟨?_, k2.trans (k3.mono (by sub_tac))⟩, ⟨_, c3, fun _ => rfl⟩, rfl, ?_, trivial⟩
  · unfold AKV.new; rw [run_bind e1, run_bind e2, run_bind e3]; rfl
  · have i3' : Inv h3 ([.blob b] ++ ([.kids a] ++ R)) := i3
    exact i3'.mono (by acnt_tac)
  · exact RepA.keep (it := .kids ⟨a, 0⟩) k3 (reach_of_mem (by asub_tac)) r2

theorem iter_specS {R h x m} (hi : Inv h R) (hb : BorS R h x m) : MakeS R h (iter x) (iterS m) := by
  obtain ⟨h1, e1, p1, r1⟩ := rawClone_postS hi hb
  obtain ⟨s, h2, e2, p2, r2⟩ := akvNew_spec [] p1.inv r1
  exact ⟨s, h2, by unfold iter; rw [run_bind e1, e2], ⟨p2.inv, p1.keep.trans p2.keep⟩, r2⟩

theorem iterOf_spec {R h} {u : HRef} {uv : Radix.Ref} (p : Bytes) (hi : Inv h R) (hb : BorR R h u uv) :
    New (ε := ε) RepAKV AKV.refs R h (iterOf u p) ((Radix.Ref.toOwned uv).bind fun a => .ok ⟨p, [(0, some (.owned [a]))]⟩) := by
  cases hv : (Radix.Ref.toOwned uv : Res ε SNode) with
  | ok m =>
    obtain ⟨y, h1, e1, p1, r1⟩ := href_toOwned hi hb hv
    obtain ⟨s, h2, e2, p2, r2⟩ := akvNew_spec p p1.inv r1
    exact ⟨s, h2, by unfold iterOf; rw [run_bind e1, run_bind e2]; rfl, ⟨p2.inv, p1.keep.trans p2.keep⟩, r2⟩
  | err e => exact (toOwned_noErr hv).elim
  | panic => trivial
  | deep => trivial

theorem scanPrefix_specS {S : BlobStore σ ε} {st : σ} {R h x m} (n : Nat) (p : Bytes) (hi : Inv h R) (hb : BorS R h x m) :
    New RepAKV AKV.refs R h (scanPrefix S st n x p) (scanPrefixS S n st m p) := by
  unfold scanPrefix scanPrefixS
  refine (find_specS n (.owned x) (.owned m) p hb).andThenNew hi ?_
  intro f fv _ hf
  cases f with
  | found u =>
    cases fv with
    | found uv => exact iterOf_spec p hi hf
    | _ => cases hf
  | pre u a =>
    cases fv with
    | pre uv a' => obtain ⟨hf, rfl⟩ := hf; exact iterOf_spec _ hi hf
    | _ => cases hf
  | notFound =>
    cases fv with
    | notFound =>
      obtain ⟨b, h3, e3, c3, i3, k3⟩ := allocBlob_spec [] hi
      refine ⟨⟨b, []⟩, h3, by dsimp only; rw [run_bind e3]; rfl, ⟨?_, k3⟩, ⟨_, c3, by simp⟩, trivial⟩
      have i3' : Inv h3 ([.blob b] ++ R) := i3
      exact i3'.mono (by acnt_tac)
    | _ => cases hf

/-! ### Groups -/

/-- An optional tree that is given out. -/
def RepOS (h : Mem) : Option Raw → Option SNode → Prop
  | some x, some m => RepS h x m
  | none, none => True
  | _, _ => False

theorem groupNode_spec {R h} {u : HRef} {uv : Radix.Ref} {a : SNode} (p : Bytes) (alone : Bool) (hi : Inv h R) (hb : BorR R h u uv)
    (hv : Radix.Ref.toOwned uv = (.ok a : Res ε SNode)) :
    ∃ y h', groupNode u p alone h = some (y, h') ∧ Post R h h' y.refs ∧ RepS h' y (if alone then .ref (.data p) a.val [] else a.setPrefix p) := by
  obtain ⟨x, h1, e1, p1, r1⟩ := href_toOwned hi hb hv
  obtain ⟨y, h2, e2, p2, r2, _⟩ := setPrefix_specS p p1.inv r1
  unfold groupNode
  rw [run_bind e1, run_bind e2]
  cases alone with
  | false => exact ⟨y, h2, rfl, ⟨p2.inv, p1.keep.trans p2.keep⟩, r2⟩
  | true =>
    obtain ⟨z, h3, e3, p3, r3⟩ := clearChildren_specS p2.inv r2
    refine ⟨z, h3, by simpa using e3, ⟨p3.inv, (p1.keep.trans p2.keep).trans p3.keep⟩, ?_⟩
    simp only [SNode.noChildren, SNode.setPrefix, ofParts_pfx, ofParts_val] at r3
    exact r3

theorem groupStep_spec {S : BlobStore σ ε} {st : σ} (dv : Bytes → Except ε Bool) : ∀ (n : Nat) (m : SIter) (s : AKV) (R : List Heap.Ref) (h : Mem),
    Inv h (s.refs ++ R) → RepAKV h s m → NextE RepOS onRefs RepAKV AKV.refs R h (AKV.nextGroup0 S st dv n s) (groupStep S dv st n m) := by
  intro n
  induction n with
  | zero => intro m s R h hi hr; trivial
  | succ n ih =>
    intro m s R h hi hr
    obtain ⟨mp, ms⟩ := m
    obtain ⟨sp, ss⟩ := s
    obtain ⟨⟨d, hp, hd⟩, hs⟩ := hr
    dsimp only at hp hs hd
    unfold AKV.nextGroup0 groupStep
    dsimp only
    cases ms with
    | nil =>
      cases ss with
      | cons _ _ => exact hs.elim
      | nil => exact ⟨none, ⟨sp, []⟩, h, rfl, ⟨hi, Keep.refl _ _⟩, trivial, ⟨d, hp, hd⟩, trivial⟩
    | cons g gs =>
      have hd := hd (by simp)
      subst hd
      cases ss with
      | nil => exact hs.elim
      | cons f fs =>
        obtain ⟨plen, oi⟩ := f
        obtain ⟨plen', ol⟩ := g
        obtain ⟨rfl, h2, h3⟩ := hs
        dsimp only at h2
        cases oi with
        | none =>
          cases ol with
          | some _ => exact h2.elim
          | none =>
            dsimp only
            obtain ⟨b, h1, e1, i1, k1, c1⟩ := changeKey_spec (R := stRefs fs ++ R) (fun x => x.take (x.length - plen)) (hi.mono (by acnt_tac)) hp
            have h31 := h3.keep k1 (reach_of_mem (by sub_tac))
            have e1' : keyPop sp plen h = some (b, h1) := e1
            exact NextE.after (run_bind e1') (k1.mono (by sub_tac)) (ih ⟨pathPop d plen, gs⟩ ⟨b, fs⟩ R h1 (i1.mono (by acnt_tac)) ⟨⟨_, c1, fun _ => rfl⟩, h31⟩)
        | some it =>
          cases ol with
          | none => exact h2.elim
          | some itv =>
            have h2' : RepA h it itv := h2
            dsimp only
            have hit : ∀ r ∈ it.refs, Reach h (it.refs ++ stRefs fs ++ R) r := reach_of_mem (by asub_tac)
            rcases itNext_spec hit h2' with ⟨e0, e0'⟩ | ⟨b, it', bv, itv', e0, e0', hb, hrest, hrefs⟩
            · rw [e0']
              dsimp only
              obtain ⟨h1, e1, i1, k1⟩ := itDrop_spec (R := [.blob sp] ++ stRefs fs ++ R) (hi.mono (by acnt_tac)) h2'
              have h31 := h3.keep k1 (reach_of_mem (by sub_tac))
              have hp1 : cB h1 sp = some d := content_cB (k1 _ (.root (by simp))) hp
              refine NextE.after (h' := h1) ?_ (k1.mono (by sub_tac)) (ih ⟨d, (plen, none) :: gs⟩ ⟨sp, (plen, none) :: fs⟩ R h1 (i1.mono (by acnt_tac)) ⟨⟨_, hp1, fun _ => rfl⟩, rfl, trivial, h31⟩)
              rw [run_bind e0]; dsimp only; rw [run_bind e1]
            · rw [e0']
              dsimp only
              have h4 := href_loadPrefix (S := S) (st := st) hb
              cases hl : Radix.loadPrefix S st bv.pfx with
              | panic => trivial
              | deep => trivial
              | err e =>
                rw [hl] at h4
                refine ⟨⟨sp, (plen, some it') :: fs⟩, h, ?_, ⟨hi.mono (by simp only [AKV.refs, stRefs, oaRefs, hrefs]; acnt_tac), Keep.refl _ _⟩, ⟨_, hp, fun _ => rfl⟩, rfl, hrest, h3⟩
                rw [run_bind e0]; dsimp only; rw [run_bind h4]; rfl
              | ok p =>
                rw [hl] at h4
                have h4 : HRef.loadPrefix S st b h = some (.ok p, h) := h4
                dsimp only
                obtain ⟨k, h1, e1, i1, k1, c1⟩ := changeKey_spec (h := h) (a := sp) (R := it.refs ++ stRefs fs ++ R) (fun x => x ++ p) (hi.mono (by acnt_tac)) hp
                have e1' : keyAppend sp p h = some (k, h1) := e1
                have hb1 : BorR ([.blob k] ++ (it.refs ++ stRefs fs ++ R)) h1 b bv := (hb.keep k1).mono (by sub_tac)
                have hit1 : RepA h1 it' itv' := hrest.keep k1 (by rw [hrefs]; exact hit)
                have h31 : RepSt h1 fs gs := h3.keep k1 (reach_of_mem (by sub_tac))
                rw [← hrefs] at i1 k1 hb1
                have k1' : Keep R h h1 := k1.mono (by sub_tac)
                have s1 : RepAKV h1 ⟨k, (plen, some it') :: fs⟩ ⟨d ++ p, (plen, some itv') :: gs⟩ := ⟨⟨_, c1, fun _ => rfl⟩, rfl, hit1, h31⟩
                cases hdv : dv (d ++ p) with
                | error e =>
                  have hdv' : dv (pathAppend d p) = .error e := hdv
                  rw [hdv']
                  refine ⟨⟨k, (plen, some it') :: fs⟩, h1, ?_, ⟨i1.mono (by acnt_tac), k1'⟩, s1⟩
                  rw [run_bind e0]; dsimp only; rw [run_bind h4]; dsimp only; rw [run_bind e1', run_bind (readBlob_spec c1), hdv]; rfl
                | ok bd =>
                  have hdv' : dv (pathAppend d p) = .ok bd := hdv
                  rw [hdv']
                  cases bd with
                  | true =>
                    dsimp only
                    have h5 := loadOwned_specS (S := S) (st := st) i1 hb1
                    cases hc : bv.loadChildrenOwned S st with
                    | panic => trivial
                    | deep => trivial
                    | err e =>
                      rw [hc] at h5
                      obtain ⟨h2, e2, i2, k2⟩ := h5
                      refine ⟨⟨k, (plen, some it') :: fs⟩, h2, ?_, ⟨i2.mono (by acnt_tac), k1'.trans (k2.mono (by sub_tac))⟩, s1.keep k2 (reach_of_mem (by asub_tac))⟩
                      rw [run_bind e0]; dsimp only; rw [run_bind h4]; dsimp only; rw [run_bind e1', run_bind (readBlob_spec c1), hdv]; dsimp only; rw [run_bind e2]; rfl
                    | ok oc =>
                      rw [hc] at h5
                      obtain ⟨oa, h2, e2, p2, r2⟩ := h5
                      have hb2 := hb1.keep p2.keep
                      have c2 : cB h2 k = some (d ++ p) := content_cB (p2.keep _ (.root (by simp))) c1
                      have s2 : RepAKV h2 ⟨k, (p.length, oa) :: (plen, some it') :: fs⟩ ⟨pathAppend d p, (p.length, oc) :: (plen, some itv') :: gs⟩ :=
                        ⟨⟨_, c2, fun _ => rfl⟩, rfl, r2, rfl, RepA.keep (it := it') p2.keep (reach_of_mem (by asub_tac)) hit1, h31.keep p2.keep (reach_of_mem (by asub_tac))⟩
                      have k12 : Keep R h h2 := k1'.trans (p2.keep.mono (by asub_tac))
                      have hsome := isSome_valueOpt hb
                      dsimp only
                      cases hv : bv.val.valueOpt with
                      | none =>
                        rw [hv] at hsome
                        refine NextE.after (h' := h2) ?_ k12 (ih _ ⟨k, (p.length, oa) :: (plen, some it') :: fs⟩ R h2 (p2.inv.mono (by acnt_tac)) s2)
                        rw [run_bind e0]; dsimp only; rw [run_bind h4]; dsimp only; rw [run_bind e1', run_bind (readBlob_spec c1), hdv]; dsimp only; rw [run_bind e2]; dsimp only
                        rw [hsome]; rfl
                      | some v =>
                        rw [hv] at hsome
                        dsimp only
                        cases ht : (Radix.Ref.toOwned bv : Res Empty SNode) with
                        | err e => exact e.elim
                        | panic => trivial
                        | deep => trivial
                        | ok a =>
                          obtain ⟨y, h3', e3, p3, r3⟩ := groupNode_spec (d ++ p) true p2.inv (hb2.mono (R' := oaRefs oa ++ ([.blob k] ++ (it'.refs ++ stRefs fs ++ R))) (by asub_tac)) ht
                          refine ⟨some y, ⟨k, (p.length, oa) :: (plen, some it') :: fs⟩, h3', ?_, ⟨p3.inv.mono (by acnt_tac), k12.trans (p3.keep.mono (by asub_tac))⟩, ?_, ?_⟩
                          · rw [run_bind e0]; dsimp only; rw [run_bind h4]; dsimp only; rw [run_bind e1', run_bind (readBlob_spec c1), hdv]; dsimp only; rw [run_bind e2]; dsimp only
                            rw [hsome]; show (groupNode b (d ++ p) true >>= _) h2 = _; rw [run_bind e3]; rfl
                          · exact r3
                          · exact s2.keep p3.keep (reach_of_mem (by asub_tac))
                  | false =>
                    dsimp only
                    cases ht : (Radix.Ref.toOwned bv : Res Empty SNode) with
                    | err e => exact e.elim
                    | panic => trivial
                    | deep => trivial
                    | ok a =>
                      obtain ⟨y, h2, e2, p2, r2⟩ := groupNode_spec (d ++ p) false i1 hb1 ht
                      have c2 : cB h2 k = some (d ++ p) := content_cB (p2.keep _ (.root (by simp))) c1
                      obtain ⟨k', h3', e3, i3, k3, c3⟩ := changeKey_spec (h := h2) (a := k) (R := y.refs ++ it'.refs ++ stRefs fs ++ R) (fun x => x.take (x.length - p.length))
                        (p2.inv.mono (by acnt_tac)) c2
                      have e3' : keyPop k p.length h2 = some (k', h3') := e3
                      refine ⟨some y, ⟨k', (plen, some it') :: fs⟩, h3', ?_, ⟨i3.mono (by acnt_tac), k1'.trans ((p2.keep.mono (by asub_tac)).trans (k3.mono (by asub_tac)))⟩, ?_, ⟨_, c3, fun _ => rfl⟩, rfl, ?_, ?_⟩
                      · rw [run_bind e0]; dsimp only; rw [run_bind h4]; dsimp only; rw [run_bind e1', run_bind (readBlob_spec c1), hdv]; dsimp only; rw [run_bind e2, run_bind e3']; rfl
                      · have r2' : RepS h2 y (a.setPrefix (d ++ p)) := r2
                        exact r2'.keep k3 (reach_of_mem (by sub_tac))
                      · exact (RepA.keep (it := it') p2.keep (reach_of_mem (by asub_tac)) hit1).keep k3 (reach_of_mem (by asub_tac))
                      · exact (h31.keep p2.keep (reach_of_mem (by asub_tac))).keep k3 (reach_of_mem (by asub_tac))

theorem toOwned_case (bv : Radix.Ref) : (Radix.Ref.toOwned bv : Res ε SNode) = match (Radix.Ref.toOwned bv : Res Empty SNode) with
    | .ok a => .ok a
    | .panic => .panic
    | .deep => .deep := by
  cases bv with
  | owned a => rfl
  | borrowed r =>
    simp only [Radix.Ref.toOwned, Rec.toOwned, Rec.ch]
    repeat' split
    all_goals first | rfl | simp_all

theorem groupStep_forget {S : BlobStore σ ε} {st : σ} (dv : Bytes → Except ε Bool) : ∀ (n : Nat) (m : SIter), groupNext0S S (descendS dv) st n m = forget (groupStep S dv st n m)
  | 0, _ => rfl
  | n + 1, ⟨path, []⟩ => rfl
  | n + 1, ⟨path, (plen, none) :: rest⟩ => by
    unfold groupNext0S groupStep
    exact groupStep_forget dv n _
  | n + 1, ⟨path, (plen, some it) :: rest⟩ => by
    unfold groupNext0S groupStep
    dsimp only
    rcases it.next with _ | ⟨node, it'⟩
    · exact groupStep_forget dv n _
    · dsimp only
      cases Radix.loadPrefix S st node.pfx with
      | ok p =>
        dsimp only [Res.bind, descendS]
        cases dv (pathAppend path p) with
        | error e => rfl
        | ok b =>
          cases b with
          | true =>
            dsimp only [Res.bind]
            cases node.loadChildrenOwned S st with
            | ok cs =>
              dsimp only [Res.bind]
              cases node.val.valueOpt with
              | some v =>
                dsimp only
                rw [toOwned_case]
                cases (Radix.Ref.toOwned node : Res Empty SNode) with
                | err e => exact e.elim
                | _ => rfl
              | none => exact groupStep_forget dv n _
            | _ => rfl
          | false =>
            dsimp only [Res.bind]
            rw [toOwned_case]
            cases (Radix.Ref.toOwned node : Res Empty SNode) with
            | err e => exact e.elim
            | _ => rfl
      | _ => rfl

theorem repOS_cases : (∀ h a, ¬ RepOS h none (some a)) ∧ ∀ h b, ¬ RepOS h (some b) none := ⟨fun _ _ h => h, fun _ _ h => h⟩

theorem nextGroup_specS {S : BlobStore σ ε} {st : σ} {R h s m} (dv : Bytes → Except ε Bool) (n : Nat) (hi : Inv h (s.refs ++ R)) (hr : RepAKV h s m) :
    StepS RepOS onRefs RepAKV AKV.refs R h (AKV.nextGroup S st dv n s) (groupNextS S (descendS dv) st n m) := by
  have h1 : groupNextS S (descendS dv) st n m = finishS m.path (groupNext0S S (descendS dv) st n m) := by
    unfold groupNextS
    rcases groupNext0S S (descendS dv) st n m with ⟨_ | _, _⟩ | _ | _ | _ <;> rfl
  rw [h1]
  rw [groupStep_forget]
  exact finish_specS m.path repOS_cases rfl (groupStep_spec dv n m s R h hi hr).forget

/-! ### Values -/

/-- References of a `ValueIter`. -/
def aitsRefs (l : List AIt) : List Heap.Ref := l.flatMap AIt.refs

theorem aitsRefs_cons (it : AIt) (l : List AIt) : aitsRefs (it :: l) = it.refs ++ aitsRefs l := rfl

/-- A `ValueIter` in memory. -/
def RepAs (h : Mem) : List AIt → List TIter → Prop
  | [], [] => True
  | it :: its, l :: ls => RepA h it l ∧ RepAs h its ls
  | _, _ => False

theorem RepAs.keep {R h h'} (hk : Keep R h h') : ∀ {fs gs}, (∀ r ∈ aitsRefs fs, Reach h R r) → RepAs h fs gs → RepAs h' fs gs
  | [], [], _, h1 => h1
  | f :: fs, g :: gs, hr, h1 => ⟨h1.1.keep hk fun r hx => hr r (by simp [aitsRefs_cons, hx]), RepAs.keep hk (fun r hx => hr r (by simp [aitsRefs_cons, hx])) h1.2⟩
  | [], _ :: _, _, h1 => h1.elim
  | _ :: _, [], _, h1 => h1.elim

theorem valStep_spec {S : BlobStore σ ε} {st : σ} : ∀ (n : Nat) (m : List TIter) (s : List AIt) (R : List Heap.Ref) (h : Mem), Inv h (aitsRefs s ++ R) → RepAs h s m →
    NextE RepOBV ovRefs RepAs aitsRefs R h (valNext0 S st n s) (valStep S st n m) := by
  intro n
  induction n with
  | zero => intro m s R h hi hr; trivial
  | succ n ih =>
    intro m s R h hi hr
    unfold valNext0 valStep
    cases m with
    | nil =>
      cases s with
      | cons _ _ => exact hr.elim
      | nil => exact ⟨none, [], h, rfl, ⟨hi, Keep.refl _ _⟩, trivial, trivial⟩
    | cons itv ls =>
      cases s with
      | nil => exact hr.elim
      | cons it its =>
        obtain ⟨h2, h3⟩ := hr
        dsimp only
        have hit : ∀ r ∈ it.refs, Reach h (aitsRefs (it :: its) ++ R) r := reach_of_mem (by simp only [aitsRefs_cons]; sub_tac)
        rcases itNext_spec hit h2 with ⟨e0, e0'⟩ | ⟨b, it', bv, itv', e0, e0', hb, hrest, hrefs⟩
        · rw [e0']
          dsimp only
          obtain ⟨h1, e1, i1, k1⟩ := itDrop_spec (R := aitsRefs its ++ R) (hi.mono (by simp only [aitsRefs_cons]; cnt_tac)) h2
          refine NextE.after (h' := h1) ?_ (k1.mono (by sub_tac)) (ih ls its R h1 i1 (h3.keep k1 (reach_of_mem (by sub_tac))))
          rw [run_bind e0]; dsimp only; rw [run_bind e1]
        · rw [e0']
          dsimp only
          obtain ⟨ov, h1, e1, p1, r1⟩ := ownValue_spec hi hb
          have k1 : Keep R h h1 := p1.keep.mono (by sub_tac)
          have i1 : Inv h1 (ovRefs ov ++ (aitsRefs (it' :: its) ++ R)) := p1.inv.mono (by simp only [aitsRefs_cons, hrefs]; cnt_tac)
          have ht1 : RepAs h1 (it' :: its) (itv' :: ls) := ⟨hrest.keep p1.keep (by rw [hrefs]; exact hit), h3.keep p1.keep (reach_of_mem (by simp only [aitsRefs_cons]; sub_tac))⟩
          have h5 := loadOwned_specS (S := S) (st := st) i1 ((hb.keep p1.keep).mono (R' := ovRefs ov ++ (aitsRefs (it' :: its) ++ R)) (by simp only [aitsRefs_cons, hrefs]; sub_tac))
          cases hc : bv.loadChildrenOwned S st with
          | panic => trivial
          | deep => trivial
          | err e =>
            rw [hc] at h5
            obtain ⟨h4, e2, i2, k2⟩ := h5
            obtain ⟨h6, e3, i3, k3⟩ := dropOpt_spec i2 (r1.keep k2 (reach_of_mem (by sub_tac)))
            refine ⟨it' :: its, h6, ?_, ⟨i3, k1.trans ((k2.mono (by sub_tac)).trans (k3.mono (by sub_tac)))⟩, (ht1.keep k2 (reach_of_mem (by sub_tac))).keep k3 (reach_of_mem (by sub_tac))⟩
            rw [run_bind e0]; dsimp only; rw [run_bind e1, run_bind e2]; dsimp only; rw [run_bind e3]; rfl
          | ok oc =>
            rw [hc] at h5
            obtain ⟨oa, h4, e2, p2, r2⟩ := h5
            have ht := ht1.keep p2.keep (reach_of_mem (by sub_tac))
            have s4 : RepAs h4 (oa.toList ++ it' :: its) (pushOptS oc (itv' :: ls)) := by
              cases oa with
              | none => cases oc with
                | none => exact ht
                | some c => exact r2.elim
              | some i => cases oc with
                | none => exact r2.elim
                | some c => exact ⟨r2, ht⟩
            have i4 : Inv h4 (ovRefs ov ++ aitsRefs (oa.toList ++ it' :: its) ++ R) := by
              refine p2.inv.mono ?_
              cases oa <;> simp only [Option.toList, List.nil_append, List.cons_append, aitsRefs_cons, oaRefs] <;> cnt_tac
            have k4 : Keep R h h4 := k1.trans (p2.keep.mono (by sub_tac))
            have r4 : RepOBV h4 ov bv.val.valueOpt := r1.keep p2.keep (reach_of_mem (by sub_tac))
            dsimp only
            cases ov with
            | none =>
              cases hv : bv.val.valueOpt with
              | some d => rw [hv] at r4; exact r4.elim
              | none =>
                refine NextE.after (h' := h4) ?_ k4 (ih _ _ R h4 i4 s4)
                rw [run_bind e0]; dsimp only; rw [run_bind e1, run_bind e2]
            | some fv =>
              cases hv : bv.val.valueOpt with
              | none => rw [hv] at r4; exact r4.elim
              | some d =>
                rw [hv] at r4
                refine ⟨some fv, _, h4, ?_, ⟨i4, k4⟩, r4, s4⟩
                rw [run_bind e0]; dsimp only; rw [run_bind e1, run_bind e2]; rfl

theorem valStep_forget {S : BlobStore σ ε} {st : σ} : ∀ (n : Nat) (m : List TIter), valNext0S S st n m = forget (valStep S st n m)
  | 0, _ => rfl
  | n + 1, [] => rfl
  | n + 1, it :: rest => by
    unfold valNext0S valStep
    dsimp only
    rcases it.next with _ | ⟨node, it'⟩
    · exact valStep_forget n _
    · dsimp only
      cases node.loadChildrenOwned S st with
      | ok cs =>
        dsimp only [Res.bind]
        cases node.val.valueOpt with
        | some v => rfl
        | none => exact valStep_forget n _
      | _ => rfl

theorem dropVals_specS : ∀ (s : List AIt) (m : List TIter) (R : List Heap.Ref) (h : Mem), Inv h (aitsRefs s ++ R) → RepAs h s m →
    ∃ h', dropVals s h = some ((), h') ∧ Inv h' R ∧ Keep R h h'
  | [], _, R, h, hi, _ => ⟨h, rfl, hi, Keep.refl _ _⟩
  | it :: fs, [], R, h, hi, hr => hr.elim
  | it :: fs, l :: gs, R, h, hi, hr => by
    obtain ⟨h2, h3⟩ := hr
    obtain ⟨h1, e1, i1, k1⟩ := itDrop_spec (R := aitsRefs fs ++ R) (hi.mono (by simp only [aitsRefs_cons]; cnt_tac)) h2
    obtain ⟨h2, e2, i2, k2⟩ := dropVals_specS fs gs R h1 i1 (h3.keep k1 (reach_of_mem (by sub_tac)))
    exact ⟨h2, by unfold dropVals; rw [run_bind e1, e2], i2, (k1.mono (by sub_tac)).trans k2⟩

theorem valNext_specS {S : BlobStore σ ε} {st : σ} {R h s m} (n : Nat) (hi : Inv h (aitsRefs s ++ R)) (hr : RepAs h s m) :
    StepS RepOBV ovRefs RepAs aitsRefs R h (valNext S st n s) (valNextS S st n m) := by
  have hx := valStep_spec (S := S) (st := st) n m s R h hi hr
  unfold valNextS valNext
  rw [valStep_forget]
  cases hv : valStep S st n m with
  | ok q =>
    rw [hv] at hx
    obtain ⟨o, m'⟩ := q
    cases o with
    | ok o =>
      obtain ⟨ov, s', h', e, p1, r1, r2⟩ := hx
      cases o with
      | none =>
        cases ov with
        | some b => exact r1.elim
        | none => exact ⟨none, s', h', by rw [run_bind e]; rfl, p1, trivial, r2⟩
      | some a =>
        cases ov with
        | none => exact r1.elim
        | some b => exact ⟨some (.ok b), s', h', by rw [run_bind e]; rfl, p1, r1, r2⟩
    | error e =>
      obtain ⟨s', h', e1, p1, r1⟩ := hx
      obtain ⟨h2, e2, i2, k2⟩ := dropVals_specS s' m' R h' p1.inv r1
      refine ⟨some (.error e), [], h2, ?_, ⟨i2, p1.keep.trans k2⟩, rfl, trivial⟩
      rw [run_bind e1]; dsimp only; rw [run_bind e2]; rfl
  | err e => exact e.elim
  | panic => trivial
  | deep => trivial

theorem values_specS {R h x m} (hi : Inv h R) (hb : BorS R h x m) :
    ∃ s h', values x h = some (s, h') ∧ Post R h h' (aitsRefs s) ∧ RepAs h' s (valuesS m) := by
  obtain ⟨h1, e1, p1, r1⟩ := rawClone_postS hi hb
  obtain ⟨a, h2, h3, e2, e3, i3, k3, r3⟩ := oneKid_specS p1.inv r1
  refine ⟨[.kids ⟨a, 0⟩], h3, ?_, ⟨?_, p1.keep.trans k3⟩, r3, trivial⟩
  · unfold values; rw [run_bind e1, run_bind e2, run_bind e3]; rfl
  · have : aitsRefs [.kids ⟨a, 0⟩] = [.kids a] := rfl
    rw [this]; exact i3

end

end Radix.Heap.Att
