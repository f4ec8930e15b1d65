import Verif.Proofs.HeapApi

/- Iterators over trees in memory do what those over trees do; the keys they gave out stay as they are. -/

set_option linter.unusedVariables false

namespace Radix.Heap

/-! ### Keys -/

theorem changeKey_spec {h R a d} (g : Bytes → Bytes) (hi : Inv h ([.blob a] ++ R)) (hc : cB h a = some d) :
    ∃ b h', changeKey g a h = some (b, h') ∧ Inv h' ([.blob b] ++ R) ∧ Keep R h h' ∧ cB h' b = some (g d) := by
  obtain ⟨o, h0, e0, h1⟩ := takeBlob_spec hi hc
  unfold changeKey
  rw [run_bind e0]
  rcases h1 with ⟨rfl, i0, k0⟩ | ⟨rfl, i0, k0⟩
  · obtain ⟨b, h1, e1, c1, i1, k1⟩ := allocBlob_spec (g d) i0
    exact ⟨b, h1, e1, i1, k0.trans k1, c1⟩
  · have hc0 : cB h0 a = some d := content_cB (k0 _ (.root (by simp))) hc
    obtain ⟨b, h1, e1, c1, i1, k1⟩ := allocBlob_spec (R := [.blob a] ++ R) (g d) i0
    obtain ⟨h2, e2, i2, k2, _⟩ := decBlob_spec (R := [.blob b] ++ R) (a := a) (i1.mono (by
      intro r; simp only [List.count_append, List.count_cons, List.count_nil]; omega))
    refine ⟨b, h2, ?_, i2, (k0.mono (by intro r hr; exact List.mem_cons_of_mem _ hr)).trans ((k1.mono (by intro r hr; exact List.mem_cons_of_mem _ hr)).trans (k2.mono (by sub_tac))), ?_⟩
    · show (readBlob a >>= _) h0 = _
      rw [run_bind (readBlob_spec hc0), run_bind e1, run_bind e2]; rfl
    · exact content_cB (k2 _ (.root (by simp))) c1

/-! ### Vectors that are kept -/

theorem dropArc_spec {h R a xs l} (hi : Inv h ([.kids a] ++ R)) (hc : cK h a = some xs) (hr : RepL h xs l) :
    ∃ h', dropArc a h = some ((), h') ∧ Inv h' R ∧ Keep R h h' := by
  obtain ⟨ns, h1, e1, i1, k1, k1', hn, _⟩ := decKids_spec hi
  have hl : ∃ l', RepL h1 ns l' := by
    rcases hn xs hc with rfl | rfl
    · exact ⟨l, hr.keep k1 (reach_of_mem (by sub_tac))⟩
    · exact ⟨[], RepL.nil⟩
  obtain ⟨l', hl⟩ := hl
  obtain ⟨h2, e2, i2, k2⟩ := dropAll_spec i1 hl
  exact ⟨h2, by unfold dropArc; rw [run_bind e1, e2], i2, k1'.trans k2⟩

theorem fromArc_spec {h R a xs l} (hi : Inv h ([.kids a] ++ R)) (hc : cK h a = some xs) (hr : RepL h xs l) :
    ∃ h', fromArc a h = some (⟨a, 0⟩, h') ∧ Inv h' ([.kids a] ++ R) ∧ Keep ([.kids a] ++ R) h h' := by
  obtain ⟨h1, e1, i1, c1⟩ := incKids_spec (a := a) hi (.root (by simp))
  have k1 : Keep ([.kids a] ++ R) h h1 := c1
  have hc1 : cK h1 a = some xs := content_cK (c1 _ (.root (by simp))) hc
  have hr1 : RepL h1 xs l := hr.keep k1 fun r hr => .step (.root (by simp)) hc hr
  obtain ⟨h2, e2, i2, k2⟩ := dropArc_spec (R := [.kids a] ++ R) i1 hc1 hr1
  exact ⟨h2, by unfold fromArc; rw [run_bind e1, run_bind e2]; rfl, i2, k1.trans k2⟩

/-- References of an iterator over children. -/
def KidsIter.refs (it : KidsIter) : List Ref := [.kids it.owner]

/-- References of an optional iterator. -/
def oiRefs : Option KidsIter → List Ref
  | some it => it.refs
  | none => []

/-- An iterator over children in memory still has to give the trees `l`. -/
def RepIt (h : Mem) (it : KidsIter) (l : List Node) : Prop := ∃ xs l0, cK h it.owner = some xs ∧ RepL h xs l0 ∧ l = l0.drop it.pos

/-- An optional iterator. -/
def RepOI (h : Mem) : Option KidsIter → Option (List Node) → Prop
  | some it, some l => RepIt h it l
  | none, none => True
  | _, _ => False

theorem RepIt.core {S h h' it l} (hk : Core S h h') (hr : ∀ r ∈ it.refs, Via h S r) (h1 : RepIt h it l) : RepIt h' it l := by
  obtain ⟨xs, l0, h2, h3, h4⟩ := h1
  have hr' := hr (.kids it.owner) (by simp [KidsIter.refs])
  exact ⟨xs, l0, content_cK (hk _ hr') h2, h3.core hk fun r hx => .step hr' h2 hx, h4⟩

theorem RepIt.keep {R h h' it l} (hk : Keep R h h') (hr : ∀ r ∈ it.refs, Reach h R r) (h1 : RepIt h it l) : RepIt h' it l := RepIt.core hk.same hr h1

theorem RepOI.core {S h h' o l} (hk : Core S h h') (hr : ∀ r ∈ oiRefs o, Via h S r) (h1 : RepOI h o l) : RepOI h' o l := by
  cases o <;> cases l <;> try exact h1
  exact RepIt.core hk hr h1

theorem RepOI.keep {R h h' o l} (hk : Keep R h h') (hr : ∀ r ∈ oiRefs o, Reach h R r) (h1 : RepOI h o l) : RepOI h' o l := RepOI.core hk.same hr h1

theorem loadOwned_spec {R h x m} (hi : Inv h R) (hb : Bor R h x m) :
    ∃ o h', x.loadChildrenOwned h = some (o, h') ∧ Post R h h' (oiRefs o) ∧ RepOI h' o m.loadChildrenOwned := by
  unfold Raw.loadChildrenOwned Node.loadChildrenOwned
  rcases hb.1.ch.refs with ⟨h1, h2, h3, b, h4⟩ | ⟨h1, a, xs, l, h2, h3, h4, h5, h6⟩
  · rw [h1, h2, if_pos (by decide +kernel), if_pos (by decide +kernel)]
    exact ⟨none, h, rfl, ⟨hi, Keep.refl _ _⟩, trivial⟩
  · rw [h1, h2, h3, if_neg (by decide +kernel), if_pos (by decide +kernel)]
    dsimp only
    have hra : Reach h R (.kids a) := hb.2 _ (by simp [Raw.refs, h4])
    obtain ⟨h', e1, i1, c1⟩ := incKids_spec (a := a) hi hra
    have k1 : Keep R h h' := c1
    have hc1 : cK h' a = some xs := content_cK (c1 _ hra) h5
    have hr1 : RepL h' xs l := h6.keep k1 fun r hr => .step hra h5 hr
    obtain ⟨h2, e2, i2, k2⟩ := fromArc_spec i1 hc1 hr1
    refine ⟨some ⟨a, 0⟩, h2, by rw [run_bind e1, run_bind e2]; rfl, ⟨i2, k1.trans (k2.mono (by sub_tac))⟩, xs, l, ?_, ?_, rfl⟩
    · exact content_cK (k2 _ (.root (by simp))) hc1
    · exact hr1.keep k2 fun r hr => .step (.root (by simp)) hc1 hr

theorem itNext_nil {R h it} (hr : ∀ r ∈ it.refs, Reach h R r) (h1 : RepIt h it []) : it.next h = some (none, h) := by
  obtain ⟨xs, l0, h2, h3, h4⟩ := h1
  unfold KidsIter.next
  rw [run_bind (readKids_spec h2)]
  have : l0.length ≤ it.pos := by
    have := congrArg List.length h4
    simp only [List.length_nil, List.length_drop] at this; omega
  rw [← h3.length] at this
  rw [List.getElem?_eq_none this]; rfl

theorem itNext_cons {R h it m l} (hr : ∀ r ∈ it.refs, Reach h R r) (h1 : RepIt h it (m :: l)) :
    ∃ x, it.next h = some (some x, h) ∧ Bor R h x m ∧ RepIt h ⟨it.owner, it.pos + 1⟩ l := by
  obtain ⟨xs, l0, h2, h3, h4⟩ := h1
  unfold KidsIter.next
  rw [run_bind (readKids_spec h2)]
  have hr' := hr (.kids it.owner) (by simp [KidsIter.refs])
  have hb : BorL R h xs l0 := ⟨h3, fun r hx => .step hr' h2 hx⟩
  have h5 := hb.get it.pos
  have h6 : l0[it.pos]? = some m := by rw [← List.head?_drop, ← h4]; rfl
  rw [h6] at h5
  cases hx : xs[it.pos]? with
  | none => rw [hx] at h5; exact h5.elim
  | some x =>
    rw [hx] at h5
    refine ⟨x, rfl, h5, xs, l0, h2, h3, ?_⟩
    rw [← List.tail_drop, ← h4]; rfl

/-! ### Stacks -/

/-- References of a stack. -/
def stackRefs : List (Nat × Option KidsIter) → List Ref
  | [] => []
  | f :: fs => oiRefs f.2 ++ stackRefs fs

/-- A stack in memory. -/
def RepS (h : Mem) : List (Nat × Option KidsIter) → List Frame → Prop
  | [], [] => True
  | f :: fs, g :: gs => f.1 = g.1 ∧ RepOI h f.2 g.2 ∧ RepS h fs gs
  | _, _ => False

theorem RepS.core {S h h'} (hk : Core S h h') : ∀ {fs gs}, (∀ r ∈ stackRefs fs, Via h S r) → RepS h fs gs → RepS h' fs gs
  | [], [], _, h1 => h1
  | f :: fs, g :: gs, hr, h1 => ⟨h1.1, h1.2.1.core hk fun r hx => hr r (by simp [stackRefs, hx]), RepS.core hk (fun r hx => hr r (by simp [stackRefs, hx])) h1.2.2⟩
  | [], _ :: _, _, h1 => h1.elim
  | _ :: _, [], _, h1 => h1.elim

theorem RepS.keep {R h h'} (hk : Keep R h h') {fs gs} (hr : ∀ r ∈ stackRefs fs, Reach h R r) (h1 : RepS h fs gs) : RepS h' fs gs := RepS.core hk.same hr h1

/-- References of an iterator. -/
def KV.refs (s : KV) : List Ref := [.blob s.path] ++ stackRefs s.stack

/-- An iterator in memory. -/
def RepKV (h : Mem) (s : KV) (m : KVIter) : Prop := cB h s.path = some m.path ∧ RepS h s.stack m.stack

theorem RepKV.core {S h h' s m} (hk : Core S h h') (hr : ∀ r ∈ s.refs, Via h S r) (h1 : RepKV h s m) : RepKV h' s m :=
  ⟨content_cB (hk _ (hr _ (by simp [KV.refs]))) h1.1, h1.2.core hk fun r hx => hr r (by simp [KV.refs, hx])⟩

theorem RepKV.keep {R h h' s m} (hk : Keep R h h') (hr : ∀ r ∈ s.refs, Reach h R r) (h1 : RepKV h s m) : RepKV h' s m := RepKV.core hk.same hr h1

/-- An entry that an iterator gave out: a key that is a reference, and a value. -/
def RepKE (h : Mem) : Option (Nat × Fld) → Option (Bytes × Bytes) → Prop
  | some (a, f), some (k, d) => cB h a = some k ∧ RepB h f d
  | none, none => True
  | _, _ => False

/-- References of such an entry. -/
def keRefs : Option (Nat × Fld) → List Ref
  | some (a, f) => [.blob a] ++ f.refs
  | none => []

/-- Sublists of the references of iterators. -/
macro "isub_tac" : tactic => `(tactic| (intro r hr; simp only [KV.refs, keRefs, stackRefs, oiRefs, ovRefs, KidsIter.refs, Raw.refs, refsL_cons, refsL_nil, refsL_append, List.mem_append, List.not_mem_nil, false_or, or_false] at hr ⊢; grind))

/-- Comparing the numbers of references of iterators. -/
macro "icnt_tac" : tactic => `(tactic| (intro r; simp only [KV.refs, keRefs, stackRefs, oiRefs, ovRefs, KidsIter.refs, Raw.refs, refsL_cons, refsL_nil, refsL_append, List.count_append, List.count_nil, List.nil_append, List.append_nil] <;> omega))

theorem kvNext_spec : ∀ (n : Nat) (m : KVIter) (s : KV) (R : List Ref) (h : Mem), stackSize m.stack < n → Inv h (s.refs ++ R) → RepKV h s m →
    ∃ o s' h', KV.next n s h = some ((o, s'), h') ∧ Post R h h' (keRefs o ++ s'.refs) ∧ RepKE h' o m.next0.1 ∧ RepKV h' s' m.next0.2 := by
  intro n
  induction n with
  | zero => intro m s R h hn; omega
  | succ n ih =>
    intro m s R h hn hi hr
    obtain ⟨mp, ms⟩ := m
    obtain ⟨sp, ss⟩ := s
    obtain ⟨hp, hs⟩ := hr
    dsimp only at hp hs hn
    cases ms with
    | nil =>
      cases ss with
      | cons _ _ => exact hs.elim
      | nil =>
        rw [KVIter.next0]
        exact ⟨none, ⟨sp, []⟩, h, rfl, ⟨hi, Keep.refl _ _⟩, trivial, hp, trivial⟩
    | cons g gs =>
      cases ss with
      | nil => exact hs.elim
      | cons f fs =>
        obtain ⟨plen, oi⟩ := f
        obtain ⟨plen', ol⟩ := g
        obtain ⟨rfl, h2, h3⟩ := hs
        dsimp only at h2
        cases oi with
        | none =>
          cases ol with
          | some _ => exact h2.elim
          | none =>
            rw [KVIter.next0]
            unfold KV.next
            dsimp only
            obtain ⟨b, h1, e1, i1, k1, c1⟩ := changeKey_spec (R := stackRefs fs ++ R) (fun x => x.take (x.length - plen)) (hi.mono (by icnt_tac)) hp
            have h31 := h3.keep k1 (reach_of_mem (by sub_tac))
            obtain ⟨o, s', h', e', p', q1, q2⟩ := ih ⟨pathPop mp plen, gs⟩ ⟨b, fs⟩ R h1
              (by simp only [stackSize, frameSize] at hn; dsimp only; omega) (i1.mono (by icnt_tac)) ⟨c1, h31⟩
            refine ⟨o, s', h', ?_, ⟨p'.inv, (k1.mono (by sub_tac)).trans p'.keep⟩, q1, q2⟩
            have e1' : keyPop sp plen h = some (b, h1) := e1
            rw [run_bind e1', e']
        | some it =>
          cases ol with
          | none => exact h2.elim
          | some l =>
            have hit : ∀ r ∈ it.refs, Reach h ((KV.refs ⟨sp, (plen, some it) :: fs⟩) ++ R) r := reach_of_mem (by isub_tac)
            cases l with
            | nil =>
              rw [KVIter.next0]
              unfold KV.next
              dsimp only
              rw [run_bind (itNext_nil hit h2)]
              dsimp only
              obtain ⟨xs, l0, g1, g2, g3⟩ := h2
              obtain ⟨h1, e1, i1, k1⟩ := dropArc_spec (a := it.owner) (R := [.blob sp] ++ stackRefs fs ++ R) (hi.mono (by icnt_tac)) g1 g2
              have h31 := h3.keep k1 (reach_of_mem (by sub_tac))
              have hp1 : cB h1 sp = some mp := content_cB (k1 _ (.root (by simp))) hp
              obtain ⟨o, s', h', e', p', q1, q2⟩ := ih ⟨mp, (plen, none) :: gs⟩ ⟨sp, (plen, none) :: fs⟩ R h1
                (by simp only [stackSize, frameSize] at hn ⊢; omega) (i1.mono (by icnt_tac)) ⟨hp1, rfl, trivial, h31⟩
              refine ⟨o, s', h', ?_, ⟨p'.inv, (k1.mono (by sub_tac)).trans p'.keep⟩, q1, q2⟩
              rw [run_bind e1, e']
            | cons node rest =>
              rw [KVIter.next0]
              unfold KV.next
              dsimp only
              obtain ⟨x, e0, hb, hrest⟩ := itNext_cons hit h2
              rw [run_bind e0]
              dsimp only
              obtain ⟨ov, h1, e1, p1, r1, _⟩ := ownedValue_spec hi hb.val
              have hb1 := hb.keep p1.keep
              have e2 := slice_spec hb1.1.pfx
              obtain ⟨oc, h3', e3, p3, r3⟩ := loadOwned_spec p1.inv (hb1.mono (R' := ovRefs ov ++ (KV.refs ⟨sp, (plen, some it) :: fs⟩ ++ R)) (by isub_tac))
              have k3 : Keep (KV.refs ⟨sp, (plen, some it) :: fs⟩ ++ R) h h3' := p1.keep.trans (p3.keep.mono (by isub_tac))
              have hp3 : cB h3' sp = some mp := content_cB (k3 _ (.root (by simp [KV.refs]))) hp
              obtain ⟨b, h4, e4, i4, k4, c4⟩ := changeKey_spec (h := h3') (a := sp) (R := oiRefs oc ++ ovRefs ov ++ it.refs ++ stackRefs fs ++ R) (fun x => x ++ node.pfx)
                (p3.inv.mono (by icnt_tac)) hp3
              have e4' : keyAppend sp node.pfx h3' = some (b, h4) := e4
              have s4 : RepS h4 ((node.pfx.length, oc) :: (plen, some ⟨it.owner, it.pos + 1⟩) :: fs) ((node.pfx.length, node.loadChildrenOwned) :: (plen, some rest) :: gs) := by
                refine ⟨rfl, r3.keep k4 (reach_of_mem (by isub_tac)), rfl, ?_, ?_⟩
                · exact (RepIt.keep (it := ⟨it.owner, it.pos + 1⟩) k3 (reach_of_mem (by isub_tac)) hrest).keep k4 (reach_of_mem (by isub_tac))
                · exact (h3.keep k3 (reach_of_mem (by isub_tac))).keep k4 (reach_of_mem (by isub_tac))
              have r4 : RepOV h4 ov node.val := by
                have := p3.keep
                cases ov with
                | none => cases hv : node.val with
                  | none => trivial
                  | some d => rw [hv] at r1; exact r1.elim
                | some fv => cases hv : node.val with
                  | none => rw [hv] at r1; exact r1.elim
                  | some d =>
                    rw [hv] at r1
                    have r1' : RepB h1 fv d := r1
                    exact (r1'.keep p3.keep (reach_of_mem (by isub_tac))).keep k4 (reach_of_mem (by isub_tac))
              rw [run_bind e1, run_bind e2, run_bind e3, run_bind e4']
              have k14 : Keep R h h4 := (k3.mono (by isub_tac)).trans (k4.mono (by isub_tac))
              cases ov with
              | none =>
                cases hv : node.val with
                | some d => rw [hv] at r4; exact r4.elim
                | none =>
                  dsimp only
                  have := frameSize_le node.pfx.length node
                  have := nodes_pos node
                  obtain ⟨o, s', h', e', p', q1, q2⟩ := ih ⟨pathAppend mp node.pfx, (node.pfx.length, node.loadChildrenOwned) :: (plen, some rest) :: gs⟩
                    ⟨b, (node.pfx.length, oc) :: (plen, some ⟨it.owner, it.pos + 1⟩) :: fs⟩ R h4
                    (by simp only [stackSize, frameSize, Node.nodesL] at *; omega) (i4.mono (by icnt_tac)) ⟨c4, s4⟩
                  exact ⟨o, s', h', e', ⟨p'.inv, k14.trans p'.keep⟩, q1, q2⟩
              | some fv =>
                cases hv : node.val with
                | none => rw [hv] at r4; exact r4.elim
                | some d =>
                  rw [hv] at r4
                  have r4' : RepB h4 fv d := r4
                  dsimp only
                  obtain ⟨h5, e5, i5, c5⟩ := incBlob_spec (a := b) i4 (.root (by simp))
                  refine ⟨some (b, fv), ⟨b, (node.pfx.length, oc) :: (plen, some ⟨it.owner, it.pos + 1⟩) :: fs⟩, h5, by rw [run_bind e5]; rfl, ⟨?_, k14.trans (c5.mono (by isub_tac))⟩, ⟨?_, ?_⟩, ?_, ?_⟩
                  · have i5' : Inv h5 ([.blob b] ++ ([.blob b] ++ (oiRefs oc ++ ovRefs (some fv) ++ it.refs ++ stackRefs fs ++ R))) := i5
                    exact i5'.mono (by icnt_tac)
                  · exact content_cB (c5 _ (.root (by simp))) c4
                  · exact r4'.keep c5 (reach_of_mem (by isub_tac))
                  · exact content_cB (c5 _ (.root (by simp))) c4
                  · exact s4.keep c5 (reach_of_mem (by isub_tac))

/-! ### Making and dropping iterators -/

/-- What a heap computation that makes an iterator does. -/
def MakeSpec (f : H KV) (R : List Ref) (h : Mem) (m : KVIter) : Prop :=
  ∃ s h', f h = some (s, h') ∧ Post R h h' s.refs ∧ RepKV h' s m

theorem oneKid_spec {R h x m} (hi : Inv h (x.refs ++ R)) (hr : Rep h x m) :
    ∃ a h1 h', alloc (.kids 1 [x]) h = some (a, h1) ∧ fromArc a h1 = some (⟨a, 0⟩, h') ∧ Inv h' ([.kids a] ++ R) ∧ Keep R h h' ∧ RepIt h' ⟨a, 0⟩ [m] := by
  obtain ⟨a, h1, e1, c1, i1, k1⟩ := allocKids_spec (R := R) [x] (hi.mono (by cnt_tac))
  have hr1 : RepL h1 [x] [m] := RepL.cons (hr.keep k1 (reach_of_mem (by sub_tac))) RepL.nil
  obtain ⟨h2, e2, i2, k2⟩ := fromArc_spec i1 c1 hr1
  refine ⟨a, h1, h2, e1, e2, i2, (k1.mono (by sub_tac)).trans (k2.mono (by sub_tac)), [x], [m], ?_, ?_, rfl⟩
  · exact content_cK (k2 _ (.root (by simp))) c1
  · exact hr1.keep k2 fun r hr => .step (.root (by simp)) c1 hr

theorem kvNew_spec {R h x m} (p : Bytes) (hi : Inv h (x.refs ++ R)) (hr : Rep h x m) : MakeSpec (KV.new x p) R h ⟨p, [(0, some [m])]⟩ := by
  obtain ⟨a, h1, h2, e1, e2, i2, k2, r2⟩ := oneKid_spec hi hr
  obtain ⟨b, h3, e3, c3, i3, k3⟩ := allocBlob_spec p i2
  refine ⟨⟨b, [(0, some ⟨a, 0⟩)]⟩, h3, ?_, ⟨?_, k2.trans (k3.mono (by sub_tac))⟩, c3, rfl, ?_, trivial⟩
  · unfold KV.new; rw [run_bind e1, run_bind e2, run_bind e3]; rfl
  · have i3' : Inv h3 ([.blob b] ++ ([.kids a] ++ R)) := i3
    exact i3'.mono (by icnt_tac)
  · exact RepIt.keep (it := ⟨a, 0⟩) k3 (reach_of_mem (by isub_tac)) r2

theorem iter_spec {R h x m} (hi : Inv h R) (hb : Bor R h x m) : MakeSpec (iter x) R h (kvIter m) := by
  obtain ⟨h1, e1, p1, r1⟩ := rawClone_post hi hb
  obtain ⟨s, h2, e2, p2, r2⟩ := kvNew_spec [] p1.inv r1
  exact ⟨s, h2, by unfold iter; rw [run_bind e1, e2], ⟨p2.inv, p1.keep.trans p2.keep⟩, r2⟩

theorem kvEmpty_spec {R h} (hi : Inv h R) : MakeSpec (do let k ← alloc (.blob 1 []); return ⟨k, []⟩) R h ⟨[], []⟩ := by
  obtain ⟨b, h3, e3, c3, i3, k3⟩ := allocBlob_spec [] hi
  refine ⟨⟨b, []⟩, h3, by rw [run_bind e3]; rfl, ⟨?_, k3⟩, c3, trivial⟩
  have i3' : Inv h3 ([.blob b] ++ R) := i3
  exact i3'.mono (by icnt_tac)

theorem scanPrefix_spec {R h} {n : Nat} {m : Node} {x : Raw} (p : Bytes) (hn : m.nodes ≤ n) (hi : Inv h R) (hb : Bor R h x m) :
    MakeSpec (scanPrefix n x p) R h (scanPrefixIter m p) := by
  obtain ⟨r, e, hr⟩ := find_spec n m x p hn hb
  unfold scanPrefix scanPrefixIter MakeSpec
  rw [run_bind e]
  rcases r with y | ⟨y, j⟩ | _ <;> rcases hf : Radix.find m p with u | ⟨u, j'⟩ | _ <;> rw [hf] at hr <;> try exact hr.elim
  · obtain ⟨h1, e1, p1, r1⟩ := rawClone_post hi hr
    obtain ⟨s, h2, e2, p2, r2⟩ := kvNew_spec p p1.inv r1
    exact ⟨s, h2, by dsimp only; rw [run_bind e1, e2], ⟨p2.inv, p1.keep.trans p2.keep⟩, r2⟩
  · obtain ⟨hr, rfl⟩ := hr
    obtain ⟨h1, e1, p1, r1⟩ := rawClone_post hi hr
    obtain ⟨s, h2, e2, p2, r2⟩ := kvNew_spec (p.take (p.length - j)) p1.inv r1
    exact ⟨s, h2, by dsimp only; rw [run_bind e1, e2], ⟨p2.inv, p1.keep.trans p2.keep⟩, r2⟩
  · exact kvEmpty_spec hi

theorem dropStack_spec : ∀ (fs : List (Nat × Option KidsIter)) (gs : List Frame) (R : List Ref) (h : Mem), Inv h (stackRefs fs ++ R) → RepS h fs gs →
    ∃ h', dropStack fs h = some ((), h') ∧ Inv h' R ∧ Keep R h h'
  | [], _, R, h, hi, _ => ⟨h, rfl, hi, Keep.refl _ _⟩
  | (_, none) :: fs, [], R, h, hi, hr => hr.elim
  | (_, some it) :: fs, [], R, h, hi, hr => hr.elim
  | (_, none) :: fs, (_, _) :: gs, R, h, hi, hr => dropStack_spec fs gs R h (hi.mono (by icnt_tac)) hr.2.2
  | (_, some it) :: fs, (_, none) :: gs, R, h, hi, hr => hr.2.1.elim
  | (_, some it) :: fs, (_, some l) :: gs, R, h, hi, hr => by
    obtain ⟨_, ⟨xs, l0, g1, g2, g3⟩, h3⟩ := hr
    obtain ⟨h1, e1, i1, k1⟩ := dropArc_spec (a := it.owner) (R := stackRefs fs ++ R) (hi.mono (by icnt_tac)) g1 g2
    obtain ⟨h2, e2, i2, k2⟩ := dropStack_spec fs gs R h1 i1 (h3.keep k1 (reach_of_mem (by sub_tac)))
    exact ⟨h2, by unfold dropStack; rw [run_bind e1, e2], i2, (k1.mono (by sub_tac)).trans k2⟩

theorem kvDrop_spec {R h s m} (hi : Inv h (s.refs ++ R)) (hr : RepKV h s m) :
    ∃ h', s.drop h = some ((), h') ∧ Inv h' R ∧ Keep R h h' := by
  obtain ⟨h1, e1, i1, k1, _⟩ := decBlob_spec (R := stackRefs s.stack ++ R) (a := s.path) hi
  obtain ⟨h2, e2, i2, k2⟩ := dropStack_spec s.stack m.stack R h1 i1 (hr.2.keep k1 (reach_of_mem (by sub_tac)))
  exact ⟨h2, by unfold KV.drop; rw [run_bind e1, e2], i2, (k1.mono (by sub_tac)).trans k2⟩

/-! ### Groups -/

/-- An optional tree that is given out. -/
def RepON (h : Mem) : Option Raw → Option Node → Prop
  | some x, some m => Rep h x m
  | none, none => True
  | _, _ => False

/-- References of an optional tree. -/
def onRefs : Option Raw → List Ref
  | some x => x.refs
  | none => []

theorem nextGroup_spec (d : Bytes → Bool) : ∀ (n : Nat) (m : KVIter) (s : KV) (R : List Ref) (h : Mem), stackSize m.stack < n → Inv h (s.refs ++ R) → RepKV h s m →
    ∃ o s' h', KV.nextGroup d n s h = some ((o, s'), h') ∧ Post R h h' (onRefs o ++ s'.refs) ∧ RepON h' o (groupNext0 (fun p _ => d p) m).1 ∧
      RepKV h' s' (groupNext0 (fun p _ => d p) m).2 := by
  intro n
  induction n with
  | zero => intro m s R h hn; omega
  | succ n ih =>
    intro m s R h hn hi hr
    obtain ⟨mp, ms⟩ := m
    obtain ⟨sp, ss⟩ := s
    obtain ⟨hp, hs⟩ := hr
    dsimp only at hp hs hn
    cases ms with
    | nil =>
      cases ss with
      | cons _ _ => exact hs.elim
      | nil =>
        rw [groupNext0]
        exact ⟨none, ⟨sp, []⟩, h, rfl, ⟨hi, Keep.refl _ _⟩, trivial, hp, trivial⟩
    | cons g gs =>
      cases ss with
      | nil => exact hs.elim
      | cons f fs =>
        obtain ⟨plen, oi⟩ := f
        obtain ⟨plen', ol⟩ := g
        obtain ⟨rfl, h2, h3⟩ := hs
        dsimp only at h2
        cases oi with
        | none =>
          cases ol with
          | some _ => exact h2.elim
          | none =>
            rw [groupNext0]
            unfold KV.nextGroup
            dsimp only
            obtain ⟨b, h1, e1, i1, k1, c1⟩ := changeKey_spec (R := stackRefs fs ++ R) (fun x => x.take (x.length - plen)) (hi.mono (by icnt_tac)) hp
            have h31 := h3.keep k1 (reach_of_mem (by sub_tac))
            obtain ⟨o, s', h', e', p', q1, q2⟩ := ih ⟨pathPop mp plen, gs⟩ ⟨b, fs⟩ R h1
              (by simp only [stackSize, frameSize] at hn; dsimp only; omega) (i1.mono (by icnt_tac)) ⟨c1, h31⟩
            refine ⟨o, s', h', ?_, ⟨p'.inv, (k1.mono (by sub_tac)).trans p'.keep⟩, q1, q2⟩
            have e1' : keyPop sp plen h = some (b, h1) := e1
            rw [run_bind e1', e']
        | some it =>
          cases ol with
          | none => exact h2.elim
          | some l =>
            have hit : ∀ r ∈ it.refs, Reach h ((KV.refs ⟨sp, (plen, some it) :: fs⟩) ++ R) r := reach_of_mem (by isub_tac)
            cases l with
            | nil =>
              rw [groupNext0]
              unfold KV.nextGroup
              dsimp only
              rw [run_bind (itNext_nil hit h2)]
              dsimp only
              obtain ⟨xs, l0, g1, g2, g3⟩ := h2
              obtain ⟨h1, e1, i1, k1⟩ := dropArc_spec (a := it.owner) (R := [.blob sp] ++ stackRefs fs ++ R) (hi.mono (by icnt_tac)) g1 g2
              have h31 := h3.keep k1 (reach_of_mem (by sub_tac))
              have hp1 : cB h1 sp = some mp := content_cB (k1 _ (.root (by simp))) hp
              obtain ⟨o, s', h', e', p', q1, q2⟩ := ih ⟨mp, (plen, none) :: gs⟩ ⟨sp, (plen, none) :: fs⟩ R h1
                (by simp only [stackSize, frameSize] at hn ⊢; omega) (i1.mono (by icnt_tac)) ⟨hp1, rfl, trivial, h31⟩
              refine ⟨o, s', h', ?_, ⟨p'.inv, (k1.mono (by sub_tac)).trans p'.keep⟩, q1, q2⟩
              rw [run_bind e1, e']
            | cons node rest =>
              rw [groupNext0]
              unfold KV.nextGroup
              dsimp only
              have hbr : RepIt h ⟨it.owner, it.pos + 1⟩ rest := (itNext_cons hit h2).choose_spec.2.2
              obtain ⟨x, e0, hb, hrest⟩ := itNext_cons (R := it.refs) (fun r hr => .root hr) h2
              rw [run_bind e0]
              dsimp only
              rw [run_bind (slice_spec hb.1.pfx)]
              obtain ⟨b, h1, e1, i1, k1, c1⟩ := changeKey_spec (h := h) (a := sp) (R := it.refs ++ stackRefs fs ++ R) (fun x => x ++ node.pfx)
                (hi.mono (by icnt_tac)) hp
              have e1' : keyAppend sp node.pfx h = some (b, h1) := e1
              rw [run_bind e1', run_bind (readBlob_spec c1)]
              have hb1 : Bor ([.blob b] ++ (it.refs ++ stackRefs fs ++ R)) h1 x node :=
                ((hb.mono (R' := it.refs ++ stackRefs fs ++ R) (by sub_tac)).keep k1).mono (by sub_tac)
              have hrest1 : RepIt h1 ⟨it.owner, it.pos + 1⟩ rest := hrest.keep k1 (reach_of_mem (by isub_tac))
              have h31 := h3.keep k1 (reach_of_mem (by sub_tac))
              by_cases hd : d (mp ++ node.pfx) = true
              · have hd' : d (pathAppend mp node.pfx) = true := hd
                rw [if_pos hd, if_pos hd']
                obtain ⟨oc, h2', e2, p2, r2⟩ := loadOwned_spec i1 hb1
                rw [run_bind e2]
                have hb2 := hb1.keep p2.keep
                have c2 : cB h2' b = some (mp ++ node.pfx) := content_cB (p2.keep _ (.root (by simp))) c1
                have s2 : RepS h2' ((node.pfx.length, oc) :: (plen, some ⟨it.owner, it.pos + 1⟩) :: fs) ((node.pfx.length, node.loadChildrenOwned) :: (plen, some rest) :: gs) :=
                  ⟨rfl, r2, rfl, RepIt.keep (it := ⟨it.owner, it.pos + 1⟩) p2.keep (reach_of_mem (by isub_tac)) hrest1, h31.keep p2.keep (reach_of_mem (by isub_tac))⟩
                have k12 : Keep R h h2' := (k1.mono (by isub_tac)).trans (p2.keep.mono (by isub_tac))
                rw [hb.1.val.isSome]
                by_cases hv : node.val.isSome = true
                · rw [if_pos hv, if_pos hv]
                  obtain ⟨h3', e3, p3, r3⟩ := rawClone_post p2.inv (hb2.mono (R' := oiRefs oc ++ ([.blob b] ++ (it.refs ++ stackRefs fs ++ R))) (by isub_tac))
                  obtain ⟨y, h4, e4, p4, r4, _⟩ := setPrefix_spec (mp ++ node.pfx) p3.inv r3
                  obtain ⟨z, h5, e5, p5, r5⟩ := clearChildren_spec p4.inv r4
                  have k5 := (p3.keep.trans p4.keep).trans p5.keep
                  refine ⟨some z, ⟨b, (node.pfx.length, oc) :: (plen, some ⟨it.owner, it.pos + 1⟩) :: fs⟩, h5, ?_, ⟨?_, k12.trans (k5.mono (by isub_tac))⟩, r5, ?_, ?_⟩
                  · rw [run_bind e3, run_bind e4, run_bind e5]; rfl
                  · exact p5.inv.mono (by simp only [onRefs]; icnt_tac)
                  · exact content_cB (k5 _ (.root (by simp))) c2
                  · exact s2.keep k5 (reach_of_mem (by isub_tac))
                · rw [if_neg hv, if_neg hv]
                  have := frameSize_le node.pfx.length node
                  have := nodes_pos node
                  obtain ⟨o, s', h', e', p', q1, q2⟩ := ih ⟨pathAppend mp node.pfx, (node.pfx.length, node.loadChildrenOwned) :: (plen, some rest) :: gs⟩
                    ⟨b, (node.pfx.length, oc) :: (plen, some ⟨it.owner, it.pos + 1⟩) :: fs⟩ R h2'
                    (by simp only [stackSize, frameSize, Node.nodesL] at *; omega) (p2.inv.mono (by icnt_tac)) ⟨c2, s2⟩
                  exact ⟨o, s', h', e', ⟨p'.inv, k12.trans p'.keep⟩, q1, q2⟩
              · have hd' : ¬ d (pathAppend mp node.pfx) = true := hd
                rw [if_neg hd, if_neg hd']
                obtain ⟨h3', e3, p3, r3⟩ := rawClone_post i1 hb1
                obtain ⟨y, h4, e4, p4, r4, _⟩ := setPrefix_spec (mp ++ node.pfx) p3.inv r3
                have k34 := p3.keep.trans p4.keep
                have c4 : cB h4 b = some (mp ++ node.pfx) := content_cB (k34 _ (.root (by simp))) c1
                obtain ⟨b', h5, e5, i5, k5, c5⟩ := changeKey_spec (h := h4) (a := b) (R := y.refs ++ it.refs ++ stackRefs fs ++ R) (fun x => x.take (x.length - node.pfx.length))
                  (p4.inv.mono (by cnt_tac)) c4
                have e5' : keyPop b node.pfx.length h4 = some (b', h5) := e5
                refine ⟨some y, ⟨b', (plen, some ⟨it.owner, it.pos + 1⟩) :: fs⟩, h5, ?_, ⟨?_, ?_⟩, ?_, c5, rfl, ?_, ?_⟩
                · rw [run_bind e3, run_bind e4, run_bind e5']; rfl
                · exact i5.mono (by simp only [onRefs]; icnt_tac)
                · exact ((k1.mono (by isub_tac)).trans (k34.mono (by isub_tac))).trans (k5.mono (by isub_tac))
                · exact r4.keep k5 (reach_of_mem (by sub_tac))
                · exact (RepIt.keep (it := ⟨it.owner, it.pos + 1⟩) k34 (reach_of_mem (by isub_tac)) hrest1).keep k5 (reach_of_mem (by isub_tac))
                · exact (h31.keep k34 (reach_of_mem (by isub_tac))).keep k5 (reach_of_mem (by isub_tac))

/-! ### Values -/

/-- References of a `ValueIter`. -/
def itsRefs (l : List KidsIter) : List Ref := l.flatMap KidsIter.refs

theorem itsRefs_cons (it : KidsIter) (l : List KidsIter) : itsRefs (it :: l) = it.refs ++ itsRefs l := rfl

/-- A `ValueIter` in memory. -/
def RepIts (h : Mem) : List KidsIter → List (List Node) → Prop
  | [], [] => True
  | it :: its, l :: ls => RepIt h it l ∧ RepIts h its ls
  | _, _ => False

theorem RepIts.core {S h h'} (hk : Core S h h') : ∀ {fs gs}, (∀ r ∈ itsRefs fs, Via h S r) → RepIts h fs gs → RepIts h' fs gs
  | [], [], _, h1 => h1
  | f :: fs, g :: gs, hr, h1 => ⟨h1.1.core hk fun r hx => hr r (by simp [itsRefs_cons, hx]), RepIts.core hk (fun r hx => hr r (by simp [itsRefs_cons, hx])) h1.2⟩
  | [], _ :: _, _, h1 => h1.elim
  | _ :: _, [], _, h1 => h1.elim

theorem RepIts.keep {R h h'} (hk : Keep R h h') {fs gs} (hr : ∀ r ∈ itsRefs fs, Reach h R r) (h1 : RepIts h fs gs) : RepIts h' fs gs := RepIts.core hk.same hr h1

theorem RepOV.keep {R h h'} {o : Option Fld} {v : Option Bytes} (hk : Keep R h h') (hr : ∀ r ∈ ovRefs o, Reach h R r) (h1 : RepOV h o v) : RepOV h' o v := by
  cases o <;> cases v <;> try exact h1
  exact RepB.keep hk hr h1

theorem valNext_spec : ∀ (n : Nat) (m : List (List Node)) (s : List KidsIter) (R : List Ref) (h : Mem), vstackSize m < n → Inv h (itsRefs s ++ R) → RepIts h s m →
    ∃ o s' h', valNext n s h = some ((o, s'), h') ∧ Post R h h' (ovRefs o ++ itsRefs s') ∧ RepOV h' o (valNext0 m).1 ∧ RepIts h' s' (valNext0 m).2 := by
  intro n
  induction n with
  | zero => intro m s R h hn; omega
  | succ n ih =>
    intro m s R h hn hi hr
    cases m with
    | nil =>
      cases s with
      | cons _ _ => exact hr.elim
      | nil =>
        rw [valNext0]
        exact ⟨none, [], h, rfl, ⟨hi, Keep.refl _ _⟩, trivial, trivial⟩
    | cons l ls =>
      cases s with
      | nil => exact hr.elim
      | cons it its =>
        obtain ⟨h2, h3⟩ := hr
        cases l with
        | nil =>
          rw [valNext0]
          unfold valNext
          dsimp only
          rw [run_bind (itNext_nil (R := it.refs) (fun r hr => .root hr) h2)]
          dsimp only
          obtain ⟨xs, l0, g1, g2, g3⟩ := h2
          obtain ⟨h1, e1, i1, k1⟩ := dropArc_spec (a := it.owner) (R := itsRefs its ++ R) (hi.mono (by simp only [itsRefs_cons]; icnt_tac)) g1 g2
          obtain ⟨o, s', h', e', p', q1, q2⟩ := ih ls its R h1 (by simp only [vstackSize] at hn; omega) i1 (h3.keep k1 (reach_of_mem (by sub_tac)))
          exact ⟨o, s', h', by rw [run_bind e1, e'], ⟨p'.inv, (k1.mono (by sub_tac)).trans p'.keep⟩, q1, q2⟩
        | cons node rest =>
          rw [valNext0]
          unfold valNext
          dsimp only
          obtain ⟨x, e0, hb, hrest⟩ := itNext_cons (R := itsRefs (it :: its) ++ R) (reach_of_mem (by simp only [itsRefs_cons]; isub_tac)) h2
          rw [run_bind e0]
          dsimp only
          obtain ⟨ov, h1, e1, p1, r1, _⟩ := ownedValue_spec hi hb.val
          obtain ⟨oc, h4, e3, p3, r3⟩ := loadOwned_spec p1.inv ((hb.keep p1.keep).mono (R' := ovRefs ov ++ (itsRefs (it :: its) ++ R)) (by isub_tac))
          have k3 : Keep (itsRefs (it :: its) ++ R) h h4 := p1.keep.trans (p3.keep.mono (by isub_tac))
          have r4 : RepOV h4 ov node.val := r1.keep p3.keep (reach_of_mem (by isub_tac))
          have ht : RepIts h4 (⟨it.owner, it.pos + 1⟩ :: its) (rest :: ls) :=
            ⟨hrest.keep k3 (reach_of_mem (by simp only [itsRefs_cons]; isub_tac)), h3.keep k3 (reach_of_mem (by simp only [itsRefs_cons]; isub_tac))⟩
          have s4 : RepIts h4 (oc.toList ++ ⟨it.owner, it.pos + 1⟩ :: its) (pushOpt node.loadChildrenOwned (rest :: ls)) := by
            cases oc with
            | none => cases hl : node.loadChildrenOwned with
              | none => exact ht
              | some c => rw [hl] at r3; exact r3.elim
            | some i => cases hl : node.loadChildrenOwned with
              | none => rw [hl] at r3; exact r3.elim
              | some c => rw [hl] at r3; exact ⟨r3, ht⟩
          have i4 : Inv h4 (ovRefs ov ++ itsRefs (oc.toList ++ ⟨it.owner, it.pos + 1⟩ :: its) ++ R) := by
            refine p3.inv.mono ?_
            cases oc <;> simp only [Option.toList, List.nil_append, List.cons_append, itsRefs_cons] <;> icnt_tac
          have k4 : Keep R h h4 := k3.mono (by sub_tac)
          rw [run_bind e1, run_bind e3]
          cases ov with
          | none =>
            cases hv : node.val with
            | some d => rw [hv] at r4; exact r4.elim
            | none =>
              dsimp only
              have := vstackSize_pushOpt node (rest :: ls)
              obtain ⟨o, s', h', e', p', q1, q2⟩ := ih _ _ R h4 (by simp only [vstackSize, Node.nodesL] at *; omega) i4 s4
              exact ⟨o, s', h', e', ⟨p'.inv, k4.trans p'.keep⟩, q1, q2⟩
          | some fv =>
            cases hv : node.val with
            | none => rw [hv] at r4; exact r4.elim
            | some d =>
              rw [hv] at r4
              exact ⟨some fv, _, h4, rfl, ⟨i4, k4⟩, r4, s4⟩

theorem values_spec {R h x m} (hi : Inv h R) (hb : Bor R h x m) :
    ∃ s h', values x h = some (s, h') ∧ Post R h h' (itsRefs s) ∧ RepIts h' s [[m]] := by
  obtain ⟨h1, e1, p1, r1⟩ := rawClone_post hi hb
  obtain ⟨a, h2, h3, e2, e3, i3, k3, r3⟩ := oneKid_spec p1.inv r1
  refine ⟨[⟨a, 0⟩], h3, ?_, ⟨?_, p1.keep.trans k3⟩, r3, trivial⟩
  · unfold values; rw [run_bind e1, run_bind e2, run_bind e3]; rfl
  · have : itsRefs [⟨a, 0⟩] = [.kids a] := rfl
    rw [this]; exact i3

theorem dropVals_spec : ∀ (s : List KidsIter) (m : List (List Node)) (R : List Ref) (h : Mem), Inv h (itsRefs s ++ R) → RepIts h s m →
    ∃ h', dropVals s h = some ((), h') ∧ Inv h' R ∧ Keep R h h'
  | [], _, R, h, hi, _ => ⟨h, rfl, hi, Keep.refl _ _⟩
  | it :: fs, [], R, h, hi, hr => hr.elim
  | it :: fs, l :: gs, R, h, hi, hr => by
    obtain ⟨⟨xs, l0, g1, g2, g3⟩, h3⟩ := hr
    obtain ⟨h1, e1, i1, k1⟩ := dropArc_spec (a := it.owner) (R := itsRefs fs ++ R) (hi.mono (by simp only [itsRefs_cons]; icnt_tac)) g1 g2
    obtain ⟨h2, e2, i2, k2⟩ := dropVals_spec fs gs R h1 i1 (h3.keep k1 (reach_of_mem (by sub_tac)))
    exact ⟨h2, by unfold dropVals; rw [run_bind e1, e2], i2, (k1.mono (by sub_tac)).trans k2⟩

end Radix.Heap
