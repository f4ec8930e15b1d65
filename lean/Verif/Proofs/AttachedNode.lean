import Verif.Proofs.HeapCombine
import Verif.Heap.Attached

/- What nodes in memory that may refer to a store represent, and the operations on one node. -/

set_option linter.unusedVariables false

namespace Radix.Heap.Att

/-! ### Headers -/

/-- An id has fewer than 128 bytes. -/
def BOk : BlobV → Prop
  | .data _ => True
  | .id i => i.length < 128

theorem hdr_len (b : BlobV) (hb : BOk b) : b.hdr.len = min b.slice.length 127 := by
  cases b with
  | data d => exact hdr_data_len d.length
  | id i =>
    have : ∀ k : Fin 128, Hdr.len (UInt8.ofNat k.val ||| 0x80) = k.val := by decide +kernel
    have h1 := this ⟨i.length, hb⟩
    simp only [BOk] at hb
    show Hdr.len (UInt8.ofNat i.length ||| 0x80) = min i.length 127
    rw [h1]; simp only; omega

theorem hdr_isId (b : BlobV) (hb : BOk b) : b.hdr.isId = b.isId := by
  cases b with
  | data d => exact hdr_data_isId d.length
  | id i =>
    have : ∀ k : Fin 128, Hdr.isId (UInt8.ofNat k.val ||| 0x80) = true := by decide +kernel
    exact this ⟨i.length, hb⟩

theorem hdr_isArc (b : BlobV) (hb : BOk b) : b.hdr.isArc = decide (ptrSize < b.slice.length) := by
  unfold Hdr.isArc; rw [hdr_len b hb, decide_eq_decide]; simp only [ptrSize]; omega

theorem hdr_isInline (b : BlobV) (hb : BOk b) : b.hdr.isInline = decide (b.slice.length ≤ ptrSize) := by
  unfold Hdr.isInline; rw [hdr_len b hb, decide_eq_decide]; simp only [ptrSize]; omega

theorem hdr_none_iff (b : BlobV) (hb : BOk b) : b.hdr = Hdr.none ↔ b = .none := by
  cases b with
  | data d => exact ⟨fun h => absurd h (hdr_data_ne_none _), fun h => by cases h⟩
  | id i =>
    have : ∀ k : Fin 128, (UInt8.ofNat k.val ||| 0x80) = Hdr.none → k.val = 0 := by decide +kernel
    constructor
    · intro h
      have := this ⟨i.length, hb⟩ h
      simp only [List.length_eq_zero_iff] at this
      rw [this]; rfl
    · intro h; rw [h]; decide +kernel

/-! ### What memory represents -/

/-- A field holds a blob. -/
def RepBV (h : Mem) (f : Fld) (b : BlobV) : Prop :=
  BOk b ∧ f.hdr = b.hdr ∧
    ((b.slice.length ≤ ptrSize ∧ ∃ w, f.w = .bytes w ∧ w.take b.slice.length = b.slice) ∨
      (ptrSize < b.slice.length ∧ ∃ a, f.w = .blob a ∧ cB h a = some b.slice))

mutual
/-- A node in memory is the node. -/
def RepS (h : Mem) (x : Raw) : SNode → Prop
  | .arc p v l => RepBV h x.pfx p ∧ RepBV h x.val v ∧ x.ch.hdr = Hdr.arcData ∧ ∃ a xs, x.ch.w = .kids a ∧ cK h a = some xs ∧ RepSL h xs l
  | .ref p v i => RepBV h x.pfx p ∧ RepBV h x.val v ∧ RepBV h x.ch (.id i)
/-- A vector of nodes in memory is the list of nodes. -/
def RepSL (h : Mem) (xs : List Raw) : List SNode → Prop
  | [] => xs = []
  | m :: l => ∃ y ys, xs = y :: ys ∧ RepS h y m ∧ RepSL h ys l
end

/-- A children field holds the children. -/
def RepCh (h : Mem) (f : Fld) : List SNode ⊕ Bytes → Prop
  | .inl l => f.hdr = Hdr.arcData ∧ ∃ a xs, f.w = .kids a ∧ cK h a = some xs ∧ RepSL h xs l
  | .inr i => RepBV h f (.id i)

theorem RepS.iff {h x n} : RepS h x n ↔ RepBV h x.pfx n.pfx ∧ RepBV h x.val n.val ∧ RepCh h x.ch n.children := by
  cases n <;> simp only [RepS, RepCh, SNode.pfx, SNode.val, SNode.children]

theorem RepS.pfx {h x n} (hr : RepS h x n) : RepBV h x.pfx n.pfx := (RepS.iff.1 hr).1
theorem RepS.val {h x n} (hr : RepS h x n) : RepBV h x.val n.val := (RepS.iff.1 hr).2.1
theorem RepS.ch {h x n} (hr : RepS h x n) : RepCh h x.ch n.children := (RepS.iff.1 hr).2.2
theorem ofParts_pfx (p v c) : (SNode.ofParts p v c).pfx = p := by cases c <;> rfl
theorem ofParts_val (p v c) : (SNode.ofParts p v c).val = v := by cases c <;> rfl
theorem ofParts_children (p v c) : (SNode.ofParts p v c).children = c := by cases c <;> rfl
theorem ofParts_self (n : SNode) : SNode.ofParts n.pfx n.val n.children = n := by cases n <;> rfl
theorem RepS.of {h x p v c} (h1 : RepBV h x.pfx p) (h2 : RepBV h x.val v) (h3 : RepCh h x.ch c) : RepS h x (.ofParts p v c) :=
  RepS.iff.2 (by rw [ofParts_pfx, ofParts_val, ofParts_children]; exact ⟨h1, h2, h3⟩)

theorem RepSL.nil_iff {h xs} : RepSL h xs [] ↔ xs = [] := by simp only [RepSL]
theorem RepSL.cons_iff {h xs m l} : RepSL h xs (m :: l) ↔ ∃ y ys, xs = y :: ys ∧ RepS h y m ∧ RepSL h ys l := by simp only [RepSL]
theorem RepSL.cons {h x xs m l} (h1 : RepS h x m) (h2 : RepSL h xs l) : RepSL h (x :: xs) (m :: l) := RepSL.cons_iff.2 ⟨x, xs, rfl, h1, h2⟩
theorem RepSL.nil {h} : RepSL h [] [] := RepSL.nil_iff.2 rfl

theorem RepSL.append {h xs l ys k} (h1 : RepSL h xs l) (h2 : RepSL h ys k) : RepSL h (xs ++ ys) (l ++ k) := by
  induction l generalizing xs with
  | nil => rw [RepSL.nil_iff] at h1; subst h1; simpa using h2
  | cons m l ih =>
    obtain ⟨y, ys', rfl, h3, h4⟩ := RepSL.cons_iff.1 h1
    exact RepSL.cons h3 (ih h4)

theorem RepSL.length {h xs l} (h1 : RepSL h xs l) : xs.length = l.length := by
  induction l generalizing xs with
  | nil => rw [RepSL.nil_iff] at h1; subst h1; rfl
  | cons m l ih => obtain ⟨y, ys', rfl, h3, h4⟩ := RepSL.cons_iff.1 h1; simp [ih h4]

theorem RepBV.core {S h h' f d} (hk : Core S h h') (hr : ∀ r ∈ f.refs, Via h S r) (h1 : RepBV h f d) : RepBV h' f d := by
  refine ⟨h1.1, h1.2.1, ?_⟩
  rcases h1.2.2 with h2 | ⟨h2, a, h3, h4⟩
  · exact .inl h2
  · exact .inr ⟨h2, a, h3, content_cB (hk _ (hr _ (by simp [Fld.refs, h3, Word.refs]))) h4⟩

theorem RepBV.keep {R h h' f d} (hk : Keep R h h') (hr : ∀ r ∈ f.refs, Reach h R r) (h1 : RepBV h f d) : RepBV h' f d := RepBV.core hk.same hr h1

mutual
theorem RepS.core {S h h'} (hk : Core S h h') : ∀ {m x}, (∀ r ∈ x.refs, Via h S r) → RepS h x m → RepS h' x m
  | .arc p v l, x, hr, h1 => by
    simp only [RepS] at h1 ⊢
    obtain ⟨p1, p2, h2, a, xs, h3, h4, h5⟩ := h1
    have h6 := hr (.kids a) (by simp [Raw.refs, Fld.refs, h3, Word.refs])
    refine ⟨p1.core hk ?_, p2.core hk ?_, h2, a, xs, h3, content_cK (hk _ h6) h4, RepSL.core hk (fun r h7 => .step h6 h4 h7) h5⟩
    · intro r h2; exact hr r (by simp [Raw.refs, h2])
    · intro r h2; exact hr r (by simp [Raw.refs, h2])
  | .ref p v i, x, hr, h1 => by
    simp only [RepS] at h1 ⊢
    refine ⟨h1.1.core hk ?_, h1.2.1.core hk ?_, h1.2.2.core hk ?_⟩
    · intro r h2; exact hr r (by simp [Raw.refs, h2])
    · intro r h2; exact hr r (by simp [Raw.refs, h2])
    · intro r h2; exact hr r (by simp [Raw.refs, h2])
theorem RepSL.core {S h h'} (hk : Core S h h') : ∀ {l xs}, (∀ r ∈ refsL xs, Via h S r) → RepSL h xs l → RepSL h' xs l
  | [], xs, hr, h1 => by rw [RepSL.nil_iff] at h1 ⊢; exact h1
  | m :: l, xs, hr, h1 => by
    obtain ⟨y, ys, rfl, h2, h3⟩ := RepSL.cons_iff.1 h1
    refine RepSL.cons (RepS.core hk ?_ h2) (RepSL.core hk ?_ h3)
    · intro r h4; exact hr r (by simp [h4])
    · intro r h4; exact hr r (by simp [h4])
end

theorem RepS.keep {R h h'} (hk : Keep R h h') {m x} (hr : ∀ r ∈ x.refs, Reach h R r) (h1 : RepS h x m) : RepS h' x m := RepS.core hk.same hr h1
theorem RepSL.keep {R h h'} (hk : Keep R h h') {l xs} (hr : ∀ r ∈ refsL xs, Reach h R r) (h1 : RepSL h xs l) : RepSL h' xs l := RepSL.core hk.same hr h1

theorem RepCh.keep {R h h'} (hk : Keep R h h') {c f} (hr : ∀ r ∈ f.refs, Reach h R r) (h1 : RepCh h f c) : RepCh h' f c := by
  cases c with
  | inl l =>
    obtain ⟨h2, a, xs, h3, h4, h5⟩ := h1
    have h6 := hr (.kids a) (by simp [Fld.refs, h3, Word.refs])
    exact ⟨h2, a, xs, h3, content_cK (hk _ h6) h4, RepSL.keep hk (fun r h7 => .step h6 h4 h7) h5⟩
  | inr i => exact RepBV.keep (d := .id i) hk hr h1

/-! ### Borrowed things -/

def BorBV (R : List Heap.Ref) (h : Mem) (f : Fld) (d : BlobV) : Prop := RepBV h f d ∧ ∀ r ∈ f.refs, Reach h R r
def BorS (R : List Heap.Ref) (h : Mem) (x : Raw) (m : SNode) : Prop := RepS h x m ∧ ∀ r ∈ x.refs, Reach h R r
def BorSL (R : List Heap.Ref) (h : Mem) (xs : List Raw) (l : List SNode) : Prop := RepSL h xs l ∧ ∀ r ∈ refsL xs, Reach h R r

theorem BorBV.keep {R h h' f d} (hb : BorBV R h f d) (hk : Keep R h h') : BorBV R h' f d :=
  ⟨hb.1.keep hk hb.2, fun r hr => hk.reach (hb.2 r hr)⟩
theorem BorS.keep {R h h' f d} (hb : BorS R h f d) (hk : Keep R h h') : BorS R h' f d :=
  ⟨hb.1.keep hk hb.2, fun r hr => hk.reach (hb.2 r hr)⟩
theorem BorSL.keep {R h h' f d} (hb : BorSL R h f d) (hk : Keep R h h') : BorSL R h' f d :=
  ⟨hb.1.keep hk hb.2, fun r hr => hk.reach (hb.2 r hr)⟩

theorem BorBV.mono {R R' h f d} (hb : BorBV R h f d) (hs : ∀ r ∈ R, r ∈ R') : BorBV R' h f d := ⟨hb.1, fun r hr => (hb.2 r hr).mono hs⟩
theorem BorS.mono {R R' h f d} (hb : BorS R h f d) (hs : ∀ r ∈ R, r ∈ R') : BorS R' h f d := ⟨hb.1, fun r hr => (hb.2 r hr).mono hs⟩
theorem BorSL.mono {R R' h f d} (hb : BorSL R h f d) (hs : ∀ r ∈ R, r ∈ R') : BorSL R' h f d := ⟨hb.1, fun r hr => (hb.2 r hr).mono hs⟩

theorem BorS.pfx {R h x m} (hb : BorS R h x m) : BorBV R h x.pfx m.pfx := ⟨hb.1.pfx, fun r hr => hb.2 r (by simp [Raw.refs, hr])⟩
theorem BorS.val {R h x m} (hb : BorS R h x m) : BorBV R h x.val m.val := ⟨hb.1.val, fun r hr => hb.2 r (by simp [Raw.refs, hr])⟩

theorem BorSL.cons_iff {R h xs m l} : BorSL R h xs (m :: l) ↔ ∃ y ys, xs = y :: ys ∧ BorS R h y m ∧ BorSL R h ys l := by
  constructor
  · rintro ⟨h1, h2⟩
    obtain ⟨y, ys, rfl, h3, h4⟩ := RepSL.cons_iff.1 h1
    exact ⟨y, ys, rfl, ⟨h3, fun r hr => h2 r (by simp [hr])⟩, ⟨h4, fun r hr => h2 r (by simp [hr])⟩⟩
  · rintro ⟨y, ys, rfl, h3, h4⟩
    refine ⟨RepSL.cons h3.1 h4.1, fun r hr => ?_⟩
    simp only [refsL_cons, List.mem_append] at hr
    rcases hr with hr | hr
    · exact h3.2 r hr
    · exact h4.2 r hr

theorem BorSL.nil_iff {R h xs} : BorSL R h xs [] ↔ xs = [] := by
  constructor
  · rintro ⟨h1, h2⟩; exact RepSL.nil_iff.1 h1
  · rintro rfl; exact ⟨RepSL.nil, by simp⟩

/-! ### Fields -/

theorem slice_specS {h f b} (h1 : RepBV h f b) : f.slice h = some (b.slice, h) := by
  unfold Fld.slice
  rw [h1.2.1, hdr_isInline b h1.1]
  rcases h1.2.2 with ⟨h2, w, h3, h4⟩ | ⟨h2, a, h3, h4⟩
  · rw [if_pos (by simpa using h2), h3]
    show some _ = _
    have h5 : min b.slice.length 127 = b.slice.length := by simp [ptrSize] at h2; omega
    rw [hdr_len b h1.1, h5, h4]
  · rw [if_neg (by simpa using h2), h3]
    exact readBlob_spec h4

theorem blobV_spec {h f b} (h1 : RepBV h f b) : blobV f h = some (b, h) := by
  unfold blobV
  rw [run_bind (slice_specS h1), h1.2.1, hdr_isId b h1.1]
  cases b <;> rfl

theorem valueOpt_isSome (b : BlobV) : b.valueOpt.isSome = !decide (b = .none) := by
  unfold BlobV.valueOpt; by_cases h : b = .none <;> simp [h]

theorem RepBV.isSome {h f b} (h1 : RepBV h f b) : f.isSome = b.valueOpt.isSome := by
  unfold Fld.isSome
  rw [valueOpt_isSome, h1.2.1]
  by_cases h2 : b = .none
  · have := (hdr_none_iff b h1.1).2 h2
    rw [h2] at this
    simp [this, h2]
  · have : b.hdr ≠ Hdr.none := fun h3 => h2 ((hdr_none_iff b h1.1).1 h3)
    simp [h2, this]

theorem RepBV.refs {h f b} (h1 : RepBV h f b) : (f.hdr.isArc = false ∧ f.refs = [] ∧ ∃ w, f.w = .bytes w) ∨
    (f.hdr.isArc = true ∧ ∃ a, f.w = .blob a ∧ f.refs = [.blob a]) := by
  rw [h1.2.1, hdr_isArc b h1.1]
  rcases h1.2.2 with ⟨h2, w, h3, h4⟩ | ⟨h2, a, h3, h4⟩
  · exact .inl ⟨by simpa using h2, by simp [Fld.refs, h3, Word.refs], w, h3⟩
  · exact .inr ⟨by simpa using h2, a, h3, by simp [Fld.refs, h3, Word.refs]⟩

theorem clone_specS {R h f v} (hi : Inv h R) (hb : BorBV R h f v) :
    ∃ h', f.clone h = some (f, h') ∧ Inv h' (f.refs ++ R) ∧ Keep R h h' := by
  unfold Fld.clone
  rcases hb.1.refs with ⟨h1, h2, b, h3⟩ | ⟨h1, a, h2, h3⟩
  · rw [h1]; simp only [Bool.false_eq_true, if_false]
    rw [h3]
    exact ⟨h, rfl, by rw [h2]; exact hi, Keep.refl _ _⟩
  · rw [h1]; simp only [if_true]
    rw [h2]
    obtain ⟨h', e, h4, h5⟩ := incBlob_spec hi (hb.2 (.blob a) (by rw [h3]; simp))
    exact ⟨h', by show (incBlob a >>= fun _ => pure f) h = _; rw [run_bind e]; rfl, by rw [h3]; exact h4, h5⟩

theorem drop_specS' {R h f v} (hi : Inv h (f.refs ++ R)) (h1 : RepBV h f v) : ∃ h', f.drop h = some ((), h') ∧ Inv h' R ∧ Keep R h h' ∧ NoNew h h' := by
  unfold Fld.drop
  rcases h1.refs with ⟨h2, h3, b, h4⟩ | ⟨h2, a, h3, h4⟩
  · rw [h2]; simp only [Bool.false_eq_true, if_false]
    exact ⟨h, rfl, by rw [h3] at hi; exact hi, Keep.refl _ _, NoNew.refl _⟩
  · rw [h2]; simp only [if_true]
    rw [h3]
    rw [h4] at hi
    exact decBlob_spec hi

theorem drop_specS {R h f v} (hi : Inv h (f.refs ++ R)) (h1 : RepBV h f v) : ∃ h', f.drop h = some ((), h') ∧ Inv h' R ∧ Keep R h h' :=
  let ⟨h', e, i, k, _⟩ := drop_specS' hi h1
  ⟨h', e, i, k⟩

theorem ofBlobV_spec {R h} (b : BlobV) (hb : BOk b) (hi : Inv h R) : ∃ f h', ofBlobV b h = some (f, h') ∧ Post R h h' f.refs ∧ RepBV h' f b := by
  unfold ofBlobV
  by_cases h1 : b.slice.length > ptrSize
  · rw [if_pos h1]
    obtain ⟨a, h', e, h2, h3, h4⟩ := allocBlob_spec b.slice hi
    exact ⟨⟨b.hdr, .blob a⟩, h', by rw [run_bind e]; rfl, ⟨h3, h4⟩, hb, rfl, .inr ⟨h1, a, rfl, h2⟩⟩
  · rw [if_neg h1]
    refine ⟨_, h, rfl, ⟨hi, Keep.refl _ _⟩, hb, rfl, .inl ⟨by omega, _, rfl, by simp⟩⟩

theorem RepBV.data {h f d} : RepBV h f (.data d) ↔ RepB h f d := ⟨fun h1 => h1.2, fun h1 => ⟨trivial, h1⟩⟩

theorem ofData_specS {R h} (d : Bytes) (hi : Inv h R) : ∃ f h', ofData d h = some (f, h') ∧ Post R h h' f.refs ∧ RepBV h' f (.data d) :=
  let ⟨f, h', e, p, r⟩ := ofData_spec d hi
  ⟨f, h', e, p, RepBV.data.2 r⟩

theorem repBV_none (h : Mem) : RepBV h Fld.none .none := ⟨by simp [BOk, BlobV.none], rfl, .inl ⟨by simp [BlobV.none, BlobV.slice, ptrSize], _, rfl, rfl⟩⟩
theorem repCh_none (h : Mem) : RepCh h Fld.none (.inr []) := repBV_none h
theorem repBV_empty (h : Mem) : RepBV h Fld.empty (.data []) := RepBV.data.2 (repB_empty h)

/-! ### Children fields -/

theorem RepCh.refs {h f c} (h1 : RepCh h f c) :
    (∃ i, c = .inr i ∧ RepBV h f (.id i) ∧ f.hdr.isId = true) ∨
    (f.hdr = Hdr.arcData ∧ ∃ a xs l, c = .inl l ∧ f.w = .kids a ∧ f.refs = [.kids a] ∧ cK h a = some xs ∧ RepSL h xs l) := by
  cases c with
  | inr i =>
    have h2 : RepBV h f (.id i) := h1
    exact .inl ⟨i, rfl, h1, by rw [h2.2.1, hdr_isId _ h2.1]; rfl⟩
  | inl l =>
    obtain ⟨h2, a, xs, h3, h4, h5⟩ := h1
    exact .inr ⟨h2, a, xs, l, rfl, h3, by simp [Fld.refs, h3, Word.refs], h4, h5⟩

theorem cloneKids_specS {R h f c} (hi : Inv h R) (hb : RepCh h f c) (hr : ∀ r ∈ f.refs, Reach h R r) :
    ∃ h', f.cloneKids h = some (f, h') ∧ Inv h' (f.refs ++ R) ∧ Keep R h h' := by
  unfold Fld.cloneKids
  rcases hb.refs with ⟨i, h1, h2, h3⟩ | ⟨h1, a, xs, l, h2, h3, h4, _⟩
  · rw [h3]; simp only [if_true]
    have := clone_specS hi (v := .id i) ⟨h2, hr⟩
    unfold Fld.clone at this
    exact this
  · rw [h1, hdr_arc_isArc, hdr_arc_isId]; simp only [if_true, Bool.false_eq_true, if_false]
    rw [h3]
    obtain ⟨h', e, h5, h6⟩ := incKids_spec hi (hr (.kids a) (by rw [h4]; simp))
    exact ⟨h', by show (incKids a >>= fun _ => pure f) h = _; rw [run_bind e]; rfl, by rw [h4]; exact h5, h6⟩

/-! ### Nodes -/

theorem rawClone_specS {R h x m} (hi : Inv h R) (hb : BorS R h x m) :
    ∃ h', x.clone h = some (x, h') ∧ Inv h' (x.refs ++ R) ∧ Keep R h h' := by
  obtain ⟨h1, e1, i1, c1⟩ := clone_specS hi hb.pfx
  have hb1 : BorS (x.pfx.refs ++ R) h1 x m := (hb.keep c1).mono (by intro r hr; simp [hr])
  obtain ⟨h2, e2, i2, c2⟩ := clone_specS i1 hb1.val
  have hb2 : BorS (x.val.refs ++ (x.pfx.refs ++ R)) h2 x m := (hb1.keep c2).mono (by intro r hr; simp only [List.mem_append] at hr ⊢; exact .inr hr)
  obtain ⟨h3, e3, i3, c3⟩ := cloneKids_specS i2 hb2.1.ch (fun r hr => hb2.2 r (by simp [Raw.refs, hr]))
  refine ⟨h3, ?_, i3.mono (by cnt_tac), c1.trans ((c2.mono (by sub_tac)).trans (c3.mono (by sub_tac)))⟩
  unfold Raw.clone
  rw [run_bind e1, run_bind e2, run_bind e3]; rfl

theorem rawClone_postS {R h x m} (hi : Inv h R) (hb : BorS R h x m) :
    ∃ h', x.clone h = some (x, h') ∧ Post R h h' x.refs ∧ RepS h' x m := by
  obtain ⟨h', e, i, c⟩ := rawClone_specS hi hb
  exact ⟨h', e, ⟨i, c⟩, hb.1.keep c hb.2⟩

theorem RepSL.mem {h xs l} (q : RepSL h xs l) : ∀ y ∈ xs, ∃ m, RepS h y m := by
  induction l generalizing xs with
  | nil => rw [RepSL.nil_iff] at q; subst q; simp
  | cons m l ih =>
    intro y hy
    obtain ⟨z, zs, rfl, q7, q8⟩ := RepSL.cons_iff.1 q
    rcases List.mem_cons.1 hy with rfl | hy
    · exact ⟨m, q7⟩
    · exact ih q8 y hy

theorem dropSteps_specS {R} : ∀ (n : Nat) (xs : List Raw) (h : Mem), xs.length + visSize h ≤ n → Inv h (refsL xs ++ R) →
    (∀ x ∈ xs, ∃ m, RepS h x m) → ∃ h', dropSteps n xs h = some ((), h') ∧ Inv h' R ∧ Keep R h h' := by
  intro n
  induction n with
  | zero =>
    intro xs h hn hi hr
    cases xs with
    | nil => exact ⟨h, rfl, hi, Keep.refl _ _⟩
    | cons x xs => simp at hn
  | succ n ih =>
    intro xs h hn hi hr
    cases xs with
    | nil => exact ⟨h, rfl, hi, Keep.refl _ _⟩
    | cons x xs =>
      obtain ⟨m, hm⟩ := hr x (by simp)
      have hr' : ∀ y ∈ xs, ∃ m, BorS (refsL xs ++ R) h y m := by
        intro y hy
        obtain ⟨m, h1⟩ := hr y (by simp [hy])
        exact ⟨m, h1, fun r h2 => .root (List.mem_append_left _ (List.mem_flatMap.2 ⟨y, hy, h2⟩))⟩
      obtain ⟨h1, e1, i1, k1, s1⟩ := drop_specS' (R := x.val.refs ++ x.ch.refs ++ refsL xs ++ R) (hi.mono (by cnt_tac)) hm.pfx
      have s1 := s1.size
      have v1 : RepBV h1 x.val m.val := hm.val.keep k1 (reach_of_mem (by sub_tac))
      have c1 : RepCh h1 x.ch m.children := hm.ch.keep k1 (reach_of_mem (by sub_tac))
      obtain ⟨h2, e2, i2, k2, s2⟩ := drop_specS' (R := x.ch.refs ++ refsL xs ++ R) (i1.mono (by cnt_tac)) v1
      have s2 := s2.size
      have c2 : RepCh h2 x.ch m.children := c1.keep k2 (reach_of_mem (by sub_tac))
      have k12 : Keep (refsL xs ++ R) h h2 := (k1.mono (by sub_tac)).trans (k2.mono (by sub_tac))
      have e4 : ∃ cs h3, x.ch.dropKids h2 = some (cs, h3) ∧ Inv h3 (refsL cs ++ (refsL xs ++ R)) ∧ Keep (refsL xs ++ R) h2 h3 ∧
          (∀ y ∈ cs, ∃ m, RepS h3 y m) ∧ visSize h3 + cs.length ≤ visSize h2 := by
        unfold Fld.dropKids
        rcases c2.refs with ⟨i, q1, q2, q3⟩ | ⟨q1, a, ys, l, q2, q3, q4, q5, q6⟩
        · rw [q3]; simp only [if_true]
          rcases q2.refs with ⟨q4, q5, w, q6⟩ | ⟨q4, a, q5, q6⟩
          · rw [q4]; simp only [Bool.false_eq_true, if_false]
            refine ⟨[], h2, rfl, ?_, Keep.refl _ _, by simp, by simp⟩
            rw [q5] at i2
            exact i2.mono (by cnt_tac)
          · rw [q4]; simp only [if_true]
            rw [q5]
            rw [q6] at i2
            obtain ⟨h3, e3, p1, p2, p3⟩ := decBlob_spec (R := refsL xs ++ R) (a := a) (i2.mono (by intro r; simp only [List.append_assoc]; rfl))
            refine ⟨[], h3, ?_, p1, p2, by simp, by simpa using p3.size⟩
            show (decBlob a >>= fun _ => pure []) h2 = _
            rw [run_bind e3]; rfl
        · rw [q1, hdr_arc_isArc, hdr_arc_isId]; simp only [if_true, Bool.false_eq_true, if_false]
          rw [q3]
          rw [q4] at i2
          obtain ⟨ns, h3, e3, p1, p2, p3, p4, p5, p6⟩ := decKids_spec (R := refsL xs ++ R) (a := a) (i2.mono (by intro r; simp only [List.append_assoc]; rfl))
          have p7 : visSize h3 + ns.length ≤ visSize h2 := by
            cases ns with
            | nil => simpa using p5.size
            | cons n ns => obtain ⟨p8, p9⟩ := p6 (by simp); exact p5.size_free p8 p9
          refine ⟨ns, h3, e3, p1, p3, ?_, p7⟩
          intro y hy
          rcases p4 _ q5 with rfl | rfl
          · obtain ⟨m', q7⟩ := q6.mem y hy
            exact ⟨m', q7.keep p2 (reach_of_mem (fun r hr => List.mem_append_left _ (List.mem_flatMap.2 ⟨y, hy, hr⟩)))⟩
          · simp at hy
      obtain ⟨cs, h3, e3, i3, k3, r3, s3⟩ := e4
      obtain ⟨h4, e5, i4, k4⟩ := ih (cs ++ xs) h3 (by simp only [List.length_append, List.length_cons] at hn ⊢; omega) (i3.mono (by cnt_tac)) (by
        intro y hy
        rcases List.mem_append.1 hy with hy | hy
        · exact r3 y hy
        · obtain ⟨m', hm'⟩ := hr' y hy
          exact ⟨m', ((hm'.keep k12).keep k3).1⟩)
      refine ⟨h4, ?_, i4, ?_⟩
      · unfold dropSteps
        rw [run_bind e1, run_bind e2, run_bind e3, e5]
      · exact ((k12.trans k3).mono (by sub_tac)).trans k4

theorem dropAll_specS' {R h xs} (hi : Inv h (refsL xs ++ R)) (hr : ∀ x ∈ xs, ∃ m, RepS h x m) :
    ∃ h', dropAll xs h = some ((), h') ∧ Inv h' R ∧ Keep R h h' := by
  obtain ⟨n, h1, e1, i1, k1, s1⟩ := memSize_spec hi
  have r1 : ∀ x ∈ xs, ∃ m, RepS h1 x m := fun x hx =>
    let ⟨m, hm⟩ := hr x hx
    ⟨m, hm.keep k1 (reach_of_mem (fun r hr => List.mem_append_left _ (List.mem_flatMap.2 ⟨x, hx, hr⟩)))⟩
  obtain ⟨h2, e2, i2, k2⟩ := dropSteps_specS (R := R) (xs.length + n) xs h1 (by omega) i1 r1
  exact ⟨h2, by unfold dropAll; rw [run_bind e1, e2], i2, (k1.mono (by sub_tac)).trans k2⟩

theorem dropAll_specS {R h xs l} (hi : Inv h (refsL xs ++ R)) (hr : RepSL h xs l) :
    ∃ h', dropAll xs h = some ((), h') ∧ Inv h' R ∧ Keep R h h' := dropAll_specS' hi hr.mem

theorem dropOne_specS {R h x m} (hi : Inv h (x.refs ++ R)) (hr : RepS h x m) :
    ∃ h', dropAll [x] h = some ((), h') ∧ Inv h' R ∧ Keep R h h' :=
  dropAll_specS (l := [m]) (hi.mono (by cnt_tac)) (RepSL.cons hr RepSL.nil)

theorem mapClone_specS {R} : ∀ (xs : List Raw) (l : List SNode) (h : Mem), Inv h R → BorSL R h xs l →
    ∃ h', mapH Raw.clone xs h = some (xs, h') ∧ Inv h' (refsL xs ++ R) ∧ Keep R h h' := by
  intro xs l
  induction l generalizing xs R with
  | nil =>
    intro h hi hb
    rw [BorSL.nil_iff] at hb; subst hb
    exact ⟨h, rfl, hi, Keep.refl _ _⟩
  | cons m l ih =>
    intro h hi hb
    obtain ⟨y, ys, rfl, h1, h2⟩ := BorSL.cons_iff.1 hb
    obtain ⟨h3, e3, i3, c3⟩ := rawClone_specS hi h1
    have hb3 : BorSL (y.refs ++ R) h3 ys l := (h2.keep c3).mono (by intro r hr; simp [hr])
    obtain ⟨h4, e4, i4, c4⟩ := ih ys h3 i3 hb3
    refine ⟨h4, ?_, i4.mono (by cnt_tac), c3.trans (c4.mono (by sub_tac))⟩
    unfold mapH
    rw [run_bind e3, run_bind e4]; rfl

theorem takeMut_specS {R h a xs l} (hi : Inv h (.kids a :: R)) (hc : cK h a = some xs) (hr : RepSL h xs l) :
    ∃ h', takeMut a h = some (xs, h') ∧ Inv h' (refsL xs ++ R) ∧ Keep R h h' ∧ RepSL h' xs l := by
  obtain ⟨o, h1, e1, h2⟩ := takeKids_spec hi hc
  have hreach : ∀ r ∈ refsL xs, Reach h (.kids a :: R) r := fun r hr => .step (.root (by simp)) hc hr
  rcases h2 with ⟨rfl, i1, k1, k2⟩ | ⟨rfl, i1, k1⟩
  · exact ⟨h1, by unfold takeMut; rw [run_bind e1]; rfl, i1, k2, hr.keep k1 (reach_of_mem (fun r hr => List.mem_append_left _ hr))⟩
  · have hc1 : cK h1 a = some xs := content_cK (k1 _ (.root (by simp))) hc
    have hb1 : BorSL (.kids a :: R) h1 xs l := BorSL.keep ⟨hr, hreach⟩ k1
    obtain ⟨h2, e2, i2, k2⟩ := mapClone_specS xs l h1 i1 hb1
    have hb2 : RepSL h2 xs l := (hb1.keep k2).1
    have hc2 : cK h2 a = some xs := content_cK (k2 _ (.root (by simp))) hc1
    obtain ⟨ns, h3, e3, p1, p2, p3, p4, p5, p6⟩ := decKids_spec (R := refsL xs ++ R) (m := h2) (a := a) (i2.mono (by intro r; simp only [List.count_append, List.count_cons]; omega))
    have r3 : ∃ l', RepSL h3 ns l' := by
      rcases p4 _ hc2 with rfl | rfl
      · exact ⟨l, hb2.keep p2 (reach_of_mem (fun r hr => List.mem_append_left _ hr))⟩
      · exact ⟨[], RepSL.nil⟩
    obtain ⟨l', r3⟩ := r3
    obtain ⟨h4, e4, i4, k4⟩ := dropAll_specS p1 r3
    refine ⟨h4, ?_, i4, ?_, (hb2.keep p3 (reach_of_mem (fun r hr => List.mem_append_left _ hr))).keep k4 (reach_of_mem (fun r hr => List.mem_append_left _ hr))⟩
    · unfold takeMut
      rw [run_bind e1]
      show (readKids a >>= _) h1 = _
      rw [run_bind (readKids_spec hc1), run_bind e2, run_bind e3, run_bind e4]; rfl
    · exact (k1.mono (by intro r hr; exact List.mem_cons_of_mem _ hr)).trans ((k2.mono (by intro r hr; exact List.mem_cons_of_mem _ hr)).trans ((p3.trans k4).mono (by sub_tac)))

/-- Taking the children out of an `Arc`. -/
theorem takeArc_spec {R h x m l} (hi : Inv h (x.refs ++ R)) (hr : RepS h x m) (hl : m.children = .inl l) :
    ∃ cs h', Raw.takeChildren x h = some (cs, h') ∧ Inv h' (x.pfx.refs ++ x.val.refs ++ refsL cs ++ R) ∧ Keep R h h' ∧
      RepBV h' x.pfx m.pfx ∧ RepBV h' x.val m.val ∧ RepSL h' cs l := by
  unfold Raw.takeChildren
  have hch := hr.ch
  rw [hl] at hch
  rcases hch.refs with ⟨i, q1, _⟩ | ⟨q1, a, ys, l', q2, q3, q4, q5, q6⟩
  · cases q1
  · cases q2
    rw [q1, hdr_arc_isId]; simp only [Bool.false_eq_true, if_false]
    rw [if_pos hdr_arc_len, q3]
    have hi' : Inv h (.kids a :: (x.pfx.refs ++ x.val.refs ++ R)) := hi.mono (by
      intro r; simp only [Raw.refs, q4, List.count_append, List.count_cons, List.count_nil]; omega)
    obtain ⟨h', e, i, k, rl⟩ := takeMut_specS hi' q5 q6
    exact ⟨ys, h', e, i.mono (by cnt_tac), k.mono (by sub_tac), hr.pfx.keep k (reach_of_mem (by sub_tac)), hr.val.keep k (reach_of_mem (by sub_tac)), rl⟩

theorem setKids_specS {R h p v cs pd vd l} (hi : Inv h (p.refs ++ v.refs ++ refsL cs ++ R)) (h1 : RepBV h p pd) (h2 : RepBV h v vd) (h3 : RepSL h cs l) :
    ∃ y h', Raw.setKids ⟨p, v, Fld.none⟩ cs h = some (y, h') ∧ Post R h h' y.refs ∧ RepS h' y (.arc pd vd l) := by
  obtain ⟨a, h', e, q1, q2, q3⟩ := allocKids_spec (R := p.refs ++ v.refs ++ R) cs (hi.mono (by cnt_tac))
  refine ⟨⟨p, v, ⟨Hdr.arcData, .kids a⟩⟩, h', ?_, ⟨?_, q3.mono (by sub_tac)⟩, ?_⟩
  · unfold Raw.setKids; rw [run_bind e]; rfl
  · exact q2.mono (by intro r; simp only [Raw.refs, Fld.refs, Word.refs, List.count_append, List.count_cons, List.count_nil]; omega)
  · simp only [RepS]
    exact ⟨h1.keep q3 (reach_of_mem (by sub_tac)), h2.keep q3 (reach_of_mem (by sub_tac)), trivial, a, cs, rfl, q1, h3.keep q3 (reach_of_mem (by sub_tac))⟩

theorem setPrefix_specS {R h x m} (p : Bytes) (hi : Inv h (x.refs ++ R)) (hr : RepS h x m) :
    ∃ y h', x.setPrefix p h = some (y, h') ∧ Post R h h' y.refs ∧ RepS h' y (m.setPrefix p) ∧ y.val = x.val ∧ y.ch = x.ch := by
  obtain ⟨h1, e1, i1, k1⟩ := drop_specS (R := x.val.refs ++ x.ch.refs ++ R) (hi.mono (by cnt_tac)) hr.pfx
  obtain ⟨f, h2, e2, p2, r2⟩ := ofData_specS p i1
  refine ⟨⟨f, x.val, x.ch⟩, h2, ?_, ⟨p2.inv.mono (by cnt_tac), (k1.mono (by sub_tac)).trans (p2.keep.mono (by sub_tac))⟩, ?_, rfl, rfl⟩
  · unfold Raw.setPrefix; rw [run_bind e1, run_bind e2]; rfl
  · have v1 : RepBV h1 x.val m.val := hr.val.keep k1 (reach_of_mem (by sub_tac))
    have c1 : RepCh h1 x.ch m.children := hr.ch.keep k1 (reach_of_mem (by sub_tac))
    exact RepS.of r2 (v1.keep p2.keep (reach_of_mem (by sub_tac))) (c1.keep p2.keep (reach_of_mem (by sub_tac)))

theorem clearValue_specS {R h x m} (hi : Inv h (x.refs ++ R)) (hr : RepS h x m) :
    ∃ y h', x.clearValue h = some (y, h') ∧ Post R h h' y.refs ∧ RepS h' y (m.setVal .none) := by
  obtain ⟨h1, e1, i1, k1⟩ := drop_specS (R := x.pfx.refs ++ x.ch.refs ++ R) (hi.mono (by cnt_tac)) hr.val
  refine ⟨⟨x.pfx, Fld.none, x.ch⟩, h1, ?_, ⟨i1.mono ?_, k1.mono (by sub_tac)⟩, ?_⟩
  · unfold Raw.clearValue; rw [run_bind e1]; rfl
  · intro r; simp only [Raw.refs, fld_none_refs, List.count_append, List.count_nil]; omega
  · exact RepS.of (hr.pfx.keep k1 (reach_of_mem (by sub_tac))) (repBV_none _) (hr.ch.keep k1 (reach_of_mem (by sub_tac)))

theorem dropKids_specS {R h f c} (hi : Inv h (f.refs ++ R)) (hr : RepCh h f c) :
    ∃ cs h' l, f.dropKids h = some (cs, h') ∧ Inv h' (refsL cs ++ R) ∧ Keep R h h' ∧ RepSL h' cs l := by
  unfold Fld.dropKids
  rcases hr.refs with ⟨i, q1, q2, q3⟩ | ⟨q1, a, ys, l, q2, q3, q4, q5, q6⟩
  · rw [q3]; simp only [if_true]
    rcases q2.refs with ⟨q4, q5, w, q6⟩ | ⟨q4, a, q5, q6⟩
    · rw [q4]; simp only [Bool.false_eq_true, if_false]
      rw [q5] at hi
      exact ⟨[], h, [], rfl, hi, Keep.refl _ _, RepSL.nil⟩
    · rw [q4]; simp only [if_true]
      rw [q5]
      rw [q6] at hi
      obtain ⟨h3, e3, p1, p2, p3⟩ := decBlob_spec (R := R) (a := a) hi
      refine ⟨[], h3, [], ?_, p1, p2, RepSL.nil⟩
      show (decBlob a >>= fun _ => pure []) h = _
      rw [run_bind e3]; rfl
  · rw [q1, hdr_arc_isArc, hdr_arc_isId]; simp only [if_true, Bool.false_eq_true, if_false]
    rw [q3]
    rw [q4] at hi
    obtain ⟨ns, h3, e3, p1, p2, p3, p4, p5, p6⟩ := decKids_spec (R := R) hi
    rcases p4 _ q5 with rfl | rfl
    · exact ⟨ns, h3, l, e3, p1, p3, q6.keep p2 (reach_of_mem (fun r hr => List.mem_append_left _ hr))⟩
    · exact ⟨[], h3, [], e3, p1, p3, RepSL.nil⟩

theorem clearChildren_specS {R h x m} (hi : Inv h (x.refs ++ R)) (hr : RepS h x m) :
    ∃ y h', x.clearChildren h = some (y, h') ∧ Post R h h' y.refs ∧ RepS h' y m.noChildren := by
  obtain ⟨cs, h1, l, e1, i1, k1, r1⟩ := dropKids_specS (R := x.pfx.refs ++ x.val.refs ++ R) (hi.mono (by cnt_tac)) hr.ch
  obtain ⟨h2, e2, i2, k2⟩ := dropAll_specS i1 r1
  have k := k1.trans k2
  refine ⟨⟨x.pfx, x.val, Fld.none⟩, h2, ?_, ⟨i2.mono ?_, k.mono (by sub_tac)⟩, ?_⟩
  · unfold Raw.clearChildren; rw [run_bind e1, run_bind e2]; rfl
  · intro r; simp only [Raw.refs, fld_none_refs, List.count_append, List.count_nil]; omega
  · exact RepS.of (c := .inr []) (hr.pfx.keep k (reach_of_mem (by sub_tac))) (hr.val.keep k (reach_of_mem (by sub_tac))) (repCh_none _)

theorem clear_spec {R h x m} (hi : Inv h (x.refs ++ R)) (hr : RepS h x m) :
    ∃ y h', clear x h = some (y, h') ∧ Post R h h' y.refs ∧ RepS h' y (m.setVal .none).noChildren := by
  obtain ⟨y, h1, e1, p1, r1⟩ := clearValue_specS hi hr
  obtain ⟨z, h2, e2, p2, r2⟩ := clearChildren_specS p1.inv r1
  exact ⟨z, h2, by unfold clear; rw [run_bind e1, e2], ⟨p2.inv, p1.keep.trans p2.keep⟩, r2⟩

theorem single_specS {R h} (k v : Bytes) (hi : Inv h R) :
    ∃ y h', Raw.single k v h = some (y, h') ∧ Post R h h' y.refs ∧ RepS h' y (.ref (.data k) (.data v) []) := by
  obtain ⟨f, h1, e1, p1, r1⟩ := ofData_specS k hi
  obtain ⟨g, h2, e2, p2, r2⟩ := ofData_specS v p1.inv
  refine ⟨⟨f, g, Fld.none⟩, h2, ?_, ⟨p2.inv.mono ?_, p1.keep.trans (p2.keep.mono (by sub_tac))⟩, ?_⟩
  · unfold Raw.single; rw [run_bind e1, run_bind e2]; rfl
  · intro r; simp only [Raw.refs, fld_none_refs, List.count_append, List.count_nil]; omega
  · exact RepS.of (c := .inr []) (r1.keep p2.keep (reach_of_mem (by sub_tac))) r2 (repCh_none _)

theorem RepS.isEmpty {h x m} (hr : RepS h x m) : x.isEmpty = m.isEmpty := by
  unfold Raw.isEmpty SNode.isEmpty SNode.hasValue SNode.isLeaf
  rw [hr.val.isSome]
  congr 1
  rcases hr.ch.refs with ⟨i, q1, q2, _⟩ | ⟨q1, a, ys, l, q2, _⟩
  · rw [q1]
    cases i with
    | nil => rw [q2.2.1]; decide +kernel
    | cons b i =>
      have : (BlobV.id (b :: i)).hdr ≠ Hdr.none := fun h3 => by have := (hdr_none_iff _ q2.1).1 h3; cases this
      rw [q2.2.1]
      simpa using this
  · rw [q1, q2, hdr_arc_ne_none]

theorem childCount_specS {h x m} (hr : RepS h x m) : childCount x h = some (m.childCount, h) := by
  unfold childCount SNode.childCount
  rcases hr.ch.refs with ⟨i, q1, q2, q3⟩ | ⟨q1, a, ys, l, q2, q3, q4, q5, q6⟩
  · rw [q3, q1]; simp only [if_true]
    rw [run_bind (slice_specS q2)]
    cases i <;> rfl
  · rw [q1, q2, hdr_arc_isId]; simp only [Bool.false_eq_true, if_false]
    unfold Raw.childCount
    have : x.ch.children h = some (some ys, h) := by
      unfold Fld.children
      rw [q1, hdr_arc_isId]; simp only [Bool.false_eq_true, if_false]
      rw [if_pos hdr_arc_len, q3]
      show (readKids a >>= fun x => pure (some x)) h = _; rw [run_bind (readKids_spec q5)]; rfl
    rw [run_bind this]
    simp only [← q6.length]; rfl

theorem childCount_one {m : SNode} (h : m.childCount = 1) : ∃ c, m.children = .inl [c] := by
  unfold SNode.childCount at h
  rcases hc : m.children with l | i
  · rw [hc] at h
    simp only at h
    match l, h with
    | [c], _ => exact ⟨c, rfl⟩
  · rw [hc] at h
    cases i <;> simp at h

theorem merge_ne {m : SNode} (h : ¬ (m.val.valueOpt = none ∧ m.childCount = 1)) : m.merge = m := by
  unfold SNode.merge
  split
  · rename_i c h1 h2
    exact absurd ⟨h1, by simp [SNode.childCount, h2]⟩ h
  · rfl

theorem merge_specS {R h x m} (hi : Inv h (x.refs ++ R)) (hr : RepS h x m) :
    ∃ y h', merge x h = some (y, h') ∧ Post R h h' y.refs ∧ RepS h' y m.merge := by
  unfold merge
  rw [run_bind (childCount_specS hr), hr.val.isSome]
  by_cases hc : m.val.valueOpt = none ∧ m.childCount = 1
  · obtain ⟨hv, hcc⟩ := hc
    rw [if_pos (by rw [hv, hcc]; rfl)]
    obtain ⟨c', hch⟩ := childCount_one hcc
    obtain ⟨cs, h1, e1, i1, k1, r1, r2, r3⟩ := takeArc_spec hi hr hch
    obtain ⟨z, zs, rfl, r4, r5⟩ := RepSL.cons_iff.1 r3
    rw [RepSL.nil_iff] at r5; subst r5
    rw [run_bind e1]
    simp only
    rw [run_bind (slice_specS r1), run_bind (slice_specS r4.pfx)]
    have hval : x.val.refs = [] := by
      have hn : m.val = .none := by
        unfold BlobV.valueOpt at hv
        by_cases q : m.val = .none
        · exact q
        · rw [if_neg q] at hv; cases hv
      have := hr.val
      rw [hn] at this
      rcases this.2.2 with ⟨_, w, q, _⟩ | ⟨q, _⟩
      · simp [Fld.refs, q, Word.refs]
      · simp [BlobV.none, BlobV.slice] at q
    obtain ⟨h2, e4, i2, k2⟩ := drop_specS (R := refsL [z] ++ R) (i1.mono (by rw [hval]; cnt_tac)) r1
    obtain ⟨f, h3, e5, p3, r6⟩ := ofData_specS (m.pfx.slice ++ c'.pfx.slice) i2
    have e6 : x.setPrefix (m.pfx.slice ++ c'.pfx.slice) h1 = some (⟨f, x.val, x.ch⟩, h3) := by
      unfold Raw.setPrefix; rw [run_bind e4, run_bind e5]; rfl
    rw [run_bind (by exact e6)]
    have r7 : RepS h3 z c' := (r4.keep k2 (reach_of_mem (by sub_tac))).keep p3.keep (reach_of_mem (by sub_tac))
    obtain ⟨h4, e7, i4, k4⟩ := drop_specS (R := f.refs ++ z.val.refs ++ z.ch.refs ++ R) (p3.inv.mono (by cnt_tac)) r7.pfx
    rw [run_bind e7]
    refine ⟨⟨f, z.val, z.ch⟩, h4, rfl, ⟨i4.mono (by cnt_tac), ?_⟩, ?_⟩
    · exact ((k1.trans (k2.mono (by sub_tac))).trans (p3.keep.mono (by sub_tac))).trans (k4.mono (by sub_tac))
    · unfold SNode.merge
      rw [hv, hch]
      exact RepS.of (r6.keep k4 (reach_of_mem (by sub_tac))) (r7.val.keep k4 (reach_of_mem (by sub_tac))) (r7.ch.keep k4 (reach_of_mem (by sub_tac)))
  · rw [if_neg (by
      simp only [Bool.and_eq_true, Bool.not_eq_true', beq_iff_eq, Option.isSome_eq_false_iff, Option.isNone_iff_eq_none]
      exact hc)]
    exact ⟨x, h, rfl, ⟨hi, Keep.refl _ _⟩, by rw [merge_ne hc]; exact hr⟩

theorem canonicalize_specS {ε : Type} {R h x m} (hi : Inv h (x.refs ++ R)) (hr : RepS h x m) :
    ∃ y h', canonicalize x h = some (y, h') ∧ Post R h h' y.refs ∧ RepS h' y (canonicalizeS (ε := ε) false m).2 := by
  obtain ⟨y, h1, e1, p1, r1⟩ := merge_specS hi hr
  unfold canonicalize
  rw [run_bind e1, run_bind (childCount_specS r1), show y.val.isSome = m.merge.hasValue from r1.val.isSome]
  unfold canonicalizeS
  simp only [Bool.false_and, Bool.false_eq_true, if_false]
  by_cases hc : (!m.merge.hasValue && m.merge.childCount == 0) = true
  · rw [if_pos hc, if_pos hc]
    simp only [SNode.hasValue, Bool.and_eq_true, Bool.not_eq_true', beq_iff_eq, Option.isSome_eq_false_iff, Option.isNone_iff_eq_none] at hc
    obtain ⟨h2, e2, i2, k2⟩ := drop_specS (R := y.val.refs ++ y.ch.refs ++ R) (p1.inv.mono (by cnt_tac)) r1.pfx
    refine ⟨⟨Fld.empty, y.val, Fld.none⟩, h2, by rw [run_bind e2]; rfl, ⟨?_, p1.keep.trans (k2.mono (by sub_tac))⟩, ?_⟩
    · have hch := r1.ch.keep k2 (reach_of_mem (by sub_tac))
      have i3 : Inv h2 (y.val.refs ++ R) := by
        rcases hch.refs with ⟨i, q1, q2, _⟩ | ⟨_, a, xs, l, q2, q3, q4, q5, q6⟩
        · have hi0 : i = [] := by
            have := hc.2
            unfold SNode.childCount at this
            rw [q1] at this
            cases i with
            | nil => rfl
            | cons _ _ => simp at this
          subst hi0
          have : y.ch.refs = [] := by
            rcases q2.2.2 with ⟨_, w, q, _⟩ | ⟨q, _⟩
            · simp [Fld.refs, q, Word.refs]
            · simp [BlobV.slice] at q
          rw [this] at i2; exact i2.mono (by cnt_tac)
        · rw [q4] at i2
          refine (i2.mono (R' := .kids a :: (y.val.refs ++ R)) (by intro r; simp only [List.count_append, List.count_cons, List.count_nil]; omega)).leak ?_
          have := hc.2
          simp only [SNode.childCount, q2, List.length_eq_zero_iff] at this
          subst this
          rw [RepSL.nil_iff] at q6
          rw [q5, q6]
      exact i3.mono (by intro r; simp only [Raw.refs, fld_none_refs, fld_empty_refs, List.count_append, List.count_nil]; omega)
    · refine RepS.of (c := .inr []) (repBV_empty _) ?_ (repCh_none _)
      have := r1.val.keep k2 (reach_of_mem (by sub_tac))
      have hn : m.merge.val = .none := by
        have hv := hc.1
        unfold BlobV.valueOpt at hv
        by_cases q : m.merge.val = .none
        · exact q
        · rw [if_neg q] at hv; cases hv
      rw [hn] at this; exact this
  · rw [if_neg hc, if_neg hc]
    exact ⟨y, h1, rfl, p1, r1⟩

theorem downcast_specS {R h x m} (hi : Inv h (x.refs ++ R)) (hr : RepS h x m) :
    ∃ y h', x.downcast h = some (y, h') ∧ Post R h h' y.refs ∧ RepS h' y m := by
  obtain ⟨h1, e1, p1, r1⟩ := rawClone_postS hi (m := m) ⟨hr, reach_of_mem (fun r hr => List.mem_append_left _ hr)⟩
  obtain ⟨h2, e2, i2, k2⟩ := dropOne_specS (R := x.refs ++ R) p1.inv r1
  refine ⟨x, h2, ?_, ⟨i2, (p1.keep.mono (by sub_tac)).trans (k2.mono (by sub_tac))⟩, r1.keep k2 (reach_of_mem (by sub_tac))⟩
  unfold Raw.downcast
  rw [run_bind e1, run_bind e2]; rfl

/-! ### Records -/

/-- The ids in a record have fewer than 128 bytes. -/
def RecOk (r : Rec) : Prop := BOk r.pfx ∧ BOk r.val ∧ BOk r.ch

theorem readBlob_ok {bs rest : Bytes} {b : BlobV} (h : Radix.readBlob bs = some (b, rest)) : BOk b := by
  cases bs with
  | nil => cases h
  | cons x xs =>
    simp only [Radix.readBlob] at h
    split at h
    · cases h
    · rename_i hl
      simp only [Option.some.injEq, Prod.mk.injEq] at h
      rw [← h.1]
      have : ∀ k : Fin 256, Hdr.len (UInt8.ofNat k.val) < 128 := by decide +kernel
      have h2 := this ⟨x.toNat, x.toNat_lt⟩
      simp only [UInt8.ofNat_toNat] at h2
      split
      · simp only [BOk, List.length_take]; omega
      · trivial

theorem readOne_ok {bs rest : Bytes} {r : Rec} (h : readOne bs = some (r, rest)) : RecOk r := by
  simp only [readOne, Option.bind_eq_bind, Option.bind_eq_some_iff, Prod.exists, Option.pure_def,
    Option.some.injEq, Prod.mk.injEq] at h
  obtain ⟨p, b1, h1, v, b2, h2, c, b3, h3, rfl, rfl⟩ := h
  exact ⟨readBlob_ok h1, readBlob_ok h2, readBlob_ok h3⟩

theorem recToOwned_spec {ε : Type} {R h r m} (hi : Inv h R) (ho : RecOk r) (hm : r.toOwned = (.ok m : Res ε SNode)) :
    ∃ y h', recToOwned r h = some (y, h') ∧ Post R h h' y.refs ∧ RepS h' y m := by
  unfold Rec.toOwned at hm
  obtain ⟨f, h1, e1, p1, r1⟩ := ofBlobV_spec r.pfx ho.1 hi
  obtain ⟨g, h2, e2, p2, r2⟩ := ofBlobV_spec r.val ho.2.1 p1.inv
  unfold recToOwned
  rw [run_bind e1, run_bind e2]
  have ho3 := ho.2.2
  cases hc : r.ch with
  | data d => rw [hc] at hm; cases hm
  | id i =>
    rw [hc] at hm ho3
    cases hm
    simp only
    obtain ⟨k, h3, e3, p3, r3⟩ := ofBlobV_spec (.id i) ho3 p2.inv
    rw [run_bind e3]
    refine ⟨⟨f, g, k⟩, h3, rfl, ⟨p3.inv.mono (by cnt_tac), p1.keep.trans ((p2.keep.mono (by sub_tac)).trans (p3.keep.mono (by sub_tac)))⟩, ?_⟩
    exact RepS.of (c := .inr i) ((r1.keep p2.keep (reach_of_mem (by sub_tac))).keep p3.keep (reach_of_mem (by sub_tac))) (r2.keep p3.keep (reach_of_mem (by sub_tac))) r3

end Radix.Heap.Att
