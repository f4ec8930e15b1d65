import Verif.Proofs.HeapBase

/- What nodes in memory represent, and the operations on one node. -/

set_option linter.unusedVariables false

namespace Radix.Heap

/-! ### Headers -/

theorem hdr_data_len (n : Nat) : (Hdr.data n).len = min n 127 := by
  unfold Hdr.data
  by_cases h : n ≤ 127
  · rw [if_pos h]
    have : ∀ i : Fin 128, Hdr.len (UInt8.ofNat i.val) = i.val := by decide +kernel
    rw [this ⟨n, by omega⟩]; simp; omega
  · rw [if_neg h]
    have : Hdr.len 0x7f = 127 := by decide +kernel
    rw [this]; omega

theorem hdr_data_isId (n : Nat) : (Hdr.data n).isId = false := by
  unfold Hdr.data
  by_cases h : n ≤ 127
  · rw [if_pos h]
    have : ∀ i : Fin 128, Hdr.isId (UInt8.ofNat i.val) = false := by decide +kernel
    exact this ⟨n, by omega⟩
  · rw [if_neg h]; decide +kernel

theorem hdr_data_isArc (n : Nat) : (Hdr.data n).isArc = decide (ptrSize < n) := by
  unfold Hdr.isArc; rw [hdr_data_len, decide_eq_decide]; simp only [ptrSize]; omega

theorem hdr_data_isInline (n : Nat) : (Hdr.data n).isInline = decide (n ≤ ptrSize) := by
  unfold Hdr.isInline; rw [hdr_data_len, decide_eq_decide]; simp only [ptrSize]; omega

theorem hdr_data_ne_none (n : Nat) : Hdr.data n ≠ Hdr.none := by
  intro h
  have h1 := hdr_data_isId n
  rw [h] at h1
  exact absurd h1 (by decide +kernel)

theorem hdr_none_isArc : Hdr.isArc Hdr.none = false := by decide +kernel
theorem hdr_none_isId : Hdr.isId Hdr.none = true := by decide +kernel
theorem hdr_none_len : Hdr.len Hdr.none = 0 := by decide +kernel
theorem hdr_arc_isArc : Hdr.isArc Hdr.arcData = true := by decide +kernel
theorem hdr_arc_isId : Hdr.isId Hdr.arcData = false := by decide +kernel
theorem hdr_arc_len : Hdr.len Hdr.arcData > ptrSize := by decide +kernel
theorem hdr_arc_ne_none : (Hdr.arcData == Hdr.none) = false := by decide +kernel

/-! ### What memory represents -/

/-- A field holds the bytes `d`. -/
def RepB (h : Mem) (f : Fld) (d : Bytes) : Prop :=
  f.hdr = Hdr.data d.length ∧
    ((d.length ≤ ptrSize ∧ ∃ b, f.w = .bytes b ∧ b.take d.length = d) ∨ (ptrSize < d.length ∧ ∃ a, f.w = .blob a ∧ cB h a = some d))

/-- A value field holds `v`. -/
def RepV (h : Mem) (f : Fld) : Option Bytes → Prop
  | none => f.hdr = Hdr.none ∧ ∃ b, f.w = .bytes b
  | some d => RepB h f d

mutual
/-- A node in memory is the tree. -/
def Rep (h : Mem) (x : Raw) : Node → Prop
  | .mk p v c => RepB h x.pfx p ∧ RepV h x.val v ∧ RepC h x.ch c
/-- A children field holds the children. -/
def RepC (h : Mem) (f : Fld) : Option (List Node) → Prop
  | none => f.hdr = Hdr.none ∧ ∃ b, f.w = .bytes b
  | some l => f.hdr = Hdr.arcData ∧ ∃ a xs, f.w = .kids a ∧ cK h a = some xs ∧ RepL h xs l
/-- A vector of nodes in memory is the list of trees. -/
def RepL (h : Mem) (xs : List Raw) : List Node → Prop
  | [] => xs = []
  | m :: l => ∃ y ys, xs = y :: ys ∧ Rep h y m ∧ RepL h ys l
end

theorem Rep.pfx {h x m} (hr : Rep h x m) : RepB h x.pfx m.pfx := by cases m; simp only [Rep] at hr; exact hr.1
theorem Rep.val {h x m} (hr : Rep h x m) : RepV h x.val m.val := by cases m; simp only [Rep] at hr; exact hr.2.1
theorem Rep.ch {h x m} (hr : Rep h x m) : RepC h x.ch m.ch := by cases m; simp only [Rep] at hr; exact hr.2.2
theorem Rep.of {h x p v c} (h1 : RepB h x.pfx p) (h2 : RepV h x.val v) (h3 : RepC h x.ch c) : Rep h x (.mk p v c) := by
  simp only [Rep]; exact ⟨h1, h2, h3⟩

theorem RepL.nil_iff {h xs} : RepL h xs [] ↔ xs = [] := by simp only [RepL]
theorem RepL.cons_iff {h xs m l} : RepL h xs (m :: l) ↔ ∃ y ys, xs = y :: ys ∧ Rep h y m ∧ RepL h ys l := by simp only [RepL]
theorem RepL.cons {h x xs m l} (h1 : Rep h x m) (h2 : RepL h xs l) : RepL h (x :: xs) (m :: l) := RepL.cons_iff.2 ⟨x, xs, rfl, h1, h2⟩
theorem RepL.nil {h} : RepL h [] [] := RepL.nil_iff.2 rfl

theorem RepL.append {h xs l ys k} (h1 : RepL h xs l) (h2 : RepL h ys k) : RepL h (xs ++ ys) (l ++ k) := by
  induction l generalizing xs with
  | nil => rw [RepL.nil_iff] at h1; subst h1; simpa using h2
  | cons m l ih =>
    obtain ⟨y, ys', rfl, h3, h4⟩ := RepL.cons_iff.1 h1
    exact RepL.cons h3 (ih h4)

theorem RepL.length {h xs l} (h1 : RepL h xs l) : xs.length = l.length := by
  induction l generalizing xs with
  | nil => rw [RepL.nil_iff] at h1; subst h1; rfl
  | cons m l ih => obtain ⟨y, ys', rfl, h3, h4⟩ := RepL.cons_iff.1 h1; simp [ih h4]

theorem RepB.core {S h h' f d} (hk : Core S h h') (hr : ∀ r ∈ f.refs, Via h S r) (h1 : RepB h f d) : RepB h' f d := by
  refine ⟨h1.1, ?_⟩
  rcases h1.2 with h2 | ⟨h2, a, h3, h4⟩
  · exact .inl h2
  · exact .inr ⟨h2, a, h3, content_cB (hk _ (hr _ (by simp [Fld.refs, h3, Word.refs]))) h4⟩

theorem RepB.keep {R h h' f d} (hk : Keep R h h') (hr : ∀ r ∈ f.refs, Reach h R r) (h1 : RepB h f d) : RepB h' f d := RepB.core hk.same hr h1

theorem RepV.core {S h h' f v} (hk : Core S h h') (hr : ∀ r ∈ f.refs, Via h S r) (h1 : RepV h f v) : RepV h' f v := by
  cases v with
  | none => exact h1
  | some d => exact RepB.core (d := d) hk hr h1

theorem RepV.keep {R h h' f v} (hk : Keep R h h') (hr : ∀ r ∈ f.refs, Reach h R r) (h1 : RepV h f v) : RepV h' f v := RepV.core hk.same hr h1

mutual
theorem Rep.core {S h h'} (hk : Core S h h') : ∀ {m x}, (∀ r ∈ x.refs, Via h S r) → Rep h x m → Rep h' x m
  | .mk p v c, x, hr, h1 => by
    simp only [Rep] at h1 ⊢
    refine ⟨h1.1.core hk ?_, h1.2.1.core hk ?_, RepC.core hk ?_ h1.2.2⟩
    · intro r h2; exact hr r (by simp [Raw.refs, h2])
    · intro r h2; exact hr r (by simp [Raw.refs, h2])
    · intro r h2; exact hr r (by simp [Raw.refs, h2])
theorem RepC.core {S h h'} (hk : Core S h h') : ∀ {c f}, (∀ r ∈ f.refs, Via h S r) → RepC h f c → RepC h' f c
  | none, f, hr, h1 => by simp only [RepC] at h1 ⊢; exact h1
  | some l, f, hr, h1 => by
    simp only [RepC] at h1 ⊢
    obtain ⟨h2, a, xs, h3, h4, h5⟩ := h1
    have h6 := hr (.kids a) (by simp [Fld.refs, h3, Word.refs])
    exact ⟨h2, a, xs, h3, content_cK (hk _ h6) h4, RepL.core hk (fun r h7 => .step h6 h4 h7) h5⟩
theorem RepL.core {S h h'} (hk : Core S h h') : ∀ {l xs}, (∀ r ∈ refsL xs, Via h S r) → RepL h xs l → RepL h' xs l
  | [], xs, hr, h1 => by rw [RepL.nil_iff] at h1 ⊢; exact h1
  | m :: l, xs, hr, h1 => by
    obtain ⟨y, ys, rfl, h2, h3⟩ := RepL.cons_iff.1 h1
    refine RepL.cons (Rep.core hk ?_ h2) (RepL.core hk ?_ h3)
    · intro r h4; exact hr r (by simp [h4])
    · intro r h4; exact hr r (by simp [h4])
end

theorem Rep.keep {R h h'} (hk : Keep R h h') {m x} (hr : ∀ r ∈ x.refs, Reach h R r) (h1 : Rep h x m) : Rep h' x m := Rep.core hk.same hr h1
theorem RepC.keep {R h h'} (hk : Keep R h h') {c f} (hr : ∀ r ∈ f.refs, Reach h R r) (h1 : RepC h f c) : RepC h' f c := RepC.core hk.same hr h1
theorem RepL.keep {R h h'} (hk : Keep R h h') {l xs} (hr : ∀ r ∈ refsL xs, Reach h R r) (h1 : RepL h xs l) : RepL h' xs l := RepL.core hk.same hr h1

theorem reach_of_mem {h : Mem} {R rs : List Ref} (hs : ∀ r ∈ rs, r ∈ R) : ∀ r ∈ rs, Reach h R r := fun r hr => .root (hs r hr)

/-! ### Borrowed things -/

def BorB (R : List Ref) (h : Mem) (f : Fld) (d : Bytes) : Prop := RepB h f d ∧ ∀ r ∈ f.refs, Reach h R r
def BorV (R : List Ref) (h : Mem) (f : Fld) (v : Option Bytes) : Prop := RepV h f v ∧ ∀ r ∈ f.refs, Reach h R r
def Bor (R : List Ref) (h : Mem) (x : Raw) (m : Node) : Prop := Rep h x m ∧ ∀ r ∈ x.refs, Reach h R r
def BorL (R : List Ref) (h : Mem) (xs : List Raw) (l : List Node) : Prop := RepL h xs l ∧ ∀ r ∈ refsL xs, Reach h R r

theorem BorB.keep {R h h' f d} (hb : BorB R h f d) (hk : Keep R h h') : BorB R h' f d :=
  ⟨hb.1.keep hk hb.2, fun r hr => hk.reach (hb.2 r hr)⟩
theorem BorV.keep {R h h' f d} (hb : BorV R h f d) (hk : Keep R h h') : BorV R h' f d :=
  ⟨hb.1.keep hk hb.2, fun r hr => hk.reach (hb.2 r hr)⟩
theorem Bor.keep {R h h' f d} (hb : Bor R h f d) (hk : Keep R h h') : Bor R h' f d :=
  ⟨hb.1.keep hk hb.2, fun r hr => hk.reach (hb.2 r hr)⟩
theorem BorL.keep {R h h' f d} (hb : BorL R h f d) (hk : Keep R h h') : BorL R h' f d :=
  ⟨hb.1.keep hk hb.2, fun r hr => hk.reach (hb.2 r hr)⟩

theorem BorB.mono {R R' h f d} (hb : BorB R h f d) (hs : ∀ r ∈ R, r ∈ R') : BorB R' h f d := ⟨hb.1, fun r hr => (hb.2 r hr).mono hs⟩
theorem BorV.mono {R R' h f d} (hb : BorV R h f d) (hs : ∀ r ∈ R, r ∈ R') : BorV R' h f d := ⟨hb.1, fun r hr => (hb.2 r hr).mono hs⟩
theorem Bor.mono {R R' h f d} (hb : Bor R h f d) (hs : ∀ r ∈ R, r ∈ R') : Bor R' h f d := ⟨hb.1, fun r hr => (hb.2 r hr).mono hs⟩
theorem BorL.mono {R R' h f d} (hb : BorL R h f d) (hs : ∀ r ∈ R, r ∈ R') : BorL R' h f d := ⟨hb.1, fun r hr => (hb.2 r hr).mono hs⟩

theorem Bor.pfx {R h x m} (hb : Bor R h x m) : BorB R h x.pfx m.pfx := ⟨hb.1.pfx, fun r hr => hb.2 r (by simp [Raw.refs, hr])⟩
theorem Bor.val {R h x m} (hb : Bor R h x m) : BorV R h x.val m.val := ⟨hb.1.val, fun r hr => hb.2 r (by simp [Raw.refs, hr])⟩

theorem BorL.cons_iff {R h xs m l} : BorL R h xs (m :: l) ↔ ∃ y ys, xs = y :: ys ∧ Bor R h y m ∧ BorL R h ys l := by
  constructor
  · rintro ⟨h1, h2⟩
    obtain ⟨y, ys, rfl, h3, h4⟩ := RepL.cons_iff.1 h1
    exact ⟨y, ys, rfl, ⟨h3, fun r hr => h2 r (by simp [hr])⟩, ⟨h4, fun r hr => h2 r (by simp [hr])⟩⟩
  · rintro ⟨y, ys, rfl, h3, h4⟩
    refine ⟨RepL.cons h3.1 h4.1, fun r hr => ?_⟩
    simp only [refsL_cons, List.mem_append] at hr
    rcases hr with hr | hr
    · exact h3.2 r hr
    · exact h4.2 r hr

theorem BorL.nil_iff {R h xs} : BorL R h xs [] ↔ xs = [] := by
  constructor
  · rintro ⟨h1, h2⟩; exact RepL.nil_iff.1 h1
  · rintro rfl; exact ⟨RepL.nil, by simp⟩

/-- Sublists of the references. -/
macro "sub_tac" : tactic => `(tactic| (intro r hr; simp only [Raw.refs, refsL_cons, refsL_nil, refsL_append, List.mem_append, List.not_mem_nil, false_or, or_false] at hr ⊢; grind))

/-- Comparing the numbers of references. -/
macro "cnt_tac" : tactic => `(tactic| (intro r; simp only [Raw.refs, refsL_cons, refsL_nil, refsL_append, List.count_append, List.count_nil, List.nil_append, List.append_nil] <;> omega))

/-! ### Fields -/

theorem slice_spec {h f d} (h1 : RepB h f d) : f.slice h = some (d, h) := by
  unfold Fld.slice
  rw [h1.1, hdr_data_isInline]
  rcases h1.2 with ⟨h2, b, h3, h4⟩ | ⟨h2, a, h3, h4⟩
  · rw [if_pos (by simpa using h2), h3]
    show some _ = _
    have h5 : min d.length 127 = d.length := by simp [ptrSize] at h2; omega
    rw [hdr_data_len, h5, h4]
  · rw [if_neg (by simpa using h2), h3]
    exact readBlob_spec h4

theorem RepV.isSome {h f v} (h1 : RepV h f v) : f.isSome = v.isSome := by
  unfold Fld.isSome
  cases v with
  | none => rw [h1.1]; decide +kernel
  | some d =>
    have h2 : RepB h f d := h1
    rw [h2.1]
    simp [hdr_data_ne_none]

theorem RepB.refs {h f d} (h1 : RepB h f d) : (f.hdr.isArc = false ∧ f.refs = [] ∧ ∃ b, f.w = .bytes b) ∨
    (f.hdr.isArc = true ∧ ∃ a, f.w = .blob a ∧ f.refs = [.blob a] ∧ cB h a = some d) := by
  rw [h1.1, hdr_data_isArc]
  rcases h1.2 with ⟨h2, b, h3, h4⟩ | ⟨h2, a, h3, h4⟩
  · exact .inl ⟨by simpa using h2, by simp [Fld.refs, h3, Word.refs], b, h3⟩
  · exact .inr ⟨by simpa using h2, a, h3, by simp [Fld.refs, h3, Word.refs], h4⟩

theorem RepV.refs {h f v} (h1 : RepV h f v) : (f.hdr.isArc = false ∧ f.refs = [] ∧ ∃ b, f.w = .bytes b) ∨
    (f.hdr.isArc = true ∧ ∃ a, f.w = .blob a ∧ f.refs = [.blob a]) := by
  cases v with
  | none => obtain ⟨b, h2⟩ := h1.2; exact .inl ⟨by rw [h1.1]; exact hdr_none_isArc, by simp [Fld.refs, h2, Word.refs], b, h2⟩
  | some d =>
    have h2 : RepB h f d := h1
    rcases h2.refs with h3 | ⟨h3, a, h4, h5, _⟩
    · exact .inl h3
    · exact .inr ⟨h3, a, h4, h5⟩

theorem RepV.some {h f d} (h1 : RepB h f d) : RepV h f (some d) := h1

/-- Cloning a field gives the same field; nothing changes but the count. -/
theorem clone_spec {R h f v} (hi : Inv h R) (hb : BorV R h f v) :
    ∃ h', f.clone h = some (f, h') ∧ Inv h' (f.refs ++ R) ∧ Keep R h h' := by
  unfold Fld.clone
  rcases hb.1.refs with ⟨h1, h2, b, h3⟩ | ⟨h1, a, h2, h3⟩
  · rw [h1]; simp only [Bool.false_eq_true, if_false]
    rw [h3]
    exact ⟨h, rfl, by rw [h2]; exact hi, Keep.refl _ _⟩
  · rw [h1]; simp only [if_true]
    rw [h2]
    obtain ⟨h', e, h4, h5⟩ := incBlob_spec hi (hb.2 (.blob a) (by rw [h3]; simp))
    exact ⟨h', by show (incBlob a >>= fun _ => pure f) h = _; rw [run_bind e]; rfl, by rw [h3]; exact h4, h5⟩

/-- Dropping a field. -/
theorem drop_spec' {R h f v} (hi : Inv h (f.refs ++ R)) (h1 : RepV h f v) : ∃ h', f.drop h = some ((), h') ∧ Inv h' R ∧ Keep R h h' ∧ NoNew h h' := by
  unfold Fld.drop
  rcases h1.refs with ⟨h2, h3, b, h4⟩ | ⟨h2, a, h3, h4⟩
  · rw [h2]; simp only [Bool.false_eq_true, if_false]
    exact ⟨h, rfl, by rw [h3] at hi; exact hi, Keep.refl _ _, NoNew.refl _⟩
  · rw [h2]; simp only [if_true]
    rw [h3]
    rw [h4] at hi
    exact decBlob_spec hi

theorem drop_spec {R h f v} (hi : Inv h (f.refs ++ R)) (h1 : RepV h f v) : ∃ h', f.drop h = some ((), h') ∧ Inv h' R ∧ Keep R h h' :=
  let ⟨h', e, i, k, _⟩ := drop_spec' hi h1
  ⟨h', e, i, k⟩

theorem ofData_spec {R h} (d : Bytes) (hi : Inv h R) : ∃ f h', ofData d h = some (f, h') ∧ Post R h h' f.refs ∧ RepB h' f d := by
  unfold ofData
  by_cases h1 : d.length > ptrSize
  · rw [if_pos h1]
    obtain ⟨a, h', e, h2, h3, h4⟩ := allocBlob_spec d hi
    exact ⟨⟨Hdr.data d.length, .blob a⟩, h', by rw [run_bind e]; rfl, ⟨h3, h4⟩, rfl, .inr ⟨h1, a, rfl, h2⟩⟩
  · rw [if_neg h1]
    refine ⟨_, h, rfl, ⟨hi, Keep.refl _ _⟩, rfl, .inl ⟨by omega, _, rfl, by simp⟩⟩

/-! ### Children fields -/

/-- An optional vector of nodes is the optional list of trees. -/
def OptRep (h : Mem) (o : Option (List Raw)) : Option (List Node) → Prop
  | none => o = none
  | some l => ∃ xs, o = some xs ∧ RepL h xs l

/-- The same, borrowed. -/
def OptBor (R : List Ref) (h : Mem) (o : Option (List Raw)) : Option (List Node) → Prop
  | none => o = none
  | some l => ∃ xs, o = some xs ∧ BorL R h xs l

/-- The same, with the address of the vector. -/
def OptAt (h : Mem) (f : Fld) (o : Option (List Raw)) : Option (List Node) → Prop
  | none => o = none
  | some l => ∃ a xs, o = some xs ∧ RepL h xs l ∧ f.w = .kids a ∧ cK h a = some xs

theorem children_spec {h f c} (h1 : RepC h f c) : ∃ o, f.children h = some (o, h) ∧ OptRep h o c := by
  unfold Fld.children
  cases c with
  | none =>
    simp only [RepC] at h1
    rw [h1.1, hdr_none_isId, hdr_none_len]
    exact ⟨none, rfl, rfl⟩
  | some l =>
    simp only [RepC] at h1
    obtain ⟨h2, a, xs, h3, h4, h5⟩ := h1
    rw [h2, hdr_arc_isId]
    simp only [Bool.false_eq_true, if_false]
    rw [if_pos hdr_arc_len, h3]
    have : readKids a h = some (xs, h) := readKids_spec h4
    exact ⟨some xs, by show (readKids a >>= fun x => pure (some x)) h = _; rw [run_bind this]; rfl, xs, rfl, h5⟩

theorem RepC.refs {h f c} (h1 : RepC h f c) : (f.hdr = Hdr.none ∧ c = none ∧ f.refs = [] ∧ ∃ b, f.w = .bytes b) ∨
    (f.hdr = Hdr.arcData ∧ ∃ a xs l, c = some l ∧ f.w = .kids a ∧ f.refs = [.kids a] ∧ cK h a = some xs ∧ RepL h xs l) := by
  cases c with
  | none => simp only [RepC] at h1; obtain ⟨h2, b, h3⟩ := h1; exact .inl ⟨h2, rfl, by simp [Fld.refs, h3, Word.refs], b, h3⟩
  | some l =>
    simp only [RepC] at h1
    obtain ⟨h2, a, xs, h3, h4, h5⟩ := h1
    exact .inr ⟨h2, a, xs, l, rfl, h3, by simp [Fld.refs, h3, Word.refs], h4, h5⟩

theorem cloneKids_spec {R h f c} (hi : Inv h R) (hb : RepC h f c) (hr : ∀ r ∈ f.refs, Reach h R r) :
    ∃ h', f.cloneKids h = some (f, h') ∧ Inv h' (f.refs ++ R) ∧ Keep R h h' := by
  unfold Fld.cloneKids
  rcases hb.refs with ⟨h1, h0, h2, b, h3⟩ | ⟨h1, a, xs, l, h2, h3, h4, _⟩
  · rw [h1, hdr_none_isArc]; simp only [Bool.false_eq_true, if_false]
    rw [h3]
    exact ⟨h, rfl, by rw [h2]; exact hi, Keep.refl _ _⟩
  · rw [h1, hdr_arc_isArc, hdr_arc_isId]; simp only [if_true, Bool.false_eq_true, if_false]
    rw [h3]
    obtain ⟨h', e, h5, h6⟩ := incKids_spec hi (hr (.kids a) (by rw [h4]; simp))
    exact ⟨h', by show (incKids a >>= fun _ => pure f) h = _; rw [run_bind e]; rfl, by rw [h4]; exact h5, h6⟩

/-! ### Nodes -/

/-- Cloning a node gives the same node; nothing changes but the counts. -/
theorem rawClone_spec {R h x m} (hi : Inv h R) (hb : Bor R h x m) :
    ∃ h', x.clone h = some (x, h') ∧ Inv h' (x.refs ++ R) ∧ Keep R h h' := by
  obtain ⟨h1, e1, i1, c1⟩ := clone_spec hi (v := some m.pfx) hb.pfx
  have hb1 : Bor (x.pfx.refs ++ R) h1 x m := (hb.keep c1).mono (by intro r hr; simp [hr])
  obtain ⟨h2, e2, i2, c2⟩ := clone_spec i1 hb1.val
  have hb2 : Bor (x.val.refs ++ (x.pfx.refs ++ R)) h2 x m := (hb1.keep c2).mono (by intro r hr; simp only [List.mem_append] at hr ⊢; exact .inr hr)
  obtain ⟨h3, e3, i3, c3⟩ := cloneKids_spec i2 hb2.1.ch (fun r hr => hb2.2 r (by simp [Raw.refs, hr]))
  refine ⟨h3, ?_, i3.mono (by cnt_tac), c1.trans ((c2.mono (by sub_tac)).trans (c3.mono (by sub_tac)))⟩
  unfold Raw.clone
  rw [run_bind e1, run_bind e2, run_bind e3]; rfl

theorem rawClone_post {R h x m} (hi : Inv h R) (hb : Bor R h x m) :
    ∃ h', x.clone h = some (x, h') ∧ Post R h h' x.refs ∧ Rep h' x m := by
  obtain ⟨h', e, i, c⟩ := rawClone_spec hi hb
  exact ⟨h', e, ⟨i, c⟩, hb.1.keep c hb.2⟩

theorem dropSteps_spec {R} : ∀ (n : Nat) (xs : List Raw) (h : Mem), xs.length + visSize h ≤ n → Inv h (refsL xs ++ R) →
    (∀ x ∈ xs, ∃ m, Rep h x m) → ∃ h', dropSteps n xs h = some ((), h') ∧ Inv h' R ∧ Keep R h h' := by
  intro n
  induction n with
  | zero =>
    intro xs h hn hi hr
    cases xs with
    | nil => exact ⟨h, rfl, hi, Keep.refl _ _⟩
    | cons x xs => simp at hn
  | succ n ih =>
    intro xs h hn hi hr
    cases xs with
    | nil => exact ⟨h, rfl, hi, Keep.refl _ _⟩
    | cons x xs =>
      obtain ⟨m, hm⟩ := hr x (by simp)
      have hr' : ∀ y ∈ xs, ∃ m, Bor (refsL xs ++ R) h y m := by
        intro y hy
        obtain ⟨m, h1⟩ := hr y (by simp [hy])
        exact ⟨m, h1, fun r h2 => .root (List.mem_append_left _ (List.mem_flatMap.2 ⟨y, hy, h2⟩))⟩
      obtain ⟨h1, e1, i1, k1, s1⟩ := drop_spec' (R := x.val.refs ++ x.ch.refs ++ refsL xs ++ R) (hi.mono (by cnt_tac)) (RepV.some hm.pfx)
      have s1 := s1.size
      have v1 : RepV h1 x.val m.val := hm.val.keep k1 (reach_of_mem (by sub_tac))
      have c1 : RepC h1 x.ch m.ch := hm.ch.keep k1 (reach_of_mem (by sub_tac))
      obtain ⟨h2, e2, i2, k2, s2⟩ := drop_spec' (R := x.ch.refs ++ refsL xs ++ R) (i1.mono (by cnt_tac)) v1
      have s2 := s2.size
      have c2 : RepC h2 x.ch m.ch := c1.keep k2 (reach_of_mem (by sub_tac))
      have k12 : Keep (refsL xs ++ R) h h2 := (k1.mono (by sub_tac)).trans (k2.mono (by sub_tac))
      have e4 : ∃ cs h3, x.ch.dropKids h2 = some (cs, h3) ∧ Inv h3 (refsL cs ++ (refsL xs ++ R)) ∧ Keep (refsL xs ++ R) h2 h3 ∧
          (∀ y ∈ cs, ∃ m, Rep h3 y m) ∧ visSize h3 + cs.length ≤ visSize h2 := by
        unfold Fld.dropKids
        rcases c2.refs with ⟨q1, _, q2, b, q3⟩ | ⟨q1, a, ys, l, q2, q3, q4, q5, q6⟩
        · rw [q1, hdr_none_isArc]; simp only [Bool.false_eq_true, if_false]
          refine ⟨[], h2, rfl, ?_, Keep.refl _ _, by simp, by simp⟩
          rw [q2] at i2
          exact i2.mono (by cnt_tac)
        · rw [q1, hdr_arc_isArc, hdr_arc_isId]; simp only [if_true, Bool.false_eq_true, if_false]
          rw [q3]
          rw [q4] at i2
          obtain ⟨ns, h3, e3, p1, p2, p3, p4, p5, p6⟩ := decKids_spec (R := refsL xs ++ R) (a := a) (i2.mono (by intro r; simp only [List.append_assoc]; rfl))
          have p7 : visSize h3 + ns.length ≤ visSize h2 := by
            cases ns with
            | nil => simpa using p5.size
            | cons n ns => obtain ⟨p8, p9⟩ := p6 (by simp); exact p5.size_free p8 p9
          refine ⟨ns, h3, e3, p1, p3, ?_, p7⟩
          intro y hy
          rcases p4 _ q5 with rfl | rfl
          · have : ∀ (ns : List Raw) (l : List Node), RepL h2 ns l → ∀ y ∈ ns, ∃ m, Rep h2 y m := by
              intro ns l
              induction l generalizing ns with
              | nil => intro q; rw [RepL.nil_iff] at q; subst q; simp
              | cons m l ih =>
                intro q y hy
                obtain ⟨z, zs, rfl, q7, q8⟩ := RepL.cons_iff.1 q
                rcases List.mem_cons.1 hy with rfl | hy
                · exact ⟨m, q7⟩
                · exact ih zs q8 y hy
            obtain ⟨m', q7⟩ := this _ _ q6 y hy
            exact ⟨m', q7.keep p2 (reach_of_mem (fun r hr => List.mem_append_left _ (List.mem_flatMap.2 ⟨y, hy, hr⟩)))⟩
          · simp at hy
      obtain ⟨cs, h3, e3, i3, k3, r3, s3⟩ := e4
      obtain ⟨h4, e5, i4, k4⟩ := ih (cs ++ xs) h3 (by simp only [List.length_append, List.length_cons] at hn ⊢; omega) (i3.mono (by cnt_tac)) (by
        intro y hy
        rcases List.mem_append.1 hy with hy | hy
        · exact r3 y hy
        · obtain ⟨m', hm'⟩ := hr' y hy
          exact ⟨m', ((hm'.keep k12).keep k3).1⟩)
      refine ⟨h4, ?_, i4, ?_⟩
      · unfold dropSteps
        rw [run_bind e1, run_bind e2, run_bind e3, e5]
      · exact ((k12.trans k3).mono (by sub_tac)).trans k4

theorem RepL.mem {h xs l} (q : RepL h xs l) : ∀ y ∈ xs, ∃ m, Rep h y m := by
  induction l generalizing xs with
  | nil => rw [RepL.nil_iff] at q; subst q; simp
  | cons m l ih =>
    intro y hy
    obtain ⟨z, zs, rfl, q7, q8⟩ := RepL.cons_iff.1 q
    rcases List.mem_cons.1 hy with rfl | hy
    · exact ⟨m, q7⟩
    · exact ih q8 y hy

theorem dropAll_spec {R h xs l} (hi : Inv h (refsL xs ++ R)) (hr : RepL h xs l) :
    ∃ h', dropAll xs h = some ((), h') ∧ Inv h' R ∧ Keep R h h' := by
  obtain ⟨n, h1, e1, i1, k1, s1⟩ := memSize_spec hi
  have r1 : RepL h1 xs l := hr.keep k1 (reach_of_mem (fun r hr => List.mem_append_left _ hr))
  obtain ⟨h2, e2, i2, k2⟩ := dropSteps_spec (R := R) (xs.length + n) xs h1 (by omega) i1 r1.mem
  exact ⟨h2, by unfold dropAll; rw [run_bind e1, e2], i2, (k1.mono (by sub_tac)).trans k2⟩

theorem dropOne_spec {R h x m} (hi : Inv h (x.refs ++ R)) (hr : Rep h x m) :
    ∃ h', dropAll [x] h = some ((), h') ∧ Inv h' R ∧ Keep R h h' :=
  dropAll_spec (l := [m]) (hi.mono (by cnt_tac)) (RepL.cons hr RepL.nil)

theorem mapClone_spec {R} : ∀ (xs : List Raw) (l : List Node) (h : Mem), Inv h R → BorL R h xs l →
    ∃ h', mapH Raw.clone xs h = some (xs, h') ∧ Inv h' (refsL xs ++ R) ∧ Keep R h h' := by
  intro xs l
  induction l generalizing xs R with
  | nil =>
    intro h hi hb
    rw [BorL.nil_iff] at hb; subst hb
    exact ⟨h, rfl, hi, Keep.refl _ _⟩
  | cons m l ih =>
    intro h hi hb
    obtain ⟨y, ys, rfl, h1, h2⟩ := BorL.cons_iff.1 hb
    obtain ⟨h3, e3, i3, c3⟩ := rawClone_spec hi h1
    have hb3 : BorL (y.refs ++ R) h3 ys l := (h2.keep c3).mono (by intro r hr; simp [hr])
    obtain ⟨h4, e4, i4, c4⟩ := ih ys h3 i3 hb3
    refine ⟨h4, ?_, i4.mono (by cnt_tac), c3.trans (c4.mono (by sub_tac))⟩
    unfold mapH
    rw [run_bind e3, run_bind e4]; rfl

theorem takeMut_spec {R h a xs l} (hi : Inv h (.kids a :: R)) (hc : cK h a = some xs) (hr : RepL h xs l) :
    ∃ h', takeMut a h = some (xs, h') ∧ Inv h' (refsL xs ++ R) ∧ Keep R h h' ∧ RepL h' xs l := by
  obtain ⟨o, h1, e1, h2⟩ := takeKids_spec hi hc
  have hreach : ∀ r ∈ refsL xs, Reach h (.kids a :: R) r := fun r hr => .step (.root (by simp)) hc hr
  rcases h2 with ⟨rfl, i1, k1, k2⟩ | ⟨rfl, i1, k1⟩
  · exact ⟨h1, by unfold takeMut; rw [run_bind e1]; rfl, i1, k2, hr.keep k1 (reach_of_mem (fun r hr => List.mem_append_left _ hr))⟩
  · have hc1 : cK h1 a = some xs := content_cK (k1 _ (.root (by simp))) hc
    have hb1 : BorL (.kids a :: R) h1 xs l := BorL.keep ⟨hr, hreach⟩ k1
    obtain ⟨h2, e2, i2, k2⟩ := mapClone_spec xs l h1 i1 hb1
    have hb2 : RepL h2 xs l := (hb1.keep k2).1
    have hc2 : cK h2 a = some xs := content_cK (k2 _ (.root (by simp))) hc1
    obtain ⟨ns, h3, e3, p1, p2, p3, p4, p5, p6⟩ := decKids_spec (R := refsL xs ++ R) (m := h2) (a := a) (i2.mono (by intro r; simp only [List.count_append, List.count_cons]; omega))
    have r3 : ∃ l', RepL h3 ns l' := by
      rcases p4 _ hc2 with rfl | rfl
      · exact ⟨l, hb2.keep p2 (reach_of_mem (fun r hr => List.mem_append_left _ hr))⟩
      · exact ⟨[], RepL.nil⟩
    obtain ⟨l', r3⟩ := r3
    obtain ⟨h4, e4, i4, k4⟩ := dropAll_spec p1 r3
    refine ⟨h4, ?_, i4, ?_, (hb2.keep p3 (reach_of_mem (fun r hr => List.mem_append_left _ hr))).keep k4 (reach_of_mem (fun r hr => List.mem_append_left _ hr))⟩
    · unfold takeMut
      rw [run_bind e1]
      show (readKids a >>= _) h1 = _
      rw [run_bind (readKids_spec hc1), run_bind e2, run_bind e3, run_bind e4]; rfl
    · exact (k1.mono (by intro r hr; exact List.mem_cons_of_mem _ hr)).trans ((k2.mono (by intro r hr; exact List.mem_cons_of_mem _ hr)).trans ((p3.trans k4).mono (by sub_tac)))

/-- What is left of a node after its children were taken out. -/
theorem takeChildren_spec {R h x m} (hi : Inv h (x.refs ++ R)) (hr : Rep h x m) :
    ∃ cs h', x.takeChildren h = some (cs, h') ∧ Inv h' (x.pfx.refs ++ x.val.refs ++ refsL cs ++ R) ∧ Keep R h h' ∧
      RepB h' x.pfx m.pfx ∧ RepV h' x.val m.val ∧ RepL h' cs m.kids := by
  unfold Raw.takeChildren
  have hch := hr.ch
  rcases hch.refs with ⟨q1, q0, q2, b, q3⟩ | ⟨q1, a, ys, l, q2, q3, q4, q5, q6⟩
  · rw [q1, hdr_none_isId, hdr_none_len]
    refine ⟨[], h, rfl, ?_, Keep.refl _ _, hr.pfx, hr.val, ?_⟩
    · have : x.refs = x.pfx.refs ++ x.val.refs := by simp [Raw.refs, q2]
      rw [this] at hi; exact hi.mono (by cnt_tac)
    · simp only [Node.kids, q0]; exact RepL.nil
  · rw [q1, hdr_arc_isId]; simp only [Bool.false_eq_true, if_false]
    rw [if_pos hdr_arc_len, q3]
    have hi' : Inv h (.kids a :: (x.pfx.refs ++ x.val.refs ++ R)) := hi.mono (by
      intro r; simp only [Raw.refs, q4, List.count_append, List.count_cons, List.count_nil]; omega)
    obtain ⟨h', e, i, k, rl⟩ := takeMut_spec hi' q5 q6
    refine ⟨ys, h', e, i.mono (by cnt_tac), k.mono (by sub_tac), hr.pfx.keep k (reach_of_mem (by sub_tac)), hr.val.keep k (reach_of_mem (by sub_tac)), ?_⟩
    simp only [Node.kids, q2]; exact rl

/-- Putting children into a new vector. -/
theorem setKids_spec {R h p v cs pd vd l} (hi : Inv h (p.refs ++ v.refs ++ refsL cs ++ R)) (h1 : RepB h p pd) (h2 : RepV h v vd) (h3 : RepL h cs l) :
    ∃ y h', Raw.setKids ⟨p, v, Fld.none⟩ cs h = some (y, h') ∧ Post R h h' y.refs ∧ Rep h' y (.mk pd vd (some l)) := by
  obtain ⟨a, h', e, q1, q2, q3⟩ := allocKids_spec (R := p.refs ++ v.refs ++ R) cs (hi.mono (by cnt_tac))
  refine ⟨⟨p, v, ⟨Hdr.arcData, .kids a⟩⟩, h', ?_, ⟨?_, q3.mono (by sub_tac)⟩, ?_⟩
  · unfold Raw.setKids; rw [run_bind e]; rfl
  · exact q2.mono (by intro r; simp only [Raw.refs, Fld.refs, Word.refs, List.count_append, List.count_cons, List.count_nil]; omega)
  · refine Rep.of (h1.keep q3 (reach_of_mem (by sub_tac))) (h2.keep q3 (reach_of_mem (by sub_tac))) ?_
    simp only [RepC]
    exact ⟨trivial, a, cs, rfl, q1, h3.keep q3 (reach_of_mem (by sub_tac))⟩

theorem setPrefix_spec {R h x m} (p : Bytes) (hi : Inv h (x.refs ++ R)) (hr : Rep h x m) :
    ∃ y h', x.setPrefix p h = some (y, h') ∧ Post R h h' y.refs ∧ Rep h' y (m.setPrefix p) ∧ y.val = x.val ∧ y.ch = x.ch := by
  obtain ⟨h1, e1, i1, k1⟩ := drop_spec (R := x.val.refs ++ x.ch.refs ++ R) (hi.mono (by cnt_tac)) (RepV.some hr.pfx)
  obtain ⟨f, h2, e2, p2, r2⟩ := ofData_spec p i1
  refine ⟨⟨f, x.val, x.ch⟩, h2, ?_, ⟨p2.inv.mono (by cnt_tac), (k1.mono (by sub_tac)).trans (p2.keep.mono (by sub_tac))⟩, ?_, rfl, rfl⟩
  · unfold Raw.setPrefix; rw [run_bind e1, run_bind e2]; rfl
  · have v1 : RepV h1 x.val m.val := hr.val.keep k1 (reach_of_mem (by sub_tac))
    have c1 : RepC h1 x.ch m.ch := hr.ch.keep k1 (reach_of_mem (by sub_tac))
    exact Rep.of r2 (v1.keep p2.keep (reach_of_mem (by sub_tac))) (c1.keep p2.keep (reach_of_mem (by sub_tac)))

theorem repV_none (h : Mem) : RepV h Fld.none none := ⟨rfl, _, rfl⟩
theorem repC_none (h : Mem) : RepC h Fld.none none := by simp only [RepC]; exact ⟨rfl, _, rfl⟩
theorem fld_none_refs : Fld.none.refs = [] := rfl
theorem fld_empty_refs : Fld.empty.refs = [] := rfl
theorem repB_empty (h : Mem) : RepB h Fld.empty [] := ⟨rfl, .inl ⟨by simp [ptrSize], _, rfl, rfl⟩⟩

theorem clearValue_spec {R h x m} (hi : Inv h (x.refs ++ R)) (hr : Rep h x m) :
    ∃ y h', x.clearValue h = some (y, h') ∧ Post R h h' y.refs ∧ Rep h' y (.mk m.pfx none m.ch) := by
  obtain ⟨h1, e1, i1, k1⟩ := drop_spec (R := x.pfx.refs ++ x.ch.refs ++ R) (hi.mono (by cnt_tac)) hr.val
  refine ⟨⟨x.pfx, Fld.none, x.ch⟩, h1, ?_, ⟨i1.mono ?_, k1.mono (by sub_tac)⟩, ?_⟩
  · unfold Raw.clearValue; rw [run_bind e1]; rfl
  · intro r; simp only [Raw.refs, fld_none_refs, List.count_append, List.count_nil]; omega
  · exact Rep.of (hr.pfx.keep k1 (reach_of_mem (by sub_tac))) (repV_none _) (hr.ch.keep k1 (reach_of_mem (by sub_tac)))

theorem dropKids_spec {R h f c} (hi : Inv h (f.refs ++ R)) (hr : RepC h f c) :
    ∃ cs h' l, f.dropKids h = some (cs, h') ∧ Inv h' (refsL cs ++ R) ∧ Keep R h h' ∧ RepL h' cs l := by
  unfold Fld.dropKids
  rcases hr.refs with ⟨q1, _, q2, b, q3⟩ | ⟨q1, a, ys, l, q2, q3, q4, q5, q6⟩
  · rw [q1, hdr_none_isArc]; simp only [Bool.false_eq_true, if_false]
    rw [q2] at hi
    exact ⟨[], h, [], rfl, hi, Keep.refl _ _, RepL.nil⟩
  · rw [q1, hdr_arc_isArc, hdr_arc_isId]; simp only [if_true, Bool.false_eq_true, if_false]
    rw [q3]
    rw [q4] at hi
    obtain ⟨ns, h3, e3, p1, p2, p3, p4, p5, p6⟩ := decKids_spec (R := R) hi
    rcases p4 _ q5 with rfl | rfl
    · exact ⟨ns, h3, l, e3, p1, p3, q6.keep p2 (reach_of_mem (fun r hr => List.mem_append_left _ hr))⟩
    · exact ⟨[], h3, [], e3, p1, p3, RepL.nil⟩

theorem clearChildren_spec {R h x m} (hi : Inv h (x.refs ++ R)) (hr : Rep h x m) :
    ∃ y h', x.clearChildren h = some (y, h') ∧ Post R h h' y.refs ∧ Rep h' y (.mk m.pfx m.val none) := by
  obtain ⟨cs, h1, l, e1, i1, k1, r1⟩ := dropKids_spec (R := x.pfx.refs ++ x.val.refs ++ R) (hi.mono (by cnt_tac)) hr.ch
  obtain ⟨h2, e2, i2, k2⟩ := dropAll_spec i1 r1
  have k := k1.trans k2
  refine ⟨⟨x.pfx, x.val, Fld.none⟩, h2, ?_, ⟨i2.mono ?_, k.mono (by sub_tac)⟩, ?_⟩
  · unfold Raw.clearChildren; rw [run_bind e1, run_bind e2]; rfl
  · intro r; simp only [Raw.refs, fld_none_refs, List.count_append, List.count_nil]; omega
  · exact Rep.of (hr.pfx.keep k (reach_of_mem (by sub_tac))) (hr.val.keep k (reach_of_mem (by sub_tac))) (repC_none _)

theorem single_spec {R h} (k v : Bytes) (hi : Inv h R) :
    ∃ y h', Raw.single k v h = some (y, h') ∧ Post R h h' y.refs ∧ Rep h' y (Node.single k v) := by
  obtain ⟨f, h1, e1, p1, r1⟩ := ofData_spec k hi
  obtain ⟨g, h2, e2, p2, r2⟩ := ofData_spec v p1.inv
  refine ⟨⟨f, g, Fld.none⟩, h2, ?_, ⟨p2.inv.mono ?_, p1.keep.trans (p2.keep.mono (by sub_tac))⟩, ?_⟩
  · unfold Raw.single; rw [run_bind e1, run_bind e2]; rfl
  · intro r; simp only [Raw.refs, fld_none_refs, List.count_append, List.count_nil]; omega
  · exact Rep.of (r1.keep p2.keep (reach_of_mem (by sub_tac))) r2 (repC_none _)

theorem Rep.isEmpty {h x m} (hr : Rep h x m) : x.isEmpty = m.isEmpty := by
  unfold Raw.isEmpty Node.isEmpty Node.hasValue Node.isLeaf
  rw [hr.val.isSome]
  congr 1
  rcases hr.ch.refs with ⟨q1, q0, _⟩ | ⟨q1, a, ys, l, q2, _⟩
  · rw [q1, q0]; decide +kernel
  · rw [q1, q2, hdr_arc_ne_none]; rfl

theorem childCount_spec {h x m} (hr : Rep h x m) : x.childCount h = some (m.childCount, h) := by
  obtain ⟨o, e, h1⟩ := children_spec hr.ch
  unfold Raw.childCount
  rw [run_bind e]
  unfold Node.childCount Node.kids
  cases hc : m.ch with
  | none => rw [hc] at h1; simp only [OptRep] at h1; subst h1; rfl
  | some l =>
    rw [hc] at h1; simp only [OptRep] at h1
    obtain ⟨xs, rfl, h2⟩ := h1
    simp only [Option.getD_some, ← h2.length]; rfl

theorem loadChildren_spec {h x m} (hr : Rep h x m) : ∃ o, x.loadChildren h = some (o, h) ∧
    OptAt h x.ch o m.loadChildren := by
  unfold Raw.loadChildren Node.loadChildren
  obtain ⟨o, e, h1⟩ := children_spec hr.ch
  rcases hr.ch.refs with ⟨q1, q0, q2, b, q3⟩ | ⟨q1, a, ys, l, q2, q3, q4, q5, q6⟩
  · rw [q0] at h1 ⊢; simp only [OptRep] at h1; subst h1
    exact ⟨none, by rw [run_bind e]; rfl, rfl⟩
  · rw [q2] at h1 ⊢; simp only [OptRep] at h1
    obtain ⟨xs, rfl, h2⟩ := h1
    have hx : xs = ys := by
      have : x.ch.children h = some (some ys, h) := by
        unfold Fld.children
        rw [q1, hdr_arc_isId]; simp only [Bool.false_eq_true, if_false]
        rw [if_pos hdr_arc_len, q3]
        have : readKids a h = some (ys, h) := readKids_spec q5
        show (readKids a >>= fun x => pure (some x)) h = _; rw [run_bind this]; rfl
      rw [this] at e; cases e; rfl
    subst hx
    cases l with
    | nil =>
      rw [RepL.nil_iff] at h2; subst h2
      exact ⟨none, by rw [run_bind e]; rfl, rfl⟩
    | cons c l =>
      obtain ⟨z, zs, rfl, h3, h4⟩ := RepL.cons_iff.1 h2
      exact ⟨some (z :: zs), by rw [run_bind e]; rfl, a, z :: zs, rfl, h2, q3, q5⟩

/-- The children of a borrowed node, borrowed. -/
theorem loadChildren_bor {R h x m} (hb : Bor R h x m) : ∃ o, x.loadChildren h = some (o, h) ∧
    OptBor R h o m.loadChildren := by
  obtain ⟨o, e, h1⟩ := loadChildren_spec hb.1
  refine ⟨o, e, ?_⟩
  cases hl : m.loadChildren with
  | none => rw [hl] at h1; exact h1
  | some l =>
    rw [hl] at h1
    obtain ⟨a, xs, h2, h3, h4, h5⟩ := h1
    exact ⟨xs, h2, h3, fun r hr => .step (hb.2 (.kids a) (by simp [Raw.refs, Fld.refs, h4, Word.refs])) h5 hr⟩

theorem cloneShortened_spec {R h x m} (n : Nat) (hi : Inv h R) (hb : Bor R h x m) :
    ∃ y h', x.cloneShortened n h = some (y, h') ∧ Post R h h' y.refs ∧ Rep h' y (m.cloneShortened n) := by
  have e0 := slice_spec hb.1.pfx
  obtain ⟨h1, e1, p1, r1⟩ := rawClone_post hi hb
  obtain ⟨y, h2, e2, p2, r2, _⟩ := setPrefix_spec (m.pfx.drop n) p1.inv r1
  refine ⟨y, h2, ?_, ⟨p2.inv, p1.keep.trans p2.keep⟩, r2⟩
  unfold Raw.cloneShortened
  rw [run_bind e0, run_bind e1, e2]

theorem split_spec {R h x m} (n : Nat) (hi : Inv h (x.refs ++ R)) (hr : Rep h x m) :
    ∃ y h', x.split n h = some (y, h') ∧ Post R h h' y.refs ∧ Rep h' y (m.split n) := by
  have e0 := slice_spec hr.pfx
  obtain ⟨f, h1, e1, p1, r1⟩ := ofData_spec (m.pfx.drop n) hi
  have hr1 : Rep h1 x m := hr.keep p1.keep (reach_of_mem (by sub_tac))
  obtain ⟨y, h2, e2, p2, r2, ev, ec⟩ := setPrefix_spec (R := f.refs ++ R) (m.pfx.take n) (p1.inv.mono (by cnt_tac)) hr1
  have r1' : RepB h2 f (m.pfx.drop n) := r1.keep p2.keep (reach_of_mem (by sub_tac))
  obtain ⟨z, h3, e3, p3, r3⟩ := setKids_spec (R := R) (h := h2) (p := y.pfx) (v := Fld.none) (cs := [⟨f, y.val, y.ch⟩]) (pd := m.pfx.take n)
    (vd := none) (l := [.mk (m.pfx.drop n) m.val m.ch]) (p2.inv.mono (by intro r; simp only [Raw.refs, refsL_cons, refsL_nil, fld_none_refs, List.count_append, List.count_nil]; omega))
    r2.pfx (repV_none _) (RepL.cons (Rep.of r1' (by have := r2.val; simpa [Node.setPrefix, Node.val] using this) (by have := r2.ch; simpa [Node.setPrefix, Node.ch] using this)) RepL.nil)
  refine ⟨z, h3, ?_, ⟨p3.inv, ((p1.keep.mono (by sub_tac)).trans (p2.keep.mono (by sub_tac))).trans p3.keep⟩, r3⟩
  unfold Raw.split
  rw [run_bind e0, run_bind e1, run_bind e2, e3]

theorem merge_spec {R h x m} (hi : Inv h (x.refs ++ R)) (hr : Rep h x m) :
    ∃ y h', x.merge h = some (y, h') ∧ Post R h h' y.refs ∧ Rep h' y m.mergeOnlyChild := by
  unfold Raw.merge
  rw [run_bind (childCount_spec hr), hr.val.isSome]
  by_cases hc : (!m.val.isSome && m.childCount == 1) = true
  · rw [if_pos hc]
    simp only [Bool.and_eq_true, Bool.not_eq_true', beq_iff_eq] at hc
    obtain ⟨hv, hcc⟩ := hc
    obtain ⟨p, v, c⟩ := m
    simp only [Node.val] at hv
    have hv' : v = none := by cases v with | none => rfl | some _ => simp at hv
    subst hv'
    obtain ⟨c', rfl⟩ : ∃ c', c = some [c'] := by
      simp only [Node.childCount, Node.kids, Node.ch] at hcc
      rcases c with _ | _ | ⟨c', _ | _⟩ <;> simp at hcc ⊢
    obtain ⟨cs, h1, e1, i1, k1, r1, r2, r3⟩ := takeChildren_spec hi hr
    simp only [Node.kids, Node.ch, Option.getD_some] at r3
    obtain ⟨z, zs, rfl, r4, r5⟩ := RepL.cons_iff.1 r3
    rw [RepL.nil_iff] at r5; subst r5
    rw [run_bind e1]
    simp only
    have e2 := slice_spec r1
    have e3 := slice_spec r4.pfx
    rw [run_bind e2, run_bind e3]
    have rx : Rep h1 ⟨x.pfx, x.val, Fld.none⟩ (.mk p none none) := Rep.of r1 r2 (repC_none _)
    have hval : x.val.refs = [] := by
      have := hr.val
      obtain ⟨b, hb⟩ := this.2
      simp [Fld.refs, hb, Word.refs]
    obtain ⟨h2, e4, i2, k2⟩ := drop_spec (R := refsL [z] ++ R) (i1.mono (by rw [hval]; cnt_tac)) (RepV.some r1)
    obtain ⟨f, h3, e5, p3, r6⟩ := ofData_spec (p ++ c'.pfx) i2
    have e6 : x.setPrefix (p ++ c'.pfx) h1 = some (⟨f, x.val, x.ch⟩, h3) := by
      unfold Raw.setPrefix; rw [run_bind e4, run_bind e5]; rfl
    rw [run_bind (by exact e6)]
    have r7 : Rep h3 z c' := (r4.keep k2 (reach_of_mem (by sub_tac))).keep p3.keep (reach_of_mem (by sub_tac))
    obtain ⟨h4, e7, i4, k4⟩ := drop_spec (R := f.refs ++ z.val.refs ++ z.ch.refs ++ R) (p3.inv.mono (by cnt_tac)) (RepV.some r7.pfx)
    rw [run_bind e7]
    refine ⟨⟨f, z.val, z.ch⟩, h4, rfl, ⟨i4.mono (by cnt_tac), ?_⟩, ?_⟩
    · exact ((k1.trans (k2.mono (by sub_tac))).trans (p3.keep.mono (by sub_tac))).trans (k4.mono (by sub_tac))
    · exact Rep.of (r6.keep k4 (reach_of_mem (by sub_tac))) (r7.val.keep k4 (reach_of_mem (by sub_tac))) (r7.ch.keep k4 (reach_of_mem (by sub_tac)))
  · rw [if_neg hc]
    refine ⟨x, h, rfl, ⟨hi, Keep.refl _ _⟩, ?_⟩
    have : m.mergeOnlyChild = m := by
      obtain ⟨p, v, c⟩ := m
      rcases v with _ | v
      · rcases c with _ | _ | ⟨c', _ | _⟩ <;> simp [Node.mergeOnlyChild, Node.val, Node.childCount, Node.kids, Node.ch] at hc ⊢
      · simp [Node.mergeOnlyChild]
    rw [this]; exact hr

theorem canonicalize_spec {R h x m} (hi : Inv h (x.refs ++ R)) (hr : Rep h x m) :
    ∃ y h', x.canonicalize h = some (y, h') ∧ Post R h h' y.refs ∧ Rep h' y m.canonicalize := by
  obtain ⟨y, h1, e1, p1, r1⟩ := merge_spec hi hr
  unfold Raw.canonicalize
  rw [run_bind e1, run_bind (childCount_spec r1), r1.val.isSome]
  unfold Node.canonicalize
  simp only
  by_cases hc : m.mergeOnlyChild.val = none ∧ m.mergeOnlyChild.childCount = 0
  · rw [if_pos hc, if_pos (by simp [hc.1, hc.2])]
    obtain ⟨h2, e2, i2, k2⟩ := drop_spec (R := y.val.refs ++ y.ch.refs ++ R) (p1.inv.mono (by cnt_tac)) (RepV.some r1.pfx)
    refine ⟨⟨Fld.empty, y.val, Fld.none⟩, h2, by rw [run_bind e2]; rfl, ⟨?_, p1.keep.trans (k2.mono (by sub_tac))⟩, ?_⟩
    · have hch := r1.ch.keep k2 (reach_of_mem (by sub_tac))
      have i3 : Inv h2 (y.val.refs ++ R) := by
        rcases hch.refs with ⟨_, _, q2, _⟩ | ⟨_, a, xs, l, q2, q3, q4, q5, q6⟩
        · rw [q2] at i2; exact i2.mono (by cnt_tac)
        · rw [q4] at i2
          refine (i2.mono (R' := .kids a :: (y.val.refs ++ R)) (by intro r; simp only [List.count_append, List.count_cons, List.count_nil]; omega)).leak ?_
          have := hc.2
          simp only [Node.childCount, Node.kids, q2, Option.getD_some, List.length_eq_zero_iff] at this
          subst this
          rw [RepL.nil_iff] at q6
          rw [q5, q6]
      exact i3.mono (by intro r; simp only [Raw.refs, fld_none_refs, fld_empty_refs, List.count_append, List.count_nil]; omega)
    · refine Rep.of (repB_empty _) ?_ (repC_none _)
      have := r1.val.keep k2 (reach_of_mem (by sub_tac))
      rw [hc.1] at this; exact this
  · rw [if_neg hc, if_neg (by
      simp only [Bool.and_eq_true, Bool.not_eq_true', beq_iff_eq]
      rintro ⟨q1, q2⟩
      exact hc ⟨by cases hv : m.mergeOnlyChild.val with | none => rfl | some _ => rw [hv] at q1; simp at q1, q2⟩)]
    exact ⟨y, h1, rfl, p1, r1⟩

theorem downcast_spec {R h x m} (hi : Inv h (x.refs ++ R)) (hr : Rep h x m) :
    ∃ y h', x.downcast h = some (y, h') ∧ Post R h h' y.refs ∧ Rep h' y m := by
  obtain ⟨h1, e1, p1, r1⟩ := rawClone_post hi (m := m) ⟨hr, reach_of_mem (fun r hr => List.mem_append_left _ hr)⟩
  obtain ⟨h2, e2, i2, k2⟩ := dropOne_spec (R := x.refs ++ R) p1.inv r1
  refine ⟨x, h2, ?_, ⟨i2, (p1.keep.mono (by sub_tac)).trans (k2.mono (by sub_tac))⟩, r1.keep k2 (reach_of_mem (by sub_tac))⟩
  unfold Raw.downcast
  rw [run_bind e1, run_bind e2]; rfl

theorem copyValue_spec {R h f v} (hi : Inv h R) (hr : RepV h f v) :
    ∃ g h', f.copyValue h = some (g, h') ∧ Post R h h' g.refs ∧ RepV h' g v := by
  unfold Fld.copyValue
  rw [hr.isSome]
  cases v with
  | none => exact ⟨Fld.none, h, rfl, ⟨hi, Keep.refl _ _⟩, repV_none _⟩
  | some d =>
    obtain ⟨g, h', e, p, r⟩ := ofData_spec d hi
    refine ⟨g, h', ?_, p, r⟩
    simp only [Option.isSome_some, if_true]
    rw [run_bind (slice_spec hr), e]

/-- A function that makes a new node from a borrowed one. -/
def BorSpec (f : Raw → H Raw) (m r : Node) : Prop :=
  ∀ R h x, Inv h R → Bor R h x m → ∃ y h', f x h = some (y, h') ∧ Post R h h' y.refs ∧ Rep h' y r

theorem mapH_spec {f : Raw → H Raw} {g : Node → Node} : ∀ (l : List Node), (∀ m ∈ l, BorSpec f m (g m)) → ∀ (R : List Ref) (h : Mem) (xs : List Raw),
    Inv h R → BorL R h xs l → ∃ ys h', mapH f xs h = some (ys, h') ∧ Post R h h' (refsL ys) ∧ RepL h' ys (l.map g) := by
  intro l
  induction l with
  | nil =>
    intro hf R h xs hi hb
    rw [BorL.nil_iff] at hb; subst hb
    exact ⟨[], h, rfl, ⟨hi, Keep.refl _ _⟩, RepL.nil⟩
  | cons m l ih =>
    intro hf R h xs hi hb
    obtain ⟨x, xs, rfl, hb1, hb2⟩ := BorL.cons_iff.1 hb
    obtain ⟨y, h1, e1, p1, r1⟩ := hf m (by simp) R h x hi hb1
    obtain ⟨ys, h2, e2, p2, r2⟩ := ih (fun m' hm => hf m' (by simp [hm])) (y.refs ++ R) h1 xs p1.inv ((hb2.keep p1.keep).mono (by sub_tac))
    refine ⟨y :: ys, h2, ?_, ⟨p2.inv.mono (by cnt_tac), p1.keep.trans (p2.keep.mono (by sub_tac))⟩, RepL.cons (r1.keep p2.keep (reach_of_mem (by sub_tac))) r2⟩
    unfold mapH; rw [run_bind e1, run_bind e2]; rfl

theorem detachedL_map (l : List Node) : Node.detachedL l = l.map Node.detached := by
  induction l with
  | nil => simp [Node.detachedL]
  | cons m l ih => simp [Node.detachedL, ih]

theorem detached_spec : ∀ (n : Nat) (m : Node), m.nodes ≤ n → BorSpec (Raw.detached n) m m.detached := by
  intro n
  induction n with
  | zero => intro m hm; cases m; simp [Node.nodes] at hm
  | succ n ih =>
    intro m hm R h x hi hb
    unfold Raw.detached
    rw [run_bind (slice_spec hb.1.pfx)]
    obtain ⟨pf, h1, e1, p1, r1⟩ := ofData_spec m.pfx hi
    rw [run_bind e1]
    have hb1 : Bor R h1 x m := hb.keep p1.keep
    obtain ⟨vf, h2, e2, p2, r2⟩ := copyValue_spec p1.inv hb1.1.val
    rw [run_bind e2]
    have hb2 : Bor (pf.refs ++ R) h2 x m := (hb1.mono (by sub_tac)).keep p2.keep
    have r1' : RepB h2 pf m.pfx := r1.keep p2.keep (reach_of_mem (by sub_tac))
    obtain ⟨o, e3, h3⟩ := loadChildren_bor hb2
    rw [run_bind e3]
    obtain ⟨p, v, c⟩ := m
    rcases c with _ | _ | ⟨c, cs⟩
    · simp only [Node.loadChildren, Node.ch] at h3
      subst h3
      refine ⟨⟨pf, vf, Fld.none⟩, h2, rfl, ⟨p2.inv.mono ?_, p1.keep.trans (p2.keep.mono (by sub_tac))⟩, ?_⟩
      · intro r; simp only [Raw.refs, fld_none_refs, List.count_append, List.count_nil]; omega
      · simp only [Node.detached, Node.detachedO]; exact Rep.of r1' r2 (repC_none _)
    · simp only [Node.loadChildren, Node.ch] at h3
      subst h3
      refine ⟨⟨pf, vf, Fld.none⟩, h2, rfl, ⟨p2.inv.mono ?_, p1.keep.trans (p2.keep.mono (by sub_tac))⟩, ?_⟩
      · intro r; simp only [Raw.refs, fld_none_refs, List.count_append, List.count_nil]; omega
      · simp only [Node.detached, Node.detachedO]; exact Rep.of r1' r2 (repC_none _)
    · simp only [Node.loadChildren, Node.ch] at h3
      obtain ⟨xs, rfl, h4⟩ := h3
      simp only
      obtain ⟨ys, h5, e5, p5, r5⟩ := mapH_spec (c :: cs) (fun m' hm' => ih m' (by
        have := nodes_le_of_mem hm'
        simp only [Node.nodes, Node.nodesO] at hm; omega)) (vf.refs ++ (pf.refs ++ R)) h2 xs p2.inv (h4.mono (by sub_tac))
      rw [run_bind e5]
      obtain ⟨z, h6, e6, p6, r6⟩ := setKids_spec (R := R) (p5.inv.mono (by cnt_tac)) (r1'.keep p5.keep (reach_of_mem (by sub_tac))) (r2.keep p5.keep (reach_of_mem (by sub_tac))) r5
      refine ⟨z, h6, e6, ⟨p6.inv, ((p1.keep.trans (p2.keep.mono (by sub_tac))).trans (p5.keep.mono (by sub_tac))).trans p6.keep⟩, ?_⟩
      simp only [Node.detached, Node.detachedO, detachedL_map]
      exact r6

theorem convNode_spec (n : Nat) (c : Conv) (m : Node) (hn : m.nodes ≤ n) : BorSpec (convNode n c) m (c.node m) := by
  intro R h x hi hb
  cases c with
  | downcast => obtain ⟨h', e, p, r⟩ := rawClone_post hi hb; exact ⟨x, h', e, p, r⟩
  | identity => obtain ⟨h', e, p, r⟩ := rawClone_post hi hb; exact ⟨x, h', e, p, r⟩
  | detach =>
    obtain ⟨y, h1, e1, p1, r1⟩ := detached_spec n m hn R h x hi hb
    obtain ⟨z, h2, e2, p2, r2⟩ := downcast_spec p1.inv r1
    exact ⟨z, h2, by show (Raw.detached n x >>= _) h = _; rw [run_bind e1, e2], ⟨p2.inv, p1.keep.trans p2.keep⟩, r2⟩

theorem convShortened_spec (n : Nat) (c : Conv) (m : Node) (k : Nat) (hn : m.nodes ≤ n) :
    BorSpec (fun x => convShortened n c x k) m (c.nodeShortened m k) := by
  intro R h x hi hb
  obtain ⟨y, h1, e1, p1, r1⟩ := cloneShortened_spec k hi hb
  cases c with
  | downcast =>
    obtain ⟨z, h2, e2, p2, r2⟩ := downcast_spec p1.inv r1
    exact ⟨z, h2, by show (Raw.cloneShortened x k >>= _) h = _; rw [run_bind e1, e2], ⟨p2.inv, p1.keep.trans p2.keep⟩, r2⟩
  | identity => exact ⟨y, h1, e1, p1, r1⟩
  | detach =>
    have hn' : (m.cloneShortened k).nodes ≤ n := by rw [nodes_cloneShortened]; exact hn
    obtain ⟨z, h2, e2, p2, r2⟩ := convNode_spec n .detach (m.cloneShortened k) hn' (y.refs ++ R) h1 y p1.inv ⟨r1, reach_of_mem (by sub_tac)⟩
    obtain ⟨w, h3, e3, p3, r3⟩ := downcast_spec p2.inv r2
    have r1' : Rep h3 y (m.cloneShortened k) := r1.keep (p2.keep.trans p3.keep) (reach_of_mem (by sub_tac))
    obtain ⟨h4, e4, i4, k4⟩ := dropOne_spec (R := w.refs ++ R) (p3.inv.mono (by cnt_tac)) r1'
    refine ⟨w, h4, ?_, ⟨i4, ((p1.keep.trans (p2.keep.mono (by sub_tac))).trans (p3.keep.mono (by sub_tac))).trans (k4.mono (by sub_tac))⟩,
      r3.keep k4 (reach_of_mem (by sub_tac))⟩
    show (Raw.cloneShortened x k >>= _) h = _
    rw [run_bind e1, run_bind e2, run_bind e3, run_bind e4]; rfl

end Radix.Heap
