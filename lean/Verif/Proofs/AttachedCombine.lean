import Verif.Proofs.AttachedNode

/- The in-place operations on nodes in memory that may refer to a store: they do what they do to plain values. -/

set_option linter.unusedVariables false

namespace Radix.Heap.Att

section
variable {σ τ ε : Type}

/-! ### Simulation -/

/-- A computation that changes something in place gives what the function on plain values gives, also if it fails; nothing is claimed about panics. -/
def Sim {α ρ γ : Type} (rep : Mem → ρ → γ → Prop) (refs : ρ → List Heap.Ref) (R : List Heap.Ref) (h : Mem) (x : H (Except ε α × ρ)) (v : Res ε α × γ) : Prop :=
  match v.1 with
  | .ok a => ∃ y h', x h = some ((.ok a, y), h') ∧ Post R h h' (refs y) ∧ rep h' y v.2
  | .err e => ∃ y h', x h = some ((.error e, y), h') ∧ Post R h h' (refs y) ∧ rep h' y v.2
  | .panic => True
  | .deep => True

/-- The same for a node. -/
abbrev SimN {α : Type} (R : List Heap.Ref) (h : Mem) (x : H (Except ε α × Raw)) (v : Res ε α × SNode) : Prop := Sim RepS Raw.refs R h x v

/-- The same for a vector of nodes. -/
abbrev SimL {α : Type} (R : List Heap.Ref) (h : Mem) (x : H (Except ε α × List Raw)) (v : Res ε α × List SNode) : Prop := Sim RepSL refsL R h x v

/-- A computation that only reads. -/
def OutP {α : Type} (h : Mem) (x : H (Except ε α)) (v : Res ε α) : Prop :=
  match v with
  | .ok a => x h = some (.ok a, h)
  | .err e => x h = some (.error e, h)
  | .panic => True
  | .deep => True

/-- A computation that makes something new. -/
def New {ρ γ : Type} (rep : Mem → ρ → γ → Prop) (refs : ρ → List Heap.Ref) (R : List Heap.Ref) (h : Mem) (x : H (Except ε ρ)) (v : Res ε γ) : Prop :=
  match v with
  | .ok b => ∃ y h', x h = some (.ok y, h') ∧ Post R h h' (refs y) ∧ rep h' y b
  | .err e => ∃ h', x h = some (.error e, h') ∧ Inv h' R ∧ Keep R h h'
  | .panic => True
  | .deep => True

/-- The same for a node. -/
abbrev NewN (R : List Heap.Ref) (h : Mem) (x : H (Except ε Raw)) (v : Res ε SNode) : Prop := New RepS Raw.refs R h x v

theorem run_seq_ok {α β ρ : Type} {x : H (Except ε α × ρ)} {k : α → ρ → H (Except ε β × ρ)} {h h' : Mem} {a : α} {y : ρ} (e : x h = some ((.ok a, y), h')) :
    seq x k h = k a y h' := by unfold seq; rw [run_bind e]

theorem run_seq_err {α β ρ : Type} {x : H (Except ε α × ρ)} {k : α → ρ → H (Except ε β × ρ)} {h h' : Mem} {e : ε} {y : ρ} (e1 : x h = some ((.error e, y), h')) :
    seq x k h = some ((.error e, y), h') := by unfold seq; rw [run_bind e1]; rfl

theorem Sim.bind {α β ρ γ : Type} {rep : Mem → ρ → γ → Prop} {refs : ρ → List Heap.Ref} {R h} {x : H (Except ε α × ρ)} {v : Res ε α × γ}
    {k : α → ρ → H (Except ε β × ρ)} {kv : α → γ → Res ε β × γ} (hx : Sim rep refs R h x v)
    (hk : ∀ a y h', v.1 = .ok a → Inv h' (refs y ++ R) → Keep R h h' → rep h' y v.2 → Sim rep refs R h' (k a y) (kv a v.2)) :
    Sim rep refs R h (seq x k) (stBind v kv) := by
  obtain ⟨r, n⟩ := v
  cases r with
  | ok a =>
    obtain ⟨y, h1, e1, p1, r1⟩ := hx
    have h2 := hk a y h1 rfl p1.inv p1.keep r1
    show Sim rep refs R h (seq x k) (kv a n)
    unfold Sim at h2 ⊢
    rw [run_seq_ok e1]
    simp only at h2
    cases hv : (kv a n).1 with
    | ok b => rw [hv] at h2; obtain ⟨z, h3, e3, p3, r3⟩ := h2; exact ⟨z, h3, e3, ⟨p3.inv, p1.keep.trans p3.keep⟩, r3⟩
    | err b => rw [hv] at h2; obtain ⟨z, h3, e3, p3, r3⟩ := h2; exact ⟨z, h3, e3, ⟨p3.inv, p1.keep.trans p3.keep⟩, r3⟩
    | panic => trivial
    | deep => trivial
  | err e =>
    obtain ⟨y, h1, e1, p1, r1⟩ := hx
    exact ⟨y, h1, run_seq_err e1, p1, r1⟩
  | panic => trivial
  | deep => trivial

theorem Sim.ret {α ρ γ : Type} {rep : Mem → ρ → γ → Prop} {refs : ρ → List Heap.Ref} {R h y n} (a : α) (hi : Inv h (refs y ++ R)) (hr : rep h y n) :
    Sim (ε := ε) rep refs R h (return (.ok a, y)) (.ok a, n) := ⟨y, h, rfl, ⟨hi, Keep.refl _ _⟩, hr⟩

/-- After steps that keep the rest. -/
theorem Sim.after {α ρ γ : Type} {rep : Mem → ρ → γ → Prop} {refs : ρ → List Heap.Ref} {R h h'} {x x' : H (Except ε α × ρ)} {v : Res ε α × γ} (e : x h = x' h')
    (hk : Keep R h h') (hs : Sim rep refs R h' x' v) : Sim rep refs R h x v := by
  unfold Sim at hs ⊢
  rw [e]
  cases hv : v.1 with
  | ok b => rw [hv] at hs; obtain ⟨z, h3, e3, p3, r3⟩ := hs; exact ⟨z, h3, e3, ⟨p3.inv, hk.trans p3.keep⟩, r3⟩
  | err b => rw [hv] at hs; obtain ⟨z, h3, e3, p3, r3⟩ := hs; exact ⟨z, h3, e3, ⟨p3.inv, hk.trans p3.keep⟩, r3⟩
  | panic => trivial
  | deep => trivial

theorem Sim.bindP {α β ρ γ : Type} {rep : Mem → ρ → γ → Prop} {refs : ρ → List Heap.Ref} {R h} {x : H (Except ε α)} {v : Res ε α}
    {k : α → ρ → H (Except ε β × ρ)} {kv : α → γ → Res ε β × γ} {y : ρ} {n : γ} (hx : OutP h x v) (hi : Inv h (refs y ++ R)) (hr : rep h y n)
    (hk : ∀ a, v = .ok a → Sim rep refs R h (k a y) (kv a n)) : Sim rep refs R h (seq (keepN x y) k) (stBind (v, n) kv) := by
  cases v with
  | ok a =>
    have e : keepN x y h = some ((.ok a, y), h) := by unfold keepN; rw [run_bind hx]; rfl
    exact Sim.after (run_seq_ok e) (Keep.refl _ _) (hk a rfl)
  | err e =>
    have e1 : keepN x y h = some ((.error e, y), h) := by unfold keepN; rw [run_bind hx]; rfl
    exact ⟨y, h, run_seq_err e1, ⟨hi, Keep.refl _ _⟩, hr⟩
  | panic => trivial
  | deep => trivial

theorem ofRes_spec {α : Type} {h : Mem} (v : Res ε α) : OutP h (ofRes v) v := by cases v <;> first | trivial | rfl

theorem OutP.bind {α β : Type} {h : Mem} {y : H β} {b : β} {x : β → H (Except ε α)} {v : Res ε α} (e : y h = some (b, h)) (hx : OutP h (x b) v) : OutP h (y >>= x) v := by
  unfold OutP at hx ⊢
  rw [run_bind e]; exact hx

theorem loadPrefix_spec {S : BlobStore σ ε} {st : σ} {h f b} (hr : RepBV h f b) : OutP h (loadPrefix S st f) (Radix.loadPrefix S st b) :=
  OutP.bind (blobV_spec hr) (ofRes_spec _)

theorem loadValue_spec {S : BlobStore σ ε} {st : σ} {h f b} (hr : RepBV h f b) : OutP h (loadValue S st f) (Radix.loadValue S st b) :=
  OutP.bind (blobV_spec hr) (ofRes_spec _)

/-! ### Borrowed nodes, values and iterators -/

/-- A borrowed value. -/
def BorHV (R : List Heap.Ref) (h : Mem) : HVal → BlobV → Prop
  | .owned f, b => BorBV R h f b
  | .borrowed c, b => c = b ∧ BOk b

/-- A borrowed node. -/
def BorR (R : List Heap.Ref) (h : Mem) : HRef → Radix.Ref → Prop
  | .owned x, .owned n => BorS R h x n
  | .borrowed r, .borrowed r' => r = r' ∧ RecOk r
  | _, _ => False

/-- A borrowed iterator. -/
def BorI (R : List Heap.Ref) (h : Mem) : HIter → TIter → Prop
  | .owned xs, .owned l => BorSL R h xs l
  | .borrowed bs, .borrowed bs' => bs = bs'
  | _, _ => False

/-- An optional iterator. -/
def BorIO (R : List Heap.Ref) (h : Mem) : Option HIter → Option TIter → Prop
  | some it, some it' => BorI R h it it'
  | none, none => True
  | _, _ => False

theorem BorHV.keep {R h h' x n} (hb : BorHV R h x n) (hk : Keep R h h') : BorHV R h' x n := by
  cases x <;> first | exact BorBV.keep (f := _) hb hk | exact hb
theorem BorR.keep {R h h' x n} (hb : BorR R h x n) (hk : Keep R h h') : BorR R h' x n := by
  cases x <;> cases n <;> first | exact BorS.keep (f := _) hb hk | exact hb
theorem BorI.keep {R h h' x n} (hb : BorI R h x n) (hk : Keep R h h') : BorI R h' x n := by
  cases x <;> cases n <;> first | exact BorSL.keep (f := _) hb hk | exact hb
theorem BorIO.keep {R h h' x n} (hb : BorIO R h x n) (hk : Keep R h h') : BorIO R h' x n := by
  cases x <;> cases n <;> first | exact BorI.keep (x := _) hb hk | exact hb
theorem BorHV.mono {R R' h x n} (hb : BorHV R h x n) (hs : ∀ r ∈ R, r ∈ R') : BorHV R' h x n := by
  cases x <;> first | exact BorBV.mono (f := _) hb hs | exact hb
theorem BorR.mono {R R' h x n} (hb : BorR R h x n) (hs : ∀ r ∈ R, r ∈ R') : BorR R' h x n := by
  cases x <;> cases n <;> first | exact BorS.mono (f := _) hb hs | exact hb
theorem BorI.mono {R R' h x n} (hb : BorI R h x n) (hs : ∀ r ∈ R, r ∈ R') : BorI R' h x n := by
  cases x <;> cases n <;> first | exact BorSL.mono (f := _) hb hs | exact hb
theorem BorIO.mono {R R' h x n} (hb : BorIO R h x n) (hs : ∀ r ∈ R, r ∈ R') : BorIO R' h x n := by
  cases x <;> cases n <;> first | exact BorI.mono (x := _) hb hs | exact hb

theorem hval_blobV {R h x b} (hb : BorHV R h x b) : x.blobV h = some (b, h) := by
  cases x with
  | owned f => exact blobV_spec hb.1
  | borrowed c => obtain ⟨rfl, _⟩ := hb; rfl

theorem BorHV.ok {R h x b} (hb : BorHV R h x b) : BOk b := by
  cases x with
  | owned f => exact hb.1.1
  | borrowed c => exact hb.2

theorem hval_toOwned {R h x b} (hi : Inv h R) (hb : BorHV R h x b) : ∃ f h', x.toOwned h = some (f, h') ∧ Post R h h' f.refs ∧ RepBV h' f b := by
  cases x with
  | owned f =>
    obtain ⟨h', e, i, k⟩ := clone_specS hi hb
    exact ⟨f, h', e, ⟨i, k⟩, hb.1.keep k hb.2⟩
  | borrowed c =>
    obtain ⟨h1, h2⟩ := hb
    subst h1
    exact ofBlobV_spec c h2 hi

theorem href_loadPrefix {S : BlobStore σ ε} {st : σ} {R h x n} (hb : BorR R h x n) : OutP h (x.loadPrefix S st) (Radix.loadPrefix S st n.pfx) := by
  cases x <;> cases n
  · exact loadPrefix_spec hb.1.pfx
  · exact hb.elim
  · exact hb.elim
  · rename_i r r'
    obtain ⟨rfl, _⟩ := hb
    exact ofRes_spec _

theorem href_valueOpt {R h x n} (hb : BorR R h x n) : (x.valueOpt = none ∧ n.val.valueOpt = none) ∨
    ∃ hv bv, x.valueOpt = some hv ∧ n.val.valueOpt = some bv ∧ BorHV R h hv bv := by
  have key : ∀ b : BlobV, b.valueOpt = none ∨ b.valueOpt = some b := by
    intro b; unfold BlobV.valueOpt; by_cases h : b = .none <;> simp [h]
  cases x <;> cases n
  · rename_i x n
    have h1 := hb.1.val.isSome
    rcases key n.val with h2 | h2
    · rw [h2] at h1
      exact .inl ⟨by simp only [HRef.valueOpt, h1, Option.isSome]; rfl, h2⟩
    · rw [h2] at h1
      exact .inr ⟨.owned x.val, n.val, by simp only [HRef.valueOpt, h1, Option.isSome]; rfl, h2, BorS.val hb⟩
  · exact hb.elim
  · exact hb.elim
  · rename_i r r'
    obtain ⟨rfl, h0⟩ := hb
    rcases key r.val with h2 | h2
    · exact .inl ⟨by simp only [HRef.valueOpt, h2]; rfl, h2⟩
    · exact .inr ⟨.borrowed r.val, r.val, by simp only [HRef.valueOpt, h2]; rfl, h2, rfl, h0.2.1⟩

theorem rank_specS {h x m} (hr : RepS h x m) : x.rank h = some (Node.rank m.pfx.firstByte, h) := by
  unfold Raw.rank
  rw [run_bind (slice_specS hr.pfx)]; rfl

theorem href_rank {R h x n} (hb : BorR R h x n) : x.rank h = some (Node.rank n.pfx.firstByte, h) := by
  cases x <;> cases n
  · exact rank_specS hb.1
  · exact hb.elim
  · exact hb.elim
  · rename_i r r'
    obtain ⟨rfl, h0⟩ := hb
    rfl

theorem loadIter_spec {S : BlobStore σ ε} {st : σ} {R h} (i : Bytes) :
    match Radix.loadIter S st i with
    | .ok o => ∃ o', loadIter S st i h = some (.ok o', h) ∧ BorIO R h o' o ∧ ∀ l, o ≠ some (.owned l)
    | .err e => loadIter S st i h = some (.error e, h)
    | .panic => True
    | .deep => True := by
  have h1 := ofRes_spec (h := h) (Radix.loadIter S st i)
  unfold OutP at h1
  cases hv : Radix.loadIter S st i with
  | ok o =>
    rw [hv] at h1
    simp only at h1 ⊢
    unfold loadIter
    rw [hv, run_bind h1]
    cases o with
    | none => exact ⟨none, rfl, trivial, by simp⟩
    | some it =>
      cases it with
      | borrowed bs => exact ⟨some (.borrowed bs), rfl, rfl, by simp⟩
      | owned l =>
        cases i with
        | nil => simp [Radix.loadIter] at hv
        | cons c i =>
          simp only [Radix.loadIter] at hv
          cases hs : S.read st i with
          | ok d => rw [hs] at hv; simp [Res.bind] at hv
          | err e => rw [hs] at hv; simp [Res.bind] at hv
          | panic => rw [hs] at hv; simp [Res.bind] at hv
          | deep => rw [hs] at hv; simp [Res.bind] at hv
  | err e =>
    rw [hv] at h1
    simp only at h1 ⊢
    unfold loadIter
    rw [hv, run_bind h1]; rfl
  | panic => trivial
  | deep => trivial

/-- What reading the children of a borrowed node gives. -/
def IterOut (R : List Heap.Ref) (h : Mem) (x : H (Except ε (Option HIter))) (v : Res ε (Option TIter)) : Prop :=
  match v with
  | .ok o => ∃ o', x h = some (.ok o', h) ∧ BorIO R h o' o
  | .err e => x h = some (.error e, h)
  | .panic => True
  | .deep => True

theorem loadIter_out {S : BlobStore σ ε} {st : σ} {R h} (i : Bytes) : IterOut R h (loadIter S st i) (Radix.loadIter S st i) := by
  have := loadIter_spec (S := S) (st := st) (R := R) (h := h) i
  unfold IterOut
  cases hv : Radix.loadIter S st i with
  | ok o => rw [hv] at this; obtain ⟨o', h1, h2, _⟩ := this; exact ⟨o', h1, h2⟩
  | err e => rw [hv] at this; exact this
  | panic => trivial
  | deep => trivial

theorem fromSlice_bor {R h xs l} (hb : BorSL R h xs l) : BorIO R h (fromSlice xs) (iterFromSlice l) := by
  unfold fromSlice iterFromSlice
  cases l with
  | nil => rw [BorSL.nil_iff] at hb; subst hb; trivial
  | cons m l =>
    obtain ⟨y, ys, rfl, h1, h2⟩ := BorSL.cons_iff.1 hb
    exact hb

theorem loadChildrenRaw_spec {S : BlobStore σ ε} {st : σ} {R h x n} (hb : BorS R h x n) : IterOut R h (loadChildrenRaw S st x) (n.loadChildren S st) := by
  unfold loadChildrenRaw SNode.loadChildren
  rcases hb.1.ch.refs with ⟨i, q1, q2, q3⟩ | ⟨q1, a, ys, l, q2, q3, q4, q5, q6⟩
  · rw [q1, q3]; simp only [if_true]
    have := loadIter_out (S := S) (st := st) (R := R) (h := h) i
    unfold IterOut at this ⊢
    rw [run_bind (slice_specS q2)]
    exact this
  · rw [q2, q1, hdr_arc_isId]; simp only [Bool.false_eq_true, if_false]
    have e : x.ch.children h = some (some ys, h) := by
      unfold Fld.children
      rw [q1, hdr_arc_isId]; simp only [Bool.false_eq_true, if_false]
      rw [if_pos hdr_arc_len, q3]
      show (readKids a >>= fun x => pure (some x)) h = _; rw [run_bind (readKids_spec q5)]; rfl
    refine ⟨fromSlice ys, by rw [run_bind e]; rfl, fromSlice_bor ⟨q6, fun r hr => ?_⟩⟩
    exact .step (hb.2 (.kids a) (by simp [Raw.refs, q4])) q5 hr

theorem href_loadChildren {S : BlobStore σ ε} {st : σ} {R h x n} (hb : BorR R h x n) : IterOut R h (x.loadChildren S st) (n.loadChildren S st) := by
  cases x <;> cases n
  · exact loadChildrenRaw_spec hb
  · exact hb.elim
  · exact hb.elim
  · rename_i r r'
    obtain ⟨rfl, h0⟩ := hb
    show IterOut R h _ (r.loadChildren S st)
    simp only [HRef.loadChildren, Rec.loadChildren]
    cases hc : r.ch with
    | data d => trivial
    | id i =>
      cases i with
      | nil => exact ⟨none, rfl, trivial⟩
      | cons c i => exact loadIter_out (c :: i)

theorem iter_next {R h it itv} (hb : BorI R h it itv) : (it.next = none ∧ itv.next = none) ∨
    ∃ b it' bv itv', it.next = some (b, it') ∧ itv.next = some (bv, itv') ∧ BorR R h b bv ∧ BorI R h it' itv' := by
  cases it <;> cases itv
  · rename_i xs l
    cases l with
    | nil =>
      have h1 : xs = [] := BorSL.nil_iff.1 hb
      subst h1
      exact .inl ⟨rfl, rfl⟩
    | cons m l =>
      obtain ⟨y, ys, rfl, h1, h2⟩ := BorSL.cons_iff.1 hb
      exact .inr ⟨.owned y, .owned ys, .owned m, .owned l, rfl, rfl, h1, h2⟩
  · exact hb.elim
  · exact hb.elim
  · rename_i bs bs'
    have h1 : bs = bs' := hb
    subst h1
    simp only [HIter.next, TIter.next]
    cases hr : readOne bs with
    | none => exact .inl ⟨rfl, rfl⟩
    | some q =>
      obtain ⟨r, rest⟩ := q
      exact .inr ⟨.borrowed r, .borrowed rest, .borrowed r, .borrowed rest, rfl, rfl, ⟨rfl, readOne_ok hr⟩, rfl⟩

theorem href_toOwned {R h x n} (hi : Inv h R) (hb : BorR R h x n) {m} (hm : Radix.Ref.toOwned n = (.ok m : Res ε SNode)) :
    ∃ y h', x.toOwned h = some (y, h') ∧ Post R h h' y.refs ∧ RepS h' y m := by
  cases x <;> cases n
  · rename_i x n
    cases hm
    obtain ⟨h', e, p, r⟩ := rawClone_postS hi hb
    exact ⟨x, h', e, p, r⟩
  · exact hb.elim
  · exact hb.elim
  · rename_i r r'
    obtain ⟨rfl, h0⟩ := hb
    exact recToOwned_spec hi h0 hm

theorem recToOwned_noErr {r : Rec} {e : ε} (h : r.toOwned = (.err e : Res ε SNode)) : False := by
  unfold Rec.toOwned at h
  split at h <;> cases h

theorem toOwned_noErr {n : Radix.Ref} {e : ε} (h : Radix.Ref.toOwned n = (.err e : Res ε SNode)) : False := by
  cases n with
  | owned a => cases h
  | borrowed r => exact recToOwned_noErr h

/-! ### Taking the children out -/

theorem collect_spec : ∀ (n : Nat) (bs : Bytes), bs.length ≤ n → ∀ {R h l}, Inv h R → collectIter (.borrowed bs) = (.ok l : Res ε (List SNode)) →
    ∃ cs h', collect bs h = some (cs, h') ∧ Post R h h' (refsL cs) ∧ RepSL h' cs l := by
  intro n
  induction n with
  | zero =>
    intro bs hn R h l hi hl
    have : bs = [] := by simpa using hn
    subst this
    rw [collectIter.eq_def] at hl
    have h0 : readOne [] = none := rfl
    have : TIter.next (.borrowed []) = none := rfl
    split at hl
    · cases hl
      refine ⟨[], h, ?_, ⟨hi, Keep.refl _ _⟩, RepSL.nil⟩
      rw [collect.eq_def]
      split
      · rfl
      · rename_i q; rw [h0] at q; cases q
    · rename_i q; rw [this] at q; cases q
  | succ n ih =>
    intro bs hn R h l hi hl
    rw [collectIter.eq_def] at hl
    split at hl
    · rename_i q
      have h0 : readOne bs = none := by
        simp only [TIter.next, Option.map_eq_none_iff] at q
        exact q
      cases hl
      refine ⟨[], h, ?_, ⟨hi, Keep.refl _ _⟩, RepSL.nil⟩
      rw [collect.eq_def]
      split
      · rfl
      · rename_i q'; rw [h0] at q'; cases q'
    · rename_i r it' q
      simp only [TIter.next, Option.map_eq_some_iff, Prod.exists, Prod.mk.injEq] at q
      obtain ⟨rc, rest, h0, rfl, rfl⟩ := q
      have hlt := readOne_lt h0
      cases hm : rc.toOwned (ε := ε) with
      | ok m =>
        simp only [Ref.toOwned, hm, Res.bind] at hl
        obtain ⟨y, h1, e1, p1, r1⟩ := recToOwned_spec (ε := ε) hi (readOne_ok h0) hm
        cases hc : collectIter (ε := ε) (.borrowed rest) with
        | ok l' =>
          rw [hc] at hl
          simp only [Res.ok.injEq] at hl
          subst hl
          obtain ⟨cs, h2, e2, p2, r2⟩ := ih rest (by omega) p1.inv hc
          refine ⟨y :: cs, h2, ?_, ⟨p2.inv.mono (by cnt_tac), p1.keep.trans (p2.keep.mono (by sub_tac))⟩, RepSL.cons (r1.keep p2.keep (reach_of_mem (by sub_tac))) r2⟩
          rw [collect.eq_def]
          split
          · rename_i q'; rw [h0] at q'; cases q'
          · rename_i r' rest' q'
            rw [h0] at q'; cases q'
            rw [run_bind e1, run_bind e2]; rfl
        | err e => rw [hc] at hl; cases hl
        | panic => rw [hc] at hl; cases hl
        | deep => rw [hc] at hl; cases hl
      | err e => exact (recToOwned_noErr hm).elim
      | panic => simp only [Ref.toOwned, hm, Res.bind] at hl; cases hl
      | deep => simp only [Ref.toOwned, hm, Res.bind] at hl; cases hl

theorem collectIter_noErr : ∀ (n : Nat) (bs : Bytes) (e : ε), bs.length ≤ n → collectIter (.borrowed bs) ≠ (.err e : Res ε (List SNode)) := by
  intro n
  induction n with
  | zero =>
    intro bs e hn hl
    rw [collectIter.eq_def] at hl
    split at hl
    · cases hl
    · rename_i r it' q
      simp only [TIter.next, Option.map_eq_some_iff, Prod.exists, Prod.mk.injEq] at q
      obtain ⟨rc, rest, h0, rfl, rfl⟩ := q
      have := readOne_lt h0
      omega
  | succ n ih =>
    intro bs e hn hl
    rw [collectIter.eq_def] at hl
    split at hl
    · cases hl
    · rename_i r it' q
      simp only [TIter.next, Option.map_eq_some_iff, Prod.exists, Prod.mk.injEq] at q
      obtain ⟨rc, rest, h0, rfl, rfl⟩ := q
      have := readOne_lt h0
      cases hm : rc.toOwned (ε := ε) with
      | ok m =>
        simp only [Ref.toOwned, hm, Res.bind] at hl
        cases hc : collectIter (ε := ε) (.borrowed rest) with
        | ok l' => rw [hc] at hl; cases hl
        | err e' => exact ih rest e' (by omega) hc
        | panic => rw [hc] at hl; cases hl
        | deep => rw [hc] at hl; cases hl
      | err e => exact (recToOwned_noErr hm).elim
      | panic => simp only [Ref.toOwned, hm, Res.bind] at hl; cases hl
      | deep => simp only [Ref.toOwned, hm, Res.bind] at hl; cases hl

/-- What `takeChildren` does, against `loadChildrenMutS`. -/
theorem takeChildren_specS {S : BlobStore σ ε} {st : σ} {R h x m} (hi : Inv h (x.refs ++ R)) (hr : RepS h x m) :
    (∃ l, loadChildrenMutS S st m = (.ok l, .arc m.pfx m.val l) ∧ ∃ cs h', takeChildren S st x h = some ((.ok cs, ⟨x.pfx, x.val, Fld.none⟩), h') ∧
      Inv h' (x.pfx.refs ++ x.val.refs ++ refsL cs ++ R) ∧ Keep R h h' ∧ RepBV h' x.pfx m.pfx ∧ RepBV h' x.val m.val ∧ RepSL h' cs l) ∨
    (∃ e, loadChildrenMutS S st m = (.err e, m) ∧ takeChildren S st x h = some ((.error e, x), h)) ∨
    (∃ a, loadChildrenMutS S st m = (.panic, a) ∨ loadChildrenMutS S st m = (.deep, a)) := by
  unfold loadChildrenMutS takeChildren
  rcases hr.ch.refs with ⟨i, q1, q2, q3⟩ | ⟨q1, a, ys, l, q2, q3, q4, q5, q6⟩
  · rw [q1, q3]; simp only [if_true]
    rw [run_bind (slice_specS q2)]
    show _ ∨ _ ∨ _
    have h1 := loadIter_spec (S := S) (st := st) (R := R) (h := h) i
    simp only [BlobV.slice]
    cases hv : Radix.loadIter S st i with
    | ok o =>
      rw [hv] at h1
      obtain ⟨o', e1, b1, n1⟩ := h1
      rw [run_bind e1]
      simp only [Res.bind]
      -- what is made of the records
      have fin : ∀ (l : List SNode) (cs : List Raw) (h1 : Mem), collectOpt o' h = some (cs, h1) → Post (x.refs ++ R) h h1 (refsL cs) → RepSL h1 cs l →
          ∃ cs h', ((collectOpt o' >>= fun cs => x.ch.drop >>= fun _ => pure (Except.ok (ε := ε) cs, (⟨x.pfx, x.val, Fld.none⟩ : Raw))) h) = some ((.ok cs, ⟨x.pfx, x.val, Fld.none⟩), h') ∧
      Inv h' (x.pfx.refs ++ x.val.refs ++ refsL cs ++ R) ∧ Keep R h h' ∧ RepBV h' x.pfx m.pfx ∧ RepBV h' x.val m.val ∧ RepSL h' cs l := by
        intro l cs h1 e2 p2 r2
        have q2' : RepBV h1 x.ch (.id i) := q2.keep p2.keep (reach_of_mem (by sub_tac))
        obtain ⟨h2, e3, i3, k3⟩ := drop_specS (R := x.pfx.refs ++ x.val.refs ++ refsL cs ++ R) (p2.inv.mono (by cnt_tac)) q2'
        refine ⟨cs, h2, by rw [run_bind e2, run_bind e3]; rfl, i3, (p2.keep.mono (by sub_tac)).trans (k3.mono (by sub_tac)), ?_, ?_, r2.keep k3 (reach_of_mem (by sub_tac))⟩
        · exact (hr.pfx.keep p2.keep (reach_of_mem (by sub_tac))).keep k3 (reach_of_mem (by sub_tac))
        · exact (hr.val.keep p2.keep (reach_of_mem (by sub_tac))).keep k3 (reach_of_mem (by sub_tac))
      cases o with
      | none =>
        cases o' with
        | some _ => exact b1.elim
        | none =>
          refine .inl ⟨[], rfl, ?_⟩
          exact fin [] [] h rfl ⟨hi, Keep.refl _ _⟩ RepSL.nil
      | some it =>
        cases it with
        | owned l => exact (n1 l rfl).elim
        | borrowed bs =>
          cases o' with
          | none => exact b1.elim
          | some it' =>
            cases it' with
            | owned _ => exact b1.elim
            | borrowed bs' =>
              have : bs' = bs := b1
              subst this
              simp only
              cases hc : collectIter (ε := ε) (.borrowed bs') with
              | ok l =>
                refine .inl ⟨l, rfl, ?_⟩
                obtain ⟨cs, h2, e2, p2, r2⟩ := collect_spec (ε := ε) bs'.length bs' (Nat.le_refl _) hi hc
                exact fin l cs h2 e2 p2 r2
              | err e => exact (collectIter_noErr _ bs' e (Nat.le_refl _) hc).elim
              | panic => exact .inr (.inr ⟨m, .inl rfl⟩)
              | deep => exact .inr (.inr ⟨m, .inr rfl⟩)
    | err e =>
      rw [hv] at h1
      simp only at h1
      rw [run_bind h1]
      exact .inr (.inl ⟨e, rfl, rfl⟩)
    | panic => exact .inr (.inr ⟨m, .inl rfl⟩)
    | deep => exact .inr (.inr ⟨m, .inr rfl⟩)
  · rw [q2, q1, hdr_arc_isId]; simp only [Bool.false_eq_true, if_false]
    obtain ⟨cs, h', e, i, k, r1, r2, r3⟩ := takeArc_spec hi hr q2
    refine .inl ⟨l, ?_, cs, h', by rw [run_bind e]; rfl, i, k, r1, r2, r3⟩
    cases m with
    | arc p v l' => simp only [SNode.children, Sum.inl.injEq] at q2; subst q2; rfl
    | ref p v i' => simp [SNode.children] at q2

/-- Working on the children. -/
theorem Sim.children {S : BlobStore σ ε} {st : σ} {R h x m} {k : List Raw → H (Except ε Unit × List Raw)} {kv : List SNode → Res ε Unit × List SNode}
    {kvN : List SNode → SNode → Res ε Unit × SNode} (hi : Inv h (x.refs ++ R)) (hr : RepS h x m)
    (hv : ∀ l, kvN l (.arc m.pfx m.val l) = onChildren (.arc m.pfx m.val l) (kv l))
    (hk : ∀ cs l h', Inv h' (refsL cs ++ (x.pfx.refs ++ x.val.refs ++ R)) → RepSL h' cs l → Keep R h h' → SimL (x.pfx.refs ++ x.val.refs ++ R) h' (k cs) (kv l)) :
    SimN R h (seq (takeChildren S st x) fun cs x => putBack x (k cs)) (stBind (loadChildrenMutS S st m) kvN) := by
  rcases takeChildren_specS (S := S) (st := st) hi hr with ⟨l, e0, cs, h1, e1, i1, k1, r1, r2, r3⟩ | ⟨e, e0, e1⟩ | ⟨a, e0 | e0⟩
  · rw [e0]
    refine Sim.after (run_seq_ok e1) k1 ?_
    show SimN R h1 _ (kvN l _)
    rw [hv]
    have h2 := hk cs l h1 (i1.mono (by cnt_tac)) r3 k1
    unfold SimL Sim at h2
    unfold SimN Sim onChildren putBack
    simp only
    cases hl : (kv l).1 with
    | ok b =>
      rw [hl] at h2; obtain ⟨ds, h3, e3, p3, r4⟩ := h2
      obtain ⟨y, h4, e4, p4, r5⟩ := setKids_specS (R := R) (p := x.pfx) (v := x.val) (p3.inv.mono (by cnt_tac)) (r1.keep p3.keep (reach_of_mem (by sub_tac))) (r2.keep p3.keep (reach_of_mem (by sub_tac))) r4
      exact ⟨y, h4, by rw [run_bind e3]; show (Raw.setKids _ _ >>= _) _ = _; rw [run_bind e4]; rfl, ⟨p4.inv, (p3.keep.mono (by sub_tac)).trans p4.keep⟩, r5⟩
    | err b =>
      rw [hl] at h2; obtain ⟨ds, h3, e3, p3, r4⟩ := h2
      obtain ⟨y, h4, e4, p4, r5⟩ := setKids_specS (R := R) (p := x.pfx) (v := x.val) (p3.inv.mono (by cnt_tac)) (r1.keep p3.keep (reach_of_mem (by sub_tac))) (r2.keep p3.keep (reach_of_mem (by sub_tac))) r4
      exact ⟨y, h4, by rw [run_bind e3]; show (Raw.setKids _ _ >>= _) _ = _; rw [run_bind e4]; rfl, ⟨p4.inv, (p3.keep.mono (by sub_tac)).trans p4.keep⟩, r5⟩
    | panic => trivial
    | deep => trivial
  · rw [e0]
    exact ⟨x, h, run_seq_err e1, ⟨hi, Keep.refl _ _⟩, hr⟩
  · rw [e0]; trivial
  · rw [e0]; trivial

/-! ### Shortened nodes and splitting -/

theorem cloneShortenedRaw_spec {S : BlobStore σ ε} {st : σ} {R h x m} (n : Nat) (hi : Inv h R) (hb : BorS R h x m) :
    NewN R h (cloneShortenedRaw S st x n) (m.cloneShortened S st n) := by
  unfold cloneShortenedRaw SNode.cloneShortened
  have h0 := loadPrefix_spec (S := S) (st := st) hb.1.pfx
  unfold OutP at h0
  cases hp : Radix.loadPrefix S st m.pfx with
  | ok p =>
    rw [hp] at h0
    simp only at h0
    obtain ⟨h1, e1, p1, r1⟩ := rawClone_postS hi hb
    obtain ⟨y, h2, e2, p2, r2, _⟩ := setPrefix_specS (p.drop n) p1.inv r1
    exact ⟨y, h2, by rw [run_bind h0]; show (Raw.clone x >>= _) h = _; rw [run_bind e1, run_bind e2]; rfl, ⟨p2.inv, p1.keep.trans p2.keep⟩, r2⟩
  | err e =>
    rw [hp] at h0
    simp only at h0
    exact ⟨h, by rw [run_bind h0]; rfl, hi, Keep.refl _ _⟩
  | panic => trivial
  | deep => trivial

theorem cloneShortened_specS {S : BlobStore σ ε} {st : σ} {R h x m} (n : Nat) (hi : Inv h R) (hb : BorR R h x m) :
    NewN R h (x.cloneShortened S st n) (m.cloneShortened S st n) := by
  cases x <;> cases m
  · exact cloneShortenedRaw_spec n hi hb
  · exact hb.elim
  · exact hb.elim
  · trivial

theorem split_specS {S : BlobStore σ ε} {st : σ} {R h x m} (n : Nat) (hi : Inv h (x.refs ++ R)) (hr : RepS h x m) :
    SimN R h (split S st n x) (splitS S st n m) := by
  unfold split splitS
  refine Sim.bindP (loadPrefix_spec hr.pfx) hi hr fun p _ => ?_
  obtain ⟨f, h1, e1, p1, r1⟩ := ofData_specS (p.drop n) hi
  have hr1 : RepS h1 x m := hr.keep p1.keep (reach_of_mem (by sub_tac))
  obtain ⟨y, h2, e2, p2, r2, ev, ec⟩ := setPrefix_specS (R := f.refs ++ R) (p.take n) (p1.inv.mono (by cnt_tac)) hr1
  have r1' : RepBV h2 f (.data (p.drop n)) := r1.keep p2.keep (reach_of_mem (by sub_tac))
  have r2' := RepS.iff.1 r2
  simp only [SNode.setPrefix, ofParts_pfx, ofParts_val, ofParts_children] at r2'
  obtain ⟨z, h3, e3, p3, r3⟩ := setKids_specS (R := R) (h := h2) (p := y.pfx) (v := Fld.none) (cs := [⟨f, y.val, y.ch⟩]) (pd := .data (p.take n))
    (vd := .none) (l := [.ofParts (.data (p.drop n)) m.val m.children]) (p2.inv.mono (by intro r; simp only [Raw.refs, refsL_cons, refsL_nil, fld_none_refs, List.count_append, List.count_nil]; omega))
    r2'.1 (repBV_none _) (RepSL.cons (RepS.of r1' r2'.2.1 r2'.2.2) RepSL.nil)
  refine ⟨z, h3, ?_, ⟨p3.inv, ((p1.keep.mono (by sub_tac)).trans (p2.keep.mono (by sub_tac))).trans p3.keep⟩, r3⟩
  rw [run_bind e1, run_bind e2, run_bind e3]; rfl

theorem finish_spec {R h x m} (hi : Inv h (x.refs ++ R)) (hr : RepS h x m) : SimN (ε := ε) R h (finish x) (canonicalizeS false m) := by
  obtain ⟨y, h1, e1, p1, r1⟩ := canonicalize_specS (ε := ε) hi hr
  exact ⟨y, h1, by unfold finish; rw [run_bind e1]; rfl, p1, r1⟩

/-! ### Sorting -/

/-- The nodes with their ranks. -/
def zipRankS : List SNode → List Raw → List (Nat × Raw)
  | m :: l, x :: xs => (Node.rank m.pfx.firstByte, x) :: zipRankS l xs
  | _, _ => []

theorem ranked_specS {h} : ∀ {l xs}, RepSL h xs l → ranked xs h = some (zipRankS l xs, h)
  | [], xs, hr => by rw [RepSL.nil_iff] at hr; subst hr; rfl
  | m :: l, xs, hr => by
    obtain ⟨y, ys, rfl, h1, h2⟩ := RepSL.cons_iff.1 hr
    have := ranked_specS h2
    unfold ranked at this ⊢
    unfold mapH
    have e : (do return (← y.rank, y) : H (Nat × Raw)) h = some ((Node.rank m.pfx.firstByte, y), h) := by rw [run_bind (rank_specS h1)]; rfl
    rw [run_bind e, run_bind this]; rfl

/-- The second halves, and the ranks are right. -/
def RepKS (h : Mem) : List (Nat × Raw) → List SNode → Prop
  | [], [] => True
  | p :: ps, m :: l => p.1 = Node.rank m.pfx.firstByte ∧ RepS h p.2 m ∧ RepKS h ps l
  | _, _ => False

theorem insertR_specS {h} {p : Nat × Raw} {m : SNode} (h1 : p.1 = Node.rank m.pfx.firstByte) (h2 : RepS h p.2 m) :
    ∀ {ps l}, RepKS h ps l → RepKS h (insertR p ps) (insertByFirstS m l) ∧ ∀ r, (kRefs (insertR p ps)).count r = (kRefs (p :: ps)).count r
  | [], [], h3 => ⟨⟨h1, h2, trivial⟩, fun r => rfl⟩
  | q :: ps, n :: l, h3 => by
    simp only [insertR, insertByFirstS]
    rw [h1, h3.1]
    by_cases hc : Node.rank m.pfx.firstByte ≤ Node.rank n.pfx.firstByte
    · rw [if_pos hc, if_pos hc]; exact ⟨⟨h1, h2, h3⟩, fun r => rfl⟩
    · rw [if_neg hc, if_neg hc]
      have h4 := insertR_specS h1 h2 h3.2.2
      refine ⟨⟨h3.1, h3.2.1, h4.1⟩, fun r => ?_⟩
      have h5 := h4.2 r
      simp only [kRefs, List.map_cons, refsL_cons, List.count_append] at h5 ⊢
      omega
  | [], _ :: _, h3 => h3.elim
  | _ :: _, [], h3 => h3.elim

theorem sortR_specS {h} : ∀ {ps l}, RepKS h ps l → RepKS h (sortR ps) (sortByFirstS l) ∧ ∀ r, (kRefs (sortR ps)).count r = (kRefs ps).count r
  | [], [], h3 => ⟨trivial, fun r => rfl⟩
  | q :: ps, n :: l, h3 => by
    have h4 := sortR_specS h3.2.2
    have h5 := insertR_specS h3.1 h3.2.1 h4.1
    refine ⟨h5.1, fun r => ?_⟩
    have h6 := h4.2 r
    have h7 := h5.2 r
    simp only [sortR] at h7 ⊢
    rw [h7]
    simp only [kRefs, List.map_cons, refsL_cons, List.count_append] at h6 ⊢
    omega
  | [], _ :: _, h3 => h3.elim
  | _ :: _, [], h3 => h3.elim

theorem zipRankS_repK {h} : ∀ {l xs}, RepSL h xs l → RepKS h (zipRankS l xs) l ∧ (zipRankS l xs).map (·.2) = xs
  | [], xs, hr => by rw [RepSL.nil_iff] at hr; subst hr; exact ⟨trivial, rfl⟩
  | m :: l, xs, hr => by
    obtain ⟨y, ys, rfl, h1, h2⟩ := RepSL.cons_iff.1 hr
    have := zipRankS_repK h2
    exact ⟨⟨rfl, h1, this.1⟩, by simp only [zipRankS, List.map_cons, this.2]⟩

theorem RepKS.repL {h} : ∀ {ps l}, RepKS h ps l → RepSL h (ps.map (·.2)) l
  | [], [], _ => RepSL.nil
  | p :: ps, m :: l, h1 => RepSL.cons h1.2.1 (RepKS.repL h1.2.2)
  | [], _ :: _, h3 => h3.elim
  | _ :: _, [], h3 => h3.elim

theorem sortByFirst_specS {h xs l} (hr : RepSL h xs l) : ∃ ys, sortByFirst xs h = some (ys, h) ∧ RepSL h ys (sortByFirstS l) ∧
    ∀ r, (refsL ys).count r = (refsL xs).count r := by
  have h1 := zipRankS_repK hr
  have h2 := sortR_specS h1.1
  refine ⟨(sortR (zipRankS l xs)).map (·.2), ?_, h2.1.repL, fun r => ?_⟩
  · unfold sortByFirst; rw [run_bind (ranked_specS hr)]; rfl
  · have := h2.2 r
    simp only [kRefs, h1.2] at this
    exact this

end

end Radix.Heap.Att
