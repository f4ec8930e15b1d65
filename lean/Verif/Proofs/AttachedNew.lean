import Verif.Heap.AttCombine
import Verif.Proofs.AttachedRead
import Verif.Proofs.HeapNew

/-
Combinations that make a new tree from trees in memory that may refer to a store, and predicates on such trees, do what `Verif/Stored/Combine.lean` does on plain
values.
-/

set_option linter.unusedVariables false

namespace Radix.Heap.Att

section
variable {σ τ ε : Type}

/-! ### Detached nodes -/

theorem repV_embed {h f v} : RepBV h f (embedVal v) ↔ RepV h f v := by
  cases v with
  | some d => exact RepBV.data
  | none =>
    constructor
    · intro hr
      obtain ⟨_, h1, h2⟩ := hr
      refine ⟨h1, ?_⟩
      rcases h2 with ⟨_, w, e, _⟩ | ⟨h3, _⟩
      · exact ⟨w, e⟩
      · simp [embedVal, BlobV.none, BlobV.slice] at h3
    · intro ⟨h1, w, e⟩
      exact ⟨by simp [embedVal, BlobV.none, BOk], h1, Or.inl ⟨by simp [embedVal, BlobV.none, BlobV.slice], w, e, by simp [embedVal, BlobV.none, BlobV.slice]⟩⟩

mutual
theorem rep_embed {h} : ∀ (n : Node) {x}, RepS h x (embed n) ↔ Rep h x n
  | .mk p v none, x => by
    simp only [embed, RepS, Rep, RepC]
    rw [RepBV.data, repV_embed, show (BlobV.id []) = embedVal none from rfl, repV_embed]
    rfl
  | .mk p v (some l), x => by
    simp only [embed, RepS, Rep, RepC]
    rw [RepBV.data, repV_embed]
    refine and_congr_right fun _ => and_congr_right fun _ => and_congr_right fun _ => ?_
    refine exists_congr fun a => exists_congr fun xs => and_congr_right fun _ => and_congr_right fun _ => ?_
    exact repL_embed l
theorem repL_embed {h} : ∀ (l : List Node) {xs}, RepSL h xs (embedL l) ↔ RepL h xs l
  | [], xs => by simp only [embedL, RepSL, RepL]
  | n :: l, xs => by
    simp only [embedL, RepSL, RepL]
    refine exists_congr fun y => exists_congr fun ys => and_congr_right fun _ => ?_
    rw [rep_embed n, repL_embed l]
end

/-- A computation that gives a new detached node. -/
abbrev NewT (R : List Heap.Ref) (h : Mem) (x : H (Except ε Raw)) (v : Res ε Node) : Prop := New Rep Raw.refs R h x v

theorem NewN.newT {R h} {x : H (Except ε Raw)} {v : Res ε Node} (hx : NewN R h x (v.bind fun n => .ok (embed n))) : NewT R h x v := by
  cases v with
  | ok n => obtain ⟨y, h1, e1, p1, r1⟩ := hx; exact ⟨y, h1, e1, p1, (rep_embed n).1 r1⟩
  | err e => exact hx
  | panic => trivial
  | deep => trivial

theorem NewT.newN {R h} {x : H (Except ε Raw)} {v : Res ε Node} (hx : NewT R h x v) : NewN R h x (v.bind fun n => .ok (embed n)) := by
  cases v with
  | ok n => obtain ⟨y, h1, e1, p1, r1⟩ := hx; exact ⟨y, h1, e1, p1, (rep_embed n).2 r1⟩
  | err e => exact hx
  | panic => trivial
  | deep => trivial

/-! ### Steps -/

theorem New.ok {ρ γ : Type} {rep : Mem → ρ → γ → Prop} {refs : ρ → List Heap.Ref} {R h y b} (hi : Inv h (refs y ++ R)) (hr : rep h y b) :
    New (ε := ε) rep refs R h (return .ok y) (.ok b) := ⟨y, h, rfl, ⟨hi, Keep.refl _ _⟩, hr⟩

theorem New.andThen {ρ γ ρ' γ' : Type} {rep : Mem → ρ → γ → Prop} {refs : ρ → List Heap.Ref} {rep' : Mem → ρ' → γ' → Prop} {refs' : ρ' → List Heap.Ref}
    {R h} {x : H (Except ε ρ)} {v : Res ε γ} {k : ρ → H (Except ε ρ')} {kv : γ → Res ε γ'} (hx : New rep refs R h x v)
    (hk : ∀ y a h', Inv h' (refs y ++ R) → Keep R h h' → rep h' y a → New rep' refs' R h' (k y) (kv a)) :
    New rep' refs' R h (Att.andThen x k) (v.bind kv) := by
  cases v with
  | ok a =>
    obtain ⟨y, h1, e1, p1, r1⟩ := hx
    exact New.after (run_andThen_ok e1) p1.keep (hk y a h1 p1.inv p1.keep r1)
  | err e =>
    obtain ⟨h1, e1, i1, k1⟩ := hx
    exact ⟨h1, run_andThen_err e1, i1, k1⟩
  | panic => trivial
  | deep => trivial

/-- What a result stands for does not change while the result is reachable. -/
def Stable {ρ γ : Type} (rep : Mem → ρ → γ → Prop) (refs : ρ → List Heap.Ref) : Prop :=
  ∀ R h h' y b, Keep R h h' → (∀ r ∈ refs y, Reach h R r) → rep h y b → rep h' y b

theorem withTemp_spec {ρ γ : Type} {rep : Mem → ρ → γ → Prop} {refs : ρ → List Heap.Ref} (hs : Stable rep refs) {R h} {x : H (Except ε Raw)}
    {v : Res ε SNode} {k : Raw → H (Except ε ρ)} {kv : SNode → Res ε γ} (hx : NewN R h x v)
    (hk : ∀ t m h', Inv h' (t.refs ++ R) → Keep R h h' → BorS (t.refs ++ R) h' t m → New rep refs (t.refs ++ R) h' (k t) (kv m)) :
    New rep refs R h (withTemp x k) (v.bind kv) := by
  refine New.andThen hx fun t m h1 i1 k1 r1 => ?_
  have h2 := hk t m h1 i1 k1 ⟨r1, reach_of_mem (by sub_tac)⟩
  cases hv : kv m with
  | ok b =>
    rw [hv] at h2
    obtain ⟨y, h3, e3, p3, r3⟩ := h2
    obtain ⟨h4, e4, i4, k4⟩ := dropOne_specS (R := refs y ++ R) (p3.inv.mono (by cnt_tac)) (r1.keep p3.keep (reach_of_mem (by sub_tac)))
    exact ⟨y, h4, by rw [run_bind e3, run_bind e4]; rfl, ⟨i4, (p3.keep.mono (by sub_tac)).trans (k4.mono (by sub_tac))⟩, hs _ _ _ _ _ k4 (reach_of_mem (by sub_tac)) r3⟩
  | err e =>
    rw [hv] at h2
    obtain ⟨h3, e3, i3, k3⟩ := h2
    obtain ⟨h4, e4, i4, k4⟩ := dropOne_specS (R := R) i3 (r1.keep k3 (reach_of_mem (by sub_tac)))
    exact ⟨h4, by rw [run_bind e3, run_bind e4]; rfl, i4, (k3.mono (by sub_tac)).trans k4⟩
  | panic => trivial
  | deep => trivial

theorem stable_rep : Stable Rep Raw.refs := fun _ _ _ _ _ hk hr h1 => h1.keep hk hr

theorem stable_opt : Stable OptRep olRefs := fun _ _ _ _ _ hk hr h1 => OptRep.keep hk hr h1

theorem stable_eq {α : Type} : Stable (fun _ (a b : α) => a = b) (fun _ => []) := fun _ _ _ _ _ _ _ h1 => h1

/-- A computation that gives a plain value. -/
abbrev Ask {α : Type} (R : List Heap.Ref) (h : Mem) (x : H (Except ε α)) (v : Res ε α) : Prop := New (fun _ (a b : α) => a = b) (fun _ => []) R h x v

/-! ### Values -/

/-- A computation that gives a new value of a detached tree. -/
abbrev NewF (R : List Heap.Ref) (h : Mem) (x : H (Except ε Fld)) (v : Res ε (Option Bytes)) : Prop := New RepV Fld.refs R h x v

theorem newF_none {R h} (hi : Inv h R) : NewF (ε := ε) R h (return .ok Fld.none) (.ok none) := New.ok (by simpa [fld_none_refs] using hi) (repV_none h)

theorem detachVal_spec {R h a} {av : BlobV} (hi : Inv h R) (hb : BorHV R h a av) (hn : av ≠ .none) :
    NewF (ε := ε) R h (valueDetached (some a)) (valueOptDetached av) := by
  unfold valueOptDetached
  have : av.valueOpt = some av := by unfold BlobV.valueOpt; rw [if_neg hn]
  rw [this]
  cases av with
  | id i => trivial
  | data d =>
    obtain ⟨f, h1, e1, p1, r1⟩ := hval_toOwned hi hb
    refine ⟨f, h1, ?_, p1, RepBV.data.1 r1⟩
    have e2 : convValue .detach a h = some (f, h1) := by
      unfold convValue
      show (a.blobV >>= _) h = _
      rw [run_bind (hval_blobV hb)]
      exact e1
    unfold valueDetached
    rw [run_bind e2]; rfl

theorem valueOpt_ne {b c : BlobV} (h : b.valueOpt = some c) : c ≠ .none := by
  unfold BlobV.valueOpt at h
  split at h
  · cases h
  · rename_i hn; cases h; exact hn

/-- A user function that gives a new value. -/
def UserN (f : NewFn ε) (fv : BlobV → BlobV → Res ε (Option Bytes)) : Prop :=
  ∀ R h a b av bv, Inv h R → BorHV R h a av → BorHV R h b bv → av ≠ .none → bv ≠ .none → NewF R h (f a b) (fv av bv)

theorem newFn_user (ch : BlobV → BlobV → Except ε NewChoice) : UserN (newFn ch) (newFnS ch) := by
  intro R h a b av bv hi ha hb na nb
  refine New.after (h' := h) (x' := giveNew (ch av bv) a b) (by unfold newFn; rw [run_bind (hval_blobV ha), run_bind (hval_blobV hb)]) (Keep.refl _ _) ?_
  unfold newFnS
  cases hc : ch av bv with
  | error e => exact ⟨h, rfl, hi, Keep.refl _ _⟩
  | ok c =>
    cases c with
    | clear => exact newF_none hi
    | left => exact detachVal_spec hi ha na
    | right => exact detachVal_spec hi hb nb
    | own d =>
      obtain ⟨f, h1, e1, p1, r1⟩ := ofData_specS d hi
      exact ⟨f, h1, by show (ofData d >>= _) h = _; rw [run_bind e1]; rfl, p1, RepBV.data.1 r1⟩

theorem valueDetached_spec {R h x} {n : Radix.Ref} (hi : Inv h R) (hb : BorR R h x n) :
    NewF (ε := ε) R h (valueDetached x.valueOpt) (valueOptDetached n.val) := by
  rcases href_valueOpt hb with ⟨e1, e2⟩ | ⟨hv, bv, e1, e2, h1⟩
  · rw [e1]
    unfold valueOptDetached
    rw [e2]
    exact newF_none hi
  · rw [e1]
    have hn := valueOpt_ne e2
    have : bv = n.val := by
      unfold BlobV.valueOpt at e2
      split at e2
      · cases e2
      · cases e2; rfl
    subst this
    exact detachVal_spec hi h1 hn

theorem outerValueNew_spec {f : NewFn ε} {fv} (hf : UserN f fv) {R h x y} {a b : Radix.Ref} (hi : Inv h R) (ha : BorR R h x a) (hb : BorR R h y b) :
    NewF R h (outerValueNew f x.valueOpt y.valueOpt) (match b.val.valueOpt with
      | some bv => match a.val.valueOpt with
        | some av => fv av bv
        | none => valueOptDetached bv
      | none => valueOptDetached a.val) := by
  rcases href_valueOpt hb with ⟨e3, e4⟩ | ⟨yv, bv, e3, e4, h2⟩
  · rw [e3, e4]; exact valueDetached_spec hi ha
  · rw [e3, e4]
    rcases href_valueOpt ha with ⟨e1, e2⟩ | ⟨xv, av, e1, e2, h1⟩ <;> rw [e1, e2]
    · exact detachVal_spec hi h2 (valueOpt_ne e4)
    · exact hf _ _ _ _ _ _ hi h1 h2 (valueOpt_ne e2) (valueOpt_ne e4)

theorem innerValueNew_spec {f : NewFn ε} {fv} (hf : UserN f fv) {R h x y} {a b : Radix.Ref} (hi : Inv h R) (ha : BorR R h x a) (hb : BorR R h y b) :
    NewF R h (innerValueNew f x.valueOpt y.valueOpt) (match b.val.valueOpt with
      | some bv => match a.val.valueOpt with
        | some av => fv av bv
        | none => .ok none
      | none => .ok none) := by
  rcases href_valueOpt ha with ⟨e1, e2⟩ | ⟨xv, av, e1, e2, h1⟩ <;> rcases href_valueOpt hb with ⟨e3, e4⟩ | ⟨yv, bv, e3, e4, h2⟩ <;>
    rw [e1, e2, e3, e4]
  · exact newF_none hi
  · exact newF_none hi
  · exact newF_none hi
  · exact hf _ _ _ _ _ _ hi h1 h2 (valueOpt_ne e2) (valueOpt_ne e4)

theorem leftValueNew_spec {f : NewFn ε} {fv} (hf : UserN f fv) {R h x y} {a b : Radix.Ref} (hi : Inv h R) (ha : BorR R h x a) (hb : BorR R h y b) :
    NewF R h (leftValueNew f x.valueOpt y.valueOpt) (match a.val.valueOpt with
      | some av => match b.val.valueOpt with
        | some bv => fv av bv
        | none => valueOptDetached av
      | none => .ok none) := by
  rcases href_valueOpt ha with ⟨e1, e2⟩ | ⟨xv, av, e1, e2, h1⟩ <;> rcases href_valueOpt hb with ⟨e3, e4⟩ | ⟨yv, bv, e3, e4, h2⟩ <;>
    rw [e1, e2, e3, e4]
  · exact newF_none hi
  · exact newF_none hi
  · exact detachVal_spec hi h1 (valueOpt_ne e2)
  · exact hf _ _ _ _ _ _ hi h1 h2 (valueOpt_ne e2) (valueOpt_ne e4)

/-! ### Pairs -/

theorem BorRO.keep {R h h' o p} (hb : BorRO R h o p) (hk : Keep R h h') : BorRO R h' o p := by
  cases o <;> cases p <;> first | exact hb | exact BorR.keep hb hk

theorem BorRO.mono {R R' h o p} (hb : BorRO R h o p) (hs : ∀ r ∈ R, r ∈ R') : BorRO R' h o p := by
  cases o <;> cases p <;> first | exact hb | exact BorR.mono hb hs

/-- What is pushed for a pair. -/
abbrev NewO (R : List Heap.Ref) (h : Mem) (x : H (Except ε (List Raw))) (v : Res ε (Option Node)) : Prop :=
  New (fun h l (o : Option Node) => RepL h l o.toList) refsL R h x v

/-- A step of the loop over pairs. -/
def StepJ (g : Option HRef → Option HRef → H (Except ε (List Raw))) (gv : Option Radix.Ref → Option Radix.Ref → Res ε (Option Node)) : Prop :=
  ∀ R h x y a b, Inv h R → BorRO R h x a → BorRO R h y b → NewO R h (g x y) (gv a b)

theorem joinMap_nn {g : Option HRef → Option HRef → H (Except ε (List Raw))} {done} {a b : HIter} (h1 : a.next = none) (h2 : b.next = none) : joinMap g done a b = return .ok done := by
  rw [joinMap.eq_def]; split <;> simp_all

theorem joinMap_sn {g : Option HRef → Option HRef → H (Except ε (List Raw))} {done} {a b a' : HIter} {x : HRef} (h1 : a.next = some (x, a')) (h2 : b.next = none) : joinMap g done a b = (orDrop done (g (some x) none) fun l => joinMap g (done ++ l) a' b) := by
  rw [joinMap.eq_def]; split <;> simp_all

theorem joinMap_ns {g : Option HRef → Option HRef → H (Except ε (List Raw))} {done} {a b b' : HIter} {y : HRef} (h1 : a.next = none) (h2 : b.next = some (y, b')) : joinMap g done a b = (orDrop done (g none (some y)) fun l => joinMap g (done ++ l) a b') := by
  rw [joinMap.eq_def]; split <;> simp_all

theorem joinMap_ss {g : Option HRef → Option HRef → H (Except ε (List Raw))} {done} {a b a' b' : HIter} {x y : HRef} (h1 : a.next = some (x, a')) (h2 : b.next = some (y, b')) : joinMap g done a b = (do
    let rx ← x.rank
    let ry ← y.rank
    if rx < ry then orDrop done (g (some x) none) fun l => joinMap g (done ++ l) a' b
    else if ry < rx then orDrop done (g none (some y)) fun l => joinMap g (done ++ l) a b'
    else orDrop done (g (some x) (some y)) fun l => joinMap g (done ++ l) a' b') := by
  rw [joinMap.eq_def]; split <;> simp_all

theorem joinMapS_nn {g : Option Radix.Ref → Option Radix.Ref → Res ε (Option Node)} {a b : TIter} (h1 : a.next = none) (h2 : b.next = none) : joinMapS g a b = .ok [] := by
  rw [joinMapS.eq_def]; split <;> simp_all

theorem joinMapS_sn {g : Option Radix.Ref → Option Radix.Ref → Res ε (Option Node)} {a b a' : TIter} {x : Radix.Ref} (h1 : a.next = some (x, a')) (h2 : b.next = none) : joinMapS g a b = ((g (some x) none).bind fun o => (joinMapS g a' b).bind fun l => .ok (o.toList ++ l)) := by
  rw [joinMapS.eq_def]; split <;> simp_all

theorem joinMapS_ns {g : Option Radix.Ref → Option Radix.Ref → Res ε (Option Node)} {a b b' : TIter} {y : Radix.Ref} (h1 : a.next = none) (h2 : b.next = some (y, b')) : joinMapS g a b = ((g none (some y)).bind fun o => (joinMapS g a b').bind fun l => .ok (o.toList ++ l)) := by
  rw [joinMapS.eq_def]; split <;> simp_all

theorem joinMapS_ss {g : Option Radix.Ref → Option Radix.Ref → Res ε (Option Node)} {a b a' b' : TIter} {x y : Radix.Ref} (h1 : a.next = some (x, a')) (h2 : b.next = some (y, b')) : joinMapS g a b =
    if Node.rank x.pfx.firstByte < Node.rank y.pfx.firstByte then (g (some x) none).bind fun o => (joinMapS g a' b).bind fun l => .ok (o.toList ++ l)
    else if Node.rank y.pfx.firstByte < Node.rank x.pfx.firstByte then (g none (some y)).bind fun o => (joinMapS g a b').bind fun l => .ok (o.toList ++ l)
    else (g (some x) (some y)).bind fun o => (joinMapS g a' b').bind fun l => .ok (o.toList ++ l) := by
  rw [joinMapS.eq_def]; split <;> simp_all

theorem joinAny_nn {g : Option HRef → Option HRef → H (Except ε Bool)} {a b : HIter} (h1 : a.next = none) (h2 : b.next = none) : joinAny g a b = return .ok false := by
  rw [joinAny.eq_def]; split <;> simp_all

theorem joinAny_sn {g : Option HRef → Option HRef → H (Except ε Bool)} {a b a' : HIter} {x : HRef} (h1 : a.next = some (x, a')) (h2 : b.next = none) : joinAny g a b = (Att.andThen (g (some x) none) fun o => if o then return .ok true else joinAny g a' b) := by
  rw [joinAny.eq_def]; split <;> simp_all

theorem joinAny_ns {g : Option HRef → Option HRef → H (Except ε Bool)} {a b b' : HIter} {y : HRef} (h1 : a.next = none) (h2 : b.next = some (y, b')) : joinAny g a b = (Att.andThen (g none (some y)) fun o => if o then return .ok true else joinAny g a b') := by
  rw [joinAny.eq_def]; split <;> simp_all

theorem joinAny_ss {g : Option HRef → Option HRef → H (Except ε Bool)} {a b a' b' : HIter} {x y : HRef} (h1 : a.next = some (x, a')) (h2 : b.next = some (y, b')) : joinAny g a b = (do
    let rx ← x.rank
    let ry ← y.rank
    if rx < ry then Att.andThen (g (some x) none) fun o => if o then return .ok true else joinAny g a' b
    else if ry < rx then Att.andThen (g none (some y)) fun o => if o then return .ok true else joinAny g a b'
    else Att.andThen (g (some x) (some y)) fun o => if o then return .ok true else joinAny g a' b') := by
  rw [joinAny.eq_def]; split <;> simp_all

theorem joinAnyS_nn {g : Option Radix.Ref → Option Radix.Ref → Res ε (Bool)} {a b : TIter} (h1 : a.next = none) (h2 : b.next = none) : joinAnyS g a b = .ok false := by
  rw [joinAnyS.eq_def]; split <;> simp_all

theorem joinAnyS_sn {g : Option Radix.Ref → Option Radix.Ref → Res ε (Bool)} {a b a' : TIter} {x : Radix.Ref} (h1 : a.next = some (x, a')) (h2 : b.next = none) : joinAnyS g a b = ((g (some x) none).bind fun o => if o then .ok true else joinAnyS g a' b) := by
  rw [joinAnyS.eq_def]; split <;> simp_all

theorem joinAnyS_ns {g : Option Radix.Ref → Option Radix.Ref → Res ε (Bool)} {a b b' : TIter} {y : Radix.Ref} (h1 : a.next = none) (h2 : b.next = some (y, b')) : joinAnyS g a b = ((g none (some y)).bind fun o => if o then .ok true else joinAnyS g a b') := by
  rw [joinAnyS.eq_def]; split <;> simp_all

theorem joinAnyS_ss {g : Option Radix.Ref → Option Radix.Ref → Res ε (Bool)} {a b a' b' : TIter} {x y : Radix.Ref} (h1 : a.next = some (x, a')) (h2 : b.next = some (y, b')) : joinAnyS g a b =
    if Node.rank x.pfx.firstByte < Node.rank y.pfx.firstByte then (g (some x) none).bind fun o => if o then .ok true else joinAnyS g a' b
    else if Node.rank y.pfx.firstByte < Node.rank x.pfx.firstByte then (g none (some y)).bind fun o => if o then .ok true else joinAnyS g a b'
    else (g (some x) (some y)).bind fun o => if o then .ok true else joinAnyS g a' b' := by
  rw [joinAnyS.eq_def]; split <;> simp_all

theorem joinMap_spec {g : Option HRef → Option HRef → H (Except ε (List Raw))} {gv} (hg : StepJ g gv) : ∀ (N : Nat) (av bv : TIter), av.size + bv.size ≤ N →
    ∀ {R h done dl a b}, Inv h (refsL done ++ R) → RepL h done dl → BorI R h a av → BorI R h b bv →
      New RepL refsL R h (joinMap g done a b) ((joinMapS gv av bv).bind fun l => .ok (dl ++ l)) := by
  intro N
  induction N using Nat.strongRecOn with
  | ind N ih =>
    intro av bv hN R h done dl a b hi hr ha hb
    have go : ∀ x y xv yv a' b' av' bv', av'.size + bv'.size < av.size + bv.size → BorRO R h x xv → BorRO R h y yv → BorI R h a' av' → BorI R h b' bv' →
        New RepL refsL R h (orDrop done (g x y) fun l => joinMap g (done ++ l) a' b')
          (((gv xv yv).bind fun o => (joinMapS gv av' bv').bind fun l => .ok (o.toList ++ l)).bind fun l => .ok (dl ++ l)) := by
      intro x y xv yv a' b' av' bv' hlt hx hy ha' hb'
      have h1 := hg _ h x y xv yv hi (hx.mono (R' := refsL done ++ R) (by sub_tac)) (hy.mono (R' := refsL done ++ R) (by sub_tac))
      cases hv : gv xv yv with
      | ok o =>
        rw [hv] at h1
        obtain ⟨l, h2, e2, p2, r2⟩ := h1
        refine New.after (run_orDrop_ok e2) (p2.keep.mono (by sub_tac)) ?_
        have h3 := ih _ (Nat.lt_of_lt_of_le hlt hN) av' bv' (Nat.le_refl _) (R := R) (h := h2) (done := done ++ l) (dl := dl ++ o.toList) (a := a') (b := b') (p2.inv.mono (by cnt_tac))
          ((hr.keep p2.keep (reach_of_mem (by sub_tac))).append r2) (ha'.keep (p2.keep.mono (by sub_tac))) (hb'.keep (p2.keep.mono (by sub_tac)))
        show New RepL refsL R h2 _ (((joinMapS gv av' bv').bind _).bind _)
        cases hl : joinMapS gv av' bv' with
        | ok l => rw [hl] at h3; simpa [Res.bind] using h3
        | err e => rw [hl] at h3; exact h3
        | panic => trivial
        | deep => trivial
      | err e =>
        rw [hv] at h1
        obtain ⟨h2, e2, i2, k2⟩ := h1
        obtain ⟨h3, e3, i3, k3⟩ := dropAll_spec i2 (hr.keep k2 (reach_of_mem (by sub_tac)))
        exact ⟨h3, run_orDrop_err e2 e3, i3, (k2.mono (by sub_tac)).trans k3⟩
      | panic => trivial
      | deep => trivial
    rcases iter_next ha with ⟨n1, n2⟩ | ⟨x, a', xv, av', n1, n2, ha1, ha2⟩ <;> rcases iter_next hb with ⟨n3, n4⟩ | ⟨y, b', yv, bv', n3, n4, hb1, hb2⟩
    · rw [joinMap_nn n1 n3, joinMapS_nn n2 n4]
      exact ⟨done, h, rfl, ⟨hi, Keep.refl _ _⟩, by simpa using hr⟩
    · have := TIter.next_size n4
      rw [joinMap_ns n1 n3, joinMapS_ns n2 n4]
      exact go none (some y) none (some yv) a b' av bv' (by omega) trivial hb1 ha hb2
    · have := TIter.next_size n2
      rw [joinMap_sn n1 n3, joinMapS_sn n2 n4]
      exact go (some x) none (some xv) none a' b av' bv (by omega) ha1 trivial ha2 hb
    · have := TIter.next_size n2
      have := TIter.next_size n4
      rw [joinMap_ss n1 n3, joinMapS_ss n2 n4]
      by_cases c1 : Node.rank xv.pfx.firstByte < Node.rank yv.pfx.firstByte
      · rw [if_pos c1]
        refine New.after (h' := h) ?_ (Keep.refl _ _) (go (some x) none (some xv) none a' b av' bv (by omega) ha1 trivial ha2 hb)
        rw [run_bind (href_rank ha1), run_bind (href_rank hb1), if_pos c1]
      · by_cases c2 : Node.rank yv.pfx.firstByte < Node.rank xv.pfx.firstByte
        · rw [if_neg c1, if_pos c2]
          refine New.after (h' := h) ?_ (Keep.refl _ _) (go none (some y) none (some yv) a b' av bv' (by omega) trivial hb1 ha hb2)
          rw [run_bind (href_rank ha1), run_bind (href_rank hb1), if_neg c1, if_pos c2]
        · rw [if_neg c1, if_neg c2]
          refine New.after (h' := h) ?_ (Keep.refl _ _) (go (some x) (some y) (some xv) (some yv) a' b' av' bv' (by omega) ha1 hb1 ha2 hb2)
          rw [run_bind (href_rank ha1), run_bind (href_rank hb1), if_neg c1, if_neg c2]

/-- A step of the loop over pairs that stops at a hit. -/
def StepQ (g : Option HRef → Option HRef → H (Except ε Bool)) (gv : Option Radix.Ref → Option Radix.Ref → Res ε Bool) : Prop :=
  ∀ R h x y a b, Inv h R → BorRO R h x a → BorRO R h y b → Ask R h (g x y) (gv a b)

theorem joinAny_spec {g : Option HRef → Option HRef → H (Except ε Bool)} {gv} (hg : StepQ g gv) : ∀ (N : Nat) (av bv : TIter), av.size + bv.size ≤ N →
    ∀ {R h a b}, Inv h R → BorI R h a av → BorI R h b bv → Ask R h (joinAny g a b) (joinAnyS gv av bv) := by
  intro N
  induction N using Nat.strongRecOn with
  | ind N ih =>
    intro av bv hN R h a b hi ha hb
    have go : ∀ x y xv yv a' b' av' bv', av'.size + bv'.size < av.size + bv.size → BorRO R h x xv → BorRO R h y yv → BorI R h a' av' → BorI R h b' bv' →
        Ask R h (Att.andThen (g x y) fun o => if o then return .ok true else joinAny g a' b')
          ((gv xv yv).bind fun o => if o then .ok true else joinAnyS gv av' bv') := by
      intro x y xv yv a' b' av' bv' hlt hx hy ha' hb'
      refine New.andThen (hg _ h x y xv yv hi hx hy) fun o o' h1 i1 k1 e1 => ?_
      subst e1
      cases o with
      | true => exact New.ok i1 rfl
      | false => exact ih _ (Nat.lt_of_lt_of_le hlt hN) av' bv' (Nat.le_refl _) i1 (ha'.keep k1) (hb'.keep k1)
    rcases iter_next ha with ⟨n1, n2⟩ | ⟨x, a', xv, av', n1, n2, ha1, ha2⟩ <;> rcases iter_next hb with ⟨n3, n4⟩ | ⟨y, b', yv, bv', n3, n4, hb1, hb2⟩
    · rw [joinAny_nn n1 n3, joinAnyS_nn n2 n4]
      exact New.ok hi rfl
    · have := TIter.next_size n4
      rw [joinAny_ns n1 n3, joinAnyS_ns n2 n4]
      exact go none (some y) none (some yv) a b' av bv' (by omega) trivial hb1 ha hb2
    · have := TIter.next_size n2
      rw [joinAny_sn n1 n3, joinAnyS_sn n2 n4]
      exact go (some x) none (some xv) none a' b av' bv (by omega) ha1 trivial ha2 hb
    · have := TIter.next_size n2
      have := TIter.next_size n4
      rw [joinAny_ss n1 n3, joinAnyS_ss n2 n4]
      by_cases c1 : Node.rank xv.pfx.firstByte < Node.rank yv.pfx.firstByte
      · rw [if_pos c1]
        refine New.after (h' := h) ?_ (Keep.refl _ _) (go (some x) none (some xv) none a' b av' bv (by omega) ha1 trivial ha2 hb)
        rw [run_bind (href_rank ha1), run_bind (href_rank hb1), if_pos c1]
      · by_cases c2 : Node.rank yv.pfx.firstByte < Node.rank xv.pfx.firstByte
        · rw [if_neg c1, if_pos c2]
          refine New.after (h' := h) ?_ (Keep.refl _ _) (go none (some y) none (some yv) a b' av bv' (by omega) trivial hb1 ha hb2)
          rw [run_bind (href_rank ha1), run_bind (href_rank hb1), if_neg c1, if_pos c2]
        · rw [if_neg c1, if_neg c2]
          refine New.after (h' := h) ?_ (Keep.refl _ _) (go (some x) (some y) (some xv) (some yv) a' b' av' bv' (by omega) ha1 hb1 ha2 hb2)
          rw [run_bind (href_rank ha1), run_bind (href_rank hb1), if_neg c1, if_neg c2]

theorem anyIter_none {f : HRef → H (Except ε Bool)} {it : HIter} (h1 : it.next = none) : anyIter f it = return .ok false := by
  rw [anyIter.eq_def]; split <;> simp_all

theorem anyIter_some {f : HRef → H (Except ε Bool)} {it it' : HIter} {c} (h1 : it.next = some (c, it')) :
    anyIter f it = Att.andThen (f c) fun o => if o then return .ok true else anyIter f it' := by
  rw [anyIter.eq_def]; split <;> simp_all

theorem anyIterS_none {f : Radix.Ref → Res ε Bool} {it : TIter} (h1 : it.next = none) : anyIterS f it = .ok false := by
  rw [anyIterS.eq_def]; split <;> simp_all

theorem anyIterS_some {f : Radix.Ref → Res ε Bool} {it it' : TIter} {c} (h1 : it.next = some (c, it')) :
    anyIterS f it = (f c).bind fun o => if o then .ok true else anyIterS f it' := by
  rw [anyIterS.eq_def]; split <;> simp_all

theorem anyIter_spec {f : HRef → H (Except ε Bool)} {fv : Radix.Ref → Res ε Bool} {R} (P : Mem → Prop) (hP : ∀ {h h'}, P h → Keep R h h' → P h')
    (hf : ∀ h b bv, P h → Inv h R → BorR R h b bv → Ask R h (f b) (fv bv)) : ∀ (N : Nat) (itv : TIter), itv.size ≤ N → ∀ {h it}, P h → Inv h R → BorI R h it itv →
      Ask R h (anyIter f it) (anyIterS fv itv) := by
  intro N
  induction N using Nat.strongRecOn with
  | ind N ih =>
    intro itv hN h it hp hi hb
    rcases iter_next hb with ⟨n1, n2⟩ | ⟨b, it', bv, itv', n1, n2, hb1, hb2⟩
    · rw [anyIter_none n1, anyIterS_none n2]; exact New.ok hi rfl
    · have := TIter.next_size n2
      rw [anyIter_some n1, anyIterS_some n2]
      refine New.andThen (hf h b bv hp hi hb1) fun o o' h1 i1 k1 e1 => ?_
      subst e1
      cases o with
      | true => exact New.ok i1 rfl
      | false => exact ih _ (by omega) itv' (Nat.le_refl _) (hP hp k1) i1 (hb2.keep k1)

/-! ### Results -/

/-- A computation that gives the children of a new node. -/
abbrev NewC (R : List Heap.Ref) (h : Mem) (x : H (Except ε (Option (List Raw)))) (v : Res ε (Option (List Node))) : Prop := New OptRep olRefs R h x v

theorem newC_none {R h} (hi : Inv h R) : NewC (ε := ε) R h (return .ok none) (.ok none) := New.ok hi rfl

theorem pushNew_spec {R h} {x : H (Except ε Raw)} {v : Res ε Node} (hx : NewT R h x v) :
    NewO R h (pushNew x) (v.bind fun r => .ok (Radix.keepNonEmpty r)) := by
  refine New.andThen hx fun y a h1 i1 k1 r1 => ?_
  obtain ⟨l, h2, e2, p2, r2⟩ := keepNonEmpty_spec a R h1 y i1 r1
  exact ⟨l, h2, by rw [run_bind e2]; rfl, p2, r2⟩

theorem pushOne_spec {R h} {x : H (Except ε Raw)} {v : Res ε Node} (hx : NewT R h x v) : NewO R h (pushOne x) (v.bind fun r => .ok (some r)) := by
  refine New.andThen hx fun y a h1 i1 k1 r1 => ?_
  exact New.ok (i1.mono (by cnt_tac)) (RepL.cons r1 RepL.nil)

theorem pushNone_spec {R h} (hi : Inv h R) : NewO (ε := ε) R h (return .ok []) (.ok none) := New.ok hi RepL.nil

theorem vecOpt_spec {R h} {x : H (Except ε (List Raw))} {v : Res ε (List Node)} (hx : New RepL refsL R h x v) :
    NewC R h (vecOpt x) (v.bind fun l => .ok (Radix.arcOpt l)) := by
  refine New.andThen hx fun cs l h1 i1 k1 r1 => ?_
  refine New.ok (refs := olRefs) ?_ ?_
  · unfold arcOpt
    cases cs with
    | nil => exact i1
    | cons c cs => exact i1
  · unfold arcOpt Radix.arcOpt
    rw [r1.isEmpty]
    split
    · rfl
    · exact ⟨cs, rfl, r1⟩

theorem joinVec_spec {g : Option HRef → Option HRef → H (Except ε (List Raw))} {gv} (hg : StepJ g gv) {R h a b} {av bv : TIter} (hi : Inv h R)
    (ha : BorI R h a av) (hb : BorI R h b bv) :
    NewC R h (vecOpt (joinMap g [] a b)) ((joinMapS gv av bv).bind fun l => .ok (Radix.arcOpt l)) := by
  refine vecOpt_spec ?_
  have h1 := joinMap_spec hg _ av bv (Nat.le_refl _) (R := R) (h := h) (done := []) (dl := []) hi RepL.nil ha hb
  cases hv : joinMapS gv av bv with
  | ok l => rw [hv] at h1; exact h1
  | err e => rw [hv] at h1; exact h1
  | panic => trivial
  | deep => trivial

theorem iter_detached {S : BlobStore σ ε} {st : σ} {R h it} {itv : TIter} (n : Nat) (hi : Inv h R) (hb : BorI R h it itv) :
    NewC R h (it.detached S st n) (itv.detached S st n) := by
  cases it with
  | borrowed bs =>
    cases itv with
    | owned _ => exact hb.elim
    | borrowed bs' =>
      obtain rfl : bs = bs' := hb
      cases bs with
      | nil => exact newC_none hi
      | cons c bs => trivial
  | owned xs =>
    cases itv with
    | borrowed _ => exact hb.elim
    | owned l =>
      cases l with
      | nil => obtain rfl := BorSL.nil_iff.1 hb; exact newC_none hi
      | cons m l =>
        obtain ⟨y, ys, rfl, h1, h2⟩ := BorSL.cons_iff.1 hb
        have h3 := detachedLoop_spec (detached_spec (S := S) (st := st) n) _ (.owned (m :: l)) (Nat.le_refl _) (R := R) (h := h) (done := []) (dl := [])
          (it := .owned (y :: ys)) hi RepSL.nil hb
        show NewC R h (Att.andThen _ _) ((Radix.detachedLoop (detachedS S st n) (.owned (m :: l))).bind _)
        have h4 : New RepL refsL R h (detachedLoop (Att.detached S st n) [] (.owned (y :: ys))) (Radix.detachedLoop (detachedS S st n) (.owned (m :: l))) := by
          cases hv : Radix.detachedLoop (detachedS S st n) (.owned (m :: l)) with
          | ok k =>
            rw [hv] at h3
            obtain ⟨z, h5, e5, p5, r5⟩ := h3
            exact ⟨z, h5, e5, p5, (repL_embed k).1 r5⟩
          | err e => rw [hv] at h3; exact h3
          | panic => trivial
          | deep => trivial
        exact New.andThen h4 fun cs k h5 i5 k5 r5 => New.ok i5 ⟨cs, rfl, r5⟩

theorem finishNew_spec {R h v vd} {x : H (Except ε (Option (List Raw)))} {c : Res ε (Option (List Node))} (p : Bytes) (hi : Inv h (v.refs ++ R)) (hv : RepV h v vd)
    (hx : NewC (v.refs ++ R) h x c) : NewT R h (finishNew p v x) (c.bind fun c => .ok (Node.canonicalize (.mk p vd c))) := by
  cases c with
  | ok c =>
    obtain ⟨cs, h1, e1, p1, r1⟩ := hx
    obtain ⟨z, h2, e2, p2, r2⟩ := build_spec p (R := R) (p1.inv.mono (by cnt_tac)) (hv.keep p1.keep (reach_of_mem (by sub_tac))) r1
    refine ⟨z, h2, ?_, ⟨p2.inv, (p1.keep.mono (by sub_tac)).trans p2.keep⟩, r2⟩
    unfold finishNew
    rw [run_bind e1]
    show (build p v cs >>= _) h1 = _
    rw [run_bind e2]; rfl
  | err e =>
    obtain ⟨h1, e1, i1, k1⟩ := hx
    obtain ⟨h2, e2, i2, k2⟩ := drop_spec i1 (hv.keep k1 (reach_of_mem (by sub_tac)))
    refine ⟨h2, ?_, i2, (k1.mono (by sub_tac)).trans k2⟩
    unfold finishNew
    rw [run_bind e1]
    show (v.drop >>= _) h1 = _
    rw [run_bind e2]; rfl
  | panic => trivial
  | deep => trivial

/-! ### Children of two nodes -/

/-- Something that is done with the children of two borrowed nodes. -/
def ChN {ρ γ : Type} (rep : Mem → ρ → γ → Prop) (refs : ρ → List Heap.Ref) (k : Option HIter → Option HIter → H (Except ε ρ))
    (kv : Option TIter → Option TIter → Res ε γ) : Prop :=
  ∀ R h a b av bv, Inv h R → BorIO R h a av → BorIO R h b bv → New rep refs R h (k a b) (kv av bv)

section
variable {S : BlobStore σ ε} {st : σ} {T : BlobStore τ ε} {st' : τ} {ρ γ : Type} {rep : Mem → ρ → γ → Prop} {refs : ρ → List Heap.Ref}
  {k : Option HIter → Option HIter → H (Except ε ρ)} {kv : Option TIter → Option TIter → Res ε γ}

theorem bothKids_spec (hk : ChN rep refs k kv) {R h a b av bv} (hi : Inv h R) (ha : BorR R h a av) (hb : BorR R h b bv) :
    New rep refs R h (bothKids S st T st' a b k) ((av.loadChildren S st).bind fun ac => (bv.loadChildren T st').bind fun bc => kv ac bc) :=
  OutR.andThenNew hi (href_loadChildren (S := S) (st := st) ha).outR fun ac acv _ h1 =>
    OutR.andThenNew hi (href_loadChildren (S := T) (st := st') hb).outR fun bc bcv _ h2 => hk R h ac bc acv bcv hi h1 h2

theorem one_bor {R h t m} (hb : BorS R h t m) : BorIO R h (fromSlice [t]) (iterFromSlice [m]) :=
  fromSlice_bor (BorSL.cons_iff.2 ⟨t, [], rfl, hb, BorSL.nil_iff.2 rfl⟩)

theorem shortB_spec (hs : Stable rep refs) (hk : ChN rep refs k kv) (m : Nat) {R h a b av bv} (hi : Inv h R) (ha : BorR R h a av) (hb : BorR R h b bv) :
    New rep refs R h (shortB S st T st' m a b k) ((av.loadChildren S st).bind fun ac => (bv.cloneShortened T st' m).bind fun b' => kv ac (iterFromSlice [b'])) :=
  OutR.andThenNew hi (href_loadChildren (S := S) (st := st) ha).outR fun ac acv _ h1 =>
    withTemp_spec hs (cloneShortened_specS (S := T) (st := st') m hi hb) fun t n h' i' k' r' =>
      hk _ h' ac _ acv _ i' ((h1.keep k').mono (by sub_tac)) (one_bor r')

theorem shortA_spec (hs : Stable rep refs) (hk : ChN rep refs k kv) (m : Nat) {R h a b av bv} (hi : Inv h R) (ha : BorR R h a av) (hb : BorR R h b bv) :
    New rep refs R h (shortA S st T st' m a b k) ((av.cloneShortened S st m).bind fun a' => (bv.loadChildren T st').bind fun bc => kv (iterFromSlice [a']) bc) :=
  withTemp_spec hs (cloneShortened_specS (S := S) (st := st) m hi ha) fun t n h' i' k' r' =>
    OutR.andThenNew i' (href_loadChildren (S := T) (st := st') ((hb.keep k').mono (by sub_tac))).outR fun bc bcv _ h2 =>
      hk _ h' _ bc _ bcv i' (one_bor r') h2
end

/-- A combination of two borrowed nodes that gives a new one. -/
def CombN (f : HRef → HRef → H (Except ε Raw)) (fv : Radix.Ref → Radix.Ref → Res ε Node) : Prop :=
  ∀ R h a b av bv, Inv h R → BorR R h a av → BorR R h b bv → NewT R h (f a b) (fv av bv)

theorem detached_newT {S : BlobStore σ ε} {st : σ} (n : Nat) {R h a av} (hi : Inv h R) (ha : BorR R h a av) : NewT R h (a.detached S st n) (av.detached S st n) :=
  NewN.newT (href_detached n hi ha)

theorem outerCombineChildren_spec {S : BlobStore σ ε} {st : σ} {T : BlobStore τ ε} {st' : τ} (n : Nat) {rec recv} (hr : CombN rec recv) :
    ChN OptRep olRefs (outerCombineChildren S st T st' n rec) (outerCombineChildrenS S st T st' n recv) := by
  intro R h a b av bv hi ha hb
  cases a <;> cases av <;> first | exact ha.elim | skip
  all_goals cases b <;> cases bv <;> first | exact hb.elim | skip
  · exact newC_none hi
  · exact iter_detached n hi hb
  · exact iter_detached n hi ha
  · refine joinVec_spec ?_ hi ha hb
    intro R h x y a b hi hx hy
    cases x <;> cases a <;> first | exact hx.elim | skip
    all_goals cases y <;> cases b <;> first | exact hy.elim | skip
    · trivial
    · exact pushNew_spec (detached_newT n hi hy)
    · exact pushNew_spec (detached_newT n hi hx)
    · exact pushNew_spec (hr _ _ _ _ _ _ hi hx hy)

theorem innerCombineChildren_spec {rec : HRef → HRef → H (Except ε Raw)} {recv} (hr : CombN rec recv) :
    ChN OptRep olRefs (innerCombineChildren rec) (innerCombineChildrenS recv) := by
  intro R h a b av bv hi ha hb
  cases a <;> cases av <;> first | exact ha.elim | skip
  all_goals cases b <;> cases bv <;> first | exact hb.elim | skip
  · exact newC_none hi
  · exact newC_none hi
  · exact newC_none hi
  · refine joinVec_spec ?_ hi ha hb
    intro R h x y a b hi hx hy
    cases x <;> cases a <;> first | exact hx.elim | skip
    all_goals cases y <;> cases b <;> first | exact hy.elim | skip
    · exact pushNone_spec hi
    · exact pushNone_spec hi
    · exact pushNone_spec hi
    · exact pushNew_spec (hr _ _ _ _ _ _ hi hx hy)

theorem leftCombineChildren_spec {S : BlobStore σ ε} {st : σ} (n : Nat) {rec recv} (hr : CombN rec recv) :
    ChN OptRep olRefs (leftCombineChildren S st n rec) (leftCombineChildrenS S st n recv) := by
  intro R h a b av bv hi ha hb
  cases a <;> cases av <;> first | exact ha.elim | skip
  all_goals cases b <;> cases bv <;> first | exact hb.elim | skip
  · exact newC_none hi
  · exact newC_none hi
  · exact iter_detached n hi ha
  · refine joinVec_spec ?_ hi ha hb
    intro R h x y a b hi hx hy
    cases x <;> cases a <;> first | exact hx.elim | skip
    all_goals cases y <;> cases b <;> first | exact hy.elim | skip
    · exact pushNone_spec hi
    · exact pushNone_spec hi
    · exact pushOne_spec (detached_newT n hi hx)
    · exact pushNew_spec (hr _ _ _ _ _ _ hi hx hy)

/-! ### New trees -/

theorem short_newT {S : BlobStore σ ε} {st : σ} (n m : Nat) {R h b bv} (hi : Inv h R) (hb : BorR R h b bv) :
    NewT R h (convShortened S st n .detach b m) (bv.shortDetached S st n m) := by
  have h1 := (convOk_detach S st n).short m hi hb
  refine NewN.newT ?_
  have e : ((bv.shortDetached S st n m).bind fun n => .ok (embed n)) = (SConv.detach S st n).shortened bv m := by
    show ((bv.cloneShortened S st m).bind _).bind _ = (bv.cloneShortened S st m).bind _
    cases bv.cloneShortened S st m <;> rfl
  rw [e]
  exact h1

section
variable {S : BlobStore σ ε} {st : σ} {T : BlobStore τ ε} {st' : τ}

/-- Two prefixes are read. -/
theorem prefixes_spec {ρ γ : Type} {rep : Mem → ρ → γ → Prop} {refs : ρ → List Heap.Ref} {k : Bytes → Bytes → H (Except ε ρ)} {kv : Bytes → Bytes → Res ε γ} {R h a b av bv}
    (hi : Inv h R) (ha : BorR R h a av) (hb : BorR R h b bv) (hk : ∀ p q, New rep refs R h (k p q) (kv p q)) :
    New rep refs R h (Att.andThen (a.loadPrefix S st) fun p => Att.andThen (b.loadPrefix T st') fun q => k p q)
      ((Radix.loadPrefix S st av.pfx).bind fun p => (Radix.loadPrefix T st' bv.pfx).bind fun q => kv p q) :=
  OutR.andThenNew hi (href_loadPrefix (S := S) (st := st) ha).outR fun p pv _ e1 => by
    subst e1
    exact OutR.andThenNew hi (href_loadPrefix (S := T) (st := st') hb).outR fun q qv _ e2 => by
      subst e2
      exact hk p q

theorem bind3 {α β γ δ : Type} (x : Res ε α) (y : Res ε β) (k : α → β → Res ε γ) (g : γ → Res ε δ) :
    (x.bind fun a => y.bind fun b => (k a b).bind g) = (x.bind fun a => y.bind fun b => k a b).bind g := by
  cases x <;> cases y <;> rfl

section
variable {k : Option HIter → Option HIter → H (Except ε (Option (List Raw)))} {kv : Option TIter → Option TIter → Res ε (Option (List Node))}

theorem finishBoth (hk : ChN OptRep olRefs k kv) (p : Bytes) {v vd R h a b av bv} (hi : Inv h (v.refs ++ R)) (hv : RepV h v vd) (ha : BorR R h a av) (hb : BorR R h b bv) :
    NewT R h (finishNew p v (bothKids S st T st' a b k))
      ((av.loadChildren S st).bind fun ac => (bv.loadChildren T st').bind fun bc => (kv ac bc).bind fun c => .ok (Node.canonicalize (.mk p vd c))) := by
  rw [bind3]
  exact finishNew_spec p hi hv (bothKids_spec hk hi (ha.mono (by sub_tac)) (hb.mono (by sub_tac)))

theorem finishB (hk : ChN OptRep olRefs k kv) (p : Bytes) (m : Nat) {v vd R h a b av bv} (hi : Inv h (v.refs ++ R)) (hv : RepV h v vd) (ha : BorR R h a av)
    (hb : BorR R h b bv) : NewT R h (finishNew p v (shortB S st T st' m a b k))
      ((av.loadChildren S st).bind fun ac => (bv.cloneShortened T st' m).bind fun b' => (kv ac (iterFromSlice [b'])).bind fun c => .ok (Node.canonicalize (.mk p vd c))) := by
  rw [bind3]
  exact finishNew_spec p hi hv (shortB_spec stable_opt hk m hi (ha.mono (by sub_tac)) (hb.mono (by sub_tac)))

theorem finishA (hk : ChN OptRep olRefs k kv) (p : Bytes) (m : Nat) {v vd R h a b av bv} (hi : Inv h (v.refs ++ R)) (hv : RepV h v vd) (ha : BorR R h a av)
    (hb : BorR R h b bv) : NewT R h (finishNew p v (shortA S st T st' m a b k))
      ((av.cloneShortened S st m).bind fun a' => (bv.loadChildren T st').bind fun bc => (kv (iterFromSlice [a']) bc).bind fun c => .ok (Node.canonicalize (.mk p vd c))) := by
  rw [bind3]
  exact finishNew_spec p hi hv (shortA_spec stable_opt hk m hi (ha.mono (by sub_tac)) (hb.mono (by sub_tac)))
end

theorem outerCombine_specS {f : NewFn ε} {fv} (hf : UserN f fv) : ∀ n, CombN (outerCombine S st T st' f n) (outerCombineS S st T st' fv n) := by
  intro n
  induction n with
  | zero => intro R h a b av bv hi ha hb; trivial
  | succ n ih =>
    intro R h a b av bv hi ha hb
    have hc := outerCombineChildren_spec (S := S) (st := st) (T := T) (st' := st') n ih
    refine prefixes_spec (S := S) (st := st) (T := T) (st' := st') hi ha hb fun p q => ?_
    dsimp only
    by_cases c1 : commonPrefix p q = p.length ∧ commonPrefix p q = q.length
    · rw [if_pos c1, if_pos c1]
      exact New.andThen (outerValueNew_spec hf hi ha hb) fun v vd h1 i1 k1 r1 => finishBoth hc _ i1 r1 (ha.keep k1) (hb.keep k1)
    · rw [if_neg c1, if_neg c1]
      by_cases c2 : commonPrefix p q = p.length
      · rw [if_pos c2, if_pos c2]
        exact New.andThen (valueDetached_spec hi ha) fun v vd h1 i1 k1 r1 => finishB hc _ _ i1 r1 (ha.keep k1) (hb.keep k1)
      · rw [if_neg c2, if_neg c2]
        by_cases c3 : commonPrefix p q = q.length
        · rw [if_pos c3, if_pos c3]
          exact New.andThen (valueDetached_spec hi hb) fun v vd h1 i1 k1 r1 => finishA hc _ _ i1 r1 (ha.keep k1) (hb.keep k1)
        · rw [if_neg c3, if_neg c3]
          refine New.andThen (short_newT n _ hi ha) fun x xv h1 i1 k1 r1 => ?_
          have h2 := short_newT (S := T) (st := st') n (commonPrefix p q) i1 ((hb.keep k1).mono (R' := x.refs ++ R) (by sub_tac))
          cases hv : bv.shortDetached T st' n (commonPrefix p q) with
          | err e =>
            rw [hv] at h2
            obtain ⟨h3, e3, i3, k3⟩ := h2
            obtain ⟨h4, e4, i4, k4⟩ := dropOne_spec i3 (r1.keep k3 (reach_of_mem (by sub_tac)))
            exact ⟨h4, run_orDrop_err e3 e4, i4, (k3.mono (by sub_tac)).trans k4⟩
          | panic => trivial
          | deep => trivial
          | ok yv =>
            rw [hv] at h2
            obtain ⟨y, h3, e3, p3, r3⟩ := h2
            refine New.after (run_orDrop_ok e3) (p3.keep.mono (by sub_tac)) ?_
            have r1' := r1.keep p3.keep (reach_of_mem (by sub_tac))
            show New Rep Raw.refs R h3 _ (Res.ok _)
            by_cases c4 : Node.rank (q.drop (commonPrefix p q)).head? < Node.rank (p.drop (commonPrefix p q)).head?
            · rw [if_pos c4, if_pos c4]
              obtain ⟨z, h6, e6, p6, r6⟩ := build_spec (p.take (commonPrefix p q)) (R := R) (h := h3) (v := Fld.none) (cs := some [y, x]) (vd := none) (c := some [yv, xv])
                (p3.inv.mono (by intro r; simp only [fld_none_refs, olRefs, refsL, List.count_append, List.count_nil, List.flatMap_cons, List.flatMap_nil, List.append_nil, List.nil_append]; omega))
                (repV_none _) ⟨_, rfl, RepL.cons r3 (RepL.cons r1' RepL.nil)⟩
              exact ⟨z, h6, by rw [run_bind e6]; rfl, p6, r6⟩
            · rw [if_neg c4, if_neg c4]
              obtain ⟨z, h6, e6, p6, r6⟩ := build_spec (p.take (commonPrefix p q)) (R := R) (h := h3) (v := Fld.none) (cs := some [x, y]) (vd := none) (c := some [xv, yv])
                (p3.inv.mono (by intro r; simp only [fld_none_refs, olRefs, refsL, List.count_append, List.count_nil, List.flatMap_cons, List.flatMap_nil, List.append_nil, List.nil_append]; omega))
                (repV_none _) ⟨_, rfl, RepL.cons r1' (RepL.cons r3 RepL.nil)⟩
              exact ⟨z, h6, by rw [run_bind e6]; rfl, p6, r6⟩

theorem innerCombine_specS {f : NewFn ε} {fv} (hf : UserN f fv) : ∀ n, CombN (innerCombine S st T st' f n) (innerCombineS S st T st' fv n) := by
  intro n
  induction n with
  | zero => intro R h a b av bv hi ha hb; trivial
  | succ n ih =>
    intro R h a b av bv hi ha hb
    have hc := innerCombineChildren_spec ih
    refine prefixes_spec (S := S) (st := st) (T := T) (st' := st') hi ha hb fun p q => ?_
    dsimp only
    by_cases c1 : commonPrefix p q = p.length ∧ commonPrefix p q = q.length
    · rw [if_pos c1, if_pos c1]
      exact New.andThen (innerValueNew_spec hf hi ha hb) fun v vd h1 i1 k1 r1 => finishBoth hc _ i1 r1 (ha.keep k1) (hb.keep k1)
    · rw [if_neg c1, if_neg c1]
      by_cases c2 : commonPrefix p q = p.length
      · rw [if_pos c2, if_pos c2]
        exact finishB hc _ _ (v := Fld.none) (vd := none) (by simpa [fld_none_refs] using hi) (repV_none _) ha hb
      · rw [if_neg c2, if_neg c2]
        by_cases c3 : commonPrefix p q = q.length
        · rw [if_pos c3, if_pos c3]
          exact finishA hc _ _ (v := Fld.none) (vd := none) (by simpa [fld_none_refs] using hi) (repV_none _) ha hb
        · rw [if_neg c3, if_neg c3]
          exact finishNew_spec _ (v := Fld.none) (vd := none) (by simpa [fld_none_refs] using hi) (repV_none _) (newC_none (by simpa [fld_none_refs] using hi))

theorem leftCombine_specS {f : NewFn ε} {fv} (hf : UserN f fv) : ∀ n, CombN (leftCombine S st T st' f n) (leftCombineS S st T st' fv n) := by
  intro n
  induction n with
  | zero => intro R h a b av bv hi ha hb; trivial
  | succ n ih =>
    intro R h a b av bv hi ha hb
    have hc := leftCombineChildren_spec (S := S) (st := st) n ih
    refine prefixes_spec (S := S) (st := st) (T := T) (st' := st') hi ha hb fun p q => ?_
    dsimp only
    by_cases c1 : commonPrefix p q = p.length ∧ commonPrefix p q = q.length
    · rw [if_pos c1, if_pos c1]
      exact New.andThen (leftValueNew_spec hf hi ha hb) fun v vd h1 i1 k1 r1 => finishBoth hc _ i1 r1 (ha.keep k1) (hb.keep k1)
    · rw [if_neg c1, if_neg c1]
      by_cases c2 : commonPrefix p q = p.length
      · rw [if_pos c2, if_pos c2]
        exact New.andThen (valueDetached_spec hi ha) fun v vd h1 i1 k1 r1 => finishB hc _ _ i1 r1 (ha.keep k1) (hb.keep k1)
      · rw [if_neg c2, if_neg c2]
        by_cases c3 : commonPrefix p q = q.length
        · rw [if_pos c3, if_pos c3]
          exact finishA hc _ _ (v := Fld.none) (vd := none) (by simpa [fld_none_refs] using hi) (repV_none _) ha hb
        · rw [if_neg c3, if_neg c3]
          exact detached_newT n hi ha

/-! ### Predicates -/

/-- A question about two borrowed nodes. -/
def QueryN (f : HRef → HRef → H (Except ε Bool)) (fv : Radix.Ref → Radix.Ref → Res ε Bool) : Prop :=
  ∀ R h a b av bv, Inv h R → BorR R h a av → BorR R h b bv → Ask R h (f a b) (fv av bv)

/-- A predicate of the user. -/
def UserQ (f : HVal → HVal → H (Except ε Bool)) (fv : BlobV → BlobV → Res ε Bool) : Prop :=
  ∀ R h a b av bv, Inv h R → BorHV R h a av → BorHV R h b bv → Ask R h (f a b) (fv av bv)

theorem testFn_user (f : BlobV → BlobV → Except ε Bool) : UserQ (testFn f) (testFnS f) := by
  intro R h a b av bv hi ha hb
  refine New.after (h' := h) (x' := return f av bv) (by unfold testFn; rw [run_bind (hval_blobV ha), run_bind (hval_blobV hb)]) (Keep.refl _ _) ?_
  unfold testFnS
  cases f av bv with
  | ok x => exact New.ok hi rfl
  | error e => exact ⟨h, rfl, hi, Keep.refl _ _⟩

theorem innerTest_spec {f : HVal → HVal → H (Except ε Bool)} {fv} (hf : UserQ f fv) {R h x y} {a b : Radix.Ref} (hi : Inv h R) (ha : BorR R h x a) (hb : BorR R h y b) :
    Ask R h (innerTest f x.valueOpt y.valueOpt) (match a.val.valueOpt, b.val.valueOpt with
      | some av, some bv => fv av bv
      | _, _ => .ok false) := by
  rcases href_valueOpt ha with ⟨e1, e2⟩ | ⟨xv, av, e1, e2, h1⟩ <;> rcases href_valueOpt hb with ⟨e3, e4⟩ | ⟨yv, bv, e3, e4, h2⟩ <;> rw [e1, e2, e3, e4]
  · exact New.ok hi rfl
  · exact New.ok hi rfl
  · exact New.ok hi rfl
  · exact hf _ _ _ _ _ _ hi h1 h2

theorem leftTest_spec {f : HVal → HVal → H (Except ε Bool)} {fv} (hf : UserQ f fv) {R h x y} {a b : Radix.Ref} (hi : Inv h R) (ha : BorR R h x a) (hb : BorR R h y b) :
    Ask R h (leftTest f x.valueOpt y.valueOpt) (match a.val.valueOpt, b.val.valueOpt with
      | some av, some bv => fv av bv
      | some _, none => .ok true
      | _, _ => .ok false) := by
  rcases href_valueOpt ha with ⟨e1, e2⟩ | ⟨xv, av, e1, e2, h1⟩ <;> rcases href_valueOpt hb with ⟨e3, e4⟩ | ⟨yv, bv, e3, e4, h2⟩ <;> rw [e1, e2, e3, e4]
  · exact New.ok hi rfl
  · exact New.ok hi rfl
  · exact New.ok hi rfl
  · exact hf _ _ _ _ _ _ hi h1 h2

theorem innerChildrenPred_spec {rec : HRef → HRef → H (Except ε Bool)} {recv} (hr : QueryN rec recv) :
    ChN (fun _ a b => a = b) (fun _ => []) (innerChildrenPred rec) (innerChildrenPredS recv) := by
  intro R h a b av bv hi ha hb
  cases a <;> cases av <;> first | exact ha.elim | skip
  all_goals cases b <;> cases bv <;> first | exact hb.elim | skip
  · exact New.ok hi rfl
  · exact New.ok hi rfl
  · exact New.ok hi rfl
  · refine joinAny_spec ?_ _ _ _ (Nat.le_refl _) hi ha hb
    intro R h x y a b hi hx hy
    cases x <;> cases a <;> first | exact hx.elim | skip
    all_goals cases y <;> cases b <;> first | exact hy.elim | skip
    · exact New.ok hi rfl
    · exact New.ok hi rfl
    · exact New.ok hi rfl
    · exact hr _ _ _ _ _ _ hi hx hy

theorem leftChildrenPred_spec {rec : HRef → HRef → H (Except ε Bool)} {recv} (hr : QueryN rec recv) :
    ChN (fun _ a b => a = b) (fun _ => []) (leftChildrenPred rec) (leftChildrenPredS recv) := by
  intro R h a b av bv hi ha hb
  cases a <;> cases av <;> first | exact ha.elim | skip
  all_goals cases b <;> cases bv <;> first | exact hb.elim | skip
  · exact New.ok hi rfl
  · exact New.ok hi rfl
  · exact New.ok hi rfl
  · refine joinAny_spec ?_ _ _ _ (Nat.le_refl _) hi ha hb
    intro R h x y a b hi hx hy
    cases x <;> cases a <;> first | exact hx.elim | skip
    all_goals cases y <;> cases b <;> first | exact hy.elim | skip
    · exact New.ok hi rfl
    · exact New.ok hi rfl
    · exact New.ok hi rfl
    · exact hr _ _ _ _ _ _ hi hx hy

theorem innerCombinePred_specS {f : HVal → HVal → H (Except ε Bool)} {fv} (hf : UserQ f fv) :
    ∀ n, QueryN (innerCombinePred S st T st' f n) (innerCombinePredS S st T st' fv n) := by
  intro n
  induction n with
  | zero => intro R h a b av bv hi ha hb; trivial
  | succ n ih =>
    intro R h a b av bv hi ha hb
    refine prefixes_spec (S := S) (st := st) (T := T) (st' := st') hi ha hb fun p q => ?_
    dsimp only
    by_cases c1 : commonPrefix p q = p.length ∧ commonPrefix p q = q.length
    · rw [if_pos c1, if_pos c1]
      refine New.andThen (innerTest_spec hf hi ha hb) fun o o' h1 i1 k1 e1 => ?_
      subst e1
      cases o with
      | true => exact New.ok i1 rfl
      | false => exact bothKids_spec (innerChildrenPred_spec ih) i1 (ha.keep k1) (hb.keep k1)
    · rw [if_neg c1, if_neg c1]
      by_cases c2 : commonPrefix p q = p.length
      · rw [if_pos c2, if_pos c2]
        refine withTemp_spec stable_eq (cloneShortened_specS (S := T) (st := st') _ hi hb) fun t m h1 i1 k1 r1 => ?_
        refine OutR.andThenNew i1 (href_loadChildren (S := S) (st := st) ((ha.keep k1).mono (R' := t.refs ++ R) (by sub_tac))).outR fun ac acv _ h2 => ?_
        cases ac <;> cases acv <;> first | exact h2.elim | skip
        · exact New.ok i1 rfl
        · exact anyIter_spec (fun h => BorS (t.refs ++ R) h t m) (fun hp hk => hp.keep hk) (fun h b bv hp hi hb => ih _ h b (.owned t) bv (.owned m) hi hb hp) _ _ (Nat.le_refl _) r1 i1 h2
      · rw [if_neg c2, if_neg c2]
        by_cases c3 : commonPrefix p q = q.length
        · rw [if_pos c3, if_pos c3]
          refine withTemp_spec stable_eq (cloneShortened_specS (S := S) (st := st) _ hi ha) fun t m h1 i1 k1 r1 => ?_
          refine OutR.andThenNew i1 (href_loadChildren (S := T) (st := st') ((hb.keep k1).mono (R' := t.refs ++ R) (by sub_tac))).outR fun bc bcv _ h2 => ?_
          cases bc <;> cases bcv <;> first | exact h2.elim | skip
          · exact New.ok i1 rfl
          · exact anyIter_spec (fun h => BorS (t.refs ++ R) h t m) (fun hp hk => hp.keep hk) (fun h b bv hp hi hb => ih _ h (.owned t) b (.owned m) bv hi hp hb) _ _ (Nat.le_refl _) r1 i1 h2
        · rw [if_neg c3, if_neg c3]
          exact New.ok hi rfl

theorem leftCombinePred_specS {f : HVal → HVal → H (Except ε Bool)} {fv} (hf : UserQ f fv) :
    ∀ n, QueryN (leftCombinePred S st T st' f n) (leftCombinePredS S st T st' fv n) := by
  intro n
  induction n with
  | zero => intro R h a b av bv hi ha hb; trivial
  | succ n ih =>
    intro R h a b av bv hi ha hb
    have hc := leftChildrenPred_spec ih
    refine prefixes_spec (S := S) (st := st) (T := T) (st' := st') hi ha hb fun p q => ?_
    dsimp only
    by_cases c1 : commonPrefix p q = p.length ∧ commonPrefix p q = q.length
    · rw [if_pos c1, if_pos c1]
      refine New.andThen (leftTest_spec hf hi ha hb) fun o o' h1 i1 k1 e1 => ?_
      subst e1
      cases o with
      | true => exact New.ok i1 rfl
      | false => exact bothKids_spec hc i1 (ha.keep k1) (hb.keep k1)
    · rw [if_neg c1, if_neg c1]
      by_cases c2 : commonPrefix p q = p.length
      · rw [if_pos c2, if_pos c2, isSome_valueOpt ha]
        by_cases c4 : av.val.valueOpt.isSome = true
        · rw [if_pos c4, if_pos c4]; exact New.ok hi rfl
        · rw [if_neg c4, if_neg c4]; exact shortB_spec stable_eq hc _ hi ha hb
      · rw [if_neg c2, if_neg c2]
        by_cases c3 : commonPrefix p q = q.length
        · rw [if_pos c3, if_pos c3]; exact shortA_spec stable_eq hc _ hi ha hb
        · rw [if_neg c3, if_neg c3]; exact New.ok hi rfl
end

end

end Radix.Heap.Att
