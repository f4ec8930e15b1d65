import Verif.Proofs.UpdateApi
import Verif.Proofs.History
import Verif.Proofs.Iter

/-
Proof-internal: what an in-place operation on stored nodes leaves behind, whatever its outcome is.
-/

set_option linter.unusedVariables false

namespace Radix
open Node

/-! ### Sets of entries -/

/-- A set of entries. -/
abbrev Ents := Bytes → Bytes → Prop

/-- All entries of the node are in `A`. -/
def In (n : Node) (A : Ents) : Prop := ∀ k v, (k, v) ∈ ents [] n → A k v

/-- The entries with keys that start with `p`, without `p`. -/
def BelowE (A : Ents) (p : Bytes) : Ents := fun k v => A (p ++ k) v

theorem below_below (A : Ents) (p q : Bytes) : BelowE (BelowE A p) q = BelowE A (p ++ q) := by
  funext k v; simp [BelowE]

theorem in_iff {n : Node} {A : Ents} :
    In n A ↔ (∀ x, n.val = some x → A n.pfx x) ∧ ∀ c ∈ n.kids, In c (BelowE A n.pfx) := by
  unfold In
  constructor
  · intro h
    refine ⟨fun x hx => h _ _ ?_, fun c hc k v hk => h _ _ ?_⟩
    · rw [ents_eq, hx]; simp
    · rw [ents_eq, List.mem_append, mem_entsL]
      refine Or.inr ⟨c, hc, ?_⟩
      rw [ents_pre]
      exact List.mem_map.2 ⟨_, hk, rfl⟩
  · rintro ⟨h1, h2⟩ k v hk
    rw [ents_eq, List.mem_append, mem_entsL] at hk
    rcases hk with hk | ⟨c, hc, hk⟩
    · cases hv : n.val with
      | none => rw [hv] at hk; simp at hk
      | some x => rw [hv] at hk; simp at hk; obtain ⟨rfl, rfl⟩ := hk; exact h1 _ hv
    · rw [ents_pre] at hk
      obtain ⟨⟨k', v'⟩, hk', e⟩ := List.mem_map.1 hk
      cases e
      exact h2 c hc _ _ hk'

theorem In.mono {n : Node} {A C : Ents} (h : In n A) (hc : ∀ k v, A k v → C k v) : In n C :=
  fun k v hk => hc _ _ (h k v hk)

theorem in_cloneShortened {n : Node} {A : Ents} (h : In n A) (k : Nat) :
    In (n.cloneShortened k) (BelowE A (n.pfx.take k)) := by
  rw [in_iff] at h ⊢
  refine ⟨fun x hx => ?_, fun c hc => ?_⟩
  · have := h.1 x hx
    show A (n.pfx.take k ++ n.pfx.drop k) x
    rw [List.take_append_drop]; exact this
  · have := h.2 c hc
    rw [below_below]
    show In c (BelowE A (n.pfx.take k ++ n.pfx.drop k))
    rw [List.take_append_drop]; exact this

theorem in_empty (A : Ents) : In Node.empty A := in_iff.2 ⟨(fun x h => by cases h), (fun c hc => by cases hc)⟩

/-! ### Outcomes -/

section
variable {ε : Type}

/-- A success satisfies `Q`. -/
def OkP {α} (x : Res ε α) (Q : α → Prop) : Prop :=
  match x with
  | .ok a => Q a
  | _ => True

/-- After a success `Q` holds, after every other outcome `R`. -/
def UA {α τ} (x : Res ε α × τ) (Q : α → τ → Prop) (R : τ → Prop) : Prop :=
  match x with
  | (.ok a, t) => Q a t
  | (_, t) => R t

theorem okP_of_rp {E P : Prop} {α} {x : Res ε α} {Q : α → Prop} (h : RP E P x Q) : OkP x Q := by
  cases x <;> first | exact h | trivial

theorem okP_imp {α} {x : Res ε α} {Q Q' : α → Prop} (h : OkP x Q) (hq : ∀ a, Q a → Q' a) : OkP x Q' := by
  cases x <;> first | exact hq _ h | trivial

theorem okP_bind {α β} {x : Res ε α} {f : α → Res ε β} {Q : α → Prop} {Q' : β → Prop} (h : OkP x Q)
    (hf : ∀ a, Q a → OkP (f a) Q') : OkP (x.bind f) Q' := by
  cases x <;> first | exact hf _ h | trivial

theorem okP_of_rpost {σ : Type} {S : BlobStore σ ε} {L : Lawful S} {st : σ} {α} {x : Res ε α} {Q : α → Prop}
    (h : RPost L st x Q) : OkP x Q := by
  cases x <;> first | exact h | trivial

theorem ua_bind {α β τ} {x : Res ε α × τ} {f : α → τ → Res ε β × τ} {Q : α → τ → Prop} {Q' : β → τ → Prop} {R : τ → Prop}
    (h : UA x Q R) (hf : ∀ a t, Q a t → UA (f a t) Q' R) : UA (stBind x f) Q' R := by
  obtain ⟨r, t⟩ := x
  cases r with
  | ok a => exact hf a t h
  | err e => exact h
  | panic => exact h
  | deep => exact h

theorem ua_read {α β τ} {y : Res ε α} {t : τ} {f : α → τ → Res ε β × τ} {Q : α → Prop} {Q' : β → τ → Prop} {R : τ → Prop}
    (h : OkP y Q) (hr : R t) (hf : ∀ a, Q a → UA (f a t) Q' R) : UA (stBind (y, t) f) Q' R := by
  cases y with
  | ok a => exact hf a h
  | err e => exact hr
  | panic => exact hr
  | deep => exact hr

theorem ua_imp {α τ} {x : Res ε α × τ} {Q Q' : α → τ → Prop} {R R' : τ → Prop} (h : UA x Q R)
    (hq : ∀ a t, Q a t → Q' a t) (hr : ∀ t, R t → R' t) : UA x Q' R' := by
  obtain ⟨r, t⟩ := x
  cases r with
  | ok a => exact hq a t h
  | err e => exact hr t h
  | panic => exact hr t h
  | deep => exact hr t h

theorem ua_all {α τ} {x : Res ε α × τ} {R : τ → Prop} (h : UA x (fun _ => R) R) : R x.2 := by
  obtain ⟨r, t⟩ := x
  cases r <;> exact h

theorem ua_of {α τ} {x : Res ε α × τ} {R : τ → Prop} (h : R x.2) : UA x (fun _ => R) R := by
  obtain ⟨r, t⟩ := x
  cases r <;> exact h

end

/-! ### States of the target -/

section
variable {σ ε : Type} {S : BlobStore σ ε} {L : Lawful S} {st : σ}

/-- The node stands for a sorted tree with entries from `A`. -/
def Hold (L : Lawful S) (st : σ) (a : SNode) (A : Ents) : Prop := ∃ n, Rep L false st a n ∧ Ord n ∧ In n A

/-- The nodes stand for sorted siblings with entries from `A`. -/
def HoldL (L : Lawful S) (st : σ) (l : List SNode) (A : Ents) : Prop :=
  ∃ ns, RepL L false st l ns ∧ OrdK ns ∧ ∀ n ∈ ns, In n A

/-- A state in the middle of an operation: the value is already from `C`, the children are still from `A`. -/
def Mid (L : Lawful S) (st : σ) (a : SNode) (p : Bytes) (A C : Ents) : Prop :=
  ∃ w c, a.pfx = .data p ∧ ValRep L st a.val w ∧ (∀ x, w = some x → C p x) ∧ RepC L false st a.children c ∧ OrdO c ∧
    ∀ d ∈ c.getD [], In d (BelowE A p)

theorem pfx_data {b : BlobV} {p : Bytes} (h : PfxRep L false st b p) : b = .data p := by
  rcases h with h | ⟨h, _⟩
  · exact h
  · cases h

theorem mid_of {a : SNode} {n : Node} {A C : Ents} (h : Rep L false st a n) (ho : Ord n) (hi : In n A)
    (hAC : ∀ k v, A k v → C k v) : Mid L st a n.pfx A C := by
  have hr := rep_iff.1 h
  have := in_iff.1 hi
  refine ⟨n.val, n.ch, pfx_data hr.1, hr.2.1, fun x hx => hAC _ _ (this.1 x hx), hr.2.2, ?_, this.2⟩
  cases n; exact ho

theorem Mid.hold {a : SNode} {p : Bytes} {A C : Ents} (h : Mid L st a p A C) (hAC : ∀ k v, A k v → C k v) :
    Hold L st a C := by
  obtain ⟨w, c, h1, h2, h3, h4, h5, h6⟩ := h
  refine ⟨mk p w c, rep_iff.2 ⟨Or.inl h1, h2, h4⟩, h5, in_iff.2 ⟨h3, fun d hd => (h6 d hd).mono fun k v => hAC _ _⟩⟩

theorem Mid.pfx {a : SNode} {p : Bytes} {A C : Ents} (h : Mid L st a p A C) : a.pfx = .data p := by
  obtain ⟨w, c, h1, _⟩ := h; exact h1

theorem Mid.setVal {a : SNode} {p : Bytes} {A C C' : Ents} (h : Mid L st a p A C) {v : BlobV} {w : Option Bytes}
    (hv : ValRep L st v w) (hw : ∀ x, w = some x → C' p x) : Mid L st (a.setVal v) p A C' := by
  obtain ⟨w', c, h1, h2, h3, h4, h5, h6⟩ := h
  exact ⟨w, c, by rw [setVal_pfx]; exact h1, by rw [setVal_val]; exact hv, hw, by rw [setVal_children]; exact h4, h5, h6⟩

theorem Mid.noVal {a : SNode} {p : Bytes} {A C C' : Ents} (h : Mid L st a p A C) : Mid L st (a.setVal .none) p A C' :=
  h.setVal (w := none) rfl fun x hx => by cases hx

theorem Mid.noChildren {a : SNode} {p : Bytes} {A C : Ents} (h : Mid L st a p A C) : Mid L st a.noChildren p A C := by
  obtain ⟨w, c, h1, h2, h3, h4, h5, h6⟩ := h
  exact ⟨w, none, h1, h2, h3, rfl, trivial, fun d hd => by cases hd⟩

theorem Mid.split {a : SNode} {p : Bytes} {A C : Ents} (h : Mid L st a p A A) {k : Nat} (hk : k < p.length) :
    ∃ a', splitS S st k a = (.ok (), a') ∧ Mid L st a' (p.take k) A C := by
  obtain ⟨w, c, h1, h2, h3, h4, h5, h6⟩ := h
  refine ⟨.arc (.data (p.take k)) .none [.ofParts (.data (p.drop k)) a.val a.children], ?_, ?_⟩
  · simp only [splitS, h1]; rfl
  · refine ⟨none, some [mk (p.drop k) w c], rfl, rfl, (fun x hx => by cases hx), ?_, ?_, ?_⟩
    · simp only [RepC]
      exact Or.inl ⟨_, rfl, repL_single (rep_ofParts (Or.inl rfl) h2 h4)⟩
    · simp only [OrdO, OrdK, pfx_mk]
      refine ⟨?_, ?_, ?_, trivial⟩
      · intro e; have := congrArg List.length e; simp at this; omega
      · exact h5
      · intro x hx; cases hx
    · intro d hd
      simp only [Option.getD_some, List.mem_singleton] at hd
      subst hd
      rw [in_iff]
      refine ⟨fun x hx => ?_, fun d hd => ?_⟩
      · show A (p.take k ++ p.drop k) x
        rw [List.take_append_drop]; exact h3 x hx
      · rw [below_below]
        show In d (BelowE A (p.take k ++ p.drop k))
        rw [List.take_append_drop]; exact h6 d hd

theorem Mid.load {a : SNode} {p : Bytes} {A C : Ents} (h : Mid L st a p A C) :
    UA (loadChildrenMutS S st a) (fun ac a' => Mid L st a' p A C ∧ ∃ ns, RepL L false st ac ns ∧ OrdK ns ∧
      ∀ n ∈ ns, In n (BelowE A p)) fun a' => Mid L st a' p A C := by
  obtain ⟨w, c, h1, h2, h3, h4, h5, h6⟩ := h
  have hm : Mid L st a p A C := ⟨w, c, h1, h2, h3, h4, h5, h6⟩
  have hr : Rep L false st a (mk p w c) := rep_iff.2 ⟨Or.inl h1, h2, h4⟩
  have key := loadChildrenMut_rep (E := True) (P := True) (S := S) (fun _ => trivial) hr
  have ho : OrdK (mk p w c).kids := (ord_iff _).1 h5
  rcases e : loadChildrenMutS S st a with ⟨r, a'⟩
  rw [e] at key
  have hst : ∀ {x : Res ε (List SNode)}, loadChildrenMutS S st a = (x, a') → (∀ l, x ≠ .ok l) → a' = a := by
    intro x hx hn
    unfold loadChildrenMutS at hx
    split at hx
    · cases hx; exact absurd rfl (hn _)
    · rename_i i hi
      revert hx
      generalize ((loadIter S st i).bind fun o => match o with | none => Res.ok [] | some it => collectIter it) = y
      intro hx
      cases y with
      | ok l => simp only [stBind] at hx; cases hx; exact absurd rfl (hn _)
      | err e => simp only [stBind] at hx; cases hx; rfl
      | panic => simp only [stBind] at hx; cases hx; rfl
      | deep => simp only [stBind] at hx; cases hx; rfl
  cases r with
  | ok ac =>
    obtain ⟨k1, k2, k3, k4⟩ : RepL L false st ac (mk p w c).kids ∧ a'.pfx = a.pfx ∧ a'.val = a.val ∧
      ∀ l, a.children = .inl l → ac = l := key
    have hch : a'.children = .inl ac := by
      have e' := e
      unfold loadChildrenMutS at e'
      split at e'
      · rename_i l hl; cases e'; exact hl
      · revert e'
        generalize ((loadIter S st _).bind fun o => match o with | none => Res.ok [] | some it => collectIter it) = y
        intro hx
        cases y with
        | ok l => simp only [stBind] at hx; cases hx; rfl
        | err e => simp only [stBind] at hx; cases hx
        | panic => simp only [stBind] at hx; cases hx
        | deep => simp only [stBind] at hx; cases hx
    refine ⟨⟨w, some (mk p w c).kids, by rw [k2]; exact h1, by rw [k3]; exact h2, h3, ?_, ho, h6⟩, _, k1, ho, h6⟩
    rw [hch]; simp only [RepC]; exact Or.inl ⟨_, rfl, k1⟩
  | err e' => show Mid L st a' p A C; rw [hst e (by simp)]; exact hm
  | panic => show Mid L st a' p A C; rw [hst e (by simp)]; exact hm
  | deep => show Mid L st a' p A C; rw [hst e (by simp)]; exact hm

theorem Mid.setArc {a : SNode} {p : Bytes} {A C : Ents} (h : Mid L st a p A C) {l : List SNode}
    (hl : HoldL L st l (BelowE C p)) : Mid L st (a.setArc l) p C C := by
  obtain ⟨w, c, h1, h2, h3, h4, h5, h6⟩ := h
  obtain ⟨ns, k1, k2, k3⟩ := hl
  refine ⟨w, some ns, h1, h2, h3, ?_, k2, k3⟩
  simp only [SNode.setArc, SNode.children, RepC]
  exact Or.inl ⟨_, rfl, k1⟩

/-- `canonicalize` keeps the entries and the order; the first byte stays unless the node becomes empty. -/
theorem Mid.canon {a : SNode} {p : Bytes} {A C : Ents} (h : Mid L st a p A C) (hAC : ∀ k v, A k v → C k v) (dbg : Bool) :
    Hold L st (canonicalizeS (ε := ε) dbg a).2 C ∧
    ((canonicalizeS (ε := ε) dbg a).1 = .ok () ∧ (canonicalizeS (ε := ε) dbg a).2.isEmpty = true ∨ p = [] ∨
      (canonicalizeS (ε := ε) dbg a).2.pfx.firstByte = p.head?) := by
  unfold canonicalizeS
  split
  · exact ⟨h.hold hAC, Or.inr (Or.inr (by rw [h.pfx]; rfl))⟩
  dsimp only
  have hm : Hold L st a.merge C ∧ (p = [] ∨ a.merge.pfx.firstByte = p.head?) := by
    unfold SNode.merge
    split
    · rename_i ch hv hc
      obtain ⟨w, c, h1, h2, h3, h4, h5, h6⟩ := h
      rw [hc] at h4
      cases c with
      | none => simp only [RepC] at h4; cases h4
      | some l =>
        simp only [RepC] at h4
        rcases h4 with ⟨as, e1, e2⟩ | ⟨_, _, _, e1, _⟩
        rotate_left
        · cases e1
        cases e1
        have hl := repL_length e2
        cases l with
        | nil => cases hl
        | cons d l =>
        cases l with
        | cons _ _ => simp at hl
        | nil =>
        obtain ⟨_, _, e3, e4, _⟩ := repL_cons.1 e2
        cases e3
        have hd := rep_iff.1 e4
        have hdp := pfx_data hd.1
        have hin := in_iff.1 (h6 d (by simp))
        simp only [h1, hdp, BlobV.slice]
        refine ⟨⟨mk (p ++ d.pfx) d.val d.ch, rep_ofParts (Or.inl rfl) hd.2.1 hd.2.2, ?_, ?_⟩, ?_⟩
        · have ho : Ord d := (OrdK.mem (l := [d]) h5 (by simp)).2
          cases d; exact ho
        · rw [in_iff]
          refine ⟨fun x hx => hAC _ _ (hin.1 x hx), fun c hc => ?_⟩
          have := hin.2 c hc
          rw [below_below] at this
          exact this.mono fun k v => hAC _ _
        · cases p with
          | nil => exact Or.inl rfl
          | cons x p =>
            right
            have hp : ∀ (b v : BlobV) (c : List SNode ⊕ Bytes), (SNode.ofParts b v c).pfx = b := fun b v c => by cases c <;> rfl
            rw [hp]; rfl
    · exact ⟨h.hold hAC, Or.inr (by rw [h.pfx]; rfl)⟩
  split
  · exact ⟨⟨Node.empty, by rw [rep_iff]; exact ⟨Or.inl rfl, rfl, rfl⟩, ord_empty, in_empty _⟩, Or.inl ⟨rfl, rfl⟩⟩
  · exact ⟨hm.1, Or.inr hm.2⟩

end

/-! ### Lists -/

section
variable {σ τ ε : Type} {e : UEnv σ τ ε} {LA : Lawful e.SA} {LB : Lawful e.SB} {gb : Bool}

theorem ordK_sub {l l' : List Node} (h : OrdK l) (hs : l'.Sublist l) : OrdK l' := by
  rw [ordK_iff] at h ⊢
  exact ⟨fun c hc => h.1 c (hs.subset hc), h.2.sublist hs⟩

theorem repL_sublist {σ ε : Type} {S : BlobStore σ ε} {L : Lawful S} {g : Bool} {st : σ} {as bs : List SNode}
    (hs : bs.Sublist as) : ∀ {l : List Node}, RepL L g st as l → ∃ l', l'.Sublist l ∧ RepL L g st bs l' := by
  induction hs with
  | slnil => intro l h; exact ⟨[], List.nil_sublist _, repL_nil.2 rfl⟩
  | cons a _ ih =>
    intro l h
    cases l with
    | nil => cases repL_nil.1 h
    | cons n l =>
      obtain ⟨_, _, e1, h1, h2⟩ := repL_cons.1 h
      cases e1
      obtain ⟨l', h3, h4⟩ := ih h2
      exact ⟨l', h3.cons _, h4⟩
  | cons_cons a _ ih =>
    intro l h
    cases l with
    | nil => cases repL_nil.1 h
    | cons n l =>
      obtain ⟨_, _, e1, h1, h2⟩ := repL_cons.1 h
      cases e1
      obtain ⟨l', h3, h4⟩ := ih h2
      exact ⟨n :: l', h3.cons_cons _, repL_cons.2 ⟨_, _, rfl, h1, h4⟩⟩

theorem holdL_sublist {σ ε : Type} {S : BlobStore σ ε} {L : Lawful S} {st : σ} {as bs : List SNode} (hs : bs.Sublist as)
    {A : Ents} (h : HoldL L st as A) : HoldL L st bs A := by
  obtain ⟨ns, h1, h2, h3⟩ := h
  obtain ⟨ns', h4, h5⟩ := repL_sublist hs h1
  exact ⟨ns', h5, ordK_sub h2 h4, fun n hn => h3 n (h4.subset hn)⟩

theorem firstByte_pfx {σ ε : Type} {S : BlobStore σ ε} {L : Lawful S} {g : Bool} {st : σ} {b : BlobV} {n : Node}
    (h : PfxRep L g st b n.pfx) : b.firstByte = n.firstByte := pfxRep_firstByte h

/-- The outcome of an operation on a node: it is empty and will be dropped, or its first byte is the old one. -/
def Tip (x : Res ε Unit × SNode) (c : Option UInt8) : Prop :=
  x.1 = .ok () ∧ x.2.isEmpty = true ∨ x.2.pfx.firstByte = c

/-- What a recursive call leaves behind. -/
def RecOK (LA : Lawful e.SA) (LB : Lawful e.SB) (gb : Bool) (rec : SNode → Ref → Res ε Unit × SNode) (A B C : Ents) : Prop :=
  ∀ a b n m, Rep LA false e.stA a n → Ord n → In n A → RefRep LB gb e.stB b m → Ord m → In m B →
    Hold LA e.stA (rec a b).2 C ∧ (n.pfx ≠ [] → n.firstByte = m.firstByte → Tip (rec a b) n.firstByte)

theorem holdL_of {ds ss : List SNode} {dn sn : List Node} {A C : Ents} (hAC : ∀ k v, A k v → C k v)
    (hd : RepL LA false e.stA ds dn) (hs : RepL LA false e.stA ss sn) (ho : OrdK (dn ++ sn))
    (hdi : ∀ n ∈ dn, In n C) (hsi : ∀ n ∈ sn, In n A) : HoldL LA e.stA (ds ++ ss) C :=
  ⟨_, repL_append hd hs, ho, fun n hn => (List.mem_append.1 hn).elim (hdi n) fun h => (hsi n h).mono hAC⟩

theorem loop_hold {rec : SNode → Ref → Res ε Unit × SNode} {keep : Bool} {greater : Ref → Res ε (Option SNode)}
    {ab : List SNode → List SNode → List SNode} (hab : Keeps ab) {A B C : Ents} (hAC : ∀ k v, A k v → C k v)
    (hrec : RecOK LA LB gb rec A B C)
    (hgr : ∀ b m, RefRep LB gb e.stB b m → Ord m → In m B → OkP (greater b) fun o =>
      ∀ x, o = some x → ∃ n, Rep LA false e.stA x n ∧ Ord n ∧ In n C ∧ n.pfx = m.pfx)
    {sn mn : List Node} {done src : List SNode} {dn : List Node} {it : TIter}
    (hd : RepL LA false e.stA done dn) (hs : RepL LA false e.stA src sn) (hi : IterRep LB gb e.stB it mn)
    (ho : OrdK (dn ++ sn)) (hom : OrdK mn) (hdm : ∀ d ∈ dn, ∀ m ∈ mn, rank d.firstByte < rank m.firstByte)
    (hdi : ∀ n ∈ dn, In n C) (hsi : ∀ n ∈ sn, In n A) (hmi : ∀ m ∈ mn, In m B) :
    HoldL LA e.stA (loopS rec keep greater ab done src it).2 C := by
  fun_induction join sn mn generalizing done src dn it with
  | case1 =>
    cases (repL_nil (L := LA) (g := false)).1 hs
    rw [loopS_nn hi.next_nil]
    exact ⟨dn, hd, by simpa using ho, hdi⟩
  | case2 n l ih =>
    obtain ⟨a, src, rfl, h1, h2⟩ := (repL_cons (L := LA) (g := false)).1 hs
    rw [loopS_sn hi.next_nil]
    cases keep
    · exact ih hd h2 hi (ordK_sub ho (by simp)) hom (by simp) hdi (fun x hx => hsi x (List.mem_cons_of_mem _ hx)) hmi
    · refine ih (dn := dn ++ [n]) (repL_append hd (repL_single h1)) h2 hi (by simpa using ho) hom (by simp) ?_
        (fun x hx => hsi x (List.mem_cons_of_mem _ hx)) hmi
      intro x hx
      rcases List.mem_append.1 hx with hx | hx
      · exact hdi x hx
      · simp only [List.mem_singleton] at hx; subst hx; exact (hsi x List.mem_cons_self).mono hAC
  | case3 m ml ih =>
    cases (repL_nil (L := LA) (g := false)).1 hs
    obtain ⟨b, it', e1, h1, h2⟩ := hi.next_cons
    rw [loopS_ns e1]
    have hom' := (ordK_iff _).1 hom
    refine ua_all (R := fun l => HoldL LA e.stA l C) (ua_read (hgr b m h1 (hom.mem List.mem_cons_self).2 (hmi m List.mem_cons_self)) ?_ fun o hx => ua_of ?_)
    · exact holdL_sublist (hab done []) (holdL_of hAC hd hs ho hdi hsi)
    · cases o with
      | none =>
        simp only [Option.toList_none, List.append_nil]
        exact ih hd hs h2 ho (ordK_sub hom (List.sublist_cons_self _ _)) (fun d hd m' hm => hdm d hd m' (List.mem_cons_of_mem _ hm)) hdi
          hsi (fun m' hm => hmi m' (List.mem_cons_of_mem _ hm))
      | some x =>
        obtain ⟨n, k1, k2, k3, k4⟩ := hx x rfl
        have hf : n.firstByte = m.firstByte := by unfold firstByte; rw [k4]
        refine ih (dn := dn ++ [n]) (repL_append hd (repL_single k1)) hs h2 ?_ (ordK_sub hom (List.sublist_cons_self _ _)) ?_ ?_
          hsi (fun m' hm => hmi m' (List.mem_cons_of_mem _ hm))
        · rw [List.append_nil] at ho ⊢
          rw [ordK_iff] at ho ⊢
          refine ⟨fun c hc => ?_, ?_⟩
          · rcases List.mem_append.1 hc with hc | hc
            · exact ho.1 c hc
            · simp only [List.mem_singleton] at hc; subst hc; exact ⟨by rw [k4]; exact (hom.mem List.mem_cons_self).1, k2⟩
          · rw [List.pairwise_append]
            refine ⟨ho.2, List.pairwise_singleton _ _, fun d hd c hc => ?_⟩
            simp only [List.mem_singleton] at hc; subst hc
            rw [hf]; exact hdm d hd m List.mem_cons_self
        · intro d hd m' hm
          rcases List.mem_append.1 hd with hd | hd
          · exact hdm d hd m' (List.mem_cons_of_mem _ hm)
          · simp only [List.mem_singleton] at hd; subst hd
            rw [hf]; exact (List.pairwise_cons.1 hom'.2).1 m' hm
        · intro d hd
          rcases List.mem_append.1 hd with hd | hd
          · exact hdi d hd
          · simp only [List.mem_singleton] at hd; subst hd; exact k3
  | case4 n l m ml hlt ih =>
    obtain ⟨a, src, rfl, h1, h2⟩ := (repL_cons (L := LA) (g := false)).1 hs
    obtain ⟨b, it', e1, h3, h4⟩ := hi.next_cons
    rw [loopS_ss e1, rank_firstByte (rep_iff.1 h1).1, rank_firstByte h3.pfx, if_pos hlt]
    cases keep
    · exact ih hd h2 hi (ordK_sub ho (by simp)) hom hdm hdi (fun x hx => hsi x (List.mem_cons_of_mem _ hx)) hmi
    · refine ih (dn := dn ++ [n]) (repL_append hd (repL_single h1)) h2 hi (by simpa using ho) hom ?_ ?_
        (fun x hx => hsi x (List.mem_cons_of_mem _ hx)) hmi
      · intro d hd m' hm
        rcases List.mem_append.1 hd with hd | hd
        · exact hdm d hd m' hm
        · simp only [List.mem_singleton] at hd; subst hd
          rcases List.mem_cons.1 hm with rfl | hm
          · exact hlt
          · exact Nat.lt_trans hlt ((List.pairwise_cons.1 ((ordK_iff _).1 hom).2).1 m' hm)
      · intro x hx
        rcases List.mem_append.1 hx with hx | hx
        · exact hdi x hx
        · simp only [List.mem_singleton] at hx; subst hx; exact (hsi x List.mem_cons_self).mono hAC
  | case5 n l m ml hlt hgt ih =>
    obtain ⟨a, src, rfl, h1, h2⟩ := (repL_cons (L := LA) (g := false)).1 hs
    obtain ⟨b, it', e1, h3, h4⟩ := hi.next_cons
    rw [loopS_ss e1, rank_firstByte (rep_iff.1 h1).1, rank_firstByte h3.pfx, if_neg hlt, if_pos hgt]
    have hom' := (ordK_iff _).1 hom
    refine ua_all (R := fun l => HoldL LA e.stA l C) (ua_read (hgr b m h3 (hom.mem List.mem_cons_self).2 (hmi m List.mem_cons_self)) ?_ fun o hx => ua_of ?_)
    · exact holdL_sublist (hab done _) (holdL_of hAC hd hs ho hdi hsi)
    · cases o with
      | none =>
        simp only [Option.toList_none, List.append_nil]
        exact ih hd hs h4 ho (ordK_sub hom (List.sublist_cons_self _ _)) (fun d hd m' hm => hdm d hd m' (List.mem_cons_of_mem _ hm)) hdi
          hsi (fun m' hm => hmi m' (List.mem_cons_of_mem _ hm))
      | some x =>
        obtain ⟨n', k1, k2, k3, k4⟩ := hx x rfl
        have hf : n'.firstByte = m.firstByte := by unfold firstByte; rw [k4]
        refine ih (dn := dn ++ [n']) (repL_append hd (repL_single k1)) hs h4 ?_ (ordK_sub hom (List.sublist_cons_self _ _)) ?_ ?_
          hsi (fun m' hm => hmi m' (List.mem_cons_of_mem _ hm))
        · rw [ordK_iff] at ho ⊢
          rw [List.append_assoc]
          have hp := List.pairwise_append.1 ho.2
          refine ⟨fun c hc => ?_, ?_⟩
          · rcases List.mem_append.1 hc with hc | hc
            · exact ho.1 c (List.mem_append_left _ hc)
            · rcases List.mem_cons.1 hc with rfl | hc
              · exact ⟨by rw [k4]; exact (hom.mem List.mem_cons_self).1, k2⟩
              · exact ho.1 c (List.mem_append_right _ hc)
          · rw [List.pairwise_append]
            refine ⟨hp.1, ?_, fun d hd c hc => ?_⟩
            · refine List.pairwise_cons.2 ⟨fun c hc => ?_, hp.2.1⟩
              rw [hf]
              rcases List.mem_cons.1 hc with rfl | hc
              · exact hgt
              · exact Nat.lt_trans hgt ((List.pairwise_cons.1 hp.2.1).1 c hc)
            · rcases List.mem_cons.1 hc with rfl | hc
              · rw [hf]; exact hdm d hd m List.mem_cons_self
              · exact hp.2.2 d hd c hc
        · intro d hd m' hm
          rcases List.mem_append.1 hd with hd | hd
          · exact hdm d hd m' (List.mem_cons_of_mem _ hm)
          · simp only [List.mem_singleton] at hd; subst hd
            rw [hf]; exact (List.pairwise_cons.1 hom'.2).1 m' hm
        · intro d hd
          rcases List.mem_append.1 hd with hd | hd
          · exact hdi d hd
          · simp only [List.mem_singleton] at hd; subst hd; exact k3
  | case6 n l m ml hlt hgt ih =>
    obtain ⟨a, src, rfl, h1, h2⟩ := (repL_cons (L := LA) (g := false)).1 hs
    obtain ⟨b, it', e1, h3, h4⟩ := hi.next_cons
    rw [loopS_ss e1, rank_firstByte (rep_iff.1 h1).1, rank_firstByte h3.pfx, if_neg hlt, if_neg hgt]
    have hom' := (ordK_iff _).1 hom
    have hn := ho.mem (c := n) (by simp)
    have hfb : n.firstByte = m.firstByte := rank_inj (by omega)
    obtain ⟨⟨n', k1, k2, k3⟩, k4⟩ := hrec a b n m h1 hn.2 (hsi n List.mem_cons_self) h3 (hom.mem List.mem_cons_self).2
      (hmi m List.mem_cons_self)
    have k4 := k4 hn.1 hfb
    have hord : n'.firstByte = n.firstByte → OrdK ((dn ++ [n']) ++ l) := by
      intro hf
      rw [List.append_assoc]
      rw [ordK_iff] at ho ⊢
      have hp := List.pairwise_append.1 ho.2
      have hq := List.pairwise_cons.1 hp.2.1
      refine ⟨fun c hc => ?_, List.pairwise_append.2 ⟨hp.1, List.pairwise_cons.2 ⟨fun c hc => ?_, hq.2⟩, fun d hd c hc => ?_⟩⟩
      · rcases List.mem_append.1 hc with hc | hc
        · exact ho.1 c (List.mem_append_left _ hc)
        · rcases List.mem_cons.1 hc with rfl | hc
          · refine ⟨fun he => ?_, k2⟩
            obtain ⟨z, hz⟩ := firstByte_of_ne_nil hn.1
            rw [hz] at hf; unfold firstByte at hf; rw [he] at hf; cases hf
          · exact ho.1 c (List.mem_append_right _ (List.mem_cons_of_mem _ hc))
      · rw [hf]; exact hq.1 c hc
      · rcases List.mem_cons.1 hc with rfl | hc
        · rw [hf]; exact hp.2.2 d hd n List.mem_cons_self
        · exact hp.2.2 d hd c (List.mem_cons_of_mem _ hc)
    have hin : ∀ d ∈ dn ++ [n'], In d C := by
      intro d hd
      rcases List.mem_append.1 hd with hd | hd
      · exact hdi d hd
      · simp only [List.mem_singleton] at hd; subst hd; exact k3
    have hfirst : (rec a b).2.pfx.firstByte = n.firstByte → n'.firstByte = n.firstByte := by
      intro h; rw [← h, firstByte_pfx (rep_iff.1 k1).1]
    have hl : ∀ x ∈ l, In x A := fun x hx => hsi x (List.mem_cons_of_mem _ hx)
    have hm' : ∀ m' ∈ ml, In m' B := fun m' hm => hmi m' (List.mem_cons_of_mem _ hm)
    rcases hr : (rec a b).1 with u | e' | _ | _
    · -- success
      simp only [stBind]
      cases he : (rec a b).2.isEmpty
      · have hf := hfirst (k4.elim (fun h => by rw [he] at h; cases h.2) id)
        refine ih (dn := dn ++ [n']) (repL_append hd (repL_single k1)) h2 h4 (hord hf) (ordK_sub hom (List.sublist_cons_self _ _)) ?_
          hin hl hm'
        intro d hd m' hm
        rcases List.mem_append.1 hd with hd | hd
        · exact hdm d hd m' (List.mem_cons_of_mem _ hm)
        · simp only [List.mem_singleton] at hd; subst hd
          rw [hf, hfb]; exact (List.pairwise_cons.1 hom'.2).1 m' hm
      · exact ih hd h2 h4 (ordK_sub ho (by simp)) (ordK_sub hom (List.sublist_cons_self _ _))
          (fun d hd m' hm => hdm d hd m' (List.mem_cons_of_mem _ hm)) hdi hl hm'
    all_goals
      simp only [stBind]
      have hf := hfirst (k4.elim (fun h => by rw [hr] at h; cases h.1) id)
      refine holdL_sublist (hab done _) ?_
      have := holdL_of hAC (repL_append hd (repL_single k1)) h2 (hord hf) hin hl
      simpa using this

/-! ### The children -/

/-- A children iterator of the other operand, over entries from `B`. -/
def ItH (LB : Lawful e.SB) (gb : Bool) (it : Option TIter) (B : Ents) : Prop :=
  ∃ oml, OIterRep LB gb e.stB it oml ∧ ∀ ml, oml = some ml → OrdK ml ∧ ∀ m ∈ ml, In m B

/-- What a function on children leaves behind. -/
def KidsOK (LA : Lawful e.SA) (LB : Lawful e.SB) (gb : Bool) (k : List SNode → Option TIter → Res ε Unit × List SNode)
    (A B C : Ents) : Prop :=
  ∀ ac it, HoldL LA e.stA ac A → ItH LB gb it B → HoldL LA e.stA (k ac it).2 C

/-- A converter keeps the entries. -/
structure ConvH (LA : Lawful e.SA) (LB : Lawful e.SB) (gb : Bool) (cs : SConv ε) : Prop where
  node : ∀ b m, RefRep LB gb e.stB b m → OkP (cs.node b) fun a =>
    ∃ n, Rep LA false e.stA a n ∧ n.pfx = m.pfx ∧ (Ord m → Ord n) ∧ ents [] n = ents [] m
  short : ∀ b m k, RefRep LB gb e.stB b m → OkP (cs.shortened b k) fun a =>
    ∃ n, Rep LA false e.stA a n ∧ n.pfx = m.pfx.drop k ∧ (Ord m → Ord n) ∧ ents [] n = ents [] (m.cloneShortened k)
  value : ∀ v y, ValRep LB e.stB v (some y) → OkP (cs.value v) fun v' => ValRep LA e.stA v' (some y)

theorem HoldL.mono {σ ε : Type} {S : BlobStore σ ε} {L : Lawful S} {st : σ} {l : List SNode} {A C : Ents}
    (h : HoldL L st l A) (hAC : ∀ k v, A k v → C k v) : HoldL L st l C := by
  obtain ⟨ns, h1, h2, h3⟩ := h
  exact ⟨ns, h1, h2, fun n hn => (h3 n hn).mono hAC⟩

theorem holdL_nil {σ ε : Type} {S : BlobStore σ ε} {L : Lawful S} {st : σ} {A : Ents} : HoldL L st [] A :=
  ⟨[], repL_nil.2 rfl, trivial, fun n hn => by cases hn⟩

theorem ItH.some {it : TIter} {B : Ents} (h : ItH (e := e) LB gb (some it) B) :
    ∃ mn, IterRep LB gb e.stB it mn ∧ OrdK mn ∧ ∀ m ∈ mn, In m B := by
  obtain ⟨oml, h1, h2⟩ := h
  cases oml with
  | none => exact h1.elim
  | some ml => exact ⟨ml, h1, h2 ml rfl⟩

theorem innerKids {rec : SNode → Ref → Res ε Unit × SNode} (hab : Keeps e.abandon) {A B C : Ents}
    (hAC : ∀ k v, A k v → C k v) (hrec : RecOK LA LB gb rec A B C) : KidsOK LA LB gb (innerChildrenS e rec) A B C := by
  intro ac it hac hit
  unfold innerChildrenS
  cases it with
  | none => exact holdL_nil
  | some it =>
    dsimp only
    split
    · exact hac.mono hAC
    · obtain ⟨mn, h1, h2, h3⟩ := hit.some
      obtain ⟨ns, h4, h5, h6⟩ := hac
      refine loop_hold (dn := []) hab hAC hrec (fun b m _ _ _ => ?_) (repL_nil.2 rfl) h4 h1 h5 h2
        (fun d hd => by cases hd) (fun d hd => by cases hd) h6 h3
      intro x hx; cases hx

theorem leftKids {rec : SNode → Ref → Res ε Unit × SNode} (hab : Keeps e.abandon) {A B C : Ents}
    (hAC : ∀ k v, A k v → C k v) (hrec : RecOK LA LB gb rec A B C) : KidsOK LA LB gb (leftChildrenS e rec) A B C := by
  intro ac it hac hit
  unfold leftChildrenS
  cases it with
  | none => exact hac.mono hAC
  | some it =>
    dsimp only
    split
    · exact hac.mono hAC
    · obtain ⟨mn, h1, h2, h3⟩ := hit.some
      obtain ⟨ns, h4, h5, h6⟩ := hac
      refine loop_hold (dn := []) hab hAC hrec (fun b m _ _ _ => ?_) (repL_nil.2 rfl) h4 h1 h5 h2
        (fun d hd => by cases hd) (fun d hd => by cases hd) h6 h3
      intro x hx; cases hx

theorem pushAll_hold {cs : SConv ε} (hc : ConvH LA LB gb cs) {C : Ents} {mn : List Node} :
    ∀ {done : List SNode} {dn : List Node} {it : TIter}, RepL LA false e.stA done dn → IterRep LB gb e.stB it mn → OrdK dn →
      OrdK mn → (∀ d ∈ dn, ∀ m ∈ mn, rank d.firstByte < rank m.firstByte) → (∀ d ∈ dn, In d C) → (∀ m ∈ mn, In m C) →
      HoldL LA e.stA (pushAll cs done it).2 C := by
  induction mn with
  | nil =>
    intro done dn it hd hi ho _ _ hdi _
    rw [pushAll_nil hi.next_nil]
    exact ⟨dn, hd, ho, hdi⟩
  | cons m mn ih =>
    intro done dn it hd hi ho hom hdm hdi hmi
    obtain ⟨b, it', e1, h1, h2⟩ := hi.next_cons
    have hom' := (ordK_iff _).1 hom
    rw [pushAll_cons e1]
    refine ua_all (R := fun l => HoldL LA e.stA l C) (ua_read (hc.node b m h1) ⟨dn, hd, ho, hdi⟩ fun a ha => ua_of ?_)
    obtain ⟨n, k1, k2, k3, k4⟩ := ha
    have hf : n.firstByte = m.firstByte := by unfold firstByte; rw [k2]
    refine ih (dn := dn ++ [n]) (repL_append hd (repL_single k1)) h2 ?_ (ordK_sub hom (List.sublist_cons_self _ _)) ?_ ?_
      fun m' hm => hmi m' (List.mem_cons_of_mem _ hm)
    · rw [ordK_iff] at ho ⊢
      refine ⟨fun c hc => ?_, List.pairwise_append.2 ⟨ho.2, List.pairwise_singleton _ _, fun d hd c hc => ?_⟩⟩
      · rcases List.mem_append.1 hc with hc | hc
        · exact ho.1 c hc
        · simp only [List.mem_singleton] at hc; subst hc
          exact ⟨by rw [k2]; exact (hom.mem List.mem_cons_self).1, k3 (hom.mem List.mem_cons_self).2⟩
      · simp only [List.mem_singleton] at hc; subst hc
        rw [hf]; exact hdm d hd m List.mem_cons_self
    · intro d hd m' hm
      rcases List.mem_append.1 hd with hd | hd
      · exact hdm d hd m' (List.mem_cons_of_mem _ hm)
      · simp only [List.mem_singleton] at hd; subst hd
        rw [hf]; exact (List.pairwise_cons.1 hom'.2).1 m' hm
    · intro d hd
      rcases List.mem_append.1 hd with hd | hd
      · exact hdi d hd
      · simp only [List.mem_singleton] at hd; subst hd
        intro k v hk; rw [k4] at hk; exact hmi m List.mem_cons_self k v hk

theorem outerKids {cs : SConv ε} (hc : ConvH LA LB gb cs) {rec : SNode → Ref → Res ε Unit × SNode} (hab : Keeps e.abandon)
    {A B C : Ents} (hAC : ∀ k v, A k v → C k v) (hBC : ∀ k v, B k v → C k v) (hrec : RecOK LA LB gb rec A B C) :
    KidsOK LA LB gb (outerChildrenS e cs rec) A B C := by
  intro ac it hac hit
  unfold outerChildrenS
  cases it with
  | none => exact hac.mono hAC
  | some it =>
    dsimp only
    obtain ⟨mn, h1, h2, h3⟩ := hit.some
    split
    · rename_i he
      simp only [List.isEmpty_iff] at he
      subst he
      exact pushAll_hold hc (dn := []) (repL_nil.2 rfl) h1 trivial h2 (fun d hd => by cases hd) (fun d hd => by cases hd)
        fun m hm => (h3 m hm).mono hBC
    · obtain ⟨ns, h4, h5, h6⟩ := hac
      refine loop_hold (dn := []) hab hAC hrec (fun b m hb ho hi => ?_) (repL_nil.2 rfl) h4 h1 h5 h2
        (fun d hd => by cases hd) (fun d hd => by cases hd) h6 h3
      refine okP_bind (hc.node b m hb) fun a ha x hx => ?_
      cases hx
      obtain ⟨n, k1, k2, k3, k4⟩ := ha
      exact ⟨n, k1, k3 ho, fun k v hk => hBC _ _ (hi k v (k4 ▸ hk)), k2⟩

theorem Mid.mono {σ ε : Type} {S : BlobStore σ ε} {L : Lawful S} {st : σ} {a : SNode} {p : Bytes} {A C D : Ents}
    (h : Mid L st a p A C) (hAD : ∀ k v, A k v → D k v) (hCD : ∀ k v, C k v → D k v) : Mid L st a p D D := by
  obtain ⟨w, c, h1, h2, h3, h4, h5, h6⟩ := h
  exact ⟨w, c, h1, h2, fun x hx => hCD _ _ (h3 x hx), h4, h5, fun d hd => (h6 d hd).mono fun k v => hAD _ _⟩

theorem both_hold {k : List SNode → Option TIter → Res ε Unit × List SNode} {a : SNode} {b : Ref} {m : Node} {p : Bytes}
    {A B C : Ents} (hm : Mid LA e.stA a p A C) (hAC : ∀ k v, A k v → C k v) (hb : RefRep LB gb e.stB b m) (ho : Ord m)
    (hi : In m B) (hp : m.pfx = p) (hk : KidsOK LA LB gb k (BelowE A p) (BelowE B p) (BelowE C p)) :
    Mid LA e.stA (childrenBoth e k a b).2 p C C := by
  unfold childrenBoth
  refine ua_all (R := fun a' => Mid LA e.stA a' p C C) (ua_bind (ua_imp hm.load (fun _ _ h => h)
    fun t h => h.mono hAC fun _ _ h => h) fun ac a' ⟨h1, h2⟩ => ?_)
  refine ua_read (okP_of_rpost hb.loadChildren) (h1.mono hAC fun _ _ h => h) fun it hit => ua_of ?_
  refine h1.setArc (hk ac it h2 ⟨_, hit, fun ml hml => ?_⟩)
  have hkids : m.kids = ml := by rw [← loadChildren_getD, hml]; rfl
  refine ⟨hkids ▸ (ord_iff m).1 ho, fun m' hm' => ?_⟩
  rw [← hp]
  exact (in_iff.1 hi).2 m' (hkids ▸ hm')

theorem short_rep {b : Ref} {m : Node} (h : RefRep LB gb e.stB b m) (k : Nat) :
    OkP (b.cloneShortened e.SB e.stB k) fun a => Rep LB gb e.stB a (m.cloneShortened k) := by
  cases b with
  | owned a =>
    exact okP_of_rp (E := True) (P := True) (rp_imp (cloneShortened_rep (fun _ => trivial) h k) fun a h => h.1)
  | borrowed r => trivial

theorem shortIter_hold {k : List SNode → Option TIter → Res ε Unit × List SNode} {a : SNode} {b : Ref} {m : Node} {p : Bytes}
    {A B C : Ents} {j : Nat} (hm : Mid LA e.stA a p A C) (hAC : ∀ k v, A k v → C k v) (hb : RefRep LB gb e.stB b m) (ho : Ord m)
    (hi : In m B) (hp : m.pfx.take j = p) (hj : j ≤ m.pfx.length) (hj' : j ≠ m.pfx.length)
    (hk : KidsOK LA LB gb k (BelowE A p) (BelowE B p) (BelowE C p)) :
    Mid LA e.stA (childrenShort e k j a b).2 p C C := by
  unfold childrenShort
  refine ua_all (R := fun a' => Mid LA e.stA a' p C C) (ua_bind (ua_imp hm.load (fun _ _ h => h)
    fun t h => h.mono hAC fun _ _ h => h) fun ac a' ⟨h1, h2⟩ => ?_)
  refine ua_read (short_rep hb j) (h1.mono hAC fun _ _ h => h) fun b' hb' => ua_of ?_
  refine h1.setArc (hk ac _ h2 ⟨some [m.cloneShortened j], repL_single hb', fun ml hml => ?_⟩)
  cases hml
  refine ⟨?_, fun m' hm' => ?_⟩
  · rw [ordK_iff]
    refine ⟨fun c hc => ?_, List.pairwise_singleton _ _⟩
    simp only [List.mem_singleton] at hc; subst hc
    exact ⟨drop_ne_nil hj hj', ord_cloneShortened ho j⟩
  · simp only [List.mem_singleton] at hm'; subst hm'
    rw [← hp]; exact in_cloneShortened hi j

/-! ### The operations -/

/-- What is left on the way: a state in the middle, with the first byte of the node. -/
def Way (LA : Lawful e.SA) (n m : Node) (C : Ents) (a' : SNode) : Prop :=
  ∃ p', Mid LA e.stA a' p' C C ∧ (n.pfx ≠ [] → n.firstByte = m.firstByte → p'.head? = n.firstByte)

theorem Way.fin {n m : Node} {C : Ents} {x : Res ε Unit × SNode} (h : UA x (fun _ => Way LA n m C) (Way LA n m C)) :
    Hold LA e.stA (stBind x fun _ a => canonicalizeS e.dbg a).2 C ∧ (n.pfx ≠ [] → n.firstByte = m.firstByte →
      Tip (stBind x fun _ a => canonicalizeS e.dbg a) n.firstByte) := by
  obtain ⟨r, t⟩ := x
  have hR : Way LA n m C t := ua_all (R := Way LA n m C) h
  obtain ⟨p', h1, h2⟩ := hR
  have herr : Hold LA e.stA t C ∧ (n.pfx ≠ [] → n.firstByte = m.firstByte → t.pfx.firstByte = n.firstByte) :=
    ⟨h1.hold fun _ _ h => h, fun hn hf => by rw [h1.pfx, ← h2 hn hf]; rfl⟩
  cases r with
  | ok u =>
    obtain ⟨k1, k2⟩ := h1.canon (fun _ _ h => h) e.dbg
    refine ⟨k1, fun hn hf => ?_⟩
    rcases k2 with k2 | k2 | k2
    · exact Or.inl k2
    · have := h2 hn hf
      obtain ⟨x, hx⟩ := firstByte_of_ne_nil hn
      rw [k2, hx] at this; cases this
    · exact Or.inr (k2.trans (h2 hn hf))
  | err e' => exact ⟨herr.1, fun hn hf => Or.inr (herr.2 hn hf)⟩
  | panic => exact ⟨herr.1, fun hn hf => Or.inr (herr.2 hn hf)⟩
  | deep => exact ⟨herr.1, fun hn hf => Or.inr (herr.2 hn hf)⟩

theorem Way.stop {n m : Node} {C : Ents} {r : Res ε Unit} {t : SNode} (h : Way LA n m C t) :
    Hold LA e.stA t C ∧ (n.pfx ≠ [] → n.firstByte = m.firstByte → Tip (r, t) n.firstByte) := by
  obtain ⟨p', h1, h2⟩ := h
  exact ⟨h1.hold fun _ _ h => h, fun hn hf => Or.inr (by show t.pfx.firstByte = _; rw [h1.pfx, ← h2 hn hf]; rfl)⟩

theorem take_head {n m : Node} {k : Nat} (hk : ∀ p, p <+: n.pfx → p <+: m.pfx → p <+: n.pfx.take k) (hn : n.pfx ≠ [])
    (hf : n.firstByte = m.firstByte) : (n.pfx.take k).head? = n.firstByte := by
  obtain ⟨x, hx⟩ := firstByte_of_ne_nil hn
  have hy := hf.symm.trans hx
  have hpre : ∀ {q : Bytes}, q.head? = some x → [x] <+: q := by
    intro q hq; cases q with
    | nil => cases hq
    | cons y q => cases hq; exact ⟨q, rfl⟩
  obtain ⟨r, hr⟩ := hk [x] (hpre hx) (hpre hy)
  rw [hx, ← hr]; rfl

/-- A user function, on values that are stored or at hand: its successful results are described by `F`. -/
def FH (LA : Lawful e.SA) (LB : Lawful e.SB) (f : BlobV → BlobV → Res ε BlobV) (F : Bytes → Bytes → Option Bytes → Prop) : Prop :=
  ∀ av bv x y, ValRep LA e.stA av (some x) → ValRep LB e.stB bv (some y) →
    OkP (f av bv) fun v => ∃ w, ValRep LA e.stA v w ∧ F x y w

/-- The start of all operations: the two prefixes are at hand. -/
theorem start {n m : Node} {a : SNode} {b : Ref} {A C : Ents} (hAC : ∀ k v, A k v → C k v) (ha : Rep LA false e.stA a n)
    (ho : Ord n) (hi : In n A) (hb : RefRep LB gb e.stB b m)
    {x : Bytes → Bytes → SNode → Res ε Unit × SNode} (hx : Hold LA e.stA (x n.pfx m.pfx a).2 C ∧
      (n.pfx ≠ [] → n.firstByte = m.firstByte → Tip (x n.pfx m.pfx a) n.firstByte)) :
    Hold LA e.stA (stBind (loadPrefix e.SA e.stA a.pfx, a) fun ap a => stBind (loadPrefix e.SB e.stB b.pfx, a) fun bp a =>
      x ap bp a).2 C ∧ (n.pfx ≠ [] → n.firstByte = m.firstByte →
      Tip (stBind (loadPrefix e.SA e.stA a.pfx, a) fun ap a => stBind (loadPrefix e.SB e.stB b.pfx, a) fun bp a =>
        x ap bp a) n.firstByte) := by
  have hm := mid_of ha ho hi hAC
  have hw : Way LA n m C a := ⟨n.pfx, hm.mono hAC fun _ _ h => h, fun _ _ => rfl⟩
  have e1 : loadPrefix e.SA e.stA a.pfx = .ok n.pfx := by rw [hm.pfx]; rfl
  rw [e1]
  simp only [stBind]
  have := okP_of_rpost (loadPrefix_rep hb.pfx)
  cases e2 : loadPrefix e.SB e.stB b.pfx with
  | ok bp => rw [e2] at this; cases this; exact hx
  | err e' => exact hw.stop
  | panic => exact hw.stop
  | deep => exact hw.stop

theorem outer_hold {cs : SConv ε} (hc : ConvH LA LB gb cs) {f : BlobV → BlobV → Res ε BlobV}
    {F : Bytes → Bytes → Option Bytes → Prop} (hf : FH LA LB f F) (hab : Keeps e.abandon) : ∀ (fuel : Nat) {A B C : Ents},
      (∀ k v, A k v → C k v) → (∀ k v, B k v → C k v) → (∀ k x y v, A k x → B k y → F x y (some v) → C k v) →
      RecOK LA LB gb (outerCombineWithS e cs f fuel) A B C := by
  intro fuel
  induction fuel with
  | zero =>
    intro A B C hAC _ _ a b n m ha ho hi hb _ _
    have hm := mid_of ha ho hi hAC
    exact Way.stop ⟨n.pfx, hm.mono hAC fun _ _ h => h, fun _ _ => rfl⟩
  | succ fuel ih =>
    intro A B C hAC hBC hF a b n m ha ho hi hb hom him
    simp only [outerCombineWithS]
    refine start (x := fun ap bp a => stBind _ _) hAC ha ho hi hb ?_
    refine Way.fin ?_
    have kids : ∀ p, KidsOK LA LB gb (outerChildrenS e cs (outerCombineWithS e cs f fuel)) (BelowE A p) (BelowE B p) (BelowE C p) :=
      fun p => outerKids hc hab (fun k v => hAC _ v) (fun k v => hBC _ v)
        (ih (fun k v => hAC _ v) (fun k v => hBC _ v) fun k x y v => hF _ x y v)
    obtain ⟨k, hk, k1, k2, k3, k4, k5⟩ := commonPrefix_cut n m
    rw [hk]
    have hhead := take_head k4
    have hm := mid_of ha ho hi (C := A) fun _ _ h => h
    by_cases h2 : k = m.pfx.length
    · rw [if_pos h2]
      have hmp : m.pfx = n.pfx.take k := by rw [k3, h2, List.take_length]
      have hsplit : UA (if k ≠ n.pfx.length then splitS e.SA e.stA k a else (.ok (), a))
          (fun _ a' => Mid LA e.stA a' (n.pfx.take k) A A) (Way LA n m C) := by
        by_cases h1 : k = n.pfx.length
        · rw [if_neg (by simpa using h1)]
          show Mid LA e.stA a (n.pfx.take k) A A
          rw [h1, List.take_length]; exact hm
        · rw [if_pos h1]
          obtain ⟨a', e1, e2⟩ := hm.split (C := A) (k := k) (by omega)
          rw [e1]; exact e2
      refine ua_bind hsplit fun _ a1 h3 => ?_
      refine ua_bind (Q := fun _ a2 => Mid LA e.stA a2 (n.pfx.take k) A C) ?_ fun _ a2 h4 => ?_
      · have hway : ∀ {a2}, Mid LA e.stA a2 (n.pfx.take k) A C → Way LA n m C a2 := fun h =>
          ⟨_, h.mono hAC fun _ _ h => h, hhead⟩
        have h3' : Mid LA e.stA a1 (n.pfx.take k) A C := by
          obtain ⟨w, c, q1, q2, q3, q4⟩ := h3
          exact ⟨w, c, q1, q2, fun x hx => hAC _ _ (q3 x hx), q4⟩
        rcases oval_cases (valueOpt_rep hb.val) with ⟨e1, e2⟩ | ⟨b', y, e1, e2, hv⟩
        · rw [e1]; exact h3'
        · rw [e1]
          dsimp only
          have hBy : B (n.pfx.take k) y := by rw [← hmp]; exact (in_iff.1 him).1 y e2
          obtain ⟨w, c, q1, q2, q3, q4⟩ := h3
          rcases oval_cases (valueOpt_rep q2) with ⟨e3, e4⟩ | ⟨a', x, e3, e4, hv'⟩
          · rw [e3]
            refine ua_read (hc.value _ _ hv) (hway h3') fun v hv => ?_
            exact h3'.setVal hv fun x hx => by cases hx; exact hBC _ _ hBy
          · rw [e3]
            refine ua_read (hf _ _ _ _ hv' hv) (hway h3'.noVal) fun v ⟨w', hv, hw⟩ => ?_
            exact h3'.noVal.setVal (C := C) hv fun z hz => hF _ _ _ _ (q3 x e4) hBy (hz ▸ hw)
      · exact ua_of ⟨_, both_hold h4 hAC hb hom him hmp (kids _), hhead⟩
    · rw [if_neg h2]
      by_cases h1 : k = n.pfx.length
      · rw [if_pos h1]
        have hmp : m.pfx.take k = n.pfx := by rw [← k3, h1, List.take_length]
        exact ua_of ⟨_, shortIter_hold (mid_of ha ho hi hAC) hAC hb hom him hmp k2 h2 (kids _), fun _ _ => rfl⟩
      · rw [if_neg h1]
        have hr := rep_iff.1 ha
        have e1 : splitS e.SA e.stA k a = (.ok (), .arc (.data (n.pfx.take k)) .none
            [.ofParts (.data (n.pfx.drop k)) a.val a.children]) := by
          simp only [splitS, hm.pfx]; rfl
        rw [e1]
        have hx : Rep LA false e.stA (.ofParts (.data (n.pfx.drop k)) a.val a.children) (n.cloneShortened k) :=
          rep_ofParts (Or.inl rfl) hr.2.1 hr.2.2
        have hxi : In (n.cloneShortened k) (BelowE C (n.pfx.take k)) := (in_cloneShortened hi k).mono fun k v => hAC _ v
        have hxo : Ord (n.cloneShortened k) := ord_cloneShortened ho k
        have hxp : (n.cloneShortened k).pfx ≠ [] := drop_ne_nil k1 h1
        have hset : ∀ l, HoldL LA e.stA l (BelowE C (n.pfx.take k)) → Way LA n m C (.arc (.data (n.pfx.take k)) .none l) := by
          intro l hl
          refine ⟨n.pfx.take k, ?_, hhead⟩
          obtain ⟨ns, q1, q2, q3⟩ := hl
          exact ⟨none, some ns, rfl, rfl, (fun x hx => by cases hx), Or.inl ⟨_, rfl, q1⟩, q2, q3⟩
        have h0 : Way LA n m C (.arc (.data (n.pfx.take k)) .none [.ofParts (.data (n.pfx.drop k)) a.val a.children]) := by
          refine hset _ ⟨[n.cloneShortened k], repL_single hx, (ordK_iff _).2 ⟨?_, List.pairwise_singleton _ _⟩, ?_⟩
          · intro c hc; simp only [List.mem_singleton] at hc; subst hc; exact ⟨hxp, hxo⟩
          · intro c hc; simp only [List.mem_singleton] at hc; subst hc; exact hxi
        show UA (stBind (cs.shortened b k, SNode.arc (.data (n.pfx.take k)) .none
          [.ofParts (.data (n.pfx.drop k)) a.val a.children]) fun x a' => (.ok (), a'.setArc (sortByFirstS
            ([.ofParts (.data (n.pfx.drop k)) a.val a.children] ++ [x])))) _ _
        refine ua_read (hc.short b m k hb) h0 fun y ⟨ny, q1, q2, q3, q4⟩ => hset _ ?_
        refine ⟨sortByFirst ([n.cloneShortened k] ++ [ny]), sortByFirst_rep (repL_append (repL_single hx) (repL_single q1)), ?_, ?_⟩
        · have hyp : ny.pfx ≠ [] := by rw [q2]; exact drop_ne_nil k2 h2
          have hne : (n.cloneShortened k).firstByte ≠ ny.firstByte := by
            have := k5 h1 h2
            unfold firstByte; rw [q2]; exact this
          have hro : rank (n.cloneShortened k).firstByte ≠ rank ny.firstByte := fun e => hne (rank_inj e)
          have hyo := q3 hom
          rw [sortByFirst_two, ordK_iff]
          split
          · refine ⟨fun c hc => ?_, ?_⟩
            · simp only [List.mem_cons, List.not_mem_nil, or_false] at hc
              rcases hc with rfl | rfl
              · exact ⟨hxp, hxo⟩
              · exact ⟨hyp, hyo⟩
            · simp; omega
          · refine ⟨fun c hc => ?_, ?_⟩
            · simp only [List.mem_cons, List.not_mem_nil, or_false] at hc
              rcases hc with rfl | rfl
              · exact ⟨hyp, hyo⟩
              · exact ⟨hxp, hxo⟩
            · simp; omega
        · have hyi : In ny (BelowE C (n.pfx.take k)) := by
            intro k' v hk'; rw [q4] at hk'
            rw [k3]
            exact hBC _ _ (in_cloneShortened him k k' v hk')
          intro c hc
          rw [sortByFirst_two] at hc
          have : c = n.cloneShortened k ∨ c = ny := by
            split at hc
            · simpa using hc
            · simpa [or_comm] using hc
          rcases this with rfl | rfl
          · exact hxi
          · exact hyi

theorem inner_hold {f : BlobV → BlobV → Res ε BlobV}
    {F : Bytes → Bytes → Option Bytes → Prop} (hf : FH LA LB f F) (hab : Keeps e.abandon) : ∀ (fuel : Nat) {A B C : Ents},
      (∀ k v, A k v → C k v) → (∀ k x y v, A k x → B k y → F x y (some v) → C k v) →
      RecOK LA LB gb (innerCombineWithS e f fuel) A B C := by
  intro fuel
  induction fuel with
  | zero =>
    intro A B C hAC _ a b n m ha ho hi hb _ _
    have hm := mid_of ha ho hi hAC
    exact Way.stop ⟨n.pfx, hm.mono hAC fun _ _ h => h, fun _ _ => rfl⟩
  | succ fuel ih =>
    intro A B C hAC hF a b n m ha ho hi hb hom him
    simp only [innerCombineWithS]
    refine start (x := fun ap bp a => stBind _ _) hAC ha ho hi hb ?_
    refine Way.fin ?_
    have kids : ∀ p, KidsOK LA LB gb (innerChildrenS e (innerCombineWithS e f fuel)) (BelowE A p) (BelowE B p) (BelowE C p) :=
      fun p => innerKids hab (fun k v => hAC _ v) (ih (fun k v => hAC _ v) fun k x y v => hF _ x y v)
    obtain ⟨k, hk, k1, k2, k3, k4, k5⟩ := commonPrefix_cut n m
    rw [hk]
    have hhead := take_head k4
    have hm := mid_of ha ho hi (C := A) fun _ _ h => h
    have hmC := mid_of ha ho hi hAC
    have hway : ∀ {a2}, Mid LA e.stA a2 n.pfx A C → Way LA n m C a2 := fun h => ⟨_, h.mono hAC fun _ _ h => h, fun _ _ => rfl⟩
    by_cases h12 : k = n.pfx.length ∧ k = m.pfx.length
    · rw [if_pos h12]
      obtain ⟨h1, h2⟩ := h12
      have hmp : m.pfx = n.pfx := by
        have := k3; rw [h1, List.take_length, ← h1, h2, List.take_length] at this; exact this.symm
      refine ua_bind (Q := fun _ a2 => Mid LA e.stA a2 n.pfx A C) ?_ fun _ a2 h4 =>
        ua_of ⟨_, both_hold h4 hAC hb hom him hmp (kids _), fun _ _ => rfl⟩
      obtain ⟨w, c, q1, q2, q3, q4⟩ := hm
      rcases oval_cases (valueOpt_rep q2) with ⟨e3, e4⟩ | ⟨a', x, e3, e4, hv'⟩
      · rw [e3]; exact hmC.noVal
      · rcases oval_cases (valueOpt_rep hb.val) with ⟨e1, e2⟩ | ⟨b', y, e1, e2, hv⟩
        · rw [e1, e3]; exact hmC.noVal
        · rw [e1, e3]
          have hBy : B n.pfx y := by rw [← hmp]; exact (in_iff.1 him).1 y e2
          refine ua_read (hf _ _ _ _ hv' hv) (hway hmC.noVal) fun v ⟨w', hv, hw⟩ => ?_
          exact hmC.noVal.setVal (C := C) hv fun z hz => hF _ _ _ _ (q3 x e4) hBy (hz ▸ hw)
    · rw [if_neg h12]
      by_cases h1 : k = n.pfx.length
      · rw [if_pos h1]
        have h2 : k ≠ m.pfx.length := fun h2 => h12 ⟨h1, h2⟩
        have hmp : m.pfx.take k = n.pfx := by rw [← k3, h1, List.take_length]
        exact ua_of ⟨_, shortIter_hold hmC.noVal hAC hb hom him hmp k2 h2 (kids _), fun _ _ => rfl⟩
      · rw [if_neg h1]
        by_cases h2 : k = m.pfx.length
        · rw [if_pos h2]
          have hmp : m.pfx = n.pfx.take k := by rw [k3, h2, List.take_length]
          obtain ⟨a', e1, e2⟩ := hm.split (C := C) (k := k) (by omega)
          rw [e1]
          exact ua_of ⟨_, both_hold e2 hAC hb hom him hmp (kids _), hhead⟩
        · rw [if_neg h2]
          exact hway hmC.noVal.noChildren

theorem left_hold {f : BlobV → BlobV → Res ε BlobV}
    {F : Bytes → Bytes → Option Bytes → Prop} (hf : FH LA LB f F) (hab : Keeps e.abandon) : ∀ (fuel : Nat) {A B C : Ents},
      (∀ k v, A k v → C k v) → (∀ k x y v, A k x → B k y → F x y (some v) → C k v) →
      RecOK LA LB gb (leftCombineWithS e f fuel) A B C := by
  intro fuel
  induction fuel with
  | zero =>
    intro A B C hAC _ a b n m ha ho hi hb _ _
    have hm := mid_of ha ho hi hAC
    exact Way.stop ⟨n.pfx, hm.mono hAC fun _ _ h => h, fun _ _ => rfl⟩
  | succ fuel ih =>
    intro A B C hAC hF a b n m ha ho hi hb hom him
    simp only [leftCombineWithS]
    refine start (x := fun ap bp a => stBind _ _) hAC ha ho hi hb ?_
    refine Way.fin ?_
    have kids : ∀ p, KidsOK LA LB gb (leftChildrenS e (leftCombineWithS e f fuel)) (BelowE A p) (BelowE B p) (BelowE C p) :=
      fun p => leftKids hab (fun k v => hAC _ v) (ih (fun k v => hAC _ v) fun k x y v => hF _ x y v)
    obtain ⟨k, hk, k1, k2, k3, k4, k5⟩ := commonPrefix_cut n m
    rw [hk]
    have hhead := take_head k4
    have hm := mid_of ha ho hi (C := A) fun _ _ h => h
    have hmC := mid_of ha ho hi hAC
    have hway : ∀ {a2}, Mid LA e.stA a2 n.pfx A C → Way LA n m C a2 := fun h => ⟨_, h.mono hAC fun _ _ h => h, fun _ _ => rfl⟩
    by_cases h12 : k = n.pfx.length ∧ k = m.pfx.length
    · rw [if_pos h12]
      obtain ⟨h1, h2⟩ := h12
      have hmp : m.pfx = n.pfx := by
        have := k3; rw [h1, List.take_length, ← h1, h2, List.take_length] at this; exact this.symm
      refine ua_bind (Q := fun _ a2 => Mid LA e.stA a2 n.pfx A C) ?_ fun _ a2 h4 =>
        ua_of ⟨_, both_hold h4 hAC hb hom him hmp (kids _), fun _ _ => rfl⟩
      rcases oval_cases (valueOpt_rep hb.val) with ⟨e1, e2⟩ | ⟨b', y, e1, e2, hv⟩
      · rw [e1]; exact hmC
      · rw [e1]
        dsimp only
        obtain ⟨w, c, q1, q2, q3, q4⟩ := hm
        rcases oval_cases (valueOpt_rep q2) with ⟨e3, e4⟩ | ⟨a', x, e3, e4, hv'⟩
        · rw [e3]; exact hmC
        · rw [e3]
          have hBy : B n.pfx y := by rw [← hmp]; exact (in_iff.1 him).1 y e2
          refine ua_read (hf _ _ _ _ hv' hv) (hway hmC.noVal) fun v ⟨w', hv, hw⟩ => ?_
          exact hmC.noVal.setVal (C := C) hv fun z hz => hF _ _ _ _ (q3 x e4) hBy (hz ▸ hw)
    · rw [if_neg h12]
      by_cases h1 : k = n.pfx.length
      · rw [if_pos h1]
        have h2 : k ≠ m.pfx.length := fun h2 => h12 ⟨h1, h2⟩
        have hmp : m.pfx.take k = n.pfx := by rw [← k3, h1, List.take_length]
        exact ua_of ⟨_, shortIter_hold hmC hAC hb hom him hmp k2 h2 (kids _), fun _ _ => rfl⟩
      · rw [if_neg h1]
        by_cases h2 : k = m.pfx.length
        · rw [if_pos h2]
          have hmp : m.pfx = n.pfx.take k := by rw [k3, h2, List.take_length]
          obtain ⟨a', e1, e2⟩ := hm.split (C := C) (k := k) (by omega)
          rw [e1]
          exact ua_of ⟨_, both_hold e2 hAC hb hom him hmp (kids _), hhead⟩
        · rw [if_neg h2]
          exact hway hmC

theorem retain_hold {f : BlobV → Res ε Bool} (hab : Keeps e.abandon) : ∀ (fuel : Nat) {A B : Ents},
      RecOK LA LB gb (retainPrefixWithS e f fuel) A B A := by
  intro fuel
  induction fuel with
  | zero =>
    intro A B a b n m ha ho hi hb _ _
    exact Way.stop ⟨n.pfx, mid_of ha ho hi fun _ _ h => h, fun _ _ => rfl⟩
  | succ fuel ih =>
    intro A B a b n m ha ho hi hb hom him
    have hAA : ∀ k v, A k v → A k v := fun _ _ h => h
    simp only [retainPrefixWithS]
    refine start (x := fun ap bp a => stBind _ _) hAA ha ho hi hb ?_
    refine Way.fin ?_
    have kids : ∀ p, KidsOK LA LB gb (innerChildrenS e (retainPrefixWithS e f fuel)) (BelowE A p) (BelowE B p) (BelowE A p) :=
      fun p => innerKids hab (fun _ _ h => h) ih
    obtain ⟨k, hk, k1, k2, k3, k4, k5⟩ := commonPrefix_cut n m
    rw [hk]
    have hhead := take_head k4
    have hm := mid_of ha ho hi hAA
    have hway : ∀ {a2}, Mid LA e.stA a2 n.pfx A A → Way LA n m A a2 := fun h => ⟨_, h, fun _ _ => rfl⟩
    have hT : ∀ {x : Res ε Bool}, OkP x fun _ => True := fun {x} => by cases x <;> trivial
    by_cases h12 : k = n.pfx.length ∧ k = m.pfx.length
    · rw [if_pos h12]
      obtain ⟨h1, h2⟩ := h12
      have hmp : m.pfx = n.pfx := by
        have := k3; rw [h1, List.take_length, ← h1, h2, List.take_length] at this; exact this.symm
      refine ua_bind (Q := fun _ a2 => Mid LA e.stA a2 n.pfx A A) ?_ fun go a2 h4 => ?_
      · split
        · exact hm
        · exact ua_read hT (hway hm) fun _ _ => hm
      · split
        · exact ua_of ⟨_, both_hold h4.noVal hAA hb hom him hmp (kids _), fun _ _ => rfl⟩
        · exact hway h4
    · rw [if_neg h12]
      by_cases h2 : k = m.pfx.length
      · rw [if_pos h2]
        have h1 : k ≠ n.pfx.length := fun h1 => h12 ⟨h1, h2⟩
        have hmp : m.pfx = n.pfx.take k := by rw [k3, h2, List.take_length]
        split
        · obtain ⟨a', e1, e2⟩ := hm.split (C := A) (k := k) (by omega)
          rw [e1]
          exact ua_of ⟨_, both_hold e2 hAA hb hom him hmp (kids _), hhead⟩
        · refine ua_read hT (hway hm) fun x _ => hway ?_
          split
          · exact hm.noVal.noChildren
          · exact hm
      · rw [if_neg h2]
        by_cases h1 : k = n.pfx.length
        · rw [if_pos h1]
          have hmp : m.pfx.take k = n.pfx := by rw [← k3, h1, List.take_length]
          exact ua_of ⟨_, shortIter_hold hm.noVal hAA hb hom him hmp k2 h2 (kids _), fun _ _ => rfl⟩
        · rw [if_neg h1]
          exact hway hm.noVal.noChildren

theorem remove_hold {f : BlobV → Res ε Bool} (hab : Keeps e.abandon) : ∀ (fuel : Nat) {A B : Ents},
      RecOK LA LB gb (removePrefixWithS e f fuel) A B A := by
  intro fuel
  induction fuel with
  | zero =>
    intro A B a b n m ha ho hi hb _ _
    exact Way.stop ⟨n.pfx, mid_of ha ho hi fun _ _ h => h, fun _ _ => rfl⟩
  | succ fuel ih =>
    intro A B a b n m ha ho hi hb hom him
    have hAA : ∀ k v, A k v → A k v := fun _ _ h => h
    simp only [removePrefixWithS]
    refine start (x := fun ap bp a => stBind _ _) hAA ha ho hi hb ?_
    refine Way.fin ?_
    have kids : ∀ p, KidsOK LA LB gb (leftChildrenS e (removePrefixWithS e f fuel)) (BelowE A p) (BelowE B p) (BelowE A p) :=
      fun p => leftKids hab (fun _ _ h => h) ih
    obtain ⟨k, hk, k1, k2, k3, k4, k5⟩ := commonPrefix_cut n m
    rw [hk]
    have hhead := take_head k4
    have hm := mid_of ha ho hi hAA
    have hway : ∀ {a2}, Mid LA e.stA a2 n.pfx A A → Way LA n m A a2 := fun h => ⟨_, h, fun _ _ => rfl⟩
    have hT : ∀ {x : Res ε Bool}, OkP x fun _ => True := fun {x} => by cases x <;> trivial
    by_cases h2 : k = m.pfx.length
    · rw [if_pos h2]
      have hmp : m.pfx = n.pfx.take k := by rw [k3, h2, List.take_length]
      refine ua_bind (Q := fun _ a2 => a2 = a) ?_ fun nuke a2 h4 => ?_
      · cases b.val.valueOpt with
        | none => rfl
        | some bv => 
          dsimp only
          cases f bv <;> first | rfl | exact hway hm
      subst h4
      split
      · exact hway hm.noVal.noChildren
      refine ua_bind (Q := fun _ a' => Mid LA e.stA a' (n.pfx.take k) A A) ?_ fun _ a1 h3 =>
        ua_of ⟨_, both_hold h3 hAA hb hom him hmp (kids _), hhead⟩
      by_cases h1 : k = n.pfx.length
      · rw [if_neg (by simpa using h1)]
        show Mid LA e.stA a2 (n.pfx.take k) A A
        rw [h1, List.take_length]; exact hm
      · rw [if_pos h1]
        obtain ⟨a', e1, e2⟩ := hm.split (C := A) (k := k) (by omega)
        rw [e1]; exact e2
    · rw [if_neg h2]
      by_cases h1 : k = n.pfx.length
      · rw [if_pos h1]
        have hmp : m.pfx.take k = n.pfx := by rw [← k3, h1, List.take_length]
        exact ua_of ⟨_, shortIter_hold hm hAA hb hom him hmp k2 h2 (kids _), fun _ _ => rfl⟩
      · rw [if_neg h1]
        exact hway hm

end

end Radix
