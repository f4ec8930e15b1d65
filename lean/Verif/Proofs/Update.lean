import Verif.Stored.Update
import Verif.Proofs.Read
import Verif.Proofs.Combine

/-
Proof-internal: in-place operations on stored nodes agree with those on the nodes they stand for.
-/

set_option linter.unusedVariables false

namespace Radix
open Node

mutual
/-- A detached node stands for itself. -/
theorem embed_rep {σ ε : Type} {S : BlobStore σ ε} {L : Lawful S} {g : Bool} {st : σ} : ∀ n : Node, Rep L g st (embed n) n
  | .mk p v none => by
    simp only [embed, Rep, SNode.pfx, SNode.val, SNode.children, RepC]
    exact ⟨Or.inl rfl, embedVal_rep v, trivial⟩
  | .mk p v (some l) => by
    simp only [embed, Rep, SNode.pfx, SNode.val, SNode.children, RepC]
    exact ⟨Or.inl rfl, embedVal_rep v, Or.inl ⟨_, rfl, embedL_rep l⟩⟩
theorem embedL_rep {σ ε : Type} {S : BlobStore σ ε} {L : Lawful S} {g : Bool} {st : σ} :
    ∀ l : List Node, RepL L g st (embedL l) l
  | [] => by simp [embedL, RepL]
  | n :: l => by simp only [embedL, RepL]; exact ⟨_, _, rfl, embed_rep n, embedL_rep l⟩
theorem embedVal_rep {σ ε : Type} {S : BlobStore σ ε} {L : Lawful S} {st : σ} : ∀ v : Option Bytes, ValRep L st (embedVal v) v
  | none => by simp [embedVal, ValRep]
  | some v => by simp [embedVal, ValRep]
end

/-- The store has nothing. -/
def Plain {σ ε : Type} {S : BlobStore σ ε} (L : Lawful S) (st : σ) : Prop := ∀ i d, ¬ L.Has st i d

theorem plain_detached {ε : Type} (L : Lawful (detachedStore ε)) (st : Unit) : Plain L st := by
  intro i d h
  rcases L.read_has h with e | ⟨x, e⟩ <;> cases e

section
variable {σ τ ε : Type} {S : BlobStore σ ε} {L : Lawful S} {T : BlobStore τ ε} {L' : Lawful T}

theorem plain_pfx {g g' : Bool} {st : σ} {st' : τ} (hp : Plain L st) {b p} (h : PfxRep L g st b p) :
    PfxRep L' g' st' b p := by
  rcases h with h | ⟨_, c, i, _, _, _, h⟩
  · exact Or.inl h
  · exact absurd h (hp _ _)

theorem plain_val {st : σ} {st' : τ} (hp : Plain L st) {b v} (h : ValRep L st b v) : ValRep L' st' b v := by
  cases v with
  | none => exact h
  | some v =>
    rcases h with h | ⟨i, _, _, _, h⟩
    · exact Or.inl h
    · exact absurd h (hp _ _)

mutual
theorem plain_rep {g g' : Bool} {st : σ} {st' : τ} (hp : Plain L st) : ∀ (a : SNode) (n : Node), Rep L g st a n →
    Rep L' g' st' a n
  | a, .mk p v c, e => by
    simp only [Rep] at e ⊢
    exact ⟨plain_pfx hp e.1, plain_val hp e.2.1, plain_repC hp _ c e.2.2⟩
theorem plain_repC {g g' : Bool} {st : σ} {st' : τ} (hp : Plain L st) : ∀ ch (c : Option (List Node)),
    RepC L g st ch c → RepC L' g' st' ch c
  | ch, none, e => by simp only [RepC] at e ⊢; exact e
  | ch, some l, e => by
    simp only [RepC] at e ⊢
    rcases e with ⟨as, e1, e2⟩ | ⟨rs, i, bs, e1, e2, e3, e4, e5⟩
    · exact Or.inl ⟨as, e1, plain_repL hp _ l e2⟩
    · exact absurd e4 (hp _ _)
theorem plain_repL {g g' : Bool} {st : σ} {st' : τ} (hp : Plain L st) : ∀ as (l : List Node),
    RepL L g st as l → RepL L' g' st' as l
  | as, [], e => by simp only [RepL] at e ⊢; exact e
  | as, n :: l, e => by
    simp only [RepL] at e ⊢
    obtain ⟨a, as', e1, e2, e3⟩ := e
    exact ⟨a, as', e1, plain_rep hp a n e2, plain_repL hp _ l e3⟩
end

end

/-! ### Outcomes -/

section
variable {ε : Type}

/-- A success satisfies `Q`, an error implies `E`, a panic `P`. -/
def RP (E P : Prop) {α} (x : Res ε α) (Q : α → Prop) : Prop :=
  match x with
  | .ok a => Q a
  | .err _ => E
  | .panic => P
  | .deep => False

/-- The same for a call that changes `τ`. -/
def UP (E P : Prop) {α τ} (x : Res ε α × τ) (Q : α → τ → Prop) : Prop := RP E P x.1 fun a => Q a x.2

variable {E P : Prop}

theorem rp_bind {α β} {x : Res ε α} {f : α → Res ε β} {Q : α → Prop} {Q' : β → Prop}
    (h : RP E P x Q) (hf : ∀ a, Q a → RP E P (f a) Q') : RP E P (x.bind f) Q' := by
  cases x with
  | ok a => exact hf a h
  | err e => exact h
  | panic => exact h
  | deep => exact h

theorem rp_imp {α} {x : Res ε α} {Q Q' : α → Prop} (h : RP E P x Q) (hq : ∀ a, Q a → Q' a) : RP E P x Q' := by
  cases x with
  | ok a => exact hq a h
  | err e => exact h
  | panic => exact h
  | deep => exact h

theorem up_bind {α β τ} {x : Res ε α × τ} {f : α → τ → Res ε β × τ} {Q : α → τ → Prop} {Q' : β → τ → Prop}
    (h : UP E P x Q) (hf : ∀ a t, Q a t → UP E P (f a t) Q') : UP E P (stBind x f) Q' := by
  obtain ⟨r, t⟩ := x
  cases r with
  | ok a => exact hf a t h
  | err e => exact h
  | panic => exact h
  | deep => exact h

theorem up_imp {α τ} {x : Res ε α × τ} {Q Q' : α → τ → Prop} (h : UP E P x Q) (hq : ∀ a t, Q a t → Q' a t) :
    UP E P x Q' := rp_imp h fun a => hq a x.2

theorem up_read {α β τ} {y : Res ε α} {t : τ} {f : α → τ → Res ε β × τ} {Q : α → Prop} {Q' : β → τ → Prop}
    (h : RP E P y Q) (hf : ∀ a, Q a → UP E P (f a t) Q') : UP E P (stBind (y, t) f) Q' := by
  cases y with
  | ok a => exact hf a h
  | err e => exact h
  | panic => exact h
  | deep => exact h

theorem up_ok {α τ} {a : α} {t : τ} {Q : α → τ → Prop} (h : Q a t) : UP (ε := ε) E P (.ok a, t) Q := h

theorem rp_of_rpost {σ : Type} {S : BlobStore σ ε} {L : Lawful S} {st : σ} {α} {x : Res ε α} {Q : α → Prop}
    (hE : ¬ ReadsSucceed L st → E) (h : RPost L st x Q) : RP E P x Q := by
  cases x with
  | ok a => exact h
  | err e => exact hE h
  | panic => exact h.elim
  | deep => exact h.elim

end

/-! ### Single steps -/

section
variable {σ τ ε : Type} {S : BlobStore σ ε} {L : Lawful S} {g : Bool} {st : σ} {E P : Prop}

theorem rep_arc {p v : BlobV} {l : List SNode} {q : Bytes} {w : Option Bytes} {rs : List Node}
    (h1 : PfxRep L g st p q) (h2 : ValRep L st v w) (h3 : RepL L g st l rs) :
    Rep L g st (.arc p v l) (mk q w (some rs)) := by
  simp only [Rep, SNode.pfx, SNode.val, SNode.children, RepC]
  exact ⟨h1, h2, Or.inl ⟨l, rfl, h3⟩⟩

theorem rep_ofParts {p v : BlobV} {c : List SNode ⊕ Bytes} {q : Bytes} {w : Option Bytes} {ch : Option (List Node)}
    (h1 : PfxRep L g st p q) (h2 : ValRep L st v w) (h3 : RepC L g st c ch) :
    Rep L g st (.ofParts p v c) (mk q w ch) := by
  rw [rep_iff]
  cases c <;> exact ⟨h1, h2, h3⟩

theorem rep_setVal {a : SNode} {n : Node} (h : Rep L g st a n) {v : BlobV} {w : Option Bytes} (hv : ValRep L st v w) :
    Rep L g st (a.setVal v) (mk n.pfx w n.ch) := by
  have := rep_iff.1 h
  exact rep_ofParts this.1 hv this.2.2

theorem rep_hasValue {a : SNode} {n : Node} (h : Rep L g st a n) : a.hasValue = n.hasValue :=
  (valueOpt_rep (rep_iff.1 h).2.1).isSome

theorem rep_isLeaf {a : SNode} {n : Node} (h : Rep L g st a n) : a.isLeaf = n.isLeaf := by
  have hc := (rep_iff.1 h).2.2
  unfold SNode.isLeaf Node.isLeaf
  generalize a.children = ch at hc
  cases e : n.ch with
  | none => rw [e] at hc; simp only [RepC] at hc; subst hc; rfl
  | some l =>
    rw [e] at hc; simp only [RepC] at hc
    rcases hc with ⟨as, rfl, _⟩ | ⟨rs, i, bs, rfl, _⟩ <;> rfl

theorem rep_isEmpty {a : SNode} {n : Node} (h : Rep L g st a n) : a.isEmpty = n.isEmpty := by
  simp only [SNode.isEmpty, Node.isEmpty, rep_hasValue h, rep_isLeaf h]

theorem repL_append {as bs : List SNode} {l m : List Node} (h : RepL L g st as l) (h' : RepL L g st bs m) :
    RepL L g st (as ++ bs) (l ++ m) := by
  induction l generalizing as with
  | nil => cases (repL_nil.1 h); exact h'
  | cons n l ih =>
    obtain ⟨a, as', rfl, h1, h2⟩ := repL_cons.1 h
    exact repL_cons.2 ⟨a, as' ++ bs, rfl, h1, ih h2⟩

theorem repL_single {a : SNode} {n : Node} (h : Rep L g st a n) : RepL L g st [a] [n] :=
  repL_cons.2 ⟨a, [], rfl, h, repL_nil.2 rfl⟩

theorem collectIter_nil {it : TIter} (h : it.next = none) : (collectIter it : Res ε _) = .ok [] := by
  rw [collectIter.eq_def]; split
  · rfl
  · rename_i e; rw [h] at e; cases e

theorem collectIter_cons {it it' : TIter} {r : Ref} (h : it.next = some (r, it')) :
    (collectIter it : Res ε _) = (Ref.toOwned r).bind fun a => (collectIter it').bind fun l => .ok (a :: l) := by
  rw [collectIter.eq_def]; split
  · rename_i e; rw [h] at e; cases e
  · rename_i e; rw [h] at e; cases e; rfl

theorem collectIter_rep {l : List Node} : ∀ {it : TIter}, IterRep L g st it l →
    RPost L st (collectIter it : Res ε _) fun as => RepL L g st as l := by
  induction l with
  | nil => intro it h; rw [collectIter_nil h.next_nil]; exact (repL_nil (L := L) (g := g) (st := st)).2 rfl
  | cons n l ih =>
    intro it h
    obtain ⟨r, it', e, h1, h2⟩ := h.next_cons
    rw [collectIter_cons e]
    exact rpost_bind (RefRep.toOwned h1) fun a ha => rpost_bind (ih h2) fun as has => repL_cons.2 ⟨a, as, rfl, ha, has⟩

/-- `load_children_mut` gives the children, and the node becomes one that owns them. -/
theorem loadChildrenMut_rep (hE : ¬ ReadsSucceed L st → E) {a : SNode} {n : Node} (h : Rep L g st a n) :
    UP E P (loadChildrenMutS S st a) fun ac a' => RepL L g st ac n.kids ∧ a'.pfx = a.pfx ∧ a'.val = a.val ∧
      ∀ l, a.children = .inl l → ac = l := by
  have hc := (rep_iff.1 h).2.2
  unfold loadChildrenMutS
  cases a with
  | arc p v l =>
    simp only [SNode.children] at hc ⊢
    refine up_ok ⟨?_, rfl, rfl, fun l' e => by cases e; rfl⟩
    cases e : n.ch with
    | none => rw [e] at hc; simp [RepC] at hc
    | some m =>
      rw [e] at hc; simp only [RepC] at hc
      rcases hc with ⟨as, e', hr⟩ | ⟨_, _, _, e', _⟩
      · cases e'; simpa [kids, e] using hr
      · cases e'
  | ref p v i =>
    simp only [SNode.children] at hc ⊢
    have hl : RPost L st ((loadIter S st i).bind fun
      | none => .ok []
      | some it => collectIter it) fun ac => RepL L g st ac n.kids := by
      refine rpost_bind (loadIter_rep hc) fun o ho => ?_
      unfold kids
      cases o with
      | none =>
        cases e : n.ch with
        | none => exact (repL_nil (L := L) (g := g) (st := st)).2 rfl
        | some m => rw [e] at ho; exact ho.elim
      | some it =>
        cases e : n.ch with
        | none => rw [e] at ho; exact ho.elim
        | some m => rw [e] at ho; exact collectIter_rep ho
    refine up_read (rp_of_rpost hE hl) fun ac hac => up_ok ⟨hac, rfl, rfl, fun l' e => by cases e⟩

theorem cloneShortened_rep (hE : ¬ ReadsSucceed L st → E) {a : SNode} {n : Node} (h : Rep L g st a n) (k : Nat) :
    RP E P (a.cloneShortened S st k) fun b => Rep L g st b (n.cloneShortened k) ∧ b.pfx.isId = false := by
  unfold SNode.cloneShortened
  refine rp_bind (rp_of_rpost hE (loadPrefix_rep (rep_iff.1 h).1)) fun p e => ?_
  subst e
  refine ⟨setPrefix_rep h _, ?_⟩
  cases a <;> rfl

theorem split_rep (hE : ¬ ReadsSucceed L st → E) {a : SNode} {n : Node} (h : Rep L g st a n) (k : Nat) :
    UP E P (splitS S st k a) fun _ a' => Rep L g st a' (n.split k) ∧ a'.pfx.isId = false ∧
      ∃ x, a'.children = .inl [x] ∧ x.pfx.isId = false := by
  unfold splitS
  have hr := rep_iff.1 h
  refine up_read (rp_of_rpost hE (loadPrefix_rep hr.1)) fun p e => ?_
  subst e
  refine up_ok ⟨rep_arc (Or.inl rfl) rfl (repL_single (rep_ofParts (Or.inl rfl) hr.2.1 hr.2.2)), rfl, _, rfl, ?_⟩
  cases a <;> rfl

theorem rank_firstByte {b : BlobV} {n : Node} (h : PfxRep L g st b n.pfx) : rank b.firstByte = rank n.firstByte := by
  rw [pfxRep_firstByte h]; rfl

theorem insertByFirst_rep {a : SNode} {n : Node} (h : Rep L g st a n) {as : List SNode} {l : List Node}
    (hl : RepL L g st as l) : RepL L g st (insertByFirstS a as) (insertByFirst n l) := by
  induction l generalizing as with
  | nil => cases (repL_nil.1 hl); exact repL_single h
  | cons m l ih =>
    obtain ⟨b, as', rfl, h1, h2⟩ := repL_cons.1 hl
    simp only [insertByFirstS, insertByFirst, rank_firstByte (rep_iff.1 h).1, rank_firstByte (rep_iff.1 h1).1]
    split
    · exact repL_cons.2 ⟨_, _, rfl, h, hl⟩
    · exact repL_cons.2 ⟨_, _, rfl, h1, ih h2⟩

theorem sortByFirst_rep {as : List SNode} {l : List Node} (hl : RepL L g st as l) :
    RepL L g st (sortByFirstS as) (sortByFirst l) := by
  induction l generalizing as with
  | nil => cases (repL_nil.1 hl); exact repL_nil.2 rfl
  | cons m l ih =>
    obtain ⟨b, as', rfl, h1, h2⟩ := repL_cons.1 hl
    exact insertByFirst_rep h1 (ih h2)

/-! ### canonicalize -/

theorem pfx_data_of_false {b : BlobV} {p : Bytes} (h : PfxRep L false st b p) : b.isId = false := by
  rcases h with rfl | ⟨h, _⟩
  · rfl
  · cases h

theorem pfx_slice {b : BlobV} {p : Bytes} (h : PfxRep L g st b p) (hd : b.isId = false) : b = .data p := by
  rcases h with rfl | ⟨_, c, i, rfl, _⟩
  · rfl
  · cases hd

theorem val_none {v : BlobV} {w : Option Bytes} (h : ValRep L st v w) : (v.valueOpt = none ↔ w = none) := by
  have := (valueOpt_rep h).isSome
  cases h1 : v.valueOpt <;> cases h2 : w <;> simp_all

/-- The last step of `canonicalize`: a node without value and children becomes the empty node. -/
theorem canon_tail {a : SNode} {n : Node} (h : Rep L g st a n) :
    Rep L g st (if !a.hasValue && a.childCount == 0 then .empty else a)
      (if n.val = none ∧ n.childCount = 0 then Node.empty else n) := by
  have hc : a.childCount = 0 ↔ n.childCount = 0 := by
    have hc := (rep_iff.1 h).2.2
    unfold SNode.childCount Node.childCount kids
    generalize a.children = ch at hc
    cases e : n.ch with
    | none => rw [e] at hc; simp only [RepC] at hc; subst hc; simp
    | some l =>
      rw [e] at hc; simp only [RepC] at hc
      rcases hc with ⟨as, rfl, hr⟩ | ⟨rs, i, bs, rfl, _, hn, _⟩
      · simp [repL_length hr]
      · simp [hn]
  have hv : a.hasValue = n.val.isSome := rep_hasValue h
  by_cases hh : n.val = none ∧ n.childCount = 0
  · rw [if_pos hh, if_pos (by rw [hv, hh.1]; simp [hc.2 hh.2])]
    exact empty_rep st
  · rw [if_neg hh, if_neg (by
      intro e
      simp only [hv, Bool.and_eq_true, Bool.not_eq_true', beq_iff_eq] at e
      exact hh ⟨by cases e' : n.val <;> simp_all, hc.1 e.2⟩)]
    exact h

theorem canon_arc {dbg : Bool} {p v : BlobV} {l : List SNode} {q : Bytes} {w : Option Bytes} {rs : List Node}
    (h1 : PfxRep L g st p q) (h2 : ValRep L st v w) (h3 : RepL L g st l rs)
    (hd : g = false ∨ ∀ c, w = none → l = [c] → p.isId = false ∧ c.pfx.isId = false) :
    UP E P (canonicalizeS (ε := ε) dbg (.arc p v l)) fun _ a => Rep L g st a (canonicalize (mk q w (some rs))) := by
  have hd : ∀ c, w = none → l = [c] → p.isId = false ∧ c.pfx.isId = false := by
    rcases hd with rfl | hd
    · rintro c hw rfl
      refine ⟨pfx_data_of_false h1, ?_⟩
      cases rs with
      | nil => cases (repL_nil.1 h3)
      | cons m rs =>
        obtain ⟨b, as', e, h4, h5⟩ := repL_cons.1 h3
        cases e
        exact pfx_data_of_false (rep_iff.1 h4).1
    · exact hd
  have ha : (SNode.arc p v l).assertsHold = true := by
    unfold SNode.assertsHold
    simp only [SNode.children, SNode.val, Bool.true_and]
    split
    · rename_i c hv hl
      cases hl
      have := hd c ((val_none h2).1 hv) rfl
      rw [show (SNode.arc p v [c]).pfx = p from rfl, this.1, this.2]; rfl
    · rfl
  unfold canonicalizeS Node.canonicalize
  rw [ha]
  simp only [Bool.not_true, Bool.and_false, Bool.false_eq_true, if_false]
  refine up_ok (canon_tail ?_)
  cases w with
  | some w =>
    have hv : v.valueOpt ≠ none := fun e => by cases (val_none h2).1 e
    have : (SNode.arc p v l).merge = .arc p v l := by
      unfold SNode.merge; split
      · rename_i e _; exact absurd e hv
      · rfl
    rw [this]
    exact rep_arc h1 h2 h3
  | none =>
    have hv : v.valueOpt = none := (val_none h2).2 rfl
    rcases rs with _ | ⟨m, _ | ⟨m', rs⟩⟩
    · cases (repL_nil.1 h3)
      have : (SNode.arc p v []).merge = .arc p v [] := by
        unfold SNode.merge; split
        · rename_i e; cases e
        · rfl
      rw [this]
      exact rep_arc h1 h2 h3
    · obtain ⟨b, as', e, h4, h5⟩ := repL_cons.1 h3
      cases (repL_nil.1 h5); subst e
      have hdd := hd b rfl rfl
      have hb := rep_iff.1 h4
      have : (SNode.arc p v [b]).merge = .ofParts (.data (p.slice ++ b.pfx.slice)) b.val b.children := by
        unfold SNode.merge; split
        · rename_i c e1 e2; cases e2; rfl
        · rename_i e; exact absurd rfl (e b hv)
      rw [this, pfx_slice h1 hdd.1, pfx_slice hb.1 hdd.2]
      exact rep_ofParts (Or.inl rfl) hb.2.1 hb.2.2
    · obtain ⟨b, as', e, h4, h5⟩ := repL_cons.1 h3
      obtain ⟨b', as'', e', h6, h7⟩ := repL_cons.1 h5
      subst e'; subst e
      have : (SNode.arc p v (b :: b' :: as'')).merge = .arc p v (b :: b' :: as'') := by
        unfold SNode.merge; split
        · rename_i c e1 e2; cases e2
        · rfl
      rw [this]
      exact rep_arc h1 h2 h3

theorem shape_not_merge {n : Node} (h : Shape n) : n.val = none → n.kids.length ≠ 1 := by
  intro hv
  rcases h with rfl | h
  · simp
  · rw [cmp_iff, hv] at h
    have := h.1
    simp at this; omega

theorem merge_of_shape {n : Node} (h : Shape n) : n.mergeOnlyChild = n := by
  have := shape_not_merge h
  unfold mergeOnlyChild
  split
  · rename_i p c; exact absurd rfl (this rfl)
  · rfl

/-- `canonicalize` on a node of a compact tree, loaded or not: it stays as it is. -/
theorem canon_any {dbg : Bool} (hdbg : dbg = true → P) {a : SNode} {n : Node} (h : Rep L g st a n) (hs : Shape n) :
    UP E P (canonicalizeS (ε := ε) dbg a) fun _ a => Rep L g st a n.canonicalize := by
  unfold canonicalizeS
  by_cases hb : (dbg && !a.assertsHold) = true
  · rw [if_pos hb]; simp at hb; exact hdbg hb.1
  · rw [if_neg hb]
    have hm : a.merge = a := by
      have hr := rep_iff.1 h
      unfold SNode.merge; split
      · rename_i c e1 e2
        exfalso
        refine shape_not_merge hs ((val_none hr.2.1).1 e1) ?_
        rw [e2] at hr
        unfold kids
        cases e : n.ch with
        | none => rw [e] at hr; have := hr.2.2; simp [RepC] at this
        | some m =>
          rw [e] at hr
          have := hr.2.2
          simp only [RepC] at this
          rcases this with ⟨as, e', hr'⟩ | ⟨_, _, _, e', _⟩
          · cases e'; rw [Option.getD_some, ← repL_length hr']; rfl
          · cases e'
      · rfl
    rw [hm]
    refine up_ok ?_
    rw [show n.canonicalize = if n.val = none ∧ n.childCount = 0 then Node.empty else n by
      unfold canonicalize; rw [merge_of_shape hs]]
    exact canon_tail h

theorem canon_nuke {dbg : Bool} {a : SNode} {p : Bytes} (p' : Bytes) (h : PfxRep L g st a.pfx p) :
    UP E P (canonicalizeS (ε := ε) dbg (a.setVal .none).noChildren) fun _ a =>
      Rep L g st a (canonicalize (mk p' none none)) := by
  have : (canonicalizeS (ε := ε) dbg (a.setVal .none).noChildren) = (.ok (), .empty) := by
    cases a <;> simp [canonicalizeS, SNode.noChildren, SNode.setVal, SNode.assertsHold, SNode.merge, SNode.children,
      SNode.val, SNode.pfx, SNode.ofParts, BlobV.valueOpt, SNode.hasValue, SNode.childCount]
  rw [this]
  exact up_ok (by simpa [canonicalize, mergeOnlyChild, childCount, kids] using empty_rep st)

end

end Radix
