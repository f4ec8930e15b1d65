import Verif.Proofs.Read
import Verif.Proofs.Iter

/-
Proof-internal: the iterators over stored trees agree with those over the trees they stand for.
-/

set_option linter.unusedVariables false

namespace Radix
open Node

section
variable {σ ε : Type} {S : BlobStore σ ε} {L : Lawful S} {g : Bool}

/-- Stacks of frames, frame by frame. -/
def StackRep (L : Lawful S) (g : Bool) (st : σ) : List (Nat × Option TIter) → List Frame → Prop
  | [], [] => True
  | (n, o) :: s, (n', o') :: s' => n = n' ∧ OIterRep L g st o o' ∧ StackRep L g st s s'
  | _, _ => False

/-- Iterator states. -/
def SIterRep (L : Lawful S) (g : Bool) (st : σ) (s : SIter) (s' : KVIter) : Prop :=
  s.path = s'.path ∧ StackRep L g st s.stack s'.stack

theorem iterRep_mono {st st' : σ} (h : Mono L st st') {it : TIter} {l : List Node} (e : IterRep L g st it l) :
    IterRep L g st' it l := by
  cases it with
  | owned as => exact repL_mono h as l e
  | borrowed bs => exact repR_mono h bs l e

theorem oiterRep_mono {st st' : σ} (h : Mono L st st') {it : Option TIter} {l : Option (List Node)}
    (e : OIterRep L g st it l) : OIterRep L g st' it l := by
  cases it <;> cases l <;> first | exact e | exact iterRep_mono h e

theorem stackRep_mono {st st' : σ} (h : Mono L st st') : ∀ {s : List (Nat × Option TIter)} {s' : List Frame},
    StackRep L g st s s' → StackRep L g st' s s'
  | [], [], e => e
  | (n, o) :: s, (n', o') :: s', e => ⟨e.1, oiterRep_mono h e.2.1, stackRep_mono h e.2.2⟩
  | [], _ :: _, e => e.elim
  | _ :: _, [], e => e.elim

theorem siterRep_mono {st st' : σ} (h : Mono L st st') {s : SIter} {s' : KVIter} (e : SIterRep L g st s s') :
    SIterRep L g st' s s' := ⟨e.1, stackRep_mono h e.2⟩

theorem stackRep_nil {st : σ} {s : List (Nat × Option TIter)} (h : StackRep L g st s []) : s = [] := by
  cases s with
  | nil => rfl
  | cons _ _ => exact h.elim

theorem stackRep_cons {st : σ} {s : List (Nat × Option TIter)} {n : Nat} {o : Option (List Node)} {s' : List Frame}
    (h : StackRep L g st s ((n, o) :: s')) :
    ∃ o1 s1, s = (n, o1) :: s1 ∧ OIterRep L g st o1 o ∧ StackRep L g st s1 s' := by
  rcases s with _ | ⟨⟨m, o1⟩, s1⟩
  · exact h.elim
  · obtain ⟨rfl, h1, h2⟩ := h; exact ⟨o1, s1, rfl, h1, h2⟩

theorem oiter_some {st : σ} {o : Option TIter} {l : List Node} (h : OIterRep L g st o (some l)) :
    ∃ it, o = some it ∧ IterRep L g st it l := by
  cases o with
  | none => exact h.elim
  | some it => exact ⟨it, rfl, h⟩

theorem oiter_none {st : σ} {o : Option TIter} (h : OIterRep L g st o none) : o = none := by
  cases o with
  | none => rfl
  | some it => exact h.elim

theorem next0_rep {st : σ} {fuel : Nat} : ∀ {s : SIter} {s' : KVIter}, SIterRep L g st s s' →
    stackSize s'.stack < fuel → RPost L st (SIter.next0 S st fuel s) fun x =>
      OEntRep L st x.1 s'.next0.1 ∧ SIterRep L g st x.2 s'.next0.2 := by
  induction fuel with
  | zero => intro s s' _ h; omega
  | succ fuel ih =>
    rintro ⟨path, stk⟩ ⟨path', stk'⟩ ⟨rfl, h⟩ hf
    simp only at h hf
    rw [KVIter.next0.eq_def]
    simp only [SIter.next0]
    match stk', h, hf with
    | [], h, hf =>
      cases (stackRep_nil h)
      exact ⟨trivial, rfl, trivial⟩
    | (plen, some (node :: rest)) :: st', h, hf =>
      obtain ⟨o1, s1, rfl, ho, hs⟩ := stackRep_cons h
      obtain ⟨it, rfl, hi⟩ := oiter_some ho
      obtain ⟨y, it', e3, h1, h2⟩ := hi.next_cons
      simp only [e3]
      refine rpost_bind (loadPrefix_rep h1.pfx) fun tp e => ?_
      subst e
      refine rpost_bind h1.loadChildrenOwned fun cs hcs => ?_
      have hrep : SIterRep L g st ⟨pathAppend path node.pfx, (node.pfx.length, cs) :: (plen, some it') :: s1⟩
          ⟨pathAppend path node.pfx, (node.pfx.length, node.loadChildrenOwned) :: (plen, some rest) :: st'⟩ :=
        ⟨rfl, rfl, hcs, rfl, h2, hs⟩
      rcases oval_cases (valueOpt_rep h1.val) with ⟨e1, e2⟩ | ⟨b, w, e1, e2, hv⟩
      · rw [e1, e2]
        refine ih hrep ?_
        have := frameSize_le node.pfx.length node
        have := nodes_pos node
        simp only [stackSize, frameSize, nodesL] at *; omega
      · rw [e1, e2]
        exact ⟨⟨rfl, hv⟩, hrep⟩
    | (plen, some []) :: st', h, hf =>
      obtain ⟨o1, s1, rfl, ho, hs⟩ := stackRep_cons h
      obtain ⟨it, rfl, hi⟩ := oiter_some ho
      simp only [hi.next_nil]
      refine ih ⟨rfl, rfl, trivial, hs⟩ ?_
      simp only [stackSize, frameSize, nodesL] at *; omega
    | (plen, none) :: st', h, hf =>
      obtain ⟨o1, s1, rfl, ho, hs⟩ := stackRep_cons h
      cases (oiter_none ho)
      refine ih ⟨rfl, hs⟩ ?_
      simp only [stackSize, frameSize] at *; omega

theorem iterS_rep {st : σ} {a : SNode} {n : Node} (h : Rep L g st a n) : SIterRep L g st (iterS a) (kvIter n) := by
  refine ⟨rfl, rfl, ?_, trivial⟩
  show RepL L g st [a] [n]
  exact repL_cons.2 ⟨a, [], rfl, h, repL_nil.2 rfl⟩

theorem scanPrefixS_repH {st : σ} {n : Node} (ho : Ord n) {a : SNode} (h : Rep L g st a n) {fuel : Nat}
    (p : Bytes) (hf : Enough n p fuel) :
    RPost L st (scanPrefixS S fuel st a p) fun s => SIterRep L g st s (scanPrefixIter n p) := by
  unfold scanPrefixS scanPrefixIter
  refine rpost_bind (findS_repH n p ho (r := .owned a) h hf) fun x hx => ?_
  cases e : find n p <;> rw [e] at hx <;> cases x <;> first | exact hx.elim | skip
  · refine rpost_bind (RefRep.toOwned hx) fun b hb => ⟨rfl, rfl, ?_, trivial⟩
    exact repL_cons.2 ⟨b, [], rfl, hb, repL_nil.2 rfl⟩
  · obtain ⟨hx, rfl⟩ := hx
    refine rpost_bind (RefRep.toOwned hx) fun b hb => ⟨rfl, rfl, ?_, trivial⟩
    exact repL_cons.2 ⟨b, [], rfl, hb, repL_nil.2 rfl⟩
  · exact ⟨rfl, trivial⟩

theorem scanPrefixS_rep {st : σ} {n : Node} (ho : Ord n) {a : SNode} (h : Rep L g st a n) {fuel : Nat}
    (hf : n.nodes ≤ fuel) (p : Bytes) :
    RPost L st (scanPrefixS S fuel st a p) fun s => SIterRep L g st s (scanPrefixIter n p) :=
  scanPrefixS_repH ho h p (enough_nodes hf)

/-- Stacks of a `ValueIter`. -/
def VStackRep (L : Lawful S) (g : Bool) (st : σ) : List TIter → List (List Node) → Prop
  | [], [] => True
  | it :: s, l :: s' => IterRep L g st it l ∧ VStackRep L g st s s'
  | _, _ => False

theorem vstackRep_mono {st st' : σ} (h : Mono L st st') : ∀ {s : List TIter} {s' : List (List Node)},
    VStackRep L g st s s' → VStackRep L g st' s s'
  | [], [], e => e
  | it :: s, l :: s', e => ⟨iterRep_mono h e.1, vstackRep_mono h e.2⟩
  | [], _ :: _, e => e.elim
  | _ :: _, [], e => e.elim

theorem valNext0_rep {st : σ} {fuel : Nat} : ∀ {s : List TIter} {s' : List (List Node)}, VStackRep L g st s s' →
    vstackSize s' < fuel → RPost L st (valNext0S S st fuel s) fun x =>
      OValRep L st x.1 (valNext0 s').1 ∧ VStackRep L g st x.2 (valNext0 s').2 := by
  induction fuel with
  | zero => intro s s' _ h; omega
  | succ fuel ih =>
    intro s s' h hf
    rw [valNext0.eq_def]
    match s, s', h, hf with
    | [], [], h, hf => exact ⟨trivial, trivial⟩
    | it :: s, [] :: s', h, hf =>
      simp only [valNext0S, IterRep.next_nil h.1]
      refine ih h.2 ?_
      simp only [vstackSize] at *; omega
    | it :: s, (node :: rest) :: s', h, hf =>
      obtain ⟨y, it', e3, h1, h2⟩ := IterRep.next_cons h.1
      simp only [valNext0S, e3]
      refine rpost_bind h1.loadChildrenOwned fun cs hcs => ?_
      have hp : VStackRep L g st (pushOptS cs (it' :: s))
          (pushOpt node.loadChildrenOwned (rest :: s')) := by
        unfold pushOpt
        cases hl : node.loadChildrenOwned with
        | none => rw [hl] at hcs; cases (oiter_none hcs); exact ⟨h2, h.2⟩
        | some l =>
          rw [hl] at hcs
          obtain ⟨i, rfl, hi⟩ := oiter_some hcs
          exact ⟨hi, h2, h.2⟩
      rcases oval_cases (valueOpt_rep h1.val) with ⟨e1, e2⟩ | ⟨b, w, e1, e2, hv⟩
      · rw [e1, e2]
        refine ih hp ?_
        have := vstackSize_pushOpt node (rest :: s')
        simp only [vstackSize, nodesL] at *; omega
      · rw [e1, e2]
        exact ⟨hv, hp⟩
    | [], _ :: _, h, hf => exact h.elim
    | _ :: _, [], h, hf => exact h.elim

/-- An optional node. -/
def ONodeRep (L : Lawful S) (g : Bool) (st : σ) : Option SNode → Option Node → Prop
  | none, none => True
  | some a, some n => Rep L g st a n
  | _, _ => False

theorem groupNext0_rep {st : σ} {fuel : Nat} {descend : Bytes → Ref → Res ε Bool} {d : Bytes → Node → Bool}
    (hd : ∀ path r n, RefRep L g st r n → RPost L st (descend path r) (· = d path n)) :
    ∀ {s : SIter} {s' : KVIter}, SIterRep L g st s s' →
    stackSize s'.stack < fuel → RPost L st (groupNext0S S descend st fuel s) fun x =>
      ONodeRep L g st x.1 (groupNext0 d s').1 ∧ SIterRep L g st x.2 (groupNext0 d s').2 := by
  induction fuel with
  | zero => intro s s' _ h; omega
  | succ fuel ih =>
    rintro ⟨path, stk⟩ ⟨path', stk'⟩ ⟨rfl, h⟩ hf
    simp only at h hf
    rw [groupNext0.eq_def]
    simp only [groupNext0S]
    match stk', h, hf with
    | [], h, hf =>
      cases (stackRep_nil h)
      exact ⟨trivial, rfl, trivial⟩
    | (plen, some (node :: rest)) :: st', h, hf =>
      obtain ⟨o1, s1, rfl, ho, hs⟩ := stackRep_cons h
      obtain ⟨it, rfl, hi⟩ := oiter_some ho
      obtain ⟨y, it', e3, h1, h2⟩ := hi.next_cons
      simp only [e3]
      refine rpost_bind (loadPrefix_rep h1.pfx) fun tp e => ?_
      subst e
      refine rpost_bind (hd _ _ _ h1) fun go e => ?_
      subst e
      cases hgo : d (pathAppend path node.pfx) node with
      | false =>
        simp only [Bool.false_eq_true, if_false]
        refine rpost_bind h1.toOwned fun a ha => ?_
        exact ⟨setPrefix_rep ha _, rfl, rfl, h2, hs⟩
      | true =>
        simp only [if_true]
        refine rpost_bind h1.loadChildrenOwned fun cs hcs => ?_
        have hrep : SIterRep L g st ⟨pathAppend path node.pfx, (node.pfx.length, cs) :: (plen, some it') :: s1⟩
            ⟨pathAppend path node.pfx, (node.pfx.length, node.loadChildrenOwned) :: (plen, some rest) :: st'⟩ :=
          ⟨rfl, rfl, hcs, rfl, h2, hs⟩
        rcases oval_cases (valueOpt_rep h1.val) with ⟨e1, e2⟩ | ⟨b, w, e1, e2, hv⟩
        · rw [e1, e2]
          simp only [Option.isSome_none, Bool.false_eq_true, if_false]
          refine ih hrep ?_
          have := frameSize_le node.pfx.length node
          have := nodes_pos node
          simp only [stackSize, frameSize, nodesL] at *; omega
        · rw [e1]
          simp only [e2, Option.isSome_some, if_true]
          refine rpost_bind h1.toOwned fun a ha => ⟨?_, hrep⟩
          have ha := rep_iff.1 ha
          rw [e2] at ha
          refine rep_iff.2 ⟨Or.inl rfl, ha.2.1, ?_⟩
          simp only [SNode.children, Node.ch, RepC]
    | (plen, some []) :: st', h, hf =>
      obtain ⟨o1, s1, rfl, ho, hs⟩ := stackRep_cons h
      obtain ⟨it, rfl, hi⟩ := oiter_some ho
      simp only [hi.next_nil]
      refine ih ⟨rfl, rfl, trivial, hs⟩ ?_
      simp only [stackSize, frameSize, nodesL] at *; omega
    | (plen, none) :: st', h, hf =>
      obtain ⟨o1, s1, rfl, ho, hs⟩ := stackRep_cons h
      cases (oiter_none ho)
      refine ih ⟨rfl, hs⟩ ?_
      simp only [stackSize, frameSize] at *; omega

end

end Radix
