import Verif.Proofs.CombineS

/-
Proof-internal: more fuel does not change an outcome of a copying combination or a predicate, except for `deep`.
-/

set_option linter.unusedVariables false

namespace Radix
open Node

section
variable {σ τ ε : Type} {S : BlobStore σ ε} {st : σ} {T : BlobStore τ ε} {st' : τ}

theorem leR_joinMapS {step step' : Option Ref → Option Ref → Res ε (Option Node)}
    (h : ∀ a b, LeR (step a b) (step' a b)) (a b : TIter) : LeR (joinMapS step a b) (joinMapS step' a b) := by
  generalize hm : a.size + b.size = m
  induction m using Nat.strongRecOn generalizing a b with
  | ind m ih =>
    have key : ∀ (x y : Option Ref) (a' b' : TIter), a'.size + b'.size < m →
        LeR ((step x y).bind fun o => (joinMapS step a' b').bind fun l => .ok (o.toList ++ l))
          ((step' x y).bind fun o => (joinMapS step' a' b').bind fun l => .ok (o.toList ++ l)) :=
      fun x y a' b' hlt => leR_bind (h x y) fun o => leR_bind (ih _ hlt a' b' rfl) fun l => leR_refl _
    cases ha : a.next with
    | none =>
      cases hb : b.next with
      | none => rw [joinMapS_nn ha hb, joinMapS_nn ha hb]; exact leR_refl _
      | some y =>
        have := TIter.next_size hb
        rw [joinMapS_ns ha hb, joinMapS_ns ha hb]; exact key _ _ _ _ (by omega)
    | some x =>
      have := TIter.next_size ha
      cases hb : b.next with
      | none => rw [joinMapS_sn ha hb, joinMapS_sn ha hb]; exact key _ _ _ _ (by omega)
      | some y =>
        have := TIter.next_size hb
        rw [joinMapS_ss ha hb, joinMapS_ss ha hb]
        split
        · exact key _ _ _ _ (by omega)
        split
        · exact key _ _ _ _ (by omega)
        · exact key _ _ _ _ (by omega)

theorem leR_joinAnyS {step step' : Option Ref → Option Ref → Res ε Bool}
    (h : ∀ a b, LeR (step a b) (step' a b)) (a b : TIter) : LeR (joinAnyS step a b) (joinAnyS step' a b) := by
  generalize hm : a.size + b.size = m
  induction m using Nat.strongRecOn generalizing a b with
  | ind m ih =>
    have key : ∀ (x y : Option Ref) (a' b' : TIter), a'.size + b'.size < m →
        LeR ((step x y).bind fun o => if o then .ok true else joinAnyS step a' b')
          ((step' x y).bind fun o => if o then .ok true else joinAnyS step' a' b') :=
      fun x y a' b' hlt => leR_bind (h x y) fun o => by
        cases o
        · exact ih _ hlt a' b' rfl
        · exact leR_refl _
    cases ha : a.next with
    | none =>
      cases hb : b.next with
      | none => rw [joinAnyS_nn ha hb, joinAnyS_nn ha hb]; exact leR_refl _
      | some y =>
        have := TIter.next_size hb
        rw [joinAnyS_ns ha hb, joinAnyS_ns ha hb]; exact key _ _ _ _ (by omega)
    | some x =>
      have := TIter.next_size ha
      cases hb : b.next with
      | none => rw [joinAnyS_sn ha hb, joinAnyS_sn ha hb]; exact key _ _ _ _ (by omega)
      | some y =>
        have := TIter.next_size hb
        rw [joinAnyS_ss ha hb, joinAnyS_ss ha hb]
        split
        · exact key _ _ _ _ (by omega)
        split
        · exact key _ _ _ _ (by omega)
        · exact key _ _ _ _ (by omega)

theorem leR_anyIterS {f f' : Ref → Res ε Bool} (h : ∀ c, LeR (f c) (f' c)) (it : TIter) :
    LeR (anyIterS f it) (anyIterS f' it) := by
  generalize hm : it.size = m
  induction m using Nat.strongRecOn generalizing it with
  | ind m ih =>
    cases hn : it.next with
    | none => rw [anyIterS_nil hn, anyIterS_nil hn]; exact leR_refl _
    | some x =>
      have := TIter.next_size hn
      rw [anyIterS_cons hn, anyIterS_cons hn]
      refine leR_bind (h _) fun o => ?_
      cases o
      · exact ih _ (by omega) _ rfl
      · exact leR_refl _

theorem leR_refDetached (n : Nat) (r : Ref) : LeR (r.detached S st n) (r.detached S st (n + 1)) :=
  leR_bind (leR_refl _) fun a => (detachedS_fuel n).1 a

theorem leR_iterDetached (n : Nat) : ∀ it : TIter, LeR (it.detached S st n) (it.detached S st (n + 1))
  | .owned [] => leR_refl _
  | .owned (a :: l) => leR_bind ((detachedS_fuel n).2 _) fun _ => leR_refl _
  | .borrowed [] => leR_refl _
  | .borrowed (_ :: _) => leR_refl _

theorem leR_shortDetached (n : Nat) (r : Ref) (k : Nat) :
    LeR (r.shortDetached S st n k) (r.shortDetached S st (n + 1) k) := leR_bind (leR_refl _) fun a => (detachedS_fuel n).1 a

theorem leR_outerChildren (n : Nat) {rec rec' : Ref → Ref → Res ε Node} (h : ∀ a b, LeR (rec a b) (rec' a b))
    (ac bc : Option TIter) :
    LeR (outerCombineChildrenS S st T st' n rec ac bc) (outerCombineChildrenS S st T st' (n + 1) rec' ac bc) := by
  cases ac <;> cases bc
  · exact leR_refl _
  · exact leR_iterDetached n _
  · exact leR_iterDetached n _
  · refine leR_bind (leR_joinMapS ?_ _ _) fun _ => leR_refl _
    intro a b
    cases a <;> cases b
    · exact leR_refl _
    · exact leR_bind (leR_refDetached n _) fun _ => leR_refl _
    · exact leR_bind (leR_refDetached n _) fun _ => leR_refl _
    · exact leR_bind (h _ _) fun _ => leR_refl _

theorem leR_innerChildren {rec rec' : Ref → Ref → Res ε Node} (h : ∀ a b, LeR (rec a b) (rec' a b))
    (ac bc : Option TIter) : LeR (innerCombineChildrenS rec ac bc) (innerCombineChildrenS rec' ac bc) := by
  cases ac <;> cases bc
  · exact leR_refl _
  · exact leR_refl _
  · exact leR_refl _
  · refine leR_bind (leR_joinMapS ?_ _ _) fun _ => leR_refl _
    intro a b
    cases a <;> cases b
    · exact leR_refl _
    · exact leR_refl _
    · exact leR_refl _
    · exact leR_bind (h _ _) fun _ => leR_refl _

theorem leR_leftChildren (n : Nat) {rec rec' : Ref → Ref → Res ε Node} (h : ∀ a b, LeR (rec a b) (rec' a b))
    (ac bc : Option TIter) : LeR (leftCombineChildrenS S st n rec ac bc) (leftCombineChildrenS S st (n + 1) rec' ac bc) := by
  cases ac <;> cases bc
  · exact leR_refl _
  · exact leR_refl _
  · exact leR_iterDetached n _
  · refine leR_bind (leR_joinMapS ?_ _ _) fun _ => leR_refl _
    intro a b
    cases a <;> cases b
    · exact leR_refl _
    · exact leR_refl _
    · exact leR_bind (leR_refDetached n _) fun _ => leR_refl _
    · exact leR_bind (h _ _) fun _ => leR_refl _

theorem leR_innerChildrenPred {rec rec' : Ref → Ref → Res ε Bool} (h : ∀ a b, LeR (rec a b) (rec' a b))
    (ac bc : Option TIter) : LeR (innerChildrenPredS rec ac bc) (innerChildrenPredS rec' ac bc) := by
  cases ac <;> cases bc
  · exact leR_refl _
  · exact leR_refl _
  · exact leR_refl _
  · refine leR_joinAnyS ?_ _ _
    intro a b
    cases a <;> cases b
    · exact leR_refl _
    · exact leR_refl _
    · exact leR_refl _
    · exact h _ _

theorem leR_leftChildrenPred {rec rec' : Ref → Ref → Res ε Bool} (h : ∀ a b, LeR (rec a b) (rec' a b))
    (ac bc : Option TIter) : LeR (leftChildrenPredS rec ac bc) (leftChildrenPredS rec' ac bc) := by
  cases ac <;> cases bc
  · exact leR_refl _
  · exact leR_refl _
  · exact leR_refl _
  · refine leR_joinAnyS ?_ _ _
    intro a b
    cases a <;> cases b
    · exact leR_refl _
    · exact leR_refl _
    · exact leR_refl _
    · exact h _ _

theorem outerCombineS_fuel (f : BlobV → BlobV → Res ε (Option Bytes)) (n : Nat) : ∀ a b : Ref,
    LeR (outerCombineS S st T st' f n a b) (outerCombineS S st T st' f (n + 1) a b) := by
  induction n with
  | zero => exact fun _ _ => leR_deep _
  | succ n ih =>
    intro a b
    rw [outerCombineS, outerCombineS]
    refine leR_bind (leR_refl _) fun ap => leR_bind (leR_refl _) fun bp => ?_
    dsimp only
    split
    · exact leR_bind (leR_refl _) fun _ => leR_bind (leR_refl _) fun _ => leR_bind (leR_refl _) fun _ =>
        leR_bind (leR_outerChildren n ih _ _) fun _ => leR_refl _
    split
    · exact leR_bind (leR_refl _) fun _ => leR_bind (leR_refl _) fun _ => leR_bind (leR_refl _) fun _ =>
        leR_bind (leR_outerChildren n ih _ _) fun _ => leR_refl _
    split
    · exact leR_bind (leR_refl _) fun _ => leR_bind (leR_refl _) fun _ => leR_bind (leR_refl _) fun _ =>
        leR_bind (leR_outerChildren n ih _ _) fun _ => leR_refl _
    · exact leR_bind (leR_shortDetached n _ _) fun _ => leR_bind (leR_shortDetached n _ _) fun _ => leR_refl _

theorem innerCombineS_fuel (f : BlobV → BlobV → Res ε (Option Bytes)) (n : Nat) : ∀ a b : Ref,
    LeR (innerCombineS S st T st' f n a b) (innerCombineS S st T st' f (n + 1) a b) := by
  induction n with
  | zero => exact fun _ _ => leR_deep _
  | succ n ih =>
    intro a b
    rw [innerCombineS, innerCombineS]
    refine leR_bind (leR_refl _) fun ap => leR_bind (leR_refl _) fun bp => ?_
    dsimp only
    split
    · exact leR_bind (leR_refl _) fun _ => leR_bind (leR_refl _) fun _ => leR_bind (leR_refl _) fun _ =>
        leR_bind (leR_innerChildren ih _ _) fun _ => leR_refl _
    split
    · exact leR_bind (leR_refl _) fun _ => leR_bind (leR_refl _) fun _ =>
        leR_bind (leR_innerChildren ih _ _) fun _ => leR_refl _
    split
    · exact leR_bind (leR_refl _) fun _ => leR_bind (leR_refl _) fun _ =>
        leR_bind (leR_innerChildren ih _ _) fun _ => leR_refl _
    · exact leR_refl _

theorem leftCombineS_fuel (f : BlobV → BlobV → Res ε (Option Bytes)) (n : Nat) : ∀ a b : Ref,
    LeR (leftCombineS S st T st' f n a b) (leftCombineS S st T st' f (n + 1) a b) := by
  induction n with
  | zero => exact fun _ _ => leR_deep _
  | succ n ih =>
    intro a b
    rw [leftCombineS, leftCombineS]
    refine leR_bind (leR_refl _) fun ap => leR_bind (leR_refl _) fun bp => ?_
    dsimp only
    split
    · exact leR_bind (leR_refl _) fun _ => leR_bind (leR_refl _) fun _ => leR_bind (leR_refl _) fun _ =>
        leR_bind (leR_leftChildren n ih _ _) fun _ => leR_refl _
    split
    · exact leR_bind (leR_refl _) fun _ => leR_bind (leR_refl _) fun _ => leR_bind (leR_refl _) fun _ =>
        leR_bind (leR_leftChildren n ih _ _) fun _ => leR_refl _
    split
    · exact leR_bind (leR_refl _) fun _ => leR_bind (leR_refl _) fun _ =>
        leR_bind (leR_leftChildren n ih _ _) fun _ => leR_refl _
    · exact leR_refDetached n _

theorem innerCombinePredS_fuel (f : BlobV → BlobV → Res ε Bool) (n : Nat) : ∀ a b : Ref,
    LeR (innerCombinePredS S st T st' f n a b) (innerCombinePredS S st T st' f (n + 1) a b) := by
  induction n with
  | zero => exact fun _ _ => leR_deep _
  | succ n ih =>
    intro a b
    rw [innerCombinePredS, innerCombinePredS]
    refine leR_bind (leR_refl _) fun ap => leR_bind (leR_refl _) fun bp => ?_
    dsimp only
    split
    · refine leR_bind (leR_refl _) fun hit => ?_
      split
      · exact leR_refl _
      · exact leR_bind (leR_refl _) fun _ => leR_bind (leR_refl _) fun _ => leR_innerChildrenPred ih _ _
    split
    · refine leR_bind (leR_refl _) fun _ => leR_bind (leR_refl _) fun o => ?_
      cases o
      · exact leR_refl _
      · exact leR_anyIterS (fun _ => ih _ _) _
    split
    · refine leR_bind (leR_refl _) fun _ => leR_bind (leR_refl _) fun o => ?_
      cases o
      · exact leR_refl _
      · exact leR_anyIterS (fun _ => ih _ _) _
    · exact leR_refl _

theorem leftCombinePredS_fuel (f : BlobV → BlobV → Res ε Bool) (n : Nat) : ∀ a b : Ref,
    LeR (leftCombinePredS S st T st' f n a b) (leftCombinePredS S st T st' f (n + 1) a b) := by
  induction n with
  | zero => exact fun _ _ => leR_deep _
  | succ n ih =>
    intro a b
    rw [leftCombinePredS, leftCombinePredS]
    refine leR_bind (leR_refl _) fun ap => leR_bind (leR_refl _) fun bp => ?_
    dsimp only
    split
    · refine leR_bind (leR_refl _) fun hit => ?_
      split
      · exact leR_refl _
      · exact leR_bind (leR_refl _) fun _ => leR_bind (leR_refl _) fun _ => leR_leftChildrenPred ih _ _
    split
    · split
      · exact leR_refl _
      · exact leR_bind (leR_refl _) fun _ => leR_bind (leR_refl _) fun _ => leR_leftChildrenPred ih _ _
    split
    · exact leR_bind (leR_refl _) fun _ => leR_bind (leR_refl _) fun _ => leR_leftChildrenPred ih _ _
    · exact leR_refl _

end

end Radix
