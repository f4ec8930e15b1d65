import Verif.Proofs.AttMapsStep

/-
Sessions with a store on plain values: what is seen does not depend on the depth, once the depth is enough.
-/

set_option linter.unusedVariables false

namespace Radix.Kept
open Radix Node
open Radix.Heap (Choice)
open Radix.Heap.Att (Op Obs Obj NewChoice PWorld storeOf fits pstep prun ponTree ponTrees pchanged pchange pchangeWith pnewTree pnewValue pnewEntry panswer
  pattachedOf preattachOf ploadOf pcloneOf pnewIter pnextOf pnextGroupOf preadKeyOf convOf penvOf attachS reattachS attachS_embed setFnS predS newFnS testFnS descendS maskAb)

section
variable {σ ε : Type} {S : BlobStore σ ε}

/-- `y` is the result `x`, or there was none. -/
def LeO {α : Type} (x y : Option α) : Prop := x = none ∨ x = y

theorem leO_refl {α} (x : Option α) : LeO x x := Or.inr rfl

theorem leO_trans {α} {x y z : Option α} (h : LeO x y) (h' : LeO y z) : LeO x z := by
  rcases h with h | rfl
  · exact Or.inl h
  · exact h'

theorem leO_le {α} {f : Nat → Option α} (h : ∀ n, LeO (f n) (f (n + 1))) {n m : Nat} (hn : n ≤ m) : LeO (f n) (f m) := by
  induction m with
  | zero => cases (by omega : n = 0); exact leO_refl _
  | succ m ih =>
    by_cases e : n = m + 1
    · subst e; exact leO_refl _
    · exact leO_trans (ih (by omega)) (h m)

theorem leO_some {α} {x y : Option α} (h : LeO x y) {a : α} (e : x = some a) : y = some a := by
  rcases h with h | h
  · rw [h] at e; cases e
  · rw [← h, e]

theorem leO_R {α β} {g : Res ε α → Option β} (hg : g .deep = none) {x y : Res ε α} (h : LeR x y) : LeO (g x) (g y) := by
  rcases h with rfl | rfl
  · exact Or.inl hg
  · exact leO_refl _

theorem leO_tree {w : PWorld σ} {i : Nat} {f g : Bool → SNode → Option (Obs ε × PWorld σ)} (h : ∀ a m, LeO (f a m) (g a m)) : LeO (ponTree w i f) (ponTree w i g) := by
  unfold ponTree
  split
  · exact h _ _
  · exact leO_refl _

theorem leO_changed {w : PWorld σ} {i : Nat} {a : Bool} {x y : Res ε Unit × SNode} (h : LeP x y) : LeO (pchanged w i a x) (pchanged w i a y) := by
  rcases h with h | rfl
  · left
    obtain ⟨r, t⟩ := x
    cases h
    rfl
  · exact leO_refl _

theorem leO_change {w : PWorld σ} {i : Nat} {f g : Bool → SNode → Res ε Unit × SNode} (h : ∀ a m, LeP (f a m) (g a m)) : LeO (pchange w i f) (pchange w i g) :=
  leO_tree fun a m => leO_changed (h a m)

theorem leO_changeWith {w : PWorld σ} {i j : Nat} {ok} {f g : Bool → Bool → SNode → Radix.Ref → Res ε Unit × SNode} (h : ∀ a b m k, LeP (f a b m k) (g a b m k)) :
    LeO (pchangeWith w i j ok f) (pchangeWith w i j ok g) := by
  unfold pchangeWith
  split
  · exact leO_refl _
  · refine leO_tree fun a m => leO_tree fun b k => ?_
    split
    · exact leO_changed (h _ _ _ _)
    · exact leO_refl _

theorem leO_trees {w : PWorld σ} {i j : Nat} {f g : Bool → Bool → Radix.Ref → Radix.Ref → Option (Obs ε × PWorld σ)} (h : ∀ a b m k, LeO (f a b m k) (g a b m k)) :
    LeO (ponTrees w i j f) (ponTrees w i j g) := leO_tree fun a m => leO_tree fun b k => h _ _ _ _

theorem leR_bindOk {α β} {x y : Res ε α} {f : α → β} (h : LeR x y) : LeR (x.bind fun a => .ok (f a)) (y.bind fun a => .ok (f a)) := by
  rcases h with rfl | rfl
  · exact Or.inl rfl
  · exact leR_refl _

theorem conv_fuel {a b : Bool} {st : σ} (mask) (c : Conv) (f : BlobV → BlobV → Res ε BlobV) (n : Nat) (y : SNode) (z : Radix.Ref) :
    LeP (outerCombineWithS (penvOf S st mask a b) (convOf S st n b c) f n y z) (outerCombineWithS (penvOf S st mask a b) (convOf S st (n + 1) b c) f (n + 1) y z) := by
  cases c with
  | downcast => exact outerCombineWithS_fuel _ _ n _ _
  | identity => exact outerCombineWithS_fuel _ _ n _ _
  | detach => exact outerDetach_fuel (e := penvOf S st mask a b) _ _ _ _ _ n

/-- One call. -/
theorem pstep_fuel (mask) (n : Nat) (w : PWorld σ) (op : Op σ ε) : LeO (pstep S mask n w op) (pstep S mask (n + 1) w op) := by
  cases op with
  | insert i k v => exact leO_change fun a m => outerCombineWithS_fuel (e := singleEnv (storeOf S w.1 a).S (storeOf S w.1 a).st false (maskAb mask)) _ _ n _ _
  | remove i k => exact leO_change fun a m => leftCombineWithS_fuel (e := singleEnv (storeOf S w.1 a).S (storeOf S w.1 a).st false (maskAb mask)) _ n _ _
  | removePrefix i p => exact leO_change fun a m => removePrefixWithS_fuel (e := singleEnv (storeOf S w.1 a).S (storeOf S w.1 a).st false (maskAb mask)) _ n _ _
  | outerCombineWith i j c f => exact leO_changeWith fun a b m k => conv_fuel mask c _ n m k
  | innerCombineWith i j f => exact leO_changeWith fun a b m k => innerCombineWithS_fuel _ n _ _
  | leftCombineWith i j f => exact leO_changeWith fun a b m k => leftCombineWithS_fuel _ n _ _
  | retainPrefixWith i j f => exact leO_changeWith fun a b m k => retainPrefixWithS_fuel _ n _ _
  | removePrefixWith i j f => exact leO_changeWith fun a b m k => removePrefixWithS_fuel _ n _ _
  | outerCombine i j f => simp only [pstep]; refine leO_trees fun a b m k => ?_; exact leO_R (g := pnewTree w false) rfl (leR_bindOk (outerCombineS_fuel _ n _ _))
  | innerCombine i j f => simp only [pstep]; refine leO_trees fun a b m k => ?_; exact leO_R (g := pnewTree w false) rfl (leR_bindOk (innerCombineS_fuel _ n _ _))
  | leftCombine i j f => simp only [pstep]; refine leO_trees fun a b m k => ?_; exact leO_R (g := pnewTree w false) rfl (leR_bindOk (leftCombineS_fuel _ n _ _))
  | innerCombinePred i j f => simp only [pstep]; refine leO_trees fun a b m k => ?_; exact leO_R (g := panswer w .bool) rfl (innerCombinePredS_fuel _ n _ _)
  | leftCombinePred i j f => simp only [pstep]; refine leO_trees fun a b m k => ?_; exact leO_R (g := panswer w .bool) rfl (leftCombinePredS_fuel _ n _ _)
  | filterPrefix i p s => exact leO_tree fun a m => leO_R rfl (filterPrefixS_fuel m p s n)
  | detached i => exact leO_tree fun a m => leO_R rfl (leR_bindOk ((detachedS_fuel n).1 m))
  | attached i =>
    refine leO_tree fun a m => ?_
    split
    · exact leO_refl _
    · split
      · rw [if_pos (by omega)]; exact leO_refl _
      · exact Or.inl rfl
  | reattach i =>
    refine leO_tree fun a m => ?_
    split
    · split
      · rw [if_pos (by omega)]; exact leO_refl _
      · exact Or.inl rfl
    · exact leO_refl _
  | get i k => exact leO_tree fun a m => leO_R rfl (getS_fuel m k n)
  | containsKey i k => exact leO_tree fun a m => leO_R rfl (containsKeyS_fuel m k n)
  | hasPrefix i p => exact leO_tree fun a m => leO_R rfl (hasPrefixS_fuel m p n)
  | firstValue i => exact leO_tree fun a m => leO_R rfl (firstValueS_fuel n _)
  | lastValue i => exact leO_tree fun a m => leO_R rfl (lastValueS_fuel n _)
  | firstEntry i p => exact leO_tree fun a m => leO_R rfl (firstEntryS_fuel n p _)
  | lastEntry i p => exact leO_tree fun a m => leO_R rfl (lastEntryS_fuel n p _)
  | scanPrefix i p => exact leO_tree fun a m => leO_R rfl (scanPrefixS_fuel m p n)
  | next i =>
    show LeO (pnextOf S n w i) (pnextOf S (n + 1) w i)
    unfold pnextOf
    split
    · rename_i a m _
      rcases next0_fuel (S := (storeOf S w.1 a).S) (st := (storeOf S w.1 a).st) n m with h | h
      · left; simp only [SIter.next, h]
      · simp only [SIter.next, h]; exact leO_refl _
    · rename_i a m _
      rcases valNext0S_fuel (S := (storeOf S w.1 a).S) (st := (storeOf S w.1 a).st) n m with h | h
      · left; simp only [valNextS, h]
      · simp only [valNextS, h]; exact leO_refl _
    · exact leO_refl _
  | nextGroup i d =>
    show LeO (pnextGroupOf S n w i d) (pnextGroupOf S (n + 1) w i d)
    unfold pnextGroupOf
    split
    · rename_i a m _
      rcases groupNext0S_fuel (S := (storeOf S w.1 a).S) (st := (storeOf S w.1 a).st) (descendS d) n m with h | h
      · left; simp only [groupNextS, h]
      · simp only [groupNextS, h]; exact leO_refl _
    · exact leO_refl _
  | _ => exact leO_refl _

theorem pstep_more (mask) {n n' : Nat} (hn : n ≤ n') {w : PWorld σ} {op : Op σ ε} {r} (e : pstep S mask n w op = some r) : pstep S mask n' w op = some r :=
  leO_some (leO_le (fun n => pstep_fuel mask n w op) hn) e

/-- A session. -/
theorem prun_more (mask) {n n' : Nat} (hn : n ≤ n') : ∀ (ops : List (Op σ ε)) {w : PWorld σ} {r}, prun S mask n w ops = some r → prun S mask n' w ops = some r := by
  intro ops
  induction ops with
  | nil => exact fun e => e
  | cons op ops ih =>
    intro w r e
    rw [prun] at e ⊢
    cases h : pstep S mask n w op with
    | none => rw [h] at e; cases e
    | some x =>
      obtain ⟨o, w1⟩ := x
      rw [h] at e
      rw [pstep_more mask hn h]
      dsimp only at e ⊢
      cases h1 : prun S mask n w1 ops with
      | none => rw [h1] at e; cases e
      | some y => rw [h1] at e; rw [ih h1]; exact e

end

end Radix.Kept
