import Verif.Proofs.UpdateOps

/-
Proof-internal: more fuel does not change an outcome, except for `deep`.
-/

set_option linter.unusedVariables false

namespace Radix

section
variable {σ τ ε : Type}

/-- `x` did not end, or it is `y`. -/
def LeR {α} (x y : Res ε α) : Prop := x = .deep ∨ x = y

/-- The same for outcomes with a state. -/
def LeP {α β} (x y : Res ε α × β) : Prop := x.1 = .deep ∨ x = y

theorem leR_refl {α} (x : Res ε α) : LeR x x := Or.inr rfl
theorem leP_refl {α β} (x : Res ε α × β) : LeP x x := Or.inr rfl
theorem leR_deep {α} (x : Res ε α) : LeR .deep x := Or.inl rfl
theorem leP_deep {α β} (b : β) (x : Res ε α × β) : LeP (.deep, b) x := Or.inl rfl

theorem leR_trans {α} {x y z : Res ε α} (h : LeR x y) (h' : LeR y z) : LeR x z := by
  rcases h with h | rfl
  · exact Or.inl h
  · exact h'

theorem leP_trans {α β} {x y z : Res ε α × β} (h : LeP x y) (h' : LeP y z) : LeP x z := by
  rcases h with h | rfl
  · exact Or.inl h
  · exact h'

theorem leR_bind {α β} {x y : Res ε α} {f g : α → Res ε β} (h : LeR x y) (hf : ∀ a, LeR (f a) (g a)) :
    LeR (x.bind f) (y.bind g) := by
  rcases h with rfl | rfl
  · exact Or.inl rfl
  · cases x with
    | ok a => exact hf a
    | err e => exact leR_refl _
    | panic => exact leR_refl _
    | deep => exact leR_refl _

theorem leP_bind {α β γ} {x y : Res ε α × γ} {f g : α → γ → Res ε β × γ} (h : LeP x y)
    (hf : ∀ a c, LeP (f a c) (g a c)) : LeP (stBind x f) (stBind y g) := by
  rcases h with h | rfl
  · obtain ⟨r, c⟩ := x; cases h; exact Or.inl rfl
  · obtain ⟨r, c⟩ := x
    cases r with
    | ok a => exact hf a c
    | err e => exact leP_refl _
    | panic => exact leP_refl _
    | deep => exact leP_refl _

theorem leP_of {α β} {x y : Res ε α} (h : LeR x y) (b : β) : LeP (x, b) (y, b) := by
  rcases h with rfl | rfl
  · exact Or.inl rfl
  · exact leP_refl _

theorem leP_onChildren (a : SNode) {x y : Res ε Unit × List SNode} (h : LeP x y) :
    LeP (onChildren a x) (onChildren a y) := by
  rcases h with h | rfl
  · exact Or.inl h
  · exact leP_refl _

theorem leP_loopS {rec rec' : SNode → Ref → Res ε Unit × SNode} (h : ∀ a b, LeP (rec a b) (rec' a b)) (keep : Bool)
    (greater : Ref → Res ε (Option SNode)) (ab : List SNode → List SNode → List SNode) (done src : List SNode)
    (it : TIter) : LeP (loopS rec keep greater ab done src it) (loopS rec' keep greater ab done src it) := by
  generalize hm : src.length + it.size = m
  induction m using Nat.strongRecOn generalizing done src it with
  | ind m ih =>
    cases src with
    | nil =>
      cases hn : it.next with
      | none => rw [loopS_nn hn, loopS_nn hn]; exact leP_refl _
      | some x =>
        obtain ⟨b, it'⟩ := x
        have := TIter.next_size hn
        rw [loopS_ns hn, loopS_ns hn]
        refine leP_bind (leP_refl _) fun _ _ => ih _ ?_ _ _ _ rfl
        simp only [List.length_nil] at *; omega
    | cons a src =>
      cases hn : it.next with
      | none =>
        rw [loopS_sn hn, loopS_sn hn]
        refine ih _ ?_ _ _ _ rfl
        simp only [List.length_cons] at *; omega
      | some x =>
        obtain ⟨b, it'⟩ := x
        have := TIter.next_size hn
        rw [loopS_ss hn, loopS_ss hn]
        split
        · refine ih _ ?_ _ _ _ rfl
          simp only [List.length_cons] at *; omega
        split
        · refine leP_bind (leP_refl _) fun _ _ => ih _ ?_ _ _ _ rfl
          simp only [List.length_cons] at *; omega
        · rcases h a b with hd | he
          · left; rw [hd]; rfl
          · rw [← he]
            refine leP_bind (leP_refl _) fun _ _ => ih _ ?_ _ _ _ rfl
            simp only [List.length_cons] at *; omega

section
variable {e : UEnv σ τ ε}

theorem leP_childrenBoth {k k' : List SNode → Option TIter → Res ε Unit × List SNode}
    (h : ∀ ac bc, LeP (k ac bc) (k' ac bc)) (a : SNode) (b : Ref) : LeP (childrenBoth e k a b) (childrenBoth e k' a b) :=
  leP_bind (leP_refl _) fun _ _ => leP_bind (leP_refl _) fun _ _ => leP_onChildren _ (h _ _)

theorem leP_childrenShort {k k' : List SNode → Option TIter → Res ε Unit × List SNode}
    (h : ∀ ac bc, LeP (k ac bc) (k' ac bc)) (n : Nat) (a : SNode) (b : Ref) :
    LeP (childrenShort e k n a b) (childrenShort e k' n a b) :=
  leP_bind (leP_refl _) fun _ _ => leP_bind (leP_refl _) fun _ _ => leP_onChildren _ (h _ _)

theorem leP_outerChildren (c : SConv ε) {rec rec' : SNode → Ref → Res ε Unit × SNode}
    (h : ∀ a b, LeP (rec a b) (rec' a b)) (ac : List SNode) (bc : Option TIter) :
    LeP (outerChildrenS e c rec ac bc) (outerChildrenS e c rec' ac bc) := by
  unfold outerChildrenS
  split
  · split
    · exact leP_refl _
    · exact leP_loopS h _ _ _ _ _ _
  · exact leP_refl _

theorem leP_innerChildren {rec rec' : SNode → Ref → Res ε Unit × SNode}
    (h : ∀ a b, LeP (rec a b) (rec' a b)) (ac : List SNode) (bc : Option TIter) :
    LeP (innerChildrenS e rec ac bc) (innerChildrenS e rec' ac bc) := by
  unfold innerChildrenS
  split
  · split
    · exact leP_refl _
    · exact leP_loopS h _ _ _ _ _ _
  · exact leP_refl _

theorem leP_leftChildren {rec rec' : SNode → Ref → Res ε Unit × SNode}
    (h : ∀ a b, LeP (rec a b) (rec' a b)) (ac : List SNode) (bc : Option TIter) :
    LeP (leftChildrenS e rec ac bc) (leftChildrenS e rec' ac bc) := by
  unfold leftChildrenS
  split
  · split
    · exact leP_refl _
    · exact leP_loopS h _ _ _ _ _ _
  · exact leP_refl _

theorem outerCombineWithS_fuel (c : SConv ε) (f : BlobV → BlobV → Res ε BlobV) (n : Nat) : ∀ (a : SNode) (b : Ref),
    LeP (outerCombineWithS e c f n a b) (outerCombineWithS e c f (n + 1) a b) := by
  induction n with
  | zero => exact fun a b => leP_deep _ _
  | succ n ih =>
    intro a b
    rw [outerCombineWithS, outerCombineWithS]
    refine leP_bind (leP_refl _) fun ap a => leP_bind (leP_refl _) fun bp a => ?_
    dsimp only
    refine leP_bind ?_ fun _ a => leP_refl _
    split
    · refine leP_bind (leP_refl _) fun _ a => leP_bind (leP_refl _) fun _ a => ?_
      exact leP_childrenBoth (leP_outerChildren c ih) _ _
    split
    · exact leP_childrenShort (leP_outerChildren c ih) _ _ _
    · exact leP_refl _

theorem innerCombineWithS_fuel (f : BlobV → BlobV → Res ε BlobV) (n : Nat) : ∀ (a : SNode) (b : Ref),
    LeP (innerCombineWithS e f n a b) (innerCombineWithS e f (n + 1) a b) := by
  induction n with
  | zero => exact fun a b => leP_deep _ _
  | succ n ih =>
    intro a b
    rw [innerCombineWithS, innerCombineWithS]
    refine leP_bind (leP_refl _) fun ap a => leP_bind (leP_refl _) fun bp a => ?_
    dsimp only
    refine leP_bind ?_ fun _ a => leP_refl _
    split
    · refine leP_bind (leP_refl _) fun _ a => ?_
      exact leP_childrenBoth (leP_innerChildren ih) _ _
    split
    · exact leP_childrenShort (leP_innerChildren ih) _ _ _
    split
    · refine leP_bind (leP_refl _) fun _ a => ?_
      exact leP_childrenBoth (leP_innerChildren ih) _ _
    · exact leP_refl _

theorem leftCombineWithS_fuel (f : BlobV → BlobV → Res ε BlobV) (n : Nat) : ∀ (a : SNode) (b : Ref),
    LeP (leftCombineWithS e f n a b) (leftCombineWithS e f (n + 1) a b) := by
  induction n with
  | zero => exact fun a b => leP_deep _ _
  | succ n ih =>
    intro a b
    rw [leftCombineWithS, leftCombineWithS]
    refine leP_bind (leP_refl _) fun ap a => leP_bind (leP_refl _) fun bp a => ?_
    dsimp only
    refine leP_bind ?_ fun _ a => leP_refl _
    split
    · refine leP_bind (leP_refl _) fun _ a => ?_
      exact leP_childrenBoth (leP_leftChildren ih) _ _
    split
    · exact leP_childrenShort (leP_leftChildren ih) _ _ _
    split
    · refine leP_bind (leP_refl _) fun _ a => ?_
      exact leP_childrenBoth (leP_leftChildren ih) _ _
    · exact leP_refl _

theorem retainPrefixWithS_fuel (f : BlobV → Res ε Bool) (n : Nat) : ∀ (a : SNode) (b : Ref),
    LeP (retainPrefixWithS e f n a b) (retainPrefixWithS e f (n + 1) a b) := by
  induction n with
  | zero => exact fun a b => leP_deep _ _
  | succ n ih =>
    intro a b
    rw [retainPrefixWithS, retainPrefixWithS]
    refine leP_bind (leP_refl _) fun ap a => leP_bind (leP_refl _) fun bp a => ?_
    dsimp only
    refine leP_bind ?_ fun _ a => leP_refl _
    split
    · refine leP_bind (leP_refl _) fun _ a => ?_
      split
      · exact leP_childrenBoth (leP_innerChildren ih) _ _
      · exact leP_refl _
    split
    · split
      · refine leP_bind (leP_refl _) fun _ a => ?_
        exact leP_childrenBoth (leP_innerChildren ih) _ _
      · exact leP_refl _
    split
    · exact leP_childrenShort (leP_innerChildren ih) _ _ _
    · exact leP_refl _

theorem removePrefixWithS_fuel (f : BlobV → Res ε Bool) (n : Nat) : ∀ (a : SNode) (b : Ref),
    LeP (removePrefixWithS e f n a b) (removePrefixWithS e f (n + 1) a b) := by
  induction n with
  | zero => exact fun a b => leP_deep _ _
  | succ n ih =>
    intro a b
    rw [removePrefixWithS, removePrefixWithS]
    refine leP_bind (leP_refl _) fun ap a => leP_bind (leP_refl _) fun bp a => ?_
    dsimp only
    refine leP_bind ?_ fun _ a => leP_refl _
    split
    · refine leP_bind (leP_refl _) fun _ a => ?_
      split
      · exact leP_refl _
      · refine leP_bind (leP_refl _) fun _ a => ?_
        exact leP_childrenBoth (leP_leftChildren ih) _ _
    split
    · exact leP_childrenShort (leP_leftChildren ih) _ _ _
    · exact leP_refl _

end

section
variable {S : BlobStore σ ε} {st : σ}

theorem findS_fuel (n : Nat) : ∀ (t : Ref) (p : Bytes), LeR (findS S st n t p) (findS S st (n + 1) t p) := by
  induction n with
  | zero => exact fun _ _ => leR_deep _
  | succ n ih =>
    intro t p
    rw [findS, findS]
    refine leR_bind (leR_refl _) fun tp => ?_
    dsimp only
    split
    · exact leR_refl _
    split
    · exact leR_refl _
    split
    · split
      · exact leR_refl _
      · refine leR_bind (leR_refl _) fun o => ?_
        cases o with
        | none => exact leR_refl _
        | some cs =>
          dsimp only
          split
          · exact leR_refl _
          · exact ih _ _
    · exact leR_refl _

theorem getS_fuel (a : SNode) (k : Bytes) (n : Nat) : LeR (getS S n st a k) (getS S (n + 1) st a k) :=
  leR_bind (findS_fuel n _ _) fun _ => leR_refl _

theorem containsKeyS_fuel (a : SNode) (k : Bytes) (n : Nat) :
    LeR (containsKeyS S n st a k) (containsKeyS S (n + 1) st a k) := leR_bind (findS_fuel n _ _) fun _ => leR_refl _

theorem hasPrefixS_fuel (a : SNode) (k : Bytes) (n : Nat) :
    LeR (hasPrefixS S n st a k) (hasPrefixS S (n + 1) st a k) := leR_bind (findS_fuel n _ _) fun _ => leR_refl _

theorem filterPrefixS_fuel (a : SNode) (p s : Bytes) (n : Nat) :
    LeR (filterPrefixS S n st a p s) (filterPrefixS S (n + 1) st a p s) := leR_bind (findS_fuel n _ _) fun _ => leR_refl _

theorem scanPrefixS_fuel (a : SNode) (p : Bytes) (n : Nat) :
    LeR (scanPrefixS S n st a p) (scanPrefixS S (n + 1) st a p) := leR_bind (findS_fuel n _ _) fun _ => leR_refl _

theorem firstValueS_fuel (n : Nat) : ∀ t : Ref, LeR (firstValueS S st n t) (firstValueS S st (n + 1) t) := by
  induction n with
  | zero => exact fun _ => leR_deep _
  | succ n ih =>
    intro t
    rw [firstValueS, firstValueS]
    split
    · exact leR_refl _
    · refine leR_bind (leR_refl _) fun o => ?_
      cases o with
      | none => exact leR_refl _
      | some cs =>
        dsimp only
        split
        · exact leR_refl _
        · exact ih _

theorem lastValueS_fuel (n : Nat) : ∀ t : Ref, LeR (lastValueS S st n t) (lastValueS S st (n + 1) t) := by
  induction n with
  | zero => exact fun _ => leR_deep _
  | succ n ih =>
    intro t
    rw [lastValueS, lastValueS]
    refine leR_bind (leR_refl _) fun o => ?_
    cases o with
    | none => exact leR_refl _
    | some cs =>
      dsimp only
      split
      · exact leR_refl _
      · exact ih _

theorem firstEntryS_fuel (n : Nat) : ∀ (pre : Bytes) (t : Ref),
    LeR (firstEntryS S st n pre t) (firstEntryS S st (n + 1) pre t) := by
  induction n with
  | zero => exact fun _ _ => leR_deep _
  | succ n ih =>
    intro pre t
    rw [firstEntryS, firstEntryS]
    refine leR_bind (leR_refl _) fun tp => ?_
    split
    · exact leR_refl _
    · refine leR_bind (leR_refl _) fun o => ?_
      cases o with
      | none => exact leR_refl _
      | some cs =>
        dsimp only
        split
        · exact leR_refl _
        · exact ih _ _

theorem lastEntryS_fuel (n : Nat) : ∀ (pre : Bytes) (t : Ref),
    LeR (lastEntryS S st n pre t) (lastEntryS S st (n + 1) pre t) := by
  induction n with
  | zero => exact fun _ _ => leR_deep _
  | succ n ih =>
    intro pre t
    rw [lastEntryS, lastEntryS]
    refine leR_bind (leR_refl _) fun tp => ?_
    refine leR_bind (leR_refl _) fun o => ?_
    cases o with
    | none => exact leR_refl _
    | some cs =>
      dsimp only
      split
      · exact leR_refl _
      · exact ih _ _

theorem detachedLoop_le {f g : SNode → Res ε Node} (h : ∀ a, LeR (f a) (g a)) (it : TIter) :
    LeR (detachedLoop f it) (detachedLoop g it) := by
  fun_induction detachedLoop f it with
  | case1 it e => rw [detachedLoop.eq_def g]; split <;> simp_all [leR_refl]
  | case2 it c it' e ih =>
    rw [detachedLoop.eq_def g]
    split
    · simp_all
    · rename_i c2 it2 e2
      rw [e] at e2
      cases e2
      exact leR_bind (leR_refl _) fun a => leR_bind (h _) fun _ => leR_bind ih fun _ => leR_refl _

theorem detachedS_fuel (n : Nat) : (∀ a : SNode, LeR (detachedS S st n a) (detachedS S st (n + 1) a)) ∧
    ∀ it : TIter, LeR (detachedIterS S st n it) (detachedIterS S st (n + 1) it) := by
  have key : ∀ a : SNode, LeR (detachedS S st n a) (detachedS S st (n + 1) a) := by
    induction n with
    | zero => exact fun _ => by rw [detachedS]; exact leR_deep _
    | succ n ih =>
      intro a
      rw [detachedS, detachedS]
      refine leR_bind (leR_refl _) fun p => leR_bind (leR_refl _) fun v => leR_bind (leR_refl _) fun o => ?_
      cases o with
      | none => exact leR_refl _
      | some cs => exact leR_bind (detachedLoop_le ih _) fun _ => leR_refl _
  exact ⟨key, fun it => detachedLoop_le key it⟩

theorem next0_fuel (n : Nat) : ∀ s : SIter, LeR (SIter.next0 S st n s) (SIter.next0 S st (n + 1) s) := by
  induction n with
  | zero => exact fun _ => leR_deep _
  | succ n ih =>
    intro s
    rw [SIter.next0, SIter.next0]
    split
    · exact leR_refl _
    · split
      · refine leR_bind (leR_refl _) fun p => leR_bind (leR_refl _) fun cs => ?_
        dsimp only
        split
        · exact leR_refl _
        · exact ih _
      · exact ih _
    · exact ih _

theorem valNext0S_fuel (n : Nat) : ∀ s : List TIter, LeR (valNext0S S st n s) (valNext0S S st (n + 1) s) := by
  induction n with
  | zero => exact fun _ => leR_deep _
  | succ n ih =>
    intro s
    rw [valNext0S.eq_def, valNext0S.eq_def _ _ (n + 1 + 1)]
    dsimp only
    split
    · exact leR_refl _
    · split
      · refine leR_bind (leR_refl _) fun cs => ?_
        split
        · exact leR_refl _
        · exact ih _
      · exact ih _

theorem groupNext0S_fuel (d : Bytes → Ref → Res ε Bool) (n : Nat) : ∀ s : SIter,
    LeR (groupNext0S S d st n s) (groupNext0S S d st (n + 1) s) := by
  induction n with
  | zero => exact fun _ => leR_deep _
  | succ n ih =>
    intro s
    rw [groupNext0S, groupNext0S]
    split
    · exact leR_refl _
    · split
      · refine leR_bind (leR_refl _) fun p => ?_
        dsimp only
        refine leR_bind (leR_refl _) fun go => ?_
        cases go with
        | false => exact leR_refl _
        | true =>
          refine leR_bind (leR_refl _) fun cs => ?_
          split
          · exact leR_refl _
          · exact ih _
      · exact ih _
    · exact ih _

end

theorem leR_le {α} {f : Nat → Res ε α} (h : ∀ n, LeR (f n) (f (n + 1))) {n m : Nat} (hn : n ≤ m) : LeR (f n) (f m) := by
  induction m with
  | zero => cases (by omega : n = 0); exact leR_refl _
  | succ m ih =>
    by_cases e : n = m + 1
    · subst e; exact leR_refl _
    · exact leR_trans (ih (by omega)) (h m)

theorem leP_le {α β} {f : Nat → Res ε α × β} (h : ∀ n, LeP (f n) (f (n + 1))) {n m : Nat} (hn : n ≤ m) :
    LeP (f n) (f m) := by
  induction m with
  | zero => cases (by omega : n = 0); exact leP_refl _
  | succ m ih =>
    by_cases e : n = m + 1
    · subst e; exact leP_refl _
    · exact leP_trans (ih (by omega)) (h m)

end

end Radix
