import Verif.Proofs.NoSplitOuter
import Verif.Props.StoredCombine

/-
Property C90: combinations of trees in stores that do not reach the unimplemented branches (`todo!()`) of C56. `Operand` and
`loadF` are those of C56, `Spec.Stop` and `Spec.Fits` are in Verif/Spec/Stops.lean. A store that has no blob is that of a
tree in memory (`detachedStore`, the type parameter of `RadixTree::default()`): then there is no condition for that tree.
-/

set_option linter.unusedVariables false

namespace Radix
open Node
open Spec (Stop Fits Shared Within)

section
variable {σ τ ε : Type} {S : BlobStore σ ε} {T : BlobStore τ ε}

/-- The call returns, and either the result is as described, or it returns an error and one of the two stores cannot be
read. It does not panic. -/
def Works {α : Type} (L : Lawful S) (st : σ) (M : Lawful T) (st' : τ) (x : Nat → Res ε α) (Q : α → Prop) : Prop :=
  ∃ r, Outcome x r ∧ ((∃ y, r = .ok y ∧ Q y) ∨ (∃ e, r = .err e) ∧ (¬ ReadsSucceed L st ∨ ¬ ReadsSucceed M st'))

variable {L : Lawful S} {M : Lawful T} {st : σ} {st' : τ}

theorem works_of {α : Type} {x : Nat → Res ε α} {Q : α → Prop} (hm : ∀ n, LeR (x n) (x (n + 1)))
    (h : Combines L st M st' x Q) {N : Nat} (hn : NP (x N)) : Works L st M st' x Q := by
  obtain ⟨r, ⟨B, hB⟩, hr⟩ := h
  refine ⟨r, ⟨B, hB⟩, ?_⟩
  rcases hr with h | h | h
  · exact Or.inl h
  · exfalso
    have hd : x N ≠ .deep := fun e => by rw [e] at hn; exact hn
    obtain ⟨C, hC⟩ := outcome_fuel hm hd
    have e1 := hB (max B C) (Nat.le_max_left _ _)
    have e2 := hC (max B C) (Nat.le_max_right _ _)
    rw [← e2, e1, h] at hn
    exact hn
  · exact Or.inr h

theorem fnp_load {α : Type} (f : Bytes → Bytes → α) : FNP L st M st' (loadF S st T st' f) := by
  intro av bv x y ha hb
  exact np_bind (rpost_np (load_rep ha)) fun _ _ => np_bind (rpost_np (load_rep hb)) fun _ _ => trivial

theorem fits_ext {m m' n n' : Spec.Map} (h : Fits m m') (h1 : ∀ k, n k = m k) (h2 : ∀ k, n' k = m' k) : Fits n n' := by
  have e1 : n = m := funext h1
  have e2 : n' = m' := funext h2
  rw [e1, e2]; exact h

variable {long long' : Bool} {a b : SNode} {m m' : Spec.Map}
  (ha : Operand S L long st a m) (hb : Operand T M long' st' b m')
include ha hb

section
variable (hA : Fits m m' ∨ ∀ i d, ¬ L.Has st i d) (hB : Fits m' m ∨ ∀ i d, ¬ M.Has st' i d)
include hA hB

theorem operands_meet : ∃ t u, RefS L st long (Fits m m') (.owned a) t ∧ RefS M st' long' (Fits m' m) (.owned b) u ∧
    Meet (Fits m m') (Fits m' m) (.owned a) (.owned b) t u := by
  obtain ⟨t, ho, hs, hr, hd⟩ := operand_stands ha
  obtain ⟨u, ho', hs', hr', hd'⟩ := operand_stands hb
  exact ⟨t, u, refS_owned hr, refS_owned hr', ho, ho', hs, hs', fun h => fits_ext h hd hd', fun h => fits_ext h hd' hd,
    Or.inr ⟨⟨_, rfl⟩, _, rfl⟩⟩

/-- **C90**, `try_inner_combine`: if each tree in a store stops where the other one stops on the way to its keys, the call
does not panic. -/
theorem C90_inner_combine (f : Bytes → Bytes → Option Bytes) :
    Works L st M st' (fun fuel => innerCombineS S st T st' (loadF S st T st' f) fuel (.owned a) (.owned b))
      fun t => ∀ k, get t k = Spec.inner f (m k) (m' k) := by
  obtain ⟨t, u, h1, h2, h3⟩ := operands_meet ha hb hA hB
  exact works_of (fun n => innerCombineS_fuel _ n _ _) (C56_inner_combine_partial ha hb f)
    (innerCombineS_np hA hB (fnp_load f) _ _ _ t u (Nat.le_refl _) h1 h2 h3)

/-- **C90**, `try_inner_combine_pred`. -/
theorem C90_inner_combine_pred (f : Bytes → Bytes → Bool) :
    Works L st M st' (fun fuel => innerCombinePredS S st T st' (loadF S st T st' f) fuel (.owned a) (.owned b))
      fun r => r = true ↔ ∃ k x y, m k = some x ∧ m' k = some y ∧ f x y = true := by
  obtain ⟨t, u, h1, h2, h3⟩ := operands_meet ha hb hA hB
  exact works_of (fun n => innerCombinePredS_fuel _ n _ _) (C56_inner_combine_pred_partial ha hb f)
    (innerCombinePredS_np hA hB (fnp_load f) _ _ _ t u (Nat.le_refl _) h1 h2 h3)

/-- **C90**, `try_left_combine_pred`. -/
theorem C90_left_combine_pred (f : Bytes → Bytes → Bool) :
    Works L st M st' (fun fuel => leftCombinePredS S st T st' (loadF S st T st' f) fuel (.owned a) (.owned b))
      fun r => r = true ↔ ∃ k x, m k = some x ∧ (m' k = none ∨ ∃ y, m' k = some y ∧ f x y = true) := by
  obtain ⟨t, u, h1, h2, h3⟩ := operands_meet ha hb hA hB
  exact works_of (fun n => leftCombinePredS_fuel _ n _ _) (C56_left_combine_pred_partial ha hb f)
    (leftCombinePredS_np hA hB (fnp_load f) _ _ _ t u (Nat.le_refl _) h1 h2 h3)

end

omit ha hb in
/-- The condition holds if the keys of the one map are among the keys of the other. -/
theorem fits_of_subset (h : ∀ k, m' k ≠ none → m k ≠ none) : Fits m m' := by
  rintro p k (hp | ⟨x, y, r, s, hne, h1, h2⟩) _
  · exact Or.inl (h _ hp)
  · exact Or.inr ⟨x, y, r, s, hne, h _ h1, h _ h2⟩

/-- **C90**, a tree in memory whose keys are among the keys of a tree in a store, on either side: the intersection with it,
and the predicates on the two, do not panic. -/
theorem C90_subset (f : Bytes → Bytes → Option Bytes) (p : Bytes → Bytes → Bool)
    (h : ((∀ k, m' k ≠ none → m k ≠ none) ∧ ∀ i d, ¬ M.Has st' i d) ∨
      ((∀ k, m k ≠ none → m' k ≠ none) ∧ ∀ i d, ¬ L.Has st i d)) :
    Works L st M st' (fun fuel => innerCombineS S st T st' (loadF S st T st' f) fuel (.owned a) (.owned b))
      (fun t => ∀ k, get t k = Spec.inner f (m k) (m' k)) ∧
    Works L st M st' (fun fuel => innerCombinePredS S st T st' (loadF S st T st' p) fuel (.owned a) (.owned b))
      (fun r => r = true ↔ ∃ k x y, m k = some x ∧ m' k = some y ∧ p x y = true) ∧
    Works L st M st' (fun fuel => leftCombinePredS S st T st' (loadF S st T st' p) fuel (.owned a) (.owned b))
      (fun r => r = true ↔ ∃ k x, m k = some x ∧ (m' k = none ∨ ∃ y, m' k = some y ∧ p x y = true)) := by
  have hA : Fits m m' ∨ ∀ i d, ¬ L.Has st i d := h.imp (fun h => fits_of_subset h.1) (·.2)
  have hB : Fits m' m ∨ ∀ i d, ¬ M.Has st' i d := h.elim (fun h => Or.inr h.2) fun h => Or.inl (fits_of_subset h.1)
  exact ⟨C90_inner_combine ha hb hA hB f, C90_inner_combine_pred ha hb hA hB p, C90_left_combine_pred ha hb hA hB p⟩

theorem operands_left (hA : (Fits m m' ∧ Shared m m' ∧ Within m m') ∨ ∀ i d, ¬ L.Has st i d) (hB : Fits m' m ∨ ∀ i d, ¬ M.Has st' i d) :
    ∃ t u, RefS L st long (Fits m m' ∧ Shared m m' ∧ Within m m') (.owned a) t ∧ RefS M st' long' (Fits m' m) (.owned b) u ∧
      MeetL (Fits m m' ∧ Shared m m' ∧ Within m m') (Fits m' m) (.owned a) (.owned b) t u := by
  obtain ⟨t, ho, hs, hr, hd⟩ := operand_stands ha
  obtain ⟨u, ho', hs', hr', hd'⟩ := operand_stands hb
  cases (funext hd : den t = m)
  cases (funext hd' : den u = m')
  exact ⟨t, u, refS_owned hr, refS_owned hr', ⟨ho, ho', hs, hs', fun h => h.1, id, Or.inr ⟨⟨_, rfl⟩, _, rfl⟩⟩, fun h => h.2.1, fun h => h.2.2⟩

/-- **C90**, `try_left_combine`: as `C90_inner_combine`, and if the first tree is in a store, its keys that are on the way to keys
of the second tree are keys of the second tree, too, and where it goes on after a key of the second tree, that one goes on as well.
If the first tree is in memory, it is enough that the second one stops where the first one stops on the way to its keys. -/
theorem C90_left_combine (hA : (Fits m m' ∧ Shared m m' ∧ Within m m') ∨ ∀ i d, ¬ L.Has st i d) (hB : Fits m' m ∨ ∀ i d, ¬ M.Has st' i d)
    (f : Bytes → Bytes → Option Bytes) :
    Works L st M st' (fun fuel => leftCombineS S st T st' (loadF S st T st' f) fuel (.owned a) (.owned b))
      fun t => ∀ k, get t k = Spec.left f (m k) (m' k) := by
  obtain ⟨t, u, h1, h2, h3⟩ := operands_left ha hb hA hB
  exact works_of (fun n => leftCombineS_fuel _ n _ _) (C56_left_combine_partial ha hb f)
    (leftCombineS_np hA hB (fnp_load f) _ _ _ t u (Nat.le_refl _) h1 h2 h3)

theorem operands_outer (hA : (Fits m (m.both m') ∧ Shared m m' ∧ Within m m') ∨ ∀ i d, ¬ L.Has st i d)
    (hB : (Fits m' (m'.both m) ∧ Shared m' m ∧ Within m' m) ∨ ∀ i d, ¬ M.Has st' i d) :
    ∃ t u, RefS L st long (Fits m (m.both m') ∧ Shared m m' ∧ Within m m') (.owned a) t ∧
      RefS M st' long' (Fits m' (m'.both m) ∧ Shared m' m ∧ Within m' m) (.owned b) u ∧
      MeetO (Fits m (m.both m') ∧ Shared m m' ∧ Within m m') (Fits m' (m'.both m) ∧ Shared m' m ∧ Within m' m) (.owned a) (.owned b) t u := by
  obtain ⟨t, ho, hs, hr, hd⟩ := operand_stands ha
  obtain ⟨u, ho', hs', hr', hd'⟩ := operand_stands hb
  cases (funext hd : den t = m)
  cases (funext hd' : den u = m')
  exact ⟨t, u, refS_owned hr, refS_owned hr', ⟨ho, ho', hs, hs', fun h => (fits_both h.1).1, fun h => (fits_both h.1).1, Or.inr ⟨⟨_, rfl⟩, _, rfl⟩⟩,
    fun h => h.2.1, fun h => h.2.2, fun h => (fits_both h.1).2, fun h => h.2.1, fun h => h.2.2, fun h => (fits_both h.1).2⟩

/-- **C90**, `try_outer_combine`: each tree that is in a store stops where the union of the two stops on the way to its keys; its keys
that are on the way to keys of the other tree are keys of the other tree, too, and where it goes on after a key of the other tree,
that one goes on as well. -/
theorem C90_outer_combine (hA : (Fits m (m.both m') ∧ Shared m m' ∧ Within m m') ∨ ∀ i d, ¬ L.Has st i d)
    (hB : (Fits m' (m'.both m) ∧ Shared m' m ∧ Within m' m) ∨ ∀ i d, ¬ M.Has st' i d) (f : Bytes → Bytes → Option Bytes) :
    Works L st M st' (fun fuel => outerCombineS S st T st' (loadF S st T st' f) fuel (.owned a) (.owned b))
      fun t => ∀ k, get t k = Spec.outer f (m k) (m' k) := by
  obtain ⟨t, u, h1, h2, h3⟩ := operands_outer ha hb hA hB
  exact works_of (fun n => outerCombineS_fuel _ n _ _) (C56_outer_combine_partial ha hb f)
    (outerCombineS_np hA hB (fnp_load f) _ _ _ t u (Nat.le_refl _) h1 h2 h3)

omit ha hb in
/-- The union with a map whose keys are among the keys of `m` stops where `m` stops. -/
theorem fits_both_of_subset (h : ∀ k, m' k ≠ none → m k ≠ none) : Fits m (m.both m') :=
  fits_of_subset fun k hk => (both_ne.1 hk).elim id (h k)

/-- **C90**, a tree in memory, not empty, whose keys are among the keys of a tree in a store of which no key is a prefix of another one
(for example, if all keys have the same length): the union does not panic. -/
theorem C90_outer_prefix_free (f : Bytes → Bytes → Option Bytes) (hm : ∀ i d, ¬ L.Has st i d) (hne : ∃ k, m k ≠ none)
    (hsub : ∀ k, m k ≠ none → m' k ≠ none) (hpf : ∀ k r, m' k ≠ none → m' (k ++ r) ≠ none → r = []) :
    Works L st M st' (fun fuel => outerCombineS S st T st' (loadF S st T st' f) fuel (.owned a) (.owned b))
      fun t => ∀ k, get t k = Spec.outer f (m k) (m' k) := by
  obtain ⟨k0, hk0⟩ := hne
  refine C90_outer_combine ha hb (Or.inr hm) (Or.inl ⟨fits_both_of_subset hsub, ?_, ?_⟩) f
  · rintro p hp (rfl | ⟨k, hk⟩)
    · have := hpf [] k0 hp (hsub _ hk0)
      rw [this] at hk0; exact hk0
    · have := hpf p k hp (hsub _ hk)
      rwa [this, List.append_nil] at hk
  · rintro p x k hp (rfl | hk)
    · cases k0 with
      | nil => have := hpf [] (x :: k) (hsub _ hk0) hp; cases this
      | cons y r => exact ⟨y, r, hk0⟩
    · have := hpf p (x :: k) (hsub _ hk) hp; cases this

section
variable (hk : ∀ k, m k = none ↔ m' k = none)
include hk

omit ha hb in
theorem same_conditions : (Fits m (m.both m') ∧ Shared m m' ∧ Within m m') ∧ Fits m' (m'.both m) ∧ Shared m' m ∧ Within m' m := by
  have h1 : ∀ k, m' k ≠ none → m k ≠ none := fun k h e => h ((hk k).1 e)
  have h2 : ∀ k, m k ≠ none → m' k ≠ none := fun k h e => h ((hk k).2 e)
  exact ⟨⟨fits_both_of_subset h1, fun p hp _ => h2 _ hp, fun p x k hp _ => ⟨x, k, h2 _ hp⟩⟩,
    fits_both_of_subset h2, fun p hp _ => h1 _ hp, fun p x k hp _ => ⟨x, k, h1 _ hp⟩⟩

/-- **C90**, two trees with the same keys, wherever they are stored: none of the five combinations panics. -/
theorem C90_same_keys (f : Bytes → Bytes → Option Bytes) (p : Bytes → Bytes → Bool) :
    Works L st M st' (fun fuel => outerCombineS S st T st' (loadF S st T st' f) fuel (.owned a) (.owned b))
      (fun t => ∀ k, get t k = Spec.outer f (m k) (m' k)) ∧
    Works L st M st' (fun fuel => innerCombineS S st T st' (loadF S st T st' f) fuel (.owned a) (.owned b))
      (fun t => ∀ k, get t k = Spec.inner f (m k) (m' k)) ∧
    Works L st M st' (fun fuel => leftCombineS S st T st' (loadF S st T st' f) fuel (.owned a) (.owned b))
      (fun t => ∀ k, get t k = Spec.left f (m k) (m' k)) ∧
    Works L st M st' (fun fuel => innerCombinePredS S st T st' (loadF S st T st' p) fuel (.owned a) (.owned b))
      (fun r => r = true ↔ ∃ k x y, m k = some x ∧ m' k = some y ∧ p x y = true) ∧
    Works L st M st' (fun fuel => leftCombinePredS S st T st' (loadF S st T st' p) fuel (.owned a) (.owned b))
      (fun r => r = true ↔ ∃ k x, m k = some x ∧ (m' k = none ∨ ∃ y, m' k = some y ∧ p x y = true)) := by
  obtain ⟨⟨h1, h2, h3⟩, h4, h5, h6⟩ := same_conditions hk
  have hA := (fits_both h1).1
  have hB := (fits_both h4).1
  exact ⟨C90_outer_combine ha hb (Or.inl ⟨h1, h2, h3⟩) (Or.inl ⟨h4, h5, h6⟩) f, C90_inner_combine ha hb (Or.inl hA) (Or.inl hB) f,
    C90_left_combine ha hb (Or.inl ⟨hA, h2, h3⟩) (Or.inl hB) f,
    C90_inner_combine_pred ha hb (Or.inl hA) (Or.inl hB) p, C90_left_combine_pred ha hb (Or.inl hA) (Or.inl hB) p⟩

end

end

/-! ### Examples -/

theorem get_keys {t : Node} (h : Proper t) {k : Bytes} : get t k ≠ none ↔ k ∈ (iter t).map (·.1) := by
  rw [Option.ne_none_iff_exists', List.mem_map]
  constructor
  · rintro ⟨v, hv⟩
    exact ⟨(k, v), (mem_iter (reach_ord h) k v).2 hv, rfl⟩
  · rintro ⟨⟨_, v⟩, hv, rfl⟩
    exact ⟨v, (mem_iter (reach_ord h) _ v).1 hv⟩

/-- A tree to store. -/
def fitsA : Node := fromIter [([1, 1, 1], [5]), ([1, 1, 2], [6]), ([2], [7])]
/-- A tree in memory, with two of its keys. -/
def fitsB : Node := fromIter [([1, 1, 2], [8]), ([2], [9])]
/-- A tree to store, with the same keys as `fitsA`. -/
def fitsC : Node := fromIter [([1, 1, 1], [1]), ([1, 1, 2], [2]), ([2], [3])]

/-- The intersection of a tree in a memory store with a tree in memory that has two of its keys. -/
def fitsAB (fuel : Nat) : Res Unit Node :=
  innerCombineS memStore (memState fitsA) (detachedStore Unit) ()
    (loadF memStore (memState fitsA) (detachedStore Unit) () fun x y => some (x ++ y)) fuel (.owned (memTree fitsA))
    (.owned (embed fitsB))

/-- The union of two trees in memory stores that have the same keys. -/
def fitsAC (fuel : Nat) : Res Unit Node :=
  outerCombineS memStore (memState fitsA) memStore (memState fitsC)
    (loadF memStore (memState fitsA) memStore (memState fitsC) fun x y => some (x ++ y)) fuel (.owned (memTree fitsA))
    (.owned (memTree fitsC))

/-- The hypotheses of `C90_subset` hold, and the call computes the intersection. -/
example : Operand memStore memLawful true (memState fitsA) (memTree fitsA) (get fitsA) ∧
    Operand (detachedStore Unit) (lawfulDetached Unit) true () (embed fitsB) (get fitsB) ∧
    (∀ k, get fitsB k ≠ none → get fitsA k ≠ none) ∧ (∀ i d, ¬ (lawfulDetached Unit).Has () i d) ∧
    ∃ r, Outcome fitsAB (.ok r) ∧ iter r = [([1, 1, 2], [6, 8]), ([2], [7, 9])] := by
  refine ⟨Or.inl (memTree_att (.fromIter _) (by decide +kernel)), Or.inr ⟨_, .fromIter _, rfl, fun _ => rfl⟩, ?_,
    plain_detached _ _, okNode (fitsAB 20), ?_, by decide +kernel⟩
  · intro k hk
    have hk := (get_keys (t := fitsB) (.fromIter _)).1 hk
    refine (get_keys (t := fitsA) (.fromIter _)).2 ?_
    have e : (iter fitsB).map (·.1) = [[1, 1, 2], [2]] := by decide +kernel
    have e' : (iter fitsA).map (·.1) = [[1, 1, 1], [1, 1, 2], [2]] := by decide +kernel
    rw [e] at hk
    rw [e']
    exact List.mem_cons_of_mem _ hk
  · have h : fitsAB 20 = .ok (okNode (fitsAB 20)) := okNode_eq (by decide +kernel)
    rw [← h]
    exact outcome_fuel (f := fitsAB) (fun n => innerCombineS_fuel _ n _ _) (by rw [h]; simp)

/-- The hypotheses of `C90_same_keys` hold, and the call computes the union. -/
example : Operand memStore memLawful true (memState fitsA) (memTree fitsA) (get fitsA) ∧
    Operand memStore memLawful true (memState fitsC) (memTree fitsC) (get fitsC) ∧
    (∀ k, get fitsA k = none ↔ get fitsC k = none) ∧
    ∃ r, Outcome fitsAC (.ok r) ∧ iter r = [([1, 1, 1], [5, 1]), ([1, 1, 2], [6, 2]), ([2], [7, 3])] := by
  refine ⟨Or.inl (memTree_att (.fromIter _) (by decide +kernel)), Or.inl (memTree_att (.fromIter _) (by decide +kernel)),
    fun k => ?_, okNode (fitsAC 20), ?_, by decide +kernel⟩
  · have e : (iter fitsA).map (·.1) = (iter fitsC).map (·.1) := by decide +kernel
    have h1 := get_keys (t := fitsA) (.fromIter _) (k := k)
    have h2 := get_keys (t := fitsC) (.fromIter _) (k := k)
    rw [e, ← h2] at h1
    exact ⟨fun h => Classical.byContradiction fun h' => h1.2 h' h, fun h => Classical.byContradiction fun h' => h1.1 h' h⟩
  have h : fitsAC 20 = .ok (okNode (fitsAC 20)) := okNode_eq (by decide +kernel)
  rw [← h]
  exact outcome_fuel (f := fitsAC) (fun n => outerCombineS_fuel _ n _ _) (by rw [h]; simp)

theorem fitsB_sub (k : Bytes) (hk : get fitsB k ≠ none) : get fitsA k ≠ none := by
  have hk := (get_keys (t := fitsB) (.fromIter _)).1 hk
  refine (get_keys (t := fitsA) (.fromIter _)).2 ?_
  have e : (iter fitsB).map (·.1) = [[1, 1, 2], [2]] := by decide +kernel
  have e' : (iter fitsA).map (·.1) = [[1, 1, 1], [1, 1, 2], [2]] := by decide +kernel
  rw [e] at hk
  rw [e']
  exact List.mem_cons_of_mem _ hk

theorem fitsA_free (k r : Bytes) (h : get fitsA k ≠ none) (h' : get fitsA (k ++ r) ≠ none) : r = [] := by
  have h := (get_keys (t := fitsA) (.fromIter _)).1 h
  have h' := (get_keys (t := fitsA) (.fromIter _)).1 h'
  have e' : (iter fitsA).map (·.1) = [[1, 1, 1], [1, 1, 2], [2]] := by decide +kernel
  rw [e'] at h h'
  simp only [List.mem_cons, List.not_mem_nil, or_false] at h
  rcases h with rfl | rfl | rfl <;> simpa using h'

theorem mem_free : ∀ i d, ¬ (lawfulDetached Unit).Has () i d := plain_detached _ _

/-- The stores of the examples can be read, so the calls return `Ok`. -/
theorem works_ok {α : Type} {t : Node} {x : Nat → Res Unit α} {Q : α → Prop}
    (h : Works (lawfulDetached Unit) () memLawful (memState t) x Q) : ∃ y, Outcome x (.ok y) ∧ Q y := by
  obtain ⟨r, ho, ⟨y, rfl, hy⟩ | ⟨_, h | h⟩⟩ := h
  · exact ⟨y, ho, hy⟩
  · exact absurd (fun i d hi => absurd hi (mem_free i d)) h
  · exact absurd (mem_readsSucceed _) h

/-- By `C90_outer_prefix_free`, and so by `C90_outer_combine`: the union of the tree `fitsB` in memory with the tree `fitsA` in a store,
which has one more key. -/
example : ∃ r, Outcome (fun fuel => outerCombineS (detachedStore Unit) () memStore (memState fitsA)
      (loadF (detachedStore Unit) () memStore (memState fitsA) fun x y => some (x ++ y)) fuel (.owned (embed fitsB))
      (.owned (memTree fitsA))) (.ok r) ∧
    ∀ k, get r k = Spec.outer (fun x y => some (x ++ y)) (get fitsB k) (get fitsA k) :=
  works_ok (C90_outer_prefix_free (L := lawfulDetached Unit) (M := memLawful) (long := true) (long' := true)
    (Or.inr ⟨_, .fromIter _, rfl, fun _ => rfl⟩) (Or.inl (memTree_att (.fromIter _) (by decide +kernel))) _ mem_free
    ⟨[2], by decide +kernel⟩ fitsB_sub fitsA_free)

/-- By `C90_left_combine`: the values of `fitsB` in memory, joined with those of `fitsA` in a store. -/
example : ∃ r, Outcome (fun fuel => leftCombineS (detachedStore Unit) () memStore (memState fitsA)
      (loadF (detachedStore Unit) () memStore (memState fitsA) fun x y => some (x ++ y)) fuel (.owned (embed fitsB))
      (.owned (memTree fitsA))) (.ok r) ∧
    ∀ k, get r k = Spec.left (fun x y => some (x ++ y)) (get fitsB k) (get fitsA k) :=
  works_ok (C90_left_combine (L := lawfulDetached Unit) (M := memLawful) (long := true) (long' := true)
    (Or.inr ⟨_, .fromIter _, rfl, fun _ => rfl⟩) (Or.inl (memTree_att (.fromIter _) (by decide +kernel))) (Or.inr mem_free)
    (Or.inl (fits_of_subset fitsB_sub)) _)

/-- A tree to store: one key is a prefix of the other, and its value is so long that it is stored as a blob. -/
def fitsD : Node := fromIter [([1], List.replicate 300 5), ([1, 2], [6])]
/-- A tree in memory, with the longer key. -/
def fitsE : Node := fromIter [([1, 2], [7])]

/-- The union of `fitsE` in memory with `fitsD` in a store. -/
def fitsED (fuel : Nat) : Res Unit Node :=
  outerCombineS (detachedStore Unit) () memStore (memState fitsD)
    (loadF (detachedStore Unit) () memStore (memState fitsD) fun x y => some (x ++ y)) fuel (.owned (embed fitsE))
    (.owned (memTree fitsD))

/-- A tree in memory, with the shorter key. -/
def fitsG : Node := fromIter [([1], [7])]

/-- The union of `fitsG` in memory with `fitsD` in a store. -/
def fitsGD (fuel : Nat) : Res Unit Node :=
  outerCombineS (detachedStore Unit) () memStore (memState fitsD)
    (loadF (detachedStore Unit) () memStore (memState fitsD) fun x y => some (x ++ y)) fuel (.owned (embed fitsG))
    (.owned (memTree fitsD))

/-- Keys that are a subset are not enough for a union: the key 1 of the stored tree is on the way to the key 1, 2 of the other one and
is not one of its keys, so its value would have to be taken over (`Shared` does not hold), and the call panics. The other way round, the key 1 of a tree in
memory is a key of the stored tree, which goes on after it and the other one does not (`Within` does not hold). -/
example : (∀ k, get fitsE k ≠ none → get fitsD k ≠ none) ∧ ¬ Shared (get fitsD) (get fitsE) ∧ Outcome fitsED .panic ∧
    ¬ Within (get fitsD) (get fitsG) ∧ Outcome fitsGD .panic := by
  refine ⟨fun k hk => ?_, fun h => ?_, ?_, fun h => ?_, ?_⟩
  · have hk := (get_keys (t := fitsE) (.fromIter _)).1 hk
    refine (get_keys (t := fitsD) (.fromIter _)).2 ?_
    have e : (iter fitsE).map (·.1) = [[1, 2]] := by decide +kernel
    have e' : (iter fitsD).map (·.1) = [[1], [1, 2]] := by decide +kernel
    rw [e] at hk
    rw [e']
    exact List.mem_cons_of_mem _ hk
  · exact h [1] (by decide +kernel) (Or.inr ⟨[2], by decide +kernel⟩) (by decide +kernel)
  · exact outcome_of_panic (f := fitsED) (fun n => outerCombineS_fuel _ n _ _) (N := 20) (by decide +kernel)
  · obtain ⟨y, r, h⟩ := h [1] 2 [] (by decide +kernel) (Or.inr (by decide +kernel))
    have h := (get_keys (t := fitsG) (.fromIter _)).1 h
    have e : (iter fitsG).map (·.1) = [[1]] := by decide +kernel
    rw [e] at h
    simp at h
  · exact outcome_of_panic (f := fitsGD) (fun n => outerCombineS_fuel _ n _ _) (N := 20) (by decide +kernel)

end Radix
