import Verif.Proofs.CombineFuel
import Verif.Props.StoredUpdate

/-
Property C56: `try_outer_combine`, `try_inner_combine`, `try_left_combine`, `try_inner_combine_pred` and
`try_left_combine_pred` (src/node/mod.rs 3594-3663, 3676-3718) on trees that are attached to stores.
`Att S L long st a m` (Verif/Stored/History.lean): the tree `a`, attached to the store `S` in state `st`, was made by calls
of the API and stands for the map `m`. An operand may also be a detached tree.
-/

set_option linter.unusedVariables false

namespace Radix
open Node

section
variable {σ τ ε : Type}

/-- A function of the user that loads both values and computes with them (`ValueRef::load`, src/node/mod.rs 491-497). -/
def loadF {α : Type} (S : BlobStore σ ε) (st : σ) (T : BlobStore τ ε) (st' : τ) (f : Bytes → Bytes → α)
    (av bv : BlobV) : Res ε α :=
  (av.load S st).bind fun x => (bv.load T st').bind fun y => .ok (f x y)

variable {S : BlobStore σ ε} {T : BlobStore τ ε}

/-- A tree to combine: one that is attached to the store, or a detached one; its contents are `m`. -/
def Operand (S : BlobStore σ ε) (L : Lawful S) (long : Bool) (st : σ) (a : SNode) (m : Spec.Map) : Prop :=
  Att S L long st a m ∨ ∃ t, Proper t ∧ a = embed t ∧ ∀ k, get t k = m k

/-- The call returns, and either the result is as described, or the code panics, or it returns an error and one of the
two stores cannot be read. -/
def Combines {α : Type} (L : Lawful S) (st : σ) (M : Lawful T) (st' : τ) (x : Nat → Res ε α) (Q : α → Prop) : Prop :=
  ∃ r, Outcome x r ∧ ((∃ y, r = .ok y ∧ Q y) ∨ r = .panic ∨
    (∃ e, r = .err e) ∧ (¬ ReadsSucceed L st ∨ ¬ ReadsSucceed M st'))

variable {L : Lawful S} {M : Lawful T} {st : σ} {st' : τ}

theorem operand_stands {long : Bool} {a : SNode} {m : Spec.Map} (h : Operand S L long st a m) :
    ∃ t, Stands L long st a m t := by
  rcases h with h | ⟨t, ht, rfl, hm⟩
  · exact att_stands h
  · exact ⟨t, reach_ord ht, proper_shape ht, embed_rep t, fun k => by rw [← get_eq_den _ _ (reach_ord ht), hm]⟩

theorem combines_of {α : Type} {x : Nat → Res ε α} {y : α} {Q : α → Prop} {N : Nat} (hm : ∀ n, LeR (x n) (x (n + 1)))
    (h : RP (¬ ReadsSucceed L st ∨ ¬ ReadsSucceed M st') True (x N) (· = y)) (hq : Q y) : Combines L st M st' x Q := by
  refine ⟨x N, outcome_fuel hm fun e => by rw [e] at h; exact h, ?_⟩
  cases e : x N with
  | ok z => rw [e] at h; exact Or.inl ⟨z, rfl, (show z = y from h) ▸ hq⟩
  | err _ => rw [e] at h; exact Or.inr (Or.inr ⟨⟨_, rfl⟩, h⟩)
  | panic => exact Or.inr (Or.inl rfl)
  | deep => rw [e] at h; exact h.elim

theorem cfok_load {α : Type} (f : Bytes → Bytes → α) :
    CFOK L st M st' (¬ ReadsSucceed L st ∨ ¬ ReadsSucceed M st') True (loadF S st T st' f) f := by
  intro av bv x y ha hb
  refine rp_bind (rp_of_rpost Or.inl (load_rep ha)) ?_
  intro x' hx
  have hx : x' = x := hx
  subst hx
  refine rp_bind (rp_of_rpost Or.inr (load_rep hb)) ?_
  intro y' hy
  have hy : y' = y := hy
  subst hy
  exact rp_ok rfl

theorem sideL : SideOK L st (¬ ReadsSucceed L st ∨ ¬ ReadsSucceed M st') True := ⟨Or.inl, Or.inl trivial⟩
theorem sideM : SideOK M st' (¬ ReadsSucceed L st ∨ ¬ ReadsSucceed M st') True := ⟨Or.inr, Or.inl trivial⟩

variable {long long' : Bool} {a b : SNode} {m m' : Spec.Map} 
  (ha : Operand S L long st a m) (hb : Operand T M long' st' b m')
include ha hb

/-- **C56**, `try_outer_combine`: the result has the contents of the outer join, unless the code panics.
What is missing: that it does not panic, which is false (`C56_outer_combine_false`). -/
theorem C56_outer_combine_partial (f : Bytes → Bytes → Option Bytes) :
    Combines L st M st' (fun fuel => outerCombineS S st T st' (loadF S st T st' f) fuel (.owned a) (.owned b))
      fun t => ∀ k, get t k = Spec.outer f (m k) (m' k) := by
  obtain ⟨t, ho, hs, hr, hd⟩ := operand_stands ha
  obtain ⟨u, ho', hs', hr', hd'⟩ := operand_stands hb
  refine combines_of (fun n => outerCombineS_fuel _ n _ _)
    (outerCombineS_rep sideL sideM (cfok_load f) _ _ _ t u (Nat.le_refl _) (refS_owned hr) (refS_owned hr')) fun k => ?_
  have g := outerCombine_good f t u ho ho'
  rw [get_of_good g.ord ho ho' g k, get_eq_den _ _ ho, get_eq_den _ _ ho', hd, hd']

/-- **C56**, `try_inner_combine`. -/
theorem C56_inner_combine_partial (f : Bytes → Bytes → Option Bytes) :
    Combines L st M st' (fun fuel => innerCombineS S st T st' (loadF S st T st' f) fuel (.owned a) (.owned b))
      fun t => ∀ k, get t k = Spec.inner f (m k) (m' k) := by
  obtain ⟨t, ho, hs, hr, hd⟩ := operand_stands ha
  obtain ⟨u, ho', hs', hr', hd'⟩ := operand_stands hb
  refine combines_of (fun n => innerCombineS_fuel _ n _ _)
    (innerCombineS_rep sideL sideM (cfok_load f) _ _ _ t u (Nat.le_refl _) (refS_owned hr) (refS_owned hr')) fun k => ?_
  have g := innerCombine_good f t u ho ho'
  rw [get_of_good g.ord ho ho' g k, get_eq_den _ _ ho, get_eq_den _ _ ho', hd, hd']

/-- **C56**, `try_left_combine`. -/
theorem C56_left_combine_partial (f : Bytes → Bytes → Option Bytes) :
    Combines L st M st' (fun fuel => leftCombineS S st T st' (loadF S st T st' f) fuel (.owned a) (.owned b))
      fun t => ∀ k, get t k = Spec.left f (m k) (m' k) := by
  obtain ⟨t, ho, hs, hr, hd⟩ := operand_stands ha
  obtain ⟨u, ho', hs', hr', hd'⟩ := operand_stands hb
  refine combines_of (fun n => leftCombineS_fuel _ n _ _)
    (leftCombineS_rep sideL sideM (cfok_load f) _ _ _ t u (Nat.le_refl _) (refS_owned hr) (refS_owned hr')) fun k => ?_
  have g := leftCombine_good f t u ho ho'
  rw [get_of_good g.ord ho ho' g k, get_eq_den _ _ ho, get_eq_den _ _ ho', hd, hd']

/-- **C56**, `try_inner_combine_pred`: true iff some key is in both trees with `f` true, unless the code panics. -/
theorem C56_inner_combine_pred_partial (f : Bytes → Bytes → Bool) :
    Combines L st M st' (fun fuel => innerCombinePredS S st T st' (loadF S st T st' f) fuel (.owned a) (.owned b))
      fun r => r = true ↔ ∃ k x y, m k = some x ∧ m' k = some y ∧ f x y = true := by
  obtain ⟨t, ho, hs, hr, hd⟩ := operand_stands ha
  obtain ⟨u, ho', hs', hr', hd'⟩ := operand_stands hb
  refine combines_of (fun n => innerCombinePredS_fuel _ n _ _)
    (innerCombinePredS_rep sideL sideM (cfok_load f) _ _ _ t u (Nat.le_refl _) (refS_owned hr) (refS_owned hr')) ?_
  rw [innerCombinePred_iff f t u ho ho']
  unfold Ex
  simp only [hd, hd']
  constructor
  · rintro ⟨k, h⟩
    cases h1 : m k <;> cases h2 : m' k <;> rw [h1, h2] at h
    case some.some x y => exact ⟨k, x, y, h1, h2, h⟩
    all_goals cases h
  · rintro ⟨k, x, y, h1, h2, h⟩
    exact ⟨k, by rw [h1, h2]; exact h⟩

/-- **C56**, `try_left_combine_pred`: true iff some key is in the left tree only, or in both with `f` true, unless the code
panics. -/
theorem C56_left_combine_pred_partial (f : Bytes → Bytes → Bool) :
    Combines L st M st' (fun fuel => leftCombinePredS S st T st' (loadF S st T st' f) fuel (.owned a) (.owned b))
      fun r => r = true ↔ ∃ k x, m k = some x ∧ (m' k = none ∨ ∃ y, m' k = some y ∧ f x y = true) := by
  obtain ⟨t, ho, hs, hr, hd⟩ := operand_stands ha
  obtain ⟨u, ho', hs', hr', hd'⟩ := operand_stands hb
  refine combines_of (fun n => leftCombinePredS_fuel _ n _ _)
    (leftCombinePredS_rep sideL sideM (cfok_load f) _ _ _ t u (Nat.le_refl _) (refS_owned hr) (refS_owned hr')) ?_
  rw [leftCombinePred_iff f t u ho ho' hs]
  unfold Ex
  simp only [hd, hd']
  constructor
  · rintro ⟨k, h⟩
    cases h1 : m k <;> cases h2 : m' k <;> rw [h1, h2] at h
    case some.some x y => exact ⟨k, x, h1, Or.inr ⟨y, h2, h⟩⟩
    case some.none x => exact ⟨k, x, h1, Or.inl h2⟩
    all_goals cases h
  · rintro ⟨k, x, h1, h2⟩
    refine ⟨k, ?_⟩
    rw [h1]
    rcases h2 with h2 | ⟨y, h2, h⟩
    · rw [h2]; rfl
    · rw [h2]; exact h

end

/-! ### Examples -/

/-- Attaches a tree to a memory store. -/
theorem memTree_att {t : Node} (h : Proper t) (ho : okB (tryAttached memStore t []).1 = true) :
    Att memStore memLawful true (memState t) (memTree t) (get t) := .attach h (by simp) (memTree_eq ho)

/-- The result of a call. -/
def okNode : Res Unit Node → Node
  | .ok t => t
  | _ => .empty

theorem okNode_eq {r : Res Unit Node} (h : okB r = true) : r = .ok (okNode r) := by
  cases r <;> first | rfl | cases h

/-- Two trees that share a key. -/
def joinA : Node := fromIter [([1, 1], [5]), ([1, 2], [6])]
/-- See `joinA`. -/
def joinB : Node := fromIter [([1, 1], [7]), ([1, 3], [8])]

/-- Combines them, in memory stores. -/
def joinAB (fuel : Nat) : Res Unit Node :=
  outerCombineS memStore (memState joinA) memStore (memState joinB)
    (loadF memStore (memState joinA) memStore (memState joinB) fun x y => some (x ++ y)) fuel (.owned (memTree joinA))
    (.owned (memTree joinB))

/-- Two trees in memory stores that share a key: the combination succeeds. -/
example : Att memStore memLawful true (memState joinA) (memTree joinA) (get joinA) ∧
    Att memStore memLawful true (memState joinB) (memTree joinB) (get joinB) ∧
    iter joinA = [([1, 1], [5]), ([1, 2], [6])] ∧ iter joinB = [([1, 1], [7]), ([1, 3], [8])] ∧
    ∃ r, Outcome joinAB (.ok r) ∧ iter r = [([1, 1], [5, 7]), ([1, 2], [6]), ([1, 3], [8])] := by
  refine ⟨memTree_att (.fromIter _) (by decide +kernel), memTree_att (.fromIter _) (by decide +kernel), by decide +kernel,
    by decide +kernel, okNode (joinAB 20), ?_, by decide +kernel⟩
  have h : joinAB 20 = .ok (okNode (joinAB 20)) := okNode_eq (by decide +kernel)
  rw [← h]
  exact outcome_fuel (f := joinAB) (fun n => outerCombineS_fuel _ n _ _) (by rw [h]; simp)

/-- The outcome is a panic. -/
def panicB {ε α : Type} : Res ε α → Bool
  | .panic => true
  | _ => false

theorem outcome_of_panic {α : Type} {f : Nat → Res Unit α} (hm : ∀ n, LeR (f n) (f (n + 1))) {N : Nat}
    (h : panicB (f N) = true) : Outcome f .panic := by
  have h : f N = .panic := by cases e : f N <;> rw [e] at h <;> first | rfl | cases h
  rw [← h]; exact outcome_fuel hm (by rw [h]; simp)

/-- **C56** is false for `try_outer_combine` and `try_left_combine`: combining the attached tree with the keys 1,1 and 1,2
with the detached tree with the key 1 panics. -/
theorem C56_outer_combine_false :
    ∃ t u a s, Att memStore memLawful true s a (get t) ∧ Proper u ∧
    iter t = [([1, 1], [5]), ([1, 2], [6])] ∧ iter u = [([1], [7])] ∧
    Outcome (fun fuel => outerCombineS memStore s memStore s (loadF memStore s memStore s fun x _ => some x)
      fuel (.owned a) (.owned (embed u)))
      .panic ∧
    Outcome (fun fuel => leftCombineS memStore s memStore s (loadF memStore s memStore s fun x _ => some x)
      fuel (.owned a) (.owned (embed u)))
      .panic := by
  refine ⟨fromIter [([1, 1], [5]), ([1, 2], [6])], single [1] [7], _, _, memTree_att (.fromIter _) (by decide +kernel),
    .single _ _, by decide +kernel, by decide +kernel, ?_, ?_⟩
  · exact outcome_of_panic (fun n => outerCombineS_fuel _ n _ _) (N := 20) (by decide +kernel)
  · exact outcome_of_panic (fun n => leftCombineS_fuel _ n _ _) (N := 20) (by decide +kernel)

/-- **C56** is false for the other three: combining the attached tree with the keys 1,1,1 and 2 with the detached tree with
the keys 1 and 2 panics. -/
theorem C56_inner_combine_false : ∃ t u a s, Att memStore memLawful true s a (get t) ∧ Proper u ∧
    iter t = [([1, 1, 1], [5]), ([2], [6])] ∧ iter u = [([1], [7]), ([2], [8])] ∧
    Outcome (fun fuel => innerCombineS memStore s memStore s (loadF memStore s memStore s fun x _ => some x) fuel (.owned a)
      (.owned (embed u))) .panic ∧
    Outcome (fun fuel => innerCombinePredS memStore s memStore s (loadF memStore s memStore s fun x _ => x == [9]) fuel (.owned a)
      (.owned (embed u))) .panic ∧
    Outcome (fun fuel => leftCombinePredS memStore s memStore s (loadF memStore s memStore s fun x _ => x == [9]) fuel (.owned a)
      (.owned (embed u))) .panic := by
  refine ⟨fromIter [([1, 1, 1], [5]), ([2], [6])], fromIter [([1], [7]), ([2], [8])], _, _,
    memTree_att (.fromIter _) (by decide +kernel), .fromIter _, by decide +kernel, by decide +kernel, ?_, ?_, ?_⟩
  · exact outcome_of_panic (fun n => innerCombineS_fuel _ n _ _) (N := 20) (by decide +kernel)
  · exact outcome_of_panic (fun n => innerCombinePredS_fuel _ n _ _) (N := 20) (by decide +kernel)
  · exact outcome_of_panic (fun n => leftCombinePredS_fuel _ n _ _) (N := 20) (by decide +kernel)

end Radix
