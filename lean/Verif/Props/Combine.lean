import Verif.Proofs.Scan
import Verif.Props.Sample

/-
Properties C12 - C19: combining two trees. `Spec.outer`, `Spec.inner`, `Spec.left` (Verif/Spec/Map.lean) say what
happens to one key.
-/

namespace Radix
open Node

theorem get_of_good {g a b r} (hr : Ord r) (ha : Ord a) (hb : Ord b) (h : Good (Fn3 g) a b r) (k : Bytes) :
    get r k = g (get a k) (get b k) := by
  rw [get_eq_den _ _ hr, get_eq_den _ _ ha, get_eq_den _ _ hb]; exact h.den k

/-- **C12**. `outer_combine` is the pointwise outer join. -/
theorem C12_outer_combine {a b : Node} (ha : Reachable a) (hb : Reachable b) (f) (k : Bytes) :
    get (outerCombine f a b) k = Spec.outer f (get a k) (get b k) :=
  have g := outerCombine_good f a b (reach_ord ha) (reach_ord hb)
  get_of_good g.ord (reach_ord ha) (reach_ord hb) g k

/-- **C13**. `inner_combine` is the pointwise inner join. -/
theorem C13_inner_combine {a b : Node} (ha : Reachable a) (hb : Reachable b) (f) (k : Bytes) :
    get (innerCombine f a b) k = Spec.inner f (get a k) (get b k) :=
  have g := innerCombine_good f a b (reach_ord ha) (reach_ord hb)
  get_of_good g.ord (reach_ord ha) (reach_ord hb) g k

/-- **C14**. `left_combine` is the pointwise left join. -/
theorem C14_left_combine {a b : Node} (ha : Reachable a) (hb : Reachable b) (f) (k : Bytes) :
    get (leftCombine f a b) k = Spec.left f (get a k) (get b k) :=
  have g := leftCombine_good f a b (reach_ord ha) (reach_ord hb)
  get_of_good g.ord (reach_ord ha) (reach_ord hb) g k

/-- Values are concatenated, equal ones are deleted. -/
def sampleF (x y : Bytes) : Option Bytes := if x = [1] then none else some (x ++ y)

example : Reachable sampleA ∧ Reachable sampleB ∧
    iter (outerCombine sampleF sampleB sampleA) = [([], [9]), ([97], [5, 1]), ([97, 98], [2]),
      ([97, 98, 99], [3]), ([97, 98, 100], [6]), ([98], []), ([99], [7])] ∧
    iter (innerCombine sampleF sampleB sampleA) = [([97], [5, 1])] ∧
    iter (innerCombine sampleF sampleA sampleB) = [] ∧
    iter (leftCombine sampleF sampleB sampleA) = [([97], [5, 1]), ([97, 98, 100], [6]), ([99], [7])] :=
  ⟨sampleA_reachable, sampleB_reachable, by decide +kernel⟩

/-- **C15**. `outer_combine_with` computes the outer join in place, with every node converter; in particular it gives
every lookup that `outer_combine` gives. -/
theorem C15_outer_combine_with {a b : Node} (ha : Reachable a) (hb : Reachable b) (c : Conv) (f) (k : Bytes) :
    get (outerCombineWith c f a b) k = Spec.outer f (get a k) (get b k) ∧
    get (outerCombineWith c f a b) k = get (outerCombine f a b) k := by
  have g := outerCombineWith_good c f a b (reach_ord ha) (reach_ord hb)
  have := get_of_good g.ord (reach_ord ha) (reach_ord hb) g k
  exact ⟨this, by rw [this, C12_outer_combine ha hb]⟩

/-- **C16**. `inner_combine_with` computes the inner join in place. -/
theorem C16_inner_combine_with {a b : Node} (ha : Reachable a) (hb : Reachable b) (f) (k : Bytes) :
    get (innerCombineWith f a b) k = Spec.inner f (get a k) (get b k) ∧
    get (innerCombineWith f a b) k = get (innerCombine f a b) k := by
  have g := innerCombineWith_good f a b (reach_ord ha) (reach_ord hb)
  have := get_of_good g.ord (reach_ord ha) (reach_ord hb) g k
  exact ⟨this, by rw [this, C13_inner_combine ha hb]⟩

/-- **C17**. `left_combine_with` computes the left join in place. -/
theorem C17_left_combine_with {a b : Node} (ha : Reachable a) (hb : Reachable b) (f) (k : Bytes) :
    get (leftCombineWith f a b) k = Spec.left f (get a k) (get b k) ∧
    get (leftCombineWith f a b) k = get (leftCombine f a b) k := by
  have g := leftCombineWith_good f a b (reach_ord ha) (reach_ord hb)
  have := get_of_good g.ord (reach_ord ha) (reach_ord hb) g k
  exact ⟨this, by rw [this, C14_left_combine ha hb]⟩

example : Reachable sampleA ∧ Reachable sampleB ∧
    iter (outerCombineWith .detach sampleF sampleA sampleB) = [([], [9]), ([97, 98], [2]),
      ([97, 98, 99], [3]), ([97, 98, 100], [6]), ([98], []), ([99], [7])] ∧
    iter (innerCombineWith sampleF sampleB sampleA) = [([97], [5, 1])] ∧
    iter (leftCombineWith sampleF sampleA sampleB) = [([], [9]), ([97, 98], [2]), ([97, 98, 99], [3]), ([98], [])] :=
  ⟨sampleA_reachable, sampleB_reachable, by decide +kernel⟩

/-- **C18**. `inner_combine_pred` is true iff some key is in both trees with `f` true. -/
theorem C18_inner_combine_pred {a b : Node} (ha : Reachable a) (hb : Reachable b) (f : Bytes → Bytes → Bool) :
    innerCombinePred f a b = true ↔ ∃ k va vb, get a k = some va ∧ get b k = some vb ∧ f va vb = true := by
  have oa := reach_ord ha
  have ob := reach_ord hb
  rw [innerCombinePred_iff f a b oa ob]
  unfold Ex
  constructor
  · rintro ⟨k, h⟩
    rw [← get_eq_den _ _ oa, ← get_eq_den _ _ ob] at h
    cases h1 : get a k <;> cases h2 : get b k <;> rw [h1, h2] at h
    case some.some va vb => exact ⟨k, va, vb, h1, h2, h⟩
    all_goals cases h
  · rintro ⟨k, va, vb, h1, h2, h⟩
    exact ⟨k, by rw [← get_eq_den _ _ oa, ← get_eq_den _ _ ob, h1, h2]; exact h⟩

example : Reachable sampleA ∧ Reachable sampleB ∧ innerCombinePred (fun a b => a == [1] && b == [5]) sampleA sampleB = true ∧
    innerCombinePred (fun a b => a == [2]) sampleA sampleB = false :=
  ⟨sampleA_reachable, sampleB_reachable, by decide +kernel⟩

/-- **C19** (partial): `left_combine_pred` is true iff some key of `a` is absent from `b`, or in both with `f` true.
Missing: left trees made by a degenerate `filter_prefix` call, for which it is false (`C19_left_combine_pred_false`). -/
theorem C19_left_combine_pred_partial {a b : Node} (ha : Proper a) (hb : Reachable b) (f : Bytes → Bytes → Bool) :
    leftCombinePred f a b = true ↔
      ∃ k va, get a k = some va ∧ (get b k = none ∨ ∃ vb, get b k = some vb ∧ f va vb = true) := by
  have oa := reach_ord ha
  have ob := reach_ord hb
  rw [leftCombinePred_iff f a b oa ob (proper_shape ha)]
  unfold Ex
  constructor
  · rintro ⟨k, h⟩
    rw [← get_eq_den _ _ oa, ← get_eq_den _ _ ob] at h
    cases h1 : get a k <;> cases h2 : get b k <;> rw [h1, h2] at h
    case some.some va vb => exact ⟨k, va, h1, Or.inr ⟨vb, h2, h⟩⟩
    case some.none va => exact ⟨k, va, h1, Or.inl h2⟩
    all_goals cases h
  · rintro ⟨k, va, h1, h2⟩
    refine ⟨k, ?_⟩
    rw [← get_eq_den _ _ oa, ← get_eq_den _ _ ob, h1]
    rcases h2 with h2 | ⟨vb, h2, h⟩
    · rw [h2]; rfl
    · rw [h2]; exact h

/-- With `f a b = (a ≠ b)` it decides that `a` is not a sub-map of `b`. -/
theorem C19_sub_map_partial {a b : Node} (ha : Proper a) (hb : Reachable b) :
    leftCombinePred (fun x y => x != y) a b = false ↔ ∀ k v, get a k = some v → get b k = some v := by
  rw [← Bool.not_eq_true, C19_left_combine_pred_partial ha hb]
  constructor
  · intro h k v hk
    cases hb : get b k with
    | none => exact absurd ⟨k, v, hk, Or.inl hb⟩ h
    | some w =>
      by_cases e : v = w
      · rw [e]
      · exact absurd ⟨k, v, hk, Or.inr ⟨w, hb, by simpa using e⟩⟩ h
  · rintro h ⟨k, v, hk, h1 | ⟨w, h1, h2⟩⟩
    · rw [h k v hk] at h1; cases h1
    · rw [h k v hk] at h1; cases h1; simp at h2

/-- The full claim is false: a tree without entries can have a key that is "absent" from another tree. -/
theorem C19_left_combine_pred_false : ¬ ∀ (a b : Node) (f : Bytes → Bytes → Bool), Reachable a → Reachable b →
    (leftCombinePred f a b = true → ∃ k va, get a k = some va) := by
  intro h
  have hr : Reachable (filterPrefix Node.empty [] [120]) := .filterPrefix _ _ .empty (fun e => by cases e)
  obtain ⟨k, v, hk⟩ := h (filterPrefix Node.empty [] [120]) (single [97] [1]) (fun _ _ => false) hr
    (.single _ _) (by decide +kernel)
  rw [get_eq_den _ _ (reach_ord hr), filterPrefix_den ord_empty] at hk
  split at hk
  · cases hk
  · rw [den_empty] at hk; cases hk

example : Proper sampleA ∧ Reachable sampleB ∧ leftCombinePred (fun _ _ => false) sampleA sampleB = true ∧
    leftCombinePred (fun a b => a != b) (single [97] [5]) sampleB = false :=
  ⟨sampleA_proper, sampleB_reachable, by decide +kernel⟩

end Radix
