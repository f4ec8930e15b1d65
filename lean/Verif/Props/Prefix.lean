import Verif.Proofs.RetainExact
import Verif.Proofs.Scan
import Verif.Props.Sample

/-
Properties C08 - C11, C20, C21: operations on prefixes.
-/

namespace Radix
open Node

/-- The keys of `t` that start with `p`, as an existence statement. -/
def SomeKeyBelow (t : Node) (p : Bytes) : Prop := ∃ k v, p <+: k ∧ get t k = some v

theorem someKeyBelow_iff {t : Node} (ho : Ord t) (p : Bytes) :
    SomeKeyBelow t p ↔ ∃ k v, den t (p ++ k) = some v := by
  constructor
  · rintro ⟨_, v, ⟨r, rfl⟩, h⟩; exact ⟨r, v, by rwa [get_eq_den _ _ ho] at h⟩
  · rintro ⟨r, v, h⟩; exact ⟨p ++ r, v, List.prefix_append _ _, by rwa [get_eq_den _ _ ho]⟩

/-- **C08** (partial): `has_prefix(p)` is true iff some key starts with `p`, for trees with at least one entry.
Missing: the empty tree, where the claim is false for `p = ""` (`C08_has_prefix_false`), and trees made by a
degenerate `filter_prefix` call (`C08_has_prefix_false_degenerate`). -/
theorem C08_has_prefix_partial {t : Node} (h : Proper t) (hne : ∃ k v, get t k = some v) (p : Bytes) :
    hasPrefix t p = true ↔ SomeKeyBelow t p := by
  have ho := reach_ord h
  rcases proper_shape h with rfl | hc
  · obtain ⟨k, v, hk⟩ := hne
    rw [get_eq_den _ _ ho, den_empty] at hk; cases hk
  · rw [someKeyBelow_iff ho]; exact hasPrefix_iff ho hc p

/-- What `has_prefix` computes on every proper tree, the empty one included. -/
theorem C08_has_prefix_exact {t : Node} (h : Proper t) (p : Bytes) :
    hasPrefix t p = true ↔ p = [] ∨ SomeKeyBelow t p := by
  have ho := reach_ord h
  have root : hasPrefix t [] = true := by
    unfold hasPrefix
    rw [find.eq_def]
    simp only [commonPrefix_nil_right, List.length_nil, Nat.sub_self, true_and, Nat.sub_zero, if_true]
    by_cases e : t.pfx.length = 0 <;> simp [e]
  constructor
  · intro hp
    by_cases hne : ∃ k v, get t k = some v
    · exact Or.inr ((C08_has_prefix_partial h hne p).1 hp)
    · left
      rcases proper_shape h with rfl | hc
      · cases p with
        | nil => rfl
        | cons x xs =>
          unfold hasPrefix at hp
          rw [find] at hp
          simp [Node.empty, commonPrefix_nil_left, loadChildren] at hp
      · obtain ⟨k, v, hk⟩ := cmp_exists hc ho
        exact absurd ⟨k, v, by rwa [get_eq_den _ _ ho]⟩ hne
  · rintro (rfl | hp)
    · exact root
    · exact hasPrefix_of ho ((someKeyBelow_iff ho p).1 hp)

/-- One direction holds for every reachable tree: an existing key is always seen. -/
theorem C08_has_prefix_complete {t : Node} (h : Reachable t) {p : Bytes} (hp : SomeKeyBelow t p) :
    hasPrefix t p = true :=
  hasPrefix_of (reach_ord h) ((someKeyBelow_iff (reach_ord h) p).1 hp)

/-- The full claim is false: the empty tree "has" the empty prefix. -/
theorem C08_has_prefix_false : ¬ ∀ t, Proper t → ∀ p, (hasPrefix t p = true ↔ SomeKeyBelow t p) := by
  intro h
  obtain ⟨k, v, _, hk⟩ := (h Node.empty .empty []).1 (by decide +kernel)
  rw [get_eq_den _ _ ord_empty, den_empty] at hk; cases hk

/-- It is also false at non-empty prefixes after `filter_prefix("", "x")` on the empty tree. -/
theorem C08_has_prefix_false_degenerate :
    Reachable (filterPrefix Node.empty [] [120]) ∧ hasPrefix (filterPrefix Node.empty [] [120]) [120] = true ∧
    ∀ k, get (filterPrefix Node.empty [] [120]) k = none := by
  have hr : Reachable (filterPrefix Node.empty [] [120]) := .filterPrefix _ _ .empty (fun e => by cases e)
  refine ⟨hr, by decide +kernel, fun k => ?_⟩
  rw [get_eq_den _ _ (reach_ord hr), filterPrefix_den ord_empty]
  split
  · rfl
  · exact den_empty _

example : Proper sampleA ∧ get sampleA [97] = some [1] ∧ hasPrefix sampleA [97, 98] = true ∧
    hasPrefix sampleA [97, 99] = false ∧ hasPrefix sampleC [120] = true :=
  ⟨sampleA_proper, by decide +kernel⟩

/-- **C09** (partial): `scan_prefix(p)` yields in ascending order exactly the entries whose key starts with `p`,
if `p` is empty or all keys that start with `p` go on with the same byte (so `p` is neither a key nor a branching
point). Missing: the other prefixes, for which the keys are wrong (`C09_scan_prefix_false`); the values are right
there too (`C09_scan_prefix_values`) and `C09_scan_prefix_keys` says what is yielded instead. -/
theorem C09_scan_prefix_partial {t : Node} (h : Proper t) (p : Bytes)
    (hp : p = [] ∨ ∃ c, ∀ r v, get t (p ++ r) = some v → r.head? = some c) :
    scanPrefix t p = (iter t).filter fun e => p.isPrefixOf e.1 := by
  refine scanPrefix_ok (reach_ord h) (proper_shape h) p ?_
  rcases hp with hp | ⟨c, hc⟩
  · exact Or.inl hp
  · exact Or.inr ⟨c, fun r v hd => hc r v (by rwa [get_eq_den _ _ (reach_ord h)])⟩

/-- The hypothesis is met inside an edge: below "xa" of `{"xab", "xac"}` cut at "x" everything goes on with "a". -/
example : Proper sampleC ∧ scanPrefix sampleC [120] = [([120, 97, 98], [1]), ([120, 97, 99], [2])] :=
  ⟨sampleC_proper, by decide +kernel⟩
example : ∃ c, ∀ r v, get sampleC ([120] ++ r) = some v → r.head? = some c := by
  refine ⟨97, fun r v h => ?_⟩
  have hm := (mem_iter (reach_ord sampleC_proper) _ _).2 h
  rw [show iter sampleC = [([120, 97, 98], [1]), ([120, 97, 99], [2])] by decide +kernel] at hm
  simp only [List.mem_cons, Prod.mk.injEq, List.not_mem_nil, or_false, List.cons_append, List.nil_append,
    List.cons.injEq, true_and] at hm
  rcases hm with ⟨rfl, _⟩ | ⟨rfl, _⟩ <;> rfl

/-- For every reachable tree and every prefix, the right values are yielded in the right order. -/
theorem C09_scan_prefix_values {t : Node} (h : Reachable t) (p : Bytes) :
    (scanPrefix t p).map (·.2) = ((iter t).filter fun e => p.isPrefixOf e.1).map (·.2) :=
  scanPrefix_values (reach_ord h) p

/-- For every reachable tree and every prefix `p`, the keys yielded are the right keys with some end piece `d` of
`p` inserted after `p`. -/
theorem C09_scan_prefix_keys {t : Node} (h : Reachable t) (p : Bytes) :
    ∃ d, d <:+ p ∧ scanPrefix t p =
      ((iter t).filter fun e => p.isPrefixOf e.1).map fun e => (p ++ d ++ e.1.drop p.length, e.2) :=
  scanPrefix_keys (reach_ord h) p

/-- The full claim is false: `{"a" → 1}.scan_prefix("a")` yields the key "aa". -/
theorem C09_scan_prefix_false : Proper (single [97] [1]) ∧
    scanPrefix (single [97] [1]) [97] = [([97, 97], [1])] ∧
    (iter (single [97] [1])).filter (fun e => [97].isPrefixOf e.1) = [([97], [1])] :=
  ⟨.single _ _, by decide +kernel⟩

/-- **C10**. `filter_prefix` selects the entries below `p` and replaces `p` by `s`. -/
theorem C10_filter_prefix {t : Node} (h : Reachable t) (p s k v : Bytes) :
    get (filterPrefix t p s) k = some v ↔ ∃ x, k = s ++ x ∧ get t (p ++ x) = some v := by
  have ho := reach_ord h
  have hf : Reachable (filterPrefix t p s) := .filterPrefix p s h (fun e => by cases e)
  rw [get_eq_den _ _ (reach_ord hf), filterPrefix_den ho]
  constructor
  · intro he
    cases hs : strip s k with
    | none => simp [hs] at he
    | some r => simp only [hs] at he; exact ⟨r, strip_eq_some.1 hs, by rwa [get_eq_den _ _ ho]⟩
  · rintro ⟨x, rfl, he⟩
    rw [strip_append_self]; rwa [get_eq_den _ _ ho] at he

example : Reachable sampleA ∧ iter (filterPrefix sampleA [97, 98] [120]) = [([120], [2]), ([120, 99], [3])] :=
  ⟨sampleA_reachable, by decide +kernel⟩

/-- **C11**. `remove_prefix` removes exactly the keys that start with the prefix. -/
theorem C11_remove_prefix {t : Node} (h : Reachable t) (p k : Bytes) :
    (p <+: k → get (removePrefix t p) k = none) ∧ (¬ p <+: k → get (removePrefix t p) k = get t k) := by
  have ho := reach_ord h
  rw [get_eq_den _ _ (reach_ord (h.removePrefix p)), get_eq_den _ _ ho, removePrefix_den ho]
  exact ⟨fun e => if_pos e, fun e => if_neg e⟩

example : Reachable sampleA ∧ iter (removePrefix sampleA [97, 98]) = [([], [9]), ([97], [1]), ([98], [])] :=
  ⟨sampleA_reachable, by decide +kernel⟩

/-- No key of `b` selected by `f` extends a key of `b` rejected by `f`. -/
def NoRejectedAbove (f : Bytes → Bool) (b : Node) : Prop :=
  ∀ q v q' v', get b q = some v → f v = false → q <+: q' → get b q' = some v' → f v' = false

/-- **C20** (partial): after `a.retain_prefix_with(b, f)`, lookups are unchanged at keys that start with a key of
`b` selected by `f`, and give nothing elsewhere, if no selected key extends a rejected one (e.g. `f` always true).
Missing: other `f`, where too much can be removed (`C20_retain_prefix_with_false`). -/
theorem C20_retain_prefix_with_partial {a b : Node} (ha : Reachable a) (hb : Reachable b) (f : Bytes → Bool)
    (hf : NoRejectedAbove f b) (k : Bytes) :
    (Spec.Selected f (get b) k → get (retainPrefixWith f a b) k = get a k) ∧
    (¬ Spec.Selected f (get b) k → get (retainPrefixWith f a b) k = none) := by
  have oa := reach_ord ha
  have ob := reach_ord hb
  have e : get b = den b := funext fun k => get_eq_den _ _ ob
  rw [get_eq_den _ _ (reach_ord (ha.retainPrefixWith f hb)), get_eq_den _ _ oa, e]
  refine retain_den oa ob ?_ k
  rw [← e]; exact hf

/-- For all `f`, nothing is kept that should not be, and kept values are unchanged. -/
theorem C20_retain_prefix_with_sound {a b : Node} (ha : Reachable a) (hb : Reachable b) (f : Bytes → Bool)
    (k v : Bytes) (h : get (retainPrefixWith f a b) k = some v) : get a k = some v ∧ Spec.Selected f (get b) k := by
  have oa := reach_ord ha
  have ob := reach_ord hb
  have e : get b = den b := funext fun k => get_eq_den _ _ ob
  rw [get_eq_den _ _ (reach_ord (ha.retainPrefixWith f hb))] at h
  rw [get_eq_den _ _ oa, e]
  exact ((retainPrefixWith_good f a b oa ob).den k).1 v h

/-- For all `f`, exactly what is kept: the entries of `a` whose key starts with a key of `b` selected by `f`, where
the keys of `a` part at every prefix of the selected key that is a key of `b` rejected by `f`. What the call keeps thus
depends on the other keys of `a`. -/
theorem C20_retain_prefix_with_exact {a b : Node} (ha : Proper a) (hb : Reachable b) (f : Bytes → Bool) (k : Bytes) :
    (Spec.SelectedPast f (get a) (get b) k → get (retainPrefixWith f a b) k = get a k) ∧
    (¬ Spec.SelectedPast f (get a) (get b) k → get (retainPrefixWith f a b) k = none) := by
  have ra := ha.reachable
  have oa := reach_ord ra
  have ob := reach_ord hb
  have ea : get a = den a := funext fun k => get_eq_den _ _ oa
  have eb : get b = den b := funext fun k => get_eq_den _ _ ob
  rw [get_eq_den _ _ (reach_ord (ra.retainPrefixWith f hb)), ea, eb, retain_exact (proper_shape ha) oa ob]
  unfold Spec.Map.retainPast
  exact ⟨fun h => if_pos h, fun h => if_neg h⟩

/-- The two readings of `retain_prefix_with` agree when no selected key extends a rejected one: nothing is missed then. -/
theorem C20_exact_agrees {m m' : Spec.Map} {f : Bytes → Bool}
    (h : ∀ q v q' v', m' q = some v → f v = false → q <+: q' → m' q' = some v' → f v' = false) :
    m.retainPast f m' = m.retainPrefix f m' := retainPast_clean h

/-- With `b = {"a" → 0, "ab" → 1}` and `f` selecting the value 1, the entry "ab" stays when `a` also has the key "ac",
because the keys of `a` then part at the rejected key "a", and goes when `a` has no other key. -/
example : Proper (insert (single [97, 98] [5]) [97, 99] [6]) ∧
    Spec.SelectedPast (fun v => v == [1]) (get (insert (single [97, 98] [5]) [97, 99] [6]))
      (get (insert (single [97] [0]) [97, 98] [1])) [97, 98] ∧
    iter (retainPrefixWith (fun v => v == [1]) (insert (single [97, 98] [5]) [97, 99] [6])
      (insert (single [97] [0]) [97, 98] [1])) = [([97, 98], [5])] ∧
    iter (retainPrefixWith (fun v => v == [1]) (single [97, 98] [5])
      (insert (single [97] [0]) [97, 98] [1])) = [] := by
  refine ⟨.insert _ _ (.single _ _), ⟨[97, 98], [1], List.prefix_rfl, by decide +kernel, by decide +kernel, ?_⟩,
    by decide +kernel, by decide +kernel⟩
  intro q' v' h1 h2 h3
  obtain ⟨t, ht⟩ := h1
  match q', ht with
  | [], _ =>
    have : get (insert (single [97] [0]) [97, 98] [1]) [] = none := by decide +kernel
    rw [this] at h2; cases h2
  | [x], ht =>
    simp at ht
    obtain ⟨rfl, _⟩ := ht
    exact Or.inr ⟨98, 99, [], [], [5], [6], by decide, by decide +kernel, by decide +kernel⟩
  | [x, y], ht =>
    simp at ht
    obtain ⟨rfl, rfl, _⟩ := ht
    exact Or.inl ⟨[5], by decide +kernel⟩
  | x :: y :: z :: l, ht => simp at ht

/-- The full claim is false: with `b = {"a" → 0, "ab" → 1}` and `f` selecting the value 1, the entry "ab" of
`a = {"ab" → 5}` is removed. -/
theorem C20_retain_prefix_with_false : ¬ ∀ (a b : Node) (f : Bytes → Bool), Proper a → Proper b → ∀ k,
    Spec.Selected f (get b) k → get (retainPrefixWith f a b) k = get a k := by
  intro h
  have := h (single [97, 98] [5]) (insert (single [97] [0]) [97, 98] [1]) (fun v => v == [1])
    (.single _ _) (.insert _ _ (.single _ _)) [97, 98]
    ⟨[97, 98], [1], List.prefix_rfl, by decide +kernel, by decide +kernel⟩
  revert this; decide +kernel

example : Reachable sampleA ∧ Reachable sampleB ∧ NoRejectedAbove (fun _ => true) sampleB ∧
    iter (retainPrefixWith (fun _ => true) sampleA sampleB) = [([97], [1]), ([97, 98], [2]), ([97, 98, 99], [3])] :=
  ⟨sampleA_reachable, sampleB_reachable, fun _ _ _ _ _ h => (by cases h), by decide +kernel⟩

/-- **C21**. After `a.remove_prefix_with(b, f)`, nothing is found at keys that start with a key of `b` selected by
`f`, and lookups are unchanged elsewhere. -/
theorem C21_remove_prefix_with {a b : Node} (ha : Reachable a) (hb : Reachable b) (f : Bytes → Bool) (k : Bytes) :
    (Spec.Selected f (get b) k → get (removePrefixWith f a b) k = none) ∧
    (¬ Spec.Selected f (get b) k → get (removePrefixWith f a b) k = get a k) := by
  have oa := reach_ord ha
  have ob := reach_ord hb
  have e : get b = den b := funext fun k => get_eq_den _ _ ob
  rw [get_eq_den _ _ (reach_ord (ha.removePrefixWith f hb)), get_eq_den _ _ oa, e]
  exact remove_with_den oa ob k

example : Reachable sampleA ∧ Reachable sampleB ∧
    iter (removePrefixWith (fun v => v == [5]) sampleA sampleB) = [([], [9]), ([98], [])] ∧
    Spec.Selected (fun v => v == [5]) (get sampleB) [97, 98] :=
  ⟨sampleA_reachable, sampleB_reachable, by decide +kernel, [97], [5], by decide +kernel⟩

end Radix
