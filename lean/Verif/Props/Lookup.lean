import Verif.Proofs.Scan
import Verif.Props.Sample

/-
Properties C01 - C07 and C54: the tree as a map; iteration.
-/

namespace Radix
open Node

/-- **C01**. For every program of tree-building API calls, `get` on the resulting tree returns what the same
program yields on plain maps. -/
theorem C01_tree_is_map (p : Prog) (k : Bytes) : get p.run k = p.spec k := by
  have := run_spec p
  rw [get_eq_den _ _ (reach_ord this.1), this.2]

/-- A program with every kind of step; both sides computed. -/
example : let p := Prog.insert (.removePrefix (.outerCombineWith (fun a b => if a = b then none else some b)
      (.fromIter [([1, 2], [3]), ([1], [4]), ([2], [5])]) (.filterPrefix (.single [7, 1] [6]) [7] [1])) [2]) [9] [9]
    iter p.run = [([1], [4]), ([1, 1], [6]), ([1, 2], [3]), ([9], [9])] := by decide +kernel

/-- **C02**. `insert` overwrites exactly one key. -/
theorem C02_insert {t : Node} (h : Reachable t) (k v : Bytes) :
    get (insert t k v) k = some v ∧ ∀ k', k' ≠ k → get (insert t k v) k' = get t k' := by
  have ho := reach_ord h
  have hi := reach_ord (h.insert k v)
  refine ⟨?_, fun k' hk => ?_⟩
  · rw [get_eq_den _ _ hi, insert_den ho, if_pos rfl]
  · rw [get_eq_den _ _ hi, get_eq_den _ _ ho, insert_den ho, if_neg hk]

example : Reachable sampleA ∧ get sampleA [97, 98] = some [2] ∧
    get (insert sampleA [97, 98] [4]) [97, 98] = some [4] ∧ get (insert sampleA [97, 120] [4]) [97, 98, 99] = some [3] :=
  ⟨sampleA_reachable, by decide +kernel⟩

/-- **C03**. `remove` deletes exactly one key. -/
theorem C03_remove {t : Node} (h : Reachable t) (k : Bytes) :
    get (remove t k) k = none ∧ (∀ k', k' ≠ k → get (remove t k) k' = get t k') ∧
    (get t k = none → ∀ k', get (remove t k) k' = get t k') := by
  have ho := reach_ord h
  have hi := reach_ord (h.remove k)
  have h1 : get (remove t k) k = none := by rw [get_eq_den _ _ hi, remove_den ho, if_pos rfl]
  have h2 : ∀ k', k' ≠ k → get (remove t k) k' = get t k' := fun k' hk => by
    rw [get_eq_den _ _ hi, get_eq_den _ _ ho, remove_den ho, if_neg hk]
  refine ⟨h1, h2, fun hn k' => ?_⟩
  by_cases e : k' = k
  · rw [e, h1, hn]
  · exact h2 k' e

example : Reachable sampleA ∧ get sampleA [97] = some [1] ∧ get (remove sampleA [97]) [97] = none ∧
    get (remove sampleA [97]) [97, 98] = some [2] := ⟨sampleA_reachable, by decide +kernel⟩

/-- **C04**. `contains_key` agrees with `get`. -/
theorem C04_contains_key (t : Node) (k : Bytes) :
    containsKey t k = true ↔ ∃ v, get t k = some v := by
  rw [containsKey_eq, Option.isSome_iff_exists]

example : Reachable sampleA ∧ containsKey sampleA [98] = true ∧ containsKey sampleA [98, 98] = false ∧
    containsKey sampleC [120, 97] = false := ⟨sampleA_reachable, by decide +kernel⟩

/-- **C05**. `iter` is sorted (strictly, so without duplicates) and complete. -/
theorem C05_iter {t : Node} (h : Reachable t) :
    (iter t).Pairwise (fun a b => a.1 < b.1) ∧ ∀ k v, (k, v) ∈ iter t ↔ get t k = some v :=
  ⟨iter_sorted (reach_ord h), mem_iter (reach_ord h)⟩

example : Reachable sampleB ∧ iter sampleB = [([97], [5]), ([97, 98, 100], [6]), ([99], [7])] :=
  ⟨sampleB_reachable, by decide +kernel⟩

/-- **C06**. `values` yields the values of `iter` in the same order. -/
theorem C06_values (t : Node) : values t = (iter t).map (·.2) := by
  rw [values_eq, iter_eq]

example : Reachable sampleA ∧ values sampleA = [[9], [1], [2], [3], []] := ⟨sampleA_reachable, by decide +kernel⟩

theorem ofList_snoc (l : List (Bytes × Bytes)) (p : Bytes × Bytes) :
    Spec.Map.ofList (l ++ [p]) = (Spec.Map.ofList l).insert p.1 p.2 := by simp [Spec.Map.ofList]

theorem ofList_eq (l : List (Bytes × Bytes)) (k : Bytes) :
    Spec.Map.ofList l k = (l.reverse.find? fun p => p.1 == k).map (·.2) := by
  have : ∀ r : List (Bytes × Bytes), Spec.Map.ofList r.reverse k = (r.find? fun p => p.1 == k).map (·.2) := by
    intro r
    induction r with
    | nil => rfl
    | cons p r ih =>
      rw [List.reverse_cons, ofList_snoc, List.find?_cons]
      unfold Spec.Map.insert
      by_cases e : p.1 = k
      · simp [e]
      · have e' : k ≠ p.1 := fun h => e h.symm
        have e2 : (p.1 == k) = false := by simpa using e
        rw [if_neg e', ih, e2]
  have := this l.reverse
  rwa [List.reverse_reverse] at this

/-- **C07**. Collecting pairs keeps the last value per key; sequences with pairwise distinct keys that are
permutations of each other give the same lookups and the same iteration. -/
theorem C07_from_iter :
    (∀ (l : List (Bytes × Bytes)) (k : Bytes),
      get (fromIter l) k = (l.reverse.find? fun p => p.1 == k).map (·.2)) ∧
    (∀ l m : List (Bytes × Bytes), (l.map (·.1)).Nodup → l.Perm m →
      (∀ k, get (fromIter l) k = get (fromIter m) k) ∧ iter (fromIter l) = iter (fromIter m)) := by
  have first : ∀ (l : List (Bytes × Bytes)) (k : Bytes),
      get (fromIter l) k = (l.reverse.find? fun p => p.1 == k).map (·.2) := fun l k => by
    rw [get_eq_den _ _ (fromIter_spec l).1, (fromIter_spec l).2.2, ofList_eq]
  refine ⟨first, fun l m hn hp => ?_⟩
  have uniq : ∀ {l : List (Bytes × Bytes)}, (l.map (·.1)).Nodup → ∀ k v,
      ((l.reverse.find? fun p => p.1 == k).map (·.2) = some v ↔ (k, v) ∈ l) := by
    intro l hn k v
    have hn' : (l.reverse.map (·.1)).Nodup :=
      ((List.reverse_perm l).map (·.1)).nodup_iff.2 hn
    rw [← List.mem_reverse]
    generalize l.reverse = r at hn'
    induction r with
    | nil => simp
    | cons p r ih =>
      rw [List.map_cons, List.nodup_cons] at hn'
      rw [List.find?_cons]
      by_cases e : p.1 = k
      · have e2 : (p.1 == k) = true := by simpa using e
        rw [e2, List.mem_cons]
        constructor
        · intro h; simp at h; left; rw [← e, ← h]
        · rintro (h | h)
          · rw [← h]; rfl
          · exact absurd (List.mem_map.2 ⟨(k, v), h, e.symm⟩) hn'.1
      · have e2 : (p.1 == k) = false := by simpa using e
        simp only [e2, ih hn'.2, List.mem_cons]
        constructor
        · exact Or.inr
        · rintro (h | h)
          · rw [← h] at e; exact absurd rfl e
          · exact h
  have hg : ∀ k, get (fromIter l) k = get (fromIter m) k := fun k => by
    have hm : (m.map (·.1)).Nodup := (hp.map (·.1)).nodup_iff.1 hn
    refine Option.ext fun v => ?_
    rw [first, first, uniq hn, uniq hm]
    exact hp.mem_iff
  exact ⟨hg, iter_ext (fromIter_spec l).1 (fromIter_spec m).1 hg⟩

example : let l : List (Bytes × Bytes) := [([1, 2], [1]), ([1], [2]), ([], [3])]
    (l.map (·.1)).Nodup ∧ l.Perm [([], [3]), ([1, 2], [1]), ([1], [2])] ∧
    get (fromIter [([1], [2]), ([1, 2], [1]), ([1], [5])]) [1] = some [5] := by decide +kernel

/-- **C54**. The child lookup returns the child that starts with the byte, if there is one, at any fan-out. -/
theorem C54_find_child {t : Node} (h : Reachable t) (c : UInt8) :
    findChild t.kids c = t.kids.find? (fun n => n.pfx.head? == some c) ∧
    (∀ n, findChild t.kids c = some n ↔ n ∈ t.kids ∧ n.pfx.head? = some c) := by
  have ho := (ord_iff t).1 (reach_ord h)
  have e : findChild t.kids c = t.kids.find? (fun n => n.pfx.head? == some c) := findChild_eq ho c
  refine ⟨e, fun n => ?_⟩
  constructor
  · intro hn; rw [findChild_eq ho] at hn; exact childAt_mem hn
  · rintro ⟨h1, h2⟩; rw [findChild_eq ho]; exact childAt_of_mem ho h1 h2

/-- `2 ^ n` entries with different first bytes. -/
def fan : Nat → Nat → Node
  | 0, i => single [UInt8.ofNat i, 1] [UInt8.ofNat i]
  | n + 1, i => outerCombine (fun a _ => some a) (fan n i) (fan n (i + 2 ^ n))

theorem fan_reachable (n i : Nat) : Reachable (fan n i) := by
  induction n generalizing i with
  | zero => exact .single _ _
  | succ n ih => exact .outerCombine _ (ih _) (ih _)

/-- A root with all 256 possible children (direct indexing) and one with 2 (binary search). -/
example : Reachable (fan 8 0) ∧ (fan 8 0).kids.length = 256 ∧
    (findChild (fan 8 0).kids 200).map (·.val) = some (some [200]) :=
  ⟨fan_reachable 8 0, by decide +kernel⟩
example : Reachable sampleB ∧ sampleB.kids.length = 2 ∧ (findChild sampleB.kids 99).map (·.val) = some (some [7]) ∧
    (findChild sampleB.kids 98).isNone = true := ⟨sampleB_reachable, by decide +kernel⟩

end Radix
