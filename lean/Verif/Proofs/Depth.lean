import Verif.Proofs.Good
import Verif.Tree.Height

/-
Proof-internal: the height of a tree is at most the length of its longest key, plus one.
-/

set_option linter.unusedVariables false

namespace Radix
open Node

theorem den_kid {n c : Node} (ho : Ord n) (hc : c ∈ n.kids) {k v : Bytes} (h : den c k = some v) :
    den n (n.pfx ++ k) = some v := by
  have hk := (ord_iff n).1 ho
  have hne : k ≠ [] := by
    rintro rfl
    rw [den_nil_of_ne (hk.mem hc).1] at h
    cases h
  have hs : strip n.pfx (n.pfx ++ k) = some k := strip_eq_some.2 rfl
  rw [den_eq, hs]
  cases k with
  | nil => exact absurd rfl hne
  | cons x xs => exact (denK_eq_some hk).2 ⟨c, hc, h⟩

theorem heightL_mem : ∀ {l : List Node}, l ≠ [] → ∃ c ∈ l, c.height = heightL l
  | [], h => absurd rfl h
  | [a], _ => ⟨a, by simp, by simp [heightL]⟩
  | a :: b :: l, _ => by
    obtain ⟨c, hc, e⟩ := heightL_mem (l := b :: l) (by simp)
    rw [heightL]
    by_cases h : heightL (b :: l) ≤ a.height
    · exact ⟨a, by simp, by omega⟩
    · exact ⟨c, List.mem_cons_of_mem _ hc, by omega⟩

/-- A compact tree has a key that is as long as the tree is high. -/
theorem long_key : ∀ (N : Nat) (n : Node), n.height ≤ N → Ord n → Cmp n →
    ∃ k v, den n k = some v ∧ n.height + n.pfx.length ≤ k.length + 1
  | 0, n, h, _, _ => by have := height_pos n; omega
  | N + 1, n, h, ho, hc => by
    have hk := (ord_iff n).1 ho
    have hs := (cmp_iff n).1 hc
    have hh := heightL_kids n
    by_cases he : n.kids = []
    · rw [he] at hs hh
      obtain ⟨v, hv⟩ := Option.isSome_iff_exists.1 (hs.1.resolve_right (by simp))
      have : strip n.pfx n.pfx = some [] := strip_eq_some.2 (by simp)
      refine ⟨n.pfx, v, by rw [den_eq, this]; exact hv, ?_⟩
      simp only [heightL] at hh
      omega
    · obtain ⟨c, hcm, e⟩ := heightL_mem he
      obtain ⟨k, v, hd, hl⟩ := long_key N c (by omega) (hk.mem hcm).2 (hs.2 c hcm)
      refine ⟨n.pfx ++ k, v, den_kid ho hcm hd, ?_⟩
      have : 0 < c.pfx.length := List.length_pos_iff.2 (hk.mem hcm).1
      rw [List.length_append]
      omega

/-- If all keys have at most `K` bytes, the tree has at most `K + 1` levels. -/
theorem height_le_keys {n : Node} (ho : Ord n) (hs : Shape n) {K : Nat} (hk : ∀ k v, den n k = some v → k.length ≤ K) :
    n.height ≤ K + 1 := by
  rcases hs with rfl | hc
  · simp [Node.empty, height, heightO]
  · obtain ⟨k, v, hd, hl⟩ := long_key n.height n (Nat.le_refl _) ho hc
    have := hk k v hd
    omega

end Radix
