import Verif.Proofs.Good

/-
Proof-internal: lookup.
-/

set_option linter.unusedVariables false

namespace Radix
open Node

theorem ordK_getElem {l : List Node} (h : OrdK l) {i j : Nat} (hij : i < j) (hj : j < l.length) :
    rank l[i].firstByte < rank l[j].firstByte :=
  List.pairwise_iff_getElem.1 ((ordK_iff l).1 h).2 i j (by omega) hj hij

theorem rank_lower {l : List Node} (h : OrdK l) {i : Nat} (hi : i < l.length) : i + 1 ≤ rank l[i].firstByte := by
  induction i with
  | zero =>
    obtain ⟨x, hx⟩ := firstByte_of_ne_nil (h.mem (List.getElem_mem hi)).1
    rw [hx]; simp [rank]
  | succ i ih =>
    have h1 := ih (by omega)
    have h2 := ordK_getElem h (show i < i + 1 by omega) hi
    omega

theorem rank_le (o : Option UInt8) : rank o ≤ 256 := by
  cases o with
  | none => simp [rank]
  | some b => have := b.toNat_lt; simp [rank]; omega

theorem rank_upper {l : List Node} (h : OrdK l) (d : Nat) {i : Nat} (hi : i + d + 1 = l.length) :
    rank (l[i]'(by omega)).firstByte + d ≤ 256 := by
  induction d generalizing i with
  | zero => have := rank_le (l[i]'(by omega)).firstByte; omega
  | succ d ih =>
    have h1 := ih (i := i + 1) (by omega)
    have h2 := ordK_getElem h (show i < i + 1 by omega) (by omega : i + 1 < l.length)
    omega

theorem bsearch_found {l : List Node} {t a b i : Nat} (h : bsearch l t a b = some i) :
    ∃ x, l[i]? = some x ∧ rank x.firstByte = t := by
  fun_induction bsearch l t a b <;> grind

theorem bsearch_none {l : List Node} (ho : OrdK l) {t a b : Nat} (hb : b ≤ l.length) (h : bsearch l t a b = none) :
    ∀ i x, a ≤ i → i < b → l[i]? = some x → rank x.firstByte ≠ t := by
  fun_induction bsearch l t a b with
  | case1 a b hab mid hn =>
    simp only [List.getElem?_eq_none_iff] at hn; omega
  | case2 a b hab mid x hx hlt ih =>
    intro i y h1 h2 hy
    by_cases hi : mid + 1 ≤ i
    · exact ih hb h i y hi h2 hy
    · obtain ⟨hm, hx'⟩ := List.getElem?_eq_some_iff.1 hx
      obtain ⟨hi', hy'⟩ := List.getElem?_eq_some_iff.1 hy
      by_cases e : i = mid
      · subst e; rw [hx] at hy; cases hy; omega
      · have := ordK_getElem ho (show i < mid by omega) hm
        rw [hx', hy'] at this; omega
  | case3 a b hab mid x hx hlt hgt ih =>
    intro i y h1 h2 hy
    by_cases hi : i < mid
    · exact ih (by omega) h i y h1 hi hy
    · obtain ⟨hm, hx'⟩ := List.getElem?_eq_some_iff.1 hx
      obtain ⟨hi', hy'⟩ := List.getElem?_eq_some_iff.1 hy
      by_cases e : i = mid
      · subst e; rw [hx] at hy; cases hy; omega
      · have := ordK_getElem ho (show mid < i by omega) hi'
        rw [hx', hy'] at this; omega
  | case4 => cases h
  | case5 a b hab => intro i x h1 h2; omega

/-- Both branches of the child lookup find the child with the given first byte. -/
theorem findChild_eq {l : List Node} (ho : OrdK l) (c : UInt8) : findChild l c = childAt l c := by
  unfold findChild
  split
  · rename_i hl
    have hc : c.toNat < l.length := by have := c.toNat_lt; omega
    rw [List.getElem?_eq_getElem hc]
    symm
    apply childAt_of_mem ho (List.getElem_mem hc)
    have h1 := rank_lower ho hc
    have h2 := rank_upper ho (255 - c.toNat) (i := c.toNat) (by omega)
    apply rank_inj
    simp only [rank]
    have : rank l[c.toNat].firstByte = c.toNat + 1 := by omega
    exact this
  · cases hb : bsearch l (rank (some c)) 0 l.length with
    | some i =>
      obtain ⟨x, hx, hr⟩ := bsearch_found hb
      simp only [Option.bind_some, hx]
      exact (childAt_of_mem ho (List.mem_of_getElem? hx) (rank_inj hr)).symm
    | none =>
      simp only [Option.bind_none]
      cases hc : childAt l c with
      | none => rfl
      | some x =>
        obtain ⟨h1, h2⟩ := childAt_mem hc
        obtain ⟨i, hi, hix⟩ := List.getElem_of_mem h1
        exact absurd (by rw [h2]) (bsearch_none ho (Nat.le_refl _) hb i x (Nat.zero_le _) hi
          (by rw [List.getElem?_eq_getElem hi, hix]))

theorem den_setPrefix_append (u : Node) (p q k : Bytes) :
    den (u.setPrefix (p ++ q)) (p ++ k) = den (u.setPrefix q) k := by
  rw [den_eq, den_eq]
  simp only [setPrefix, pfx_mk, val_mk, strip_append, strip_append_self, Option.bind_some]
  rfl

theorem den_setPrefix_self (u : Node) (k : Bytes) : den (u.setPrefix u.pfx) k = den u k := by
  rw [den_eq, den_eq u]; rfl

theorem ord_setPrefix {u : Node} (p : Bytes) : Ord (u.setPrefix p) ↔ Ord u := by
  rw [ord_iff, ord_iff]; rfl

theorem cmp_setPrefix {u : Node} (p : Bytes) : Cmp (u.setPrefix p) ↔ Cmp u := cmp_of_eq rfl rfl

/-- What `find` returns. -/
theorem find_spec (t : Node) (p : Bytes) (ho : Ord t) :
    match find t p with
    | .found u => Ord u ∧ (∀ k, den t (p ++ k) = den (u.setPrefix []) k) ∧ (Cmp t → Cmp u) ∧
        (∃ q, p = q ++ u.pfx) ∧ (u = t ∨ u.pfx ≠ [])
    | .pre u m => Ord u ∧ m < u.pfx.length ∧ (∃ q, p = q ++ u.pfx.take m) ∧
        (∀ k, den t (p ++ k) = den (u.setPrefix (u.pfx.drop m)) k) ∧ (Cmp t → Cmp u)
    | .notFound => ∀ k, den t (p ++ k) = none := by
  fun_induction find t p with
  | case1 t p n rt rp h =>
    obtain ⟨q, a', b', h1, h2, h3, h4⟩ := commonPrefix_spec t.pfx p
    have e1 : a' = [] := by
      have := congrArg List.length h1; simp at this; apply List.eq_nil_of_length_eq_zero; omega
    have e2 : b' = [] := by
      have := congrArg List.length h2; simp at this; apply List.eq_nil_of_length_eq_zero; omega
    subst e1; subst e2
    simp only [List.append_nil] at h1 h2
    refine ⟨ho, fun k => ?_, id, ⟨[], by simp [h1, h2]⟩, Or.inl rfl⟩
    rw [h2, ← h1, ← den_setPrefix_self]
    have := den_setPrefix_append t t.pfx [] k
    rwa [List.append_nil] at this
  | case2 t p n rt rp h h' =>
    obtain ⟨q, a', b', h1, h2, h3, h4⟩ := commonPrefix_spec t.pfx p
    have e2 : b' = [] := by
      have := congrArg List.length h2; simp at this; apply List.eq_nil_of_length_eq_zero; omega
    subst e2
    simp only [List.append_nil] at h2
    have hn : n = q.length := h3
    have hlen := congrArg List.length h1
    simp only [List.length_append] at hlen
    refine ⟨ho, ?_, ⟨[], ?_⟩, fun k => ?_, id⟩
    · show n < t.pfx.length; omega
    · show p = [] ++ t.pfx.take n; rw [hn, h1, List.take_left]; simpa using h2
    · show den t (p ++ k) = den (t.setPrefix (t.pfx.drop n)) k
      rw [← den_setPrefix_self, hn, h1, h2, List.drop_left]
      exact den_setPrefix_append t q a' k
  | case3 t p n rt rp h h' h'' hd =>
    have := congrArg List.length hd
    simp at this; omega
  | case4 t p n rt rp h h' h'' c rest hd hl =>
    intro k
    obtain ⟨q, a', b', h1, h2, h3, h4⟩ := commonPrefix_spec t.pfx p
    have e1 : a' = [] := by
      have := congrArg List.length h1; simp at this; apply List.eq_nil_of_length_eq_zero; omega
    subst e1; simp only [List.append_nil] at h1
    have hn : n = q.length := h3
    rw [hn, h2, List.drop_left] at hd
    rw [den_eq, h2, hd, h1, List.append_assoc, strip_append_self]
    rw [loadChildren_eq, arcOpt] at hl
    split at hl
    · rename_i hk
      have : t.kids = [] := by simpa using hk
      simp [this, denK]
    · cases hl
  | case5 t p n rt rp h h' h'' c rest hd cs hl hf =>
    intro k
    obtain ⟨q, a', b', h1, h2, h3, h4⟩ := commonPrefix_spec t.pfx p
    have e1 : a' = [] := by
      have := congrArg List.length h1; simp at this; apply List.eq_nil_of_length_eq_zero; omega
    subst e1; simp only [List.append_nil] at h1
    have hn : n = q.length := h3
    rw [hn, h2, List.drop_left] at hd
    have hcs : t.kids = cs := by rw [← loadChildren_getD, hl]; rfl
    rw [ord_iff, hcs] at ho
    rw [findChild_eq ho] at hf
    rw [den_eq, h2, hd, h1, List.append_assoc, strip_append_self]
    simp only [List.cons_append]
    rw [denK_cons_eq, hcs, hf]; rfl
  | case6 t p n rt rp h h' h'' c rest hd cs hl child hf ih =>
    obtain ⟨q, a', b', h1, h2, h3, h4⟩ := commonPrefix_spec t.pfx p
    have e1 : a' = [] := by
      have := congrArg List.length h1; simp at this; apply List.eq_nil_of_length_eq_zero; omega
    subst e1; simp only [List.append_nil] at h1
    have hn : n = q.length := h3
    rw [hn, h2, List.drop_left] at hd
    have hcs : t.kids = cs := by rw [← loadChildren_getD, hl]; rfl
    have ho' := (ord_iff t).1 ho
    rw [hcs] at ho'
    rw [findChild_eq ho'] at hf
    have hm := childAt_mem hf
    have key : ∀ k, den t (p ++ k) = den child ((c :: rest) ++ k) := by
      intro k
      rw [den_eq, h2, hd, h1, List.append_assoc, strip_append_self]
      simp only [List.cons_append]
      rw [denK_cons_eq, hcs, hf]; rfl
    have hcmp : Cmp t → Cmp child := fun h => ((cmp_iff t).1 h).2 child (hcs ▸ hm.1)
    have hmem := ho'.mem hm.1
    have ih := ih hmem.2
    cases hr : find child (c :: rest) with
    | found u =>
      simp only [hr] at ih ⊢
      obtain ⟨i1, i2, i3, ⟨r, i4⟩, i5⟩ := ih
      refine ⟨i1, fun k => (key k).trans (i2 k), fun h => i3 (hcmp h), ⟨q ++ r, ?_⟩, ?_⟩
      · rw [h2, hd, i4, List.append_assoc]
      · right
        rcases i5 with rfl | i5
        · exact hmem.1
        · exact i5
    | pre u m =>
      simp only [hr] at ih ⊢
      obtain ⟨i1, i2, ⟨r, i3⟩, i4, i5⟩ := ih
      exact ⟨i1, i2, ⟨q ++ r, by rw [h2, hd, i3, List.append_assoc]⟩,
        fun k => (key k).trans (i4 k), fun h => i5 (hcmp h)⟩
    | notFound =>
      simp only [hr] at ih ⊢
      exact fun k => (key k).trans (ih k)
  | case7 t p n rt rp h h' h'' =>
    intro k
    obtain ⟨q, a', b', h1, h2, h3, h4⟩ := commonPrefix_spec t.pfx p
    apply den_none_of_not_prefix
    rintro ⟨s, hs⟩
    rw [h1, h2] at hs
    simp only [List.append_assoc, List.append_cancel_left_eq] at hs
    have l1 := congrArg List.length h1
    have l2 := congrArg List.length h2
    simp only [List.length_append] at l1 l2
    cases a' with
    | nil => simp at l1; omega
    | cons x a' =>
      cases b' with
      | nil => simp at l2; omega
      | cons y b' => simp at hs h4; exact h4 hs.1

theorem get_eq_den (t : Node) (k : Bytes) (ho : Ord t) : get t k = den t k := by
  have h := find_spec t k ho
  unfold get
  cases hf : find t k with
  | found u =>
    simp only [hf] at h ⊢
    have := h.2.1 []
    rw [List.append_nil] at this
    rw [this, den_eq]; rfl
  | pre u m =>
    simp only [hf] at h ⊢
    have := h.2.2.2.1 []
    rw [List.append_nil] at this
    rw [this, den_nil_of_ne]
    exact drop_ne_nil (by omega) (by omega)
  | notFound =>
    simp only [hf] at h ⊢
    have := h []
    rw [List.append_nil] at this
    exact this.symm

theorem containsKey_eq (t : Node) (k : Bytes) : containsKey t k = (get t k).isSome := by
  unfold containsKey get; cases find t k <;> rfl

/-- A compact node holds at least one key. -/
theorem cmp_exists {n : Node} (h : Cmp n) (ho : Ord n) : ∃ k v, den n k = some v := by
  induction h with
  | intro n h1 h2 ih =>
    rcases h1 with h1 | h1
    · obtain ⟨v, hv⟩ := Option.isSome_iff_exists.1 h1
      refine ⟨n.pfx, v, ?_⟩
      have := strip_append_self n.pfx []
      rw [List.append_nil] at this
      rw [den_eq, this]; exact hv
    · cases hk : n.kids with
      | nil => simp [hk] at h1
      | cons c cs =>
        have hc : c ∈ n.kids := by simp [hk]
        have ho' := (ord_iff n).1 ho
        obtain ⟨k, v, hd⟩ := ih c hc (ho'.mem hc).2
        refine ⟨n.pfx ++ k, v, ?_⟩
        rw [den_eq, strip_append_self]
        cases k with
        | nil => rw [den_nil_of_ne (ho'.mem hc).1] at hd; cases hd
        | cons x xs => exact (denK_eq_some ho').2 ⟨c, hc, hd⟩

theorem hasPrefix_of {t : Node} (ho : Ord t) {p : Bytes} (h : ∃ k v, den t (p ++ k) = some v) :
    hasPrefix t p = true := by
  have hs := find_spec t p ho
  unfold hasPrefix
  cases hf : find t p with
  | found u => rfl
  | pre u m => rfl
  | notFound =>
    simp only [hf] at hs
    obtain ⟨k, v, h⟩ := h
    rw [hs] at h; cases h

theorem hasPrefix_iff {t : Node} (ho : Ord t) (hc : Cmp t) (p : Bytes) :
    hasPrefix t p = true ↔ ∃ k v, den t (p ++ k) = some v := by
  refine ⟨fun h => ?_, hasPrefix_of ho⟩
  have hs := find_spec t p ho
  unfold hasPrefix at h
  cases hf : find t p with
  | found u =>
    simp only [hf] at hs
    obtain ⟨k, v, hd⟩ := cmp_exists ((cmp_setPrefix []).2 (hs.2.2.1 hc)) ((ord_setPrefix []).2 hs.1)
    exact ⟨k, v, by rw [hs.2.1, hd]⟩
  | pre u m =>
    simp only [hf] at hs
    obtain ⟨k, v, hd⟩ := cmp_exists ((cmp_setPrefix (u.pfx.drop m)).2 (hs.2.2.2.2 hc)) ((ord_setPrefix _).2 hs.1)
    exact ⟨k, v, by rw [hs.2.2.2.1, hd]⟩
  | notFound => simp [hf] at h

theorem filterPrefix_den {t : Node} (ho : Ord t) (p s k : Bytes) :
    den (filterPrefix t p s) k =
      match strip s k with
      | none => none
      | some r => den t (p ++ r) := by
  have hs := find_spec t p ho
  have aux : ∀ (u : Node) (q : Bytes), den (u.setPrefix (s ++ q)) k =
      match strip s k with
      | none => none
      | some r => den (u.setPrefix q) r := by
    intro u q
    cases hst : strip s k with
    | none =>
      apply den_none_of_not_prefix
      intro h
      exact strip_eq_none.1 hst ((List.prefix_append s q).trans h)
    | some r =>
      rw [strip_eq_some.1 hst]; exact den_setPrefix_append u s q r
  unfold filterPrefix
  cases hf : find t p with
  | found u =>
    simp only [hf] at hs ⊢
    have := aux u []
    rw [List.append_nil] at this
    rw [this]
    cases strip s k with
    | none => rfl
    | some r => exact (hs.2.1 r).symm
  | pre u m =>
    simp only [hf] at hs ⊢
    rw [aux]
    cases strip s k with
    | none => rfl
    | some r => exact (hs.2.2.2.1 r).symm
  | notFound =>
    simp only [hf] at hs ⊢
    rw [den_empty]
    cases strip s k with
    | none => rfl
    | some r => exact (hs r).symm

theorem filterPrefix_ord {t : Node} (ho : Ord t) (p s : Bytes) : Ord (filterPrefix t p s) := by
  have hs := find_spec t p ho
  unfold filterPrefix
  cases hf : find t p with
  | found u => simp only [hf] at hs ⊢; exact (ord_setPrefix _).2 hs.1
  | pre u m => simp only [hf] at hs ⊢; exact (ord_setPrefix _).2 hs.1
  | notFound => exact ord_empty

theorem filterPrefix_shape {t : Node} (ho : Ord t) (hc : Cmp t) (p s : Bytes) : Shape (filterPrefix t p s) := by
  have hs := find_spec t p ho
  unfold filterPrefix
  cases hf : find t p with
  | found u => simp only [hf] at hs ⊢; exact Or.inr ((cmp_setPrefix _).2 (hs.2.2.1 hc))
  | pre u m => simp only [hf] at hs ⊢; exact Or.inr ((cmp_setPrefix _).2 (hs.2.2.2.2 hc))
  | notFound => exact Or.inl rfl

end Radix
