import Verif.Proofs.Basic

/-
Proof-internal: the merge of two sorted child lists.
-/

set_option linter.unusedVariables false

namespace Radix
open Node

/-- The first byte shared by the members of a join pair. -/
def pkey : Option Node × Option Node → Option UInt8
  | (some a, _) => a.firstByte
  | (none, some b) => b.firstByte
  | (none, none) => none

theorem join_mem {as bs : List Node} {p : Option Node × Option Node} (h : p ∈ join as bs) :
    (∀ a, p.1 = some a → a ∈ as ∧ a.firstByte = pkey p) ∧
    (∀ b, p.2 = some b → b ∈ bs ∧ b.firstByte = pkey p) ∧
    (p.1.isSome ∨ p.2.isSome) := by
  fun_induction join as bs with
  | case1 => cases h
  | case2 a as ih =>
    rcases List.mem_cons.1 h with rfl | h
    · simp [pkey]
    · have := ih h; grind
  | case3 b bs ih =>
    rcases List.mem_cons.1 h with rfl | h
    · simp [pkey]
    · have := ih h; grind
  | case4 a as b bs hlt ih =>
    rcases List.mem_cons.1 h with rfl | h
    · simp [pkey]
    · have := ih h; grind
  | case5 a as b bs hlt hgt ih =>
    rcases List.mem_cons.1 h with rfl | h
    · simp [pkey]
    · have := ih h; grind
  | case6 a as b bs hlt hgt ih =>
    rcases List.mem_cons.1 h with rfl | h
    · have : a.firstByte = b.firstByte := rank_inj (by omega)
      simp [pkey, this]
    · have := ih h; grind

/-- The key of a join pair is the key of a member of one of the lists. -/
theorem pkey_mem {as bs : List Node} {p : Option Node × Option Node} (h : p ∈ join as bs) :
    (∃ a ∈ as, a.firstByte = pkey p) ∨ (∃ b ∈ bs, b.firstByte = pkey p) := by
  obtain ⟨h1, h2, h3⟩ := join_mem h
  rcases h3 with h3 | h3
  · obtain ⟨a, ha⟩ := Option.isSome_iff_exists.1 h3
    exact Or.inl ⟨a, h1 a ha⟩
  · obtain ⟨b, hb⟩ := Option.isSome_iff_exists.1 h3
    exact Or.inr ⟨b, h2 b hb⟩

theorem join_pairwise {as bs : List Node} (ha : OrdK as) (hb : OrdK bs) :
    (join as bs).Pairwise fun p q => rank (pkey p) < rank (pkey q) := by
  fun_induction join as bs with
  | case1 => simp
  | case2 a as ih =>
    simp only [OrdK] at ha
    refine List.pairwise_cons.2 ⟨fun q hq => ?_, ih ha.2.2.2 hb⟩
    rcases pkey_mem hq with ⟨c, hc, e⟩ | ⟨c, hc, e⟩
    · rw [← e]; exact ha.2.2.1 c hc
    · cases hc
  | case3 b bs ih =>
    simp only [OrdK] at hb
    refine List.pairwise_cons.2 ⟨fun q hq => ?_, ih ha hb.2.2.2⟩
    rcases pkey_mem hq with ⟨c, hc, e⟩ | ⟨c, hc, e⟩
    · cases hc
    · rw [← e]; exact hb.2.2.1 c hc
  | case4 a as b bs hlt ih =>
    have ha' := ha; have hb' := hb
    simp only [OrdK] at ha hb
    refine List.pairwise_cons.2 ⟨fun q hq => ?_, ih ha.2.2.2 hb'⟩
    rcases pkey_mem hq with ⟨c, hc, e⟩ | ⟨c, hc, e⟩
    · rw [← e]; exact ha.2.2.1 c hc
    · rw [← e]
      rcases List.mem_cons.1 hc with rfl | hc
      · exact hlt
      · have := hb.2.2.1 c hc; simp only [pkey]; omega
  | case5 a as b bs hlt hgt ih =>
    have ha' := ha; have hb' := hb
    simp only [OrdK] at ha hb
    refine List.pairwise_cons.2 ⟨fun q hq => ?_, ih ha' hb.2.2.2⟩
    rcases pkey_mem hq with ⟨c, hc, e⟩ | ⟨c, hc, e⟩
    · rw [← e]
      rcases List.mem_cons.1 hc with rfl | hc
      · exact hgt
      · have := ha.2.2.1 c hc; simp only [pkey]; omega
    · rw [← e]; exact hb.2.2.1 c hc
  | case6 a as b bs hlt hgt ih =>
    simp only [OrdK] at ha hb
    refine List.pairwise_cons.2 ⟨fun q hq => ?_, ih ha.2.2.2 hb.2.2.2⟩
    have hab : rank a.firstByte = rank b.firstByte := by omega
    rcases pkey_mem hq with ⟨c, hc, e⟩ | ⟨c, hc, e⟩
    · rw [← e]; exact ha.2.2.1 c hc
    · rw [← e]; simp only [pkey]; rw [hab]; exact hb.2.2.1 c hc

/-- The join pair at a byte. -/
theorem join_find {as bs : List Node} (ha : OrdK as) (hb : OrdK bs) (x : UInt8) :
    (join as bs).find? (fun p => pkey p == some x) =
      match childAt as x, childAt bs x with
      | none, none => none
      | oa, ob => some (oa, ob) := by
  have key : ∀ {l : List Node} {n : Node}, OrdK (n :: l) → n.firstByte = some x → childAt l x = none := by
    intro l n h hn
    simp only [OrdK] at h
    cases hc : childAt l x with
    | none => rfl
    | some c =>
      have := h.2.2.1 c (childAt_mem hc).1
      rw [hn, (childAt_mem hc).2] at this; omega
  have big : ∀ {l : List Node} {n m : Node}, OrdK (n :: l) → m.firstByte = some x →
      rank m.firstByte < rank n.firstByte → childAt (n :: l) x = none := by
    intro l n m h hm hlt
    simp only [OrdK] at h
    cases hc : childAt (n :: l) x with
    | none => rfl
    | some c =>
      have h1 := childAt_mem hc
      rcases List.mem_cons.1 h1.1 with rfl | h2
      · rw [hm, h1.2] at hlt; omega
      · have := h.2.2.1 c h2; rw [h1.2] at this; rw [hm] at hlt; omega
  have cons_eq : ∀ (l : List Node) (n : Node), childAt (n :: l) x =
      if n.firstByte = some x then some n else childAt l x := by
    intro l n
    by_cases h : n.firstByte = some x <;> simp [childAt, h]
  fun_induction join as bs with
  | case1 => simp [childAt]
  | case2 a as ih =>
    have ha' := ha; simp only [OrdK] at ha
    rw [List.find?_cons, cons_eq]
    by_cases h : a.firstByte = some x
    · simp [pkey, h, childAt]
    · have h' : (pkey (some a, none) == some x) = false := by simpa [pkey] using h
      simp only [h', if_neg h]; exact ih ha.2.2.2 hb
  | case3 b bs ih =>
    have hb' := hb; simp only [OrdK] at hb
    rw [List.find?_cons, cons_eq]
    by_cases h : b.firstByte = some x
    · simp [pkey, h, childAt]
    · have h' : (pkey (none, some b) == some x) = false := by simpa [pkey] using h
      simp only [h', if_neg h]; exact ih ha hb.2.2.2
  | case4 a as b bs hlt ih =>
    have ha' := ha; simp only [OrdK] at ha
    rw [List.find?_cons, cons_eq as]
    by_cases h : a.firstByte = some x
    · rw [big hb h hlt]; simp [pkey, h]
    · have h' : (pkey (some a, none) == some x) = false := by simpa [pkey] using h
      simp only [h', if_neg h]; exact ih ha.2.2.2 hb
  | case5 a as b bs hlt hgt ih =>
    have hb' := hb; simp only [OrdK] at hb
    rw [List.find?_cons, cons_eq bs]
    by_cases h : b.firstByte = some x
    · rw [big ha h hgt]; simp [pkey, h]
    · have h' : (pkey (none, some b) == some x) = false := by simpa [pkey] using h
      simp only [h', if_neg h]; exact ih ha hb.2.2.2
  | case6 a as b bs hlt hgt ih =>
    have hab : a.firstByte = b.firstByte := rank_inj (by omega)
    have ha' := ha; simp only [OrdK] at ha
    have hb' := hb; simp only [OrdK] at hb
    rw [List.find?_cons, cons_eq as, cons_eq bs]
    by_cases h : a.firstByte = some x
    · simp [pkey, h, ← hab]
    · have h' : (pkey (some a, some b) == some x) = false := by simpa [pkey] using h
      have h'' : b.firstByte ≠ some x := hab ▸ h
      simp only [h', if_neg h, if_neg h'']; exact ih ha.2.2.2 hb.2.2.2

/-- Selecting from a key-sorted list commutes with lookup by key. -/
theorem childAt_filterMap {l : List (Option Node × Option Node)}
    {step : Option Node × Option Node → Option Node}
    (hs : l.Pairwise fun p q => rank (pkey p) < rank (pkey q))
    (hstep : ∀ p ∈ l, ∀ c, step p = some c → c.firstByte = pkey p) (x : UInt8) :
    childAt (l.filterMap step) x = (l.find? (fun p => pkey p == some x)).bind step := by
  induction l with
  | nil => rfl
  | cons p l ih =>
    rw [List.pairwise_cons] at hs
    have ih := ih hs.2 (fun q hq => hstep q (List.mem_cons_of_mem _ hq))
    rw [List.find?_cons]
    by_cases hp : pkey p = some x
    · simp only [hp, beq_self_eq_true, Option.bind_some]
      cases hc : step p with
      | some c =>
        have := hstep p List.mem_cons_self c hc
        rw [List.filterMap_cons_some hc]
        simp [childAt, this, hp]
      | none =>
        rw [List.filterMap_cons_none hc, ih]
        have : l.find? (fun p => pkey p == some x) = none := by
          rw [List.find?_eq_none]
          intro q hq hx
          have h1 := hs.1 q hq
          simp only [beq_iff_eq] at hx
          rw [hp, hx] at h1; omega
        rw [this]; rfl
    · have h' : (pkey p == some x) = false := by simpa using hp
      simp only [h']
      rw [← ih]
      cases hc : step p with
      | some c =>
        have := hstep p List.mem_cons_self c hc
        rw [List.filterMap_cons_some hc]
        simp [childAt, this, h']
      | none => rw [List.filterMap_cons_none hc]

theorem pairwise_filterMap {l : List (Option Node × Option Node)}
    {step : Option Node × Option Node → Option Node}
    (hs : l.Pairwise fun p q => rank (pkey p) < rank (pkey q))
    (hstep : ∀ p ∈ l, ∀ c, step p = some c → c.firstByte = pkey p) :
    (l.filterMap step).Pairwise fun x y => rank x.firstByte < rank y.firstByte := by
  induction l with
  | nil => simp
  | cons p l ih =>
    rw [List.pairwise_cons] at hs
    have ih := ih hs.2 (fun q hq => hstep q (List.mem_cons_of_mem _ hq))
    cases hc : step p with
    | none => rw [List.filterMap_cons_none hc]; exact ih
    | some c =>
      rw [List.filterMap_cons_some hc]
      refine List.pairwise_cons.2 ⟨fun d hd => ?_, ih⟩
      obtain ⟨q, hq, hqd⟩ := List.mem_filterMap.1 hd
      rw [hstep p List.mem_cons_self c hc, hstep q (List.mem_cons_of_mem _ hq) d hqd]
      exact hs.1 q hq

/-- Everything about a list obtained by processing the join of two ordered child lists. -/
theorem joined {as bs : List Node} (ha : OrdK as) (hb : OrdK bs)
    {step : Option Node × Option Node → Option Node}
    (hstep : ∀ p ∈ join as bs, ∀ c, step p = some c → c.firstByte = pkey p ∧ Ord c) :
    OrdK ((join as bs).filterMap step) ∧
    ∀ x, childAt ((join as bs).filterMap step) x =
      match childAt as x, childAt bs x with
      | none, none => none
      | oa, ob => step (oa, ob) := by
  have hp := join_pairwise ha hb
  have hf : ∀ p ∈ join as bs, ∀ c, step p = some c → c.firstByte = pkey p :=
    fun p hp c hc => (hstep p hp c hc).1
  constructor
  · rw [ordK_iff]
    refine ⟨fun c hc => ?_, pairwise_filterMap hp hf⟩
    obtain ⟨p, hp, hpc⟩ := List.mem_filterMap.1 hc
    obtain ⟨h1, h2⟩ := hstep p hp c hpc
    refine ⟨?_, h2⟩
    have : ∃ y, pkey p = some y := by
      rcases pkey_mem hp with ⟨d, hd, e⟩ | ⟨d, hd, e⟩
      · rw [← e]; exact firstByte_of_ne_nil (ha.mem hd).1
      · rw [← e]; exact firstByte_of_ne_nil (hb.mem hd).1
    obtain ⟨y, hy⟩ := this
    rw [hy] at h1
    intro e; rw [firstByte, e] at h1; cases h1
  · intro x
    rw [childAt_filterMap hp hf, join_find ha hb]
    cases childAt as x <;> cases childAt bs x <;> rfl

theorem attach_filterMap_eq {α β : Type} (l : List α) (g : α → Option β) (g' : {x // x ∈ l} → Option β)
    (h : ∀ x hx, g' ⟨x, hx⟩ = g x) : l.attach.filterMap g' = l.filterMap g := by
  have : g' = fun y => g y.1 := by funext ⟨x, hx⟩; exact h x hx
  rw [this]
  conv => rhs; rw [← List.attach_map_subtype_val l, List.filterMap_map]
  rfl

theorem attach_any_eq {α : Type} (l : List α) (g : α → Bool) (g' : {x // x ∈ l} → Bool)
    (h : ∀ x hx, g' ⟨x, hx⟩ = g x) : l.attach.any g' = l.any g := by
  have : g' = fun y => g y.1 := by funext ⟨x, hx⟩; exact h x hx
  rw [this]
  conv => rhs; rw [← List.attach_map_subtype_val l, List.any_map]
  rfl

end Radix
