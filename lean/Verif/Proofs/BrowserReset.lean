import Verif.Proofs.BrowserBlobs

/-
Helper lemmas: truncating a file to 0.
-/

set_option linter.unusedVariables false

namespace Radix.Browser

open Radix.Spec

/-- Empty pieces at 0 are on level 0. -/
def ZeroLow (ps : List Piece) : Prop := ∀ p ∈ ps, p.offset + p.len = 0 → p = ⟨0, 0, 0⟩

theorem zero_stack {ps : List Piece} (h : ZeroLow ps) (w : Nat × Nat) : ZeroLow (stack ps w) := by
  intro p hp hz
  rcases mem_stack.1 hp with rfl | ⟨hp, -⟩ | ⟨q, hq, hh, hp⟩
  · dsimp only at hz
    have h1 : w.1 = 0 := by omega
    have h2 : w.2 = 0 := by omega
    rcases levelFor_cases ps w with h3 | ⟨q, hq, hh, -⟩
    · rw [h3, h1, h2]
    · rw [hit_iff] at hh; omega
  · exact h p hp hz
  · obtain ⟨-, h1⟩ := mem_left hp
    rcases h1 with ⟨h1, rfl⟩ | ⟨h1, rfl⟩ <;> dsimp only at hz <;> omega

theorem zero_change {ps : List Piece} (h : ZeroLow ps) (c : Change) : ZeroLow (change ps c) := by
  cases c with
  | write o l => exact zero_stack h _
  | append l => exact zero_stack h _
  | cut n =>
    intro p hp hz
    rcases mem_cutAt.1 hp with ⟨q, hq, h1, h2, rfl⟩ | ⟨hp, -⟩
    · dsimp only at hz; omega
    · exact h p hp hz

theorem zero_changes : ∀ (cs : List Change) {ps : List Piece}, ZeroLow ps → ZeroLow (cs.foldl change ps)
  | [], ps, h => h
  | c :: cs, ps, h => zero_changes cs (zero_change h c)

/-- The same pieces, up to an empty one at 0 if `z`. -/
def UpToZero (z : Prop) (ps qs : List Piece) : Prop := ∀ p, p ∈ ps ↔ p ∈ qs ∨ z ∧ p = ⟨0, 0, 0⟩

variable {z : Prop} {ps qs : List Piece}

theorem UpToZero.levelFor (h : UpToZero z ps qs) (w : Nat × Nat) : levelFor ps w = Spec.levelFor qs w := by
  have h1 : Spec.levelFor ps w ≤ Spec.levelFor qs w := by
    rcases levelFor_cases ps w with e | ⟨p, hp, hh, e⟩
    · omega
    · rcases (h p).1 hp with hp | ⟨-, rfl⟩
      · have := levelFor_above hp hh; omega
      · rw [hit_iff] at hh; dsimp only at hh; omega
  have h2 : Spec.levelFor qs w ≤ Spec.levelFor ps w := by
    rcases levelFor_cases qs w with e | ⟨p, hp, hh, e⟩
    · omega
    · have := levelFor_above ((h p).2 (Or.inl hp)) hh; omega
  omega

theorem UpToZero.levelOver (h : UpToZero z ps qs) (n : Nat) : levelOver ps n = Spec.levelOver qs n := by
  have h1 : Spec.levelOver ps n ≤ Spec.levelOver qs n := by
    rcases levelOver_cases ps n with e | ⟨p, hp, hh, e⟩
    · omega
    · rcases (h p).1 hp with hp | ⟨-, rfl⟩
      · have := levelOver_above hp hh; omega
      · dsimp only at hh; omega
  have h2 : Spec.levelOver qs n ≤ Spec.levelOver ps n := by
    rcases levelOver_cases qs n with e | ⟨p, hp, hh, e⟩
    · omega
    · have := levelOver_above ((h p).2 (Or.inl hp)) hh; omega
  omega

theorem UpToZero.topEnd (h : UpToZero z ps qs) : topEnd ps = Spec.topEnd qs := by
  rcases topEnd_spec qs with ⟨e, h1⟩ | ⟨p, hp, p1, p2, h1⟩
  · rw [h1]
    subst e
    rcases topEnd_spec ps with ⟨-, h2⟩ | ⟨p, hp, -, -, h2⟩
    · exact h2
    · rcases (h p).1 hp with hp | ⟨-, rfl⟩
      · exact absurd hp (by simp)
      · exact h2
  · refine topEnd_unique (topEnd_spec ps) (Or.inr ⟨p, (h p).2 (Or.inl hp), fun q hq => ?_, fun q hq hl => ?_, h1⟩)
    · rcases (h q).1 hq with hq | ⟨-, rfl⟩
      · exact p1 q hq
      · exact Nat.zero_le _
    · rcases (h q).1 hq with hq | ⟨-, rfl⟩
      · exact p2 q hq hl
      · exact Nat.zero_le _

theorem UpToZero.stack (h : UpToZero z ps qs) (w : Nat × Nat) : UpToZero z (stack ps w) (Spec.stack qs w) := by
  intro p
  have hl := h.levelFor w
  have h0 : ¬ (⟨0, 0, 0⟩ : Piece).hit w = true := by rw [hit_iff]; dsimp only; omega
  rw [mem_stack, mem_stack, hl]
  constructor
  · rintro (rfl | ⟨hp, hh⟩ | ⟨q, hq, hh, hp⟩)
    · exact Or.inl (Or.inl rfl)
    · rcases (h p).1 hp with hp | hp
      · exact Or.inl (Or.inr (Or.inl ⟨hp, hh⟩))
      · exact Or.inr hp
    · rcases (h q).1 hq with hq | ⟨-, rfl⟩
      · exact Or.inl (Or.inr (Or.inr ⟨q, hq, hh, hp⟩))
      · exact absurd hh h0
  · rintro ((rfl | ⟨hp, hh⟩ | ⟨q, hq, hh, hp⟩) | ⟨hz, rfl⟩)
    · exact Or.inl rfl
    · exact Or.inr (Or.inl ⟨(h p).2 (Or.inl hp), hh⟩)
    · exact Or.inr (Or.inr ⟨q, (h q).2 (Or.inl hq), hh, hp⟩)
    · exact Or.inr (Or.inl ⟨(h _).2 (Or.inr ⟨hz, rfl⟩), h0⟩)

theorem UpToZero.change (h : UpToZero z ps qs) (c : Change) : UpToZero z (change ps c) (Spec.change qs c) := by
  cases c with
  | write o l => exact h.stack _
  | append l =>
    show UpToZero z (Spec.stack ps (Spec.topEnd ps, l)) (Spec.stack qs (Spec.topEnd qs, l))
    rw [h.topEnd]; exact h.stack _
  | cut n =>
    intro p
    show p ∈ cutAt ps n ↔ p ∈ cutAt qs n ∨ _
    rw [mem_cutAt, mem_cutAt, h.levelOver n]
    constructor
    · rintro (⟨q, hq, h1, h2, rfl⟩ | ⟨hp, h1⟩)
      · rcases (h q).1 hq with hq | ⟨-, rfl⟩
        · exact Or.inl (Or.inl ⟨q, hq, h1, h2, rfl⟩)
        · dsimp only at h1; omega
      · rcases (h p).1 hp with hp | hp
        · exact Or.inl (Or.inr ⟨hp, h1⟩)
        · exact Or.inr hp
    · rintro ((⟨q, hq, h1, h2, rfl⟩ | ⟨hp, h1⟩) | ⟨hz, rfl⟩)
      · exact Or.inl ⟨q, (h q).2 (Or.inl hq), h1, h2, rfl⟩
      · exact Or.inr ⟨(h p).2 (Or.inl hp), h1⟩
      · exact Or.inr ⟨(h _).2 (Or.inr ⟨hz, rfl⟩), Nat.zero_le _⟩

theorem UpToZero.changes : ∀ (cs : List Change) {ps qs : List Piece}, UpToZero z ps qs → UpToZero z (cs.foldl Spec.change ps) (cs.foldl Spec.change qs)
  | [], ps, qs, h => h
  | c :: cs, ps, qs, h => UpToZero.changes cs (h.change c)

/-- Nothing but an empty piece is left of a cut at 0. -/
theorem cut_zero (h : ZeroLow ps) : ∃ z, UpToZero z (cutAt ps 0) [] := by
  refine ⟨(⟨0, 0, 0⟩ : Piece) ∈ ps, fun p => ?_⟩
  rw [mem_cutAt]
  constructor
  · rintro (⟨q, hq, h1, h2, rfl⟩ | ⟨hp, h1⟩)
    · omega
    · have := h p hp (by omega)
      subst this
      exact Or.inr ⟨hp, rfl⟩
  · rintro (hp | ⟨hz, rfl⟩)
    · exact absurd hp (by simp)
    · exact Or.inr ⟨hz, Nat.le_refl _⟩

/-- After a cut at 0 all is as in a new file. -/
theorem topEnd_reset (cs more : List Change) : Spec.topEnd (piecesOf (cs ++ .cut 0 :: more)) = Spec.topEnd (piecesOf more) := by
  obtain ⟨z, hz⟩ := cut_zero (zero_changes cs (ps := []) fun p hp => absurd hp (by simp))
  have := (UpToZero.changes more hz).topEnd
  unfold piecesOf
  rw [List.foldl_append]
  exact this

end Radix.Browser
