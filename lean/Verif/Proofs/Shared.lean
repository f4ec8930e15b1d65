import Verif.Stored.Shared
import Verif.Proofs.History

set_option linter.unusedVariables false

namespace Radix
open Node

section
variable {σ ε : Type} {S : BlobStore σ ε}

theorem world_append (st : σ) (l l' : List (Bool × Bytes)) : world S st (l ++ l') = world S (world S st l) l' := by
  simp [world]

theorem world_mono (L : Lawful S) (l : List (Bool × Bytes)) : ∀ (st : σ), Mono L st (world S st l) := by
  induction l with
  | nil => exact fun st => Mono.refl L st
  | cons w l ih => exact fun st => (mono_write (L := L) (d := w.2) rfl).trans (ih _)

theorem world_flip (st : σ) (l : List (Bool × Bytes)) :
    world S st (l.map fun w => (!w.1, w.2)) = world S st l := by
  simp [world, List.foldl_map]

/-- A shared store is lawful if the store is. -/
def sharedLawful (L : Lawful S) (st0 : σ) : Lawful (shared S st0) where
  Has s i d := L.Has (world S st0 s.log) i d
  read_has {s i d} h := by
    refine L.read_has (st := world S st0 (s.log ++ others (s.during i))) ?_
    rw [world_append]
    exact world_mono L _ _ _ _ h
  write_ok {s d i s'} h := by
    simp only [shared, Prod.mk.injEq] at h
    obtain ⟨h1, rfl⟩ := h
    refine L.write_ok (st := world S st0 (s.log ++ others (s.before.headD []))) ?_
    rw [world_append _ _ [(true, d)]]
    exact Prod.ext h1 rfl
  write_mono {s d r s' i e} h hh := by
    simp only [shared, Prod.mk.injEq] at h
    obtain ⟨h1, rfl⟩ := h
    simp only [List.append_assoc, world_append _ s.log]
    exact world_mono L _ _ _ _ hh

/-! ### The same blobs in two stores -/

variable {τ ε' : Type} {T : BlobStore τ ε'} {L : Lawful S} {M : Lawful T} {g : Bool} {st : σ} {st' : τ}

theorem pfxRep_other (h : ∀ i d, L.Has st i d → M.Has st' i d) {b p} (e : PfxRep L g st b p) : PfxRep M g st' b p := by
  rcases e with e | ⟨eg, c, i, e1, e2, e3, e4⟩
  · exact Or.inl e
  · exact Or.inr ⟨eg, c, i, e1, e2, e3, h _ _ e4⟩

theorem valRep_other (h : ∀ i d, L.Has st i d → M.Has st' i d) {b v} (e : ValRep L st b v) : ValRep M st' b v := by
  cases v with
  | none => exact e
  | some v =>
    rcases e with e | ⟨i, e1, e2, e3, e4⟩
    · exact Or.inl e
    · exact Or.inr ⟨i, e1, e2, e3, h _ _ e4⟩

mutual
theorem rep_other (h : ∀ i d, L.Has st i d → M.Has st' i d) : ∀ (a : SNode) (n : Node), Rep L g st a n → Rep M g st' a n
  | a, .mk p v c, e => by
    simp only [Rep] at e ⊢
    exact ⟨pfxRep_other h e.1, valRep_other h e.2.1, repC_other h _ c e.2.2⟩
theorem repC_other (h : ∀ i d, L.Has st i d → M.Has st' i d) : ∀ ch (c : Option (List Node)), RepC L g st ch c →
    RepC M g st' ch c
  | ch, none, e => by simp only [RepC] at e ⊢; exact e
  | ch, some l, e => by
    simp only [RepC] at e ⊢
    rcases e with ⟨as, e1, e2⟩ | ⟨rs, i, bs, e1, e2, e3, e4, e5⟩
    · exact Or.inl ⟨as, e1, repL_other h _ l e2⟩
    · exact Or.inr ⟨rs, i, bs, e1, e2, e3, h _ _ e4, repR_other h _ l e5⟩
theorem repL_other (h : ∀ i d, L.Has st i d → M.Has st' i d) : ∀ as (l : List Node), RepL L g st as l → RepL M g st' as l
  | as, [], e => by simp only [RepL] at e ⊢; exact e
  | as, n :: l, e => by
    simp only [RepL] at e ⊢
    obtain ⟨a, as', e1, e2, e3⟩ := e
    exact ⟨a, as', e1, rep_other h a n e2, repL_other h _ l e3⟩
theorem repR_other (h : ∀ i d, L.Has st i d → M.Has st' i d) : ∀ bs (l : List Node), RepR L g st bs l → RepR M g st' bs l
  | bs, [], e => by simp only [RepR] at e ⊢; exact e
  | bs, n :: l, e => by
    simp only [RepR] at e ⊢
    obtain ⟨r, i, rest, e1, e2, e3, e4⟩ := e
    exact ⟨r, i, rest, e1, e2, rep_other h _ n e3, repR_other h _ l e4⟩
end

theorem recRep_other {n : Node} {bs : Bytes} (h : ∀ i d, L.Has st i d → M.Has st' i d) (e : RecRep L g n bs st) :
    RecRep M g n bs st' := by
  obtain ⟨r, i', e1, e2, e3, e4⟩ := e
  exact ⟨r, i', e1, e2, e3, rep_other h _ _ e4⟩

/-! ### Writes succeed -/

theorem canWrite_others (ws : List Bytes) {n : Nat} : ∀ {st : σ}, CanWrite S (ws.length + n) st →
    CanWrite S n (world S st (others ws)) := by
  induction ws with
  | nil => intro st h; simpa [others, world] using h
  | cons d ws ih =>
    intro st h
    rw [List.length_cons, Nat.add_right_comm] at h
    obtain ⟨i, st', e, h⟩ := h d
    have := ih h
    simpa [others, world, e] using this

theorem canWrite_shared {st0 : σ} : ∀ (n : Nat) (s : Sharing),
    CanWrite S (n + (s.before.map List.length).sum) (world S st0 s.log) → CanWrite (shared S st0) n s
  | 0, s, h => trivial
  | n + 1, s, h => fun d => by
    obtain ⟨log, before, during⟩ := s
    have key : ∀ (ws : List Bytes) (bs : List (List Bytes)), CanWrite S (ws.length + (n + (bs.map List.length).sum + 1)) (world S st0 log) →
        ∃ i, (S.write (world S st0 (log ++ others ws)) d).1 = .ok i ∧
          CanWrite S (n + (bs.map List.length).sum) (world S st0 ((log ++ others ws) ++ [(true, d)])) := by
      intro ws bs h
      obtain ⟨i, st', e, h'⟩ := canWrite_others ws h d
      rw [← world_append] at e
      refine ⟨i, by rw [e], ?_⟩
      rw [world_append _ _ [(true, d)], show world S (world S st0 (log ++ others ws)) [(true, d)] = st' from congrArg Prod.snd e]
      exact h'
    cases before with
    | nil =>
      obtain ⟨i, e, h'⟩ := key [] [] (by simpa using h)
      exact ⟨i, _, Prod.ext e rfl, canWrite_shared n ⟨_, [], during⟩ h'⟩
    | cons ws bs =>
      obtain ⟨i, e, h'⟩ := key ws bs (h.le (by simp only [List.map_cons, List.sum_cons]; omega))
      exact ⟨i, _, Prod.ext e rfl, canWrite_shared n ⟨_, bs, during⟩ h'⟩

end

end Radix
