import Verif.Proofs.Fuel
import Verif.Proofs.History

/-
Proof-internal: more fuel for a converter and for the operation does not change the outcome.
-/

set_option linter.unusedVariables false

namespace Radix

section
variable {σ τ ε : Type}

/-- More fuel for the converter. -/
structure LeC (c c' : SConv ε) : Prop where
  node : ∀ b, LeR (c.node b) (c'.node b)
  short : ∀ b k, LeR (c.shortened b k) (c'.shortened b k)
  value : ∀ v, c.value v = c'.value v

theorem leP_read {α β γ} {x y : Res ε α} (h : LeR x y) (t : γ) {f : α → γ → Res ε β × γ} :
    LeP (stBind (x, t) f) (stBind (y, t) f) := by
  rcases h with rfl | rfl
  · exact Or.inl rfl
  · exact leP_refl _

theorem leP_loopG (rec : SNode → Ref → Res ε Unit × SNode) (keep : Bool)
    {greater greater' : Ref → Res ε (Option SNode)} (hg : ∀ b, LeR (greater b) (greater' b))
    (ab : List SNode → List SNode → List SNode) (done src : List SNode) (it : TIter) :
    LeP (loopS rec keep greater ab done src it) (loopS rec keep greater' ab done src it) := by
  generalize hm : src.length + it.size = m
  induction m using Nat.strongRecOn generalizing done src it with
  | ind m ih =>
    cases src with
    | nil =>
      cases hn : it.next with
      | none => rw [loopS_nn hn, loopS_nn hn]; exact leP_refl _
      | some x =>
        obtain ⟨b, it'⟩ := x
        have := TIter.next_size hn
        rw [loopS_ns hn, loopS_ns hn]
        refine leP_trans (leP_bind (leP_refl _) fun _ _ => ih _ ?_ _ _ _ rfl) (leP_read (hg b) _)
        simp only [List.length_nil] at *; omega
    | cons a src =>
      cases hn : it.next with
      | none =>
        rw [loopS_sn hn, loopS_sn hn]
        refine ih _ ?_ _ _ _ rfl
        simp only [List.length_cons] at *; omega
      | some x =>
        obtain ⟨b, it'⟩ := x
        have := TIter.next_size hn
        rw [loopS_ss hn, loopS_ss hn]
        split
        · refine ih _ ?_ _ _ _ rfl
          simp only [List.length_cons] at *; omega
        split
        · refine leP_trans (leP_bind (leP_refl _) fun _ _ => ih _ ?_ _ _ _ rfl) (leP_read (hg b) _)
          simp only [List.length_cons] at *; omega
        · refine leP_bind (leP_refl _) fun _ _ => ih _ ?_ _ _ _ rfl
          simp only [List.length_cons] at *; omega

theorem leP_pushAll {c c' : SConv ε} (hc : LeC c c') (done : List SNode) (it : TIter) :
    LeP (pushAll c done it) (pushAll c' done it) := by
  generalize hm : it.size = m
  induction m using Nat.strongRecOn generalizing done it with
  | ind m ih =>
    cases hn : it.next with
    | none => rw [pushAll_nil hn, pushAll_nil hn]; exact leP_refl _
    | some x =>
      obtain ⟨b, it'⟩ := x
      have := TIter.next_size hn
      rw [pushAll_cons hn, pushAll_cons hn]
      exact leP_trans (leP_bind (leP_refl _) fun _ _ => ih _ (by omega) _ _ rfl) (leP_read (hc.node b) _)

variable {e : UEnv σ τ ε}

theorem leP_outerChildrenC {c c' : SConv ε} (hc : LeC c c') {rec rec' : SNode → Ref → Res ε Unit × SNode}
    (h : ∀ a b, LeP (rec a b) (rec' a b)) (ac : List SNode) (bc : Option TIter) :
    LeP (outerChildrenS e c rec ac bc) (outerChildrenS e c' rec' ac bc) := by
  unfold outerChildrenS
  split
  · split
    · exact leP_pushAll hc _ _
    · exact leP_trans (leP_loopS h _ _ _ _ _ _) (leP_loopG _ _ (fun b => leR_bind (hc.node b) fun _ => leR_refl _) _ _ _ _)
  · exact leP_refl _

theorem outerCombineWithS_conv {c c' : SConv ε} (hc : LeC c c') (f : BlobV → BlobV → Res ε BlobV) (n : Nat) :
    ∀ (a : SNode) (b : Ref), LeP (outerCombineWithS e c f n a b) (outerCombineWithS e c' f n a b) := by
  induction n with
  | zero => exact fun a b => leP_deep _ _
  | succ n ih =>
    intro a b
    rw [outerCombineWithS, outerCombineWithS]
    refine leP_bind (leP_refl _) fun ap a => leP_bind (leP_refl _) fun bp a => ?_
    dsimp only
    refine leP_bind ?_ fun _ a => leP_refl _
    split
    · refine leP_bind (leP_refl _) fun _ a => leP_bind ?_ fun _ a => ?_
      · simp only [hc.value]; exact leP_refl _
      · exact leP_childrenBoth (leP_outerChildrenC hc ih) _ _
    split
    · exact leP_childrenShort (leP_outerChildrenC hc ih) _ _ _
    · exact leP_bind (leP_refl _) fun _ _ => leP_bind (leP_refl _) fun _ _ => leP_read (hc.short b _) _

theorem leC_detach (T : BlobStore τ ε) (st' : τ) (n : Nat) : LeC (SConv.detach T st' n) (SConv.detach T st' (n + 1)) where
  node b := leR_bind (leR_bind (leR_refl _) fun a => (detachedS_fuel n).1 a) fun _ => leR_refl _
  short b k := leR_bind (leR_refl _) fun a => leR_bind (leR_bind (leR_refl _) fun a => (detachedS_fuel n).1 a) fun _ => leR_refl _
  value v := rfl

theorem outerDetach_fuel (T : BlobStore τ ε) (st' : τ) (f : BlobV → BlobV → Res ε BlobV) (a : SNode) (b : Ref) (n : Nat) :
    LeP (outerCombineWithS e (SConv.detach T st' n) f n a b) (outerCombineWithS e (SConv.detach T st' (n + 1)) f (n + 1) a b) :=
  leP_trans (outerCombineWithS_fuel _ f n a b) (outerCombineWithS_conv (leC_detach T st' n) f (n + 1) a b)

end

end Radix
