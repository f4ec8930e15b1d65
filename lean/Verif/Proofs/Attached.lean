import Verif.Proofs.History
import Verif.Proofs.Mem
import Verif.Props.Sample
import Verif.Props.Lookup
import Verif.Props.Shape

/-
Proof-internal: reads, updates and iteration of attached trees; the detach converter.
-/

set_option linter.unusedVariables false

namespace Radix
open Node

section
variable {σ ε : Type} {S : BlobStore σ ε} {L : Lawful S} {g : Bool} {st : σ} {a : SNode} {m : Spec.Map} {t : Node}

theorem up_outcome {E : Prop} {α τ} {f : Nat → Res ε α × τ} {Q : α → τ → Prop} (hm : ∀ n, LeP (f n) (f (n + 1))) {N : Nat}
    {P : Prop} (h : UP E P (f N) Q) (hP : ¬ P) :
    ∃ r, Outcome f r ∧ ((∃ x y, r = (.ok x, y) ∧ Q x y) ∨ (∃ e y, r = (.err e, y)) ∧ E) := by
  have hd : (f N).1 ≠ .deep := by
    intro e; unfold UP at h; rw [e] at h; exact h
  refine ⟨_, outcome_fuelP hm hd, ?_⟩
  rcases hr : f N with ⟨r, y⟩
  rw [hr] at h
  cases r with
  | ok x => exact Or.inl ⟨x, y, rfl, h⟩
  | err e => exact Or.inr ⟨⟨e, y, rfl⟩, h⟩
  | panic => exact absurd h hP
  | deep => exact h.elim

theorem agrees_bind {α β} {f : Nat → Res ε α} {h : α → Res ε β} {Q : α → Prop} {y : β} (hm : ∀ n, LeR (f n) (f (n + 1)))
    {N : Nat} (h1 : RPost L st (f N) Q) (h2 : ∀ x, Q x → RPost L st (h x) (· = y)) :
    Agrees L st (fun fuel => (f fuel).bind h) y :=
  rpost_agrees (f := fun fuel => (f fuel).bind h) (fun n => leR_bind (hm n) fun _ => leR_refl _) (N := N)
    (rpost_bind h1 h2)

theorem iter_of_twin {t u : Node} (h : Twin t u) : iter t = iter u := iter_ext h.ot h.ou h.get

theorem scan_stack (t : Node) (p : Bytes) :
    stackEnts (scanPrefixIter t p).path (scanPrefixIter t p).stack = scanPrefix t p := (toList_eq _).symm

theorem iter_stack (t : Node) : stackEnts (kvIter t).path (kvIter t).stack = iter t := (toList_eq _).symm

theorem vals_stack (t : Node) : vstackVals [[t]] = values t := (valToList_eq _).symm

end

/-! ### Exact results on detached trees -/

theorem repPlain_pfx {σ ε : Type} {S : BlobStore σ ε} {L : Lawful S} {g : Bool} {st : σ} (hp : Plain L st) {b p}
    (h : PfxRep L g st b p) : b = .data p := by
  rcases h with h | ⟨_, c, i, _, _, _, hh⟩
  · exact h
  · exact absurd hh (hp _ _)

theorem repPlain_val {σ ε : Type} {S : BlobStore σ ε} {L : Lawful S} {st : σ} (hp : Plain L st) {b v}
    (h : ValRep L st b v) : b = embedVal v := by
  cases v with
  | none => exact h
  | some v =>
    rcases h with h | ⟨i, _, _, _, hh⟩
    · exact h
    · exact absurd hh (hp _ _)

mutual
theorem repPlain {σ ε : Type} {S : BlobStore σ ε} {L : Lawful S} {g : Bool} {st : σ} (hp : Plain L st) :
    ∀ (a : SNode) (n : Node), Rep L g st a n → a = embed n
  | a, .mk p v none, h => by
    simp only [Rep, RepC] at h
    cases a with
    | arc q w l => simp [SNode.children] at h
    | ref q w i =>
      simp only [SNode.pfx, SNode.val, SNode.children, Sum.inr.injEq] at h
      rw [embed, repPlain_pfx hp h.1, repPlain_val hp h.2.1, h.2.2]
  | a, .mk p v (some l), h => by
    simp only [Rep, RepC] at h
    obtain ⟨h1, h2, ⟨as, e, hl⟩ | ⟨_, _, _, _, _, _, hh, _⟩⟩ := h
    · cases a with
      | arc q w l' =>
        simp only [SNode.pfx, SNode.val, SNode.children, Sum.inl.injEq] at h1 h2 e
        subst e
        rw [embed, repPlain_pfx hp h1, repPlain_val hp h2, repPlainL hp _ l hl]
      | ref q w i => simp [SNode.children] at e
    · exact absurd hh (hp _ _)
theorem repPlainL {σ ε : Type} {S : BlobStore σ ε} {L : Lawful S} {g : Bool} {st : σ} (hp : Plain L st) :
    ∀ (as : List SNode) (l : List Node), RepL L g st as l → as = embedL l
  | as, [], h => by simp only [RepL] at h; rw [h, embedL]
  | as, n :: l, h => by
    simp only [RepL] at h
    obtain ⟨a, as', rfl, h1, h2⟩ := h
    rw [embedL, repPlain hp a n h1, repPlainL hp as' l h2]
end

/-- An environment with two detached trees. -/
def plainEnv (ε : Type) (dbg : Bool) (ab : List SNode → List SNode → List SNode) : UEnv Unit Unit ε :=
  ⟨detachedStore ε, (), detachedStore ε, (), dbg, ab⟩

theorem uok_plain {ε : Type} {E : Prop} (dbg : Bool) (ab) :
    UOK (e := plainEnv ε dbg ab) (lawfulDetached ε) (lawfulDetached ε) E False :=
  ⟨fun h => absurd (readsSucceed_detached ()) h, fun h => absurd (readsSucceed_detached ()) h,
    Or.inr (plain_detached _ _)⟩

theorem plain_refOK {ε : Type} (dbg : Bool) (ab) (n : Node) :
    RefOK (e := plainEnv ε dbg ab) (lawfulDetached ε) false False (.owned (embed n)) n :=
  ⟨embed_rep n, Or.inr ⟨_, rfl⟩⟩

theorem conv_detach_plain {ε : Type} {E : Prop} (dbg : Bool) (ab) {B fuel : Nat} (hf : B ≤ fuel) :
    ConvOK (e := plainEnv ε dbg ab) (lawfulDetached ε) (lawfulDetached ε) false false E False B
      (SConv.detach (detachedStore ε) () fuel) .detach where
  node b m hB h := by
    obtain ⟨hr, hP | ⟨a, rfl⟩⟩ := h
    · exact hP.elim
    · have h1 := (detachedS_repH (S := detachedStore ε) (L := lawfulDetached ε) (fuel := fuel)).1
        hr (by omega)
      obtain ⟨x, e, rfl⟩ := rpost_success h1 (readsSucceed_detached ())
      simp only [SConv.detach, Ref.detached, Ref.toOwned, Res.bind, e]
      refine ⟨embed_rep _, fun _ => ?_⟩
      generalize m.detached = d
      cases d with
      | mk p v c => cases c <;> rfl
  short b m k hB h := by
    obtain ⟨hr, hP | ⟨a, rfl⟩⟩ := h
    · exact hP.elim
    · have ha : a = embed m := repPlain (plain_detached _ _) a m hr
      have h0 := cloneShortened_rep (S := detachedStore ε) (L := lawfulDetached ε) (E := E) (P := False)
        (fun hn => absurd (readsSucceed_detached ()) hn) hr k
      simp only [SConv.detach, Ref.cloneShortened]
      refine rp_bind h0 fun x hx => ?_
      have hn := height_cloneShortened m k
      have h1 := (detachedS_repH (S := detachedStore ε) (L := lawfulDetached ε) (fuel := fuel)).1 hx.1 (by omega)
      obtain ⟨y, e, rfl⟩ := rpost_success h1 (readsSucceed_detached ())
      simp only [Ref.detached, Ref.toOwned, Res.bind, e]
      exact embed_rep _
  value v y h := by
    have : v = .data y := repPlain_val (plain_detached _ _) h
    subst this
    exact h

theorem up_plain {ε : Type} {α} {f : Nat → Res ε α × SNode} {x : α} {n : Node} (hm : ∀ n, LeP (f n) (f (n + 1))) {N : Nat}
    (h : UP False False (f N) fun _ a => Rep (lawfulDetached ε) false () a n) (hx : ∀ y : α, y = x) :
    Outcome f (.ok x, embed n) := by
  obtain ⟨r, ho, ⟨y, b, rfl, hb⟩ | ⟨_, hE⟩⟩ := up_outcome hm h id
  · rw [hx y, repPlain (plain_detached _ _) _ _ hb] at ho; exact ho
  · exact hE.elim

end Radix
