import Verif.Proofs.BlobClient

/-
Rules to show that a call of a store in memory does what the call without memory does.
-/

set_option linter.unusedVariables false

namespace Radix.Blobs
open Radix.Paged (View)

variable {τ σ α β α' β' : Type}

/-- Calls without memory. -/
def Pl (σ β : Type) := σ → Rs β × σ

/-- One call after the other. -/
def Pl.bind (y : Pl σ β) (g : β → Pl σ β') : Pl σ β' := fun s =>
  match y s with
  | (.ok b, s) => g b s
  | (.err, s) => (.err, s)
  | (.panic, s) => (.panic, s)
  | (.crash, s) => (.crash, s)

/-- The value itself. -/
def Pl.pure (b : β) : Pl σ β := fun s => (.ok b, s)

/-- What is left after a call: the result, the references that the caller holds, and the memory of others. -/
def Post (refs : τ → List Nat) (R : Mem → τ → σ → Prop) (go : Bool) (hold : α → List Nat) (same : Mem → τ → σ → α → β → Prop)
    (rest : List Nat) (m : Mem) (r : Rs α) (t' : τ) (m' : Mem) (q : Rs β × σ) : Prop :=
  match r, q.1 with
  | .ok a, .ok b => same m' t' q.2 a b ∧ Inv m' (refs t' ++ (hold a ++ rest)) ∧ R m' t' q.2 ∧ ∀ x ∈ rest, m'.get x = m.get x
  | .err, .err => Inv m' (refs t' ++ rest) ∧ R m' t' q.2 ∧ ∀ x ∈ rest, m'.get x = m.get x
  | .panic, .panic => go = true → Inv m' (refs t' ++ rest) ∧ R m' t' q.2 ∧ ∀ x ∈ rest, m'.get x = m.get x
  | .crash, .crash => True
  | _, _ => False

/-- The call `x` in memory does what `y` does, if the caller holds `H` before it and gives it away. -/
def Ref (refs : τ → List Nat) (R : Mem → τ → σ → Prop) (go : Bool) (hold : α → List Nat) (same : Mem → τ → σ → α → β → Prop)
    (H : List Nat) (pre : Mem → τ → σ → Prop) (x : Act τ α) (y : Pl σ β) : Prop :=
  ∀ rest m t s, Inv m (refs t ++ (H ++ rest)) → R m t s → pre m t s →
    ∃ r t' m', x t m = some (r, t', m') ∧ Post refs R go hold same rest m r t' m' (y s)

variable {refs : τ → List Nat} {R : Mem → τ → σ → Prop} {go : Bool}

theorem ref_bind {hold1 : α → List Nat} {same1 : Mem → τ → σ → α → β → Prop} {hold2 : α' → List Nat} {same2 : Mem → τ → σ → α' → β' → Prop}
    {H : List Nat} {pre : Mem → τ → σ → Prop} {x : Act τ α} {y : Pl σ β} {f : α → Act τ α'} {g : β → Pl σ β'}
    (hx : Ref refs R go hold1 same1 H pre x y)
    (hf : ∀ a b, Ref refs R go hold2 same2 (hold1 a) (fun m t s => same1 m t s a b) (f a) (g b)) :
    Ref refs R go hold2 same2 H pre (x >>= f) (y.bind g) := by
  intro rest m t s hi hr hp
  obtain ⟨r, t', m', e, hh⟩ := hx rest m t s hi hr hp
  have eb : (x >>= f) t m = Act.bind x f t m := rfl
  rw [eb]
  unfold Act.bind Pl.bind
  rw [e]
  unfold Post at hh
  rcases eq : y s with ⟨q, s'⟩
  rw [eq] at hh
  cases r with
  | ok a =>
    cases q with
    | ok b =>
      obtain ⟨h1, h2, h3, h4⟩ := hh
      obtain ⟨r2, t2, m2, e2, hh2⟩ := hf a b rest m' t' s' h2 h3 h1
      refine ⟨r2, t2, m2, e2, ?_⟩
      unfold Post at hh2 ⊢
      dsimp only
      rcases eq2 : g b s' with ⟨q2, s2⟩
      rw [eq2] at hh2
      cases r2 <;> cases q2 <;> dsimp only at hh2 ⊢ <;> first
        | exact hh2.elim
        | trivial
        | exact ⟨hh2.1, hh2.2.1, hh2.2.2.1, fun x hx => by rw [hh2.2.2.2 x hx, h4 x hx]⟩
        | exact ⟨hh2.1, hh2.2.1, fun x hx => by rw [hh2.2.2 x hx, h4 x hx]⟩
        | exact fun hg => ⟨(hh2 hg).1, (hh2 hg).2.1, fun x hx => by rw [(hh2 hg).2.2 x hx, h4 x hx]⟩
    | err => exact hh.elim
    | panic => exact hh.elim
    | crash => exact hh.elim
  | err => cases q <;> first | exact hh.elim | exact ⟨.err, t', m', rfl, hh⟩
  | panic => cases q <;> first | exact hh.elim | exact ⟨.panic, t', m', rfl, hh⟩
  | crash => cases q <;> first | exact hh.elim | exact ⟨.crash, t', m', rfl, hh⟩

theorem ref_pre {hold : α → List Nat} {same : Mem → τ → σ → α → β → Prop} {H : List Nat} {pre pre' : Mem → τ → σ → Prop}
    {x : Act τ α} {y : Pl σ β} (h : Ref refs R go hold same H pre x y) (hp : ∀ m t s, R m t s → pre' m t s → pre m t s) :
    Ref refs R go hold same H pre' x y :=
  fun rest m t s hi hr hq => h rest m t s hi hr (hp m t s hr hq)

theorem ref_pure {hold : α → List Nat} {same : Mem → τ → σ → α → β → Prop} {pre : Mem → τ → σ → Prop} {a : α} {b : β}
    (h : ∀ m t s, R m t s → pre m t s → same m t s a b) : Ref refs R go hold same (hold a) pre (Act.pure a) (Pl.pure b) :=
  fun rest m t s hi hr hp => ⟨.ok a, t, m, rfl, h m t s hr hp, hi, hr, fun _ _ => rfl⟩

theorem ref_fail {hold : α → List Nat} {same : Mem → τ → σ → α → β → Prop} {pre : Mem → τ → σ → Prop} :
    Ref refs R go hold same [] pre Act.fail (fun s => (.err, s)) :=
  fun rest m t s hi hr hp => ⟨.err, t, m, rfl, hi, hr, fun _ _ => rfl⟩

theorem ref_panic {hold : α → List Nat} {same : Mem → τ → σ → α → β → Prop} {pre : Mem → τ → σ → Prop} :
    Ref refs R go hold same [] pre Act.panic (fun s => (.panic, s)) :=
  fun rest m t s hi hr hp => ⟨.panic, t, m, rfl, fun _ => ⟨hi, hr, fun _ _ => rfl⟩⟩

theorem ref_die {hold : α → List Nat} {same : Mem → τ → σ → α → β → Prop} {H : List Nat} {pre : Mem → τ → σ → Prop} :
    Ref refs R go hold same H pre Act.die (fun s => (.crash, s)) :=
  fun rest m t s hi hr hp => ⟨.crash, t, m, rfl, trivial⟩

/-- The states at this point get names. -/
theorem ref_self {hold : α → List Nat} {same : Mem → τ → σ → α → β → Prop} {H : List Nat} {pre : Mem → τ → σ → Prop}
    {f : τ → Act τ α} {y : Pl σ β} {g : σ → Pl σ β} (hg : ∀ s, y s = g s s)
    (h : ∀ t0 s0, Ref refs R go hold same H (fun m t s => pre m t s ∧ t = t0 ∧ s = s0) (f t0) (g s0)) :
    Ref refs R go hold same H pre (Act.self >>= f) y := by
  intro rest m t s hi hr hp
  obtain ⟨r, t', m', e, hh⟩ := h t s rest m t s hi hr ⟨hp, rfl, rfl⟩
  exact ⟨r, t', m', e, by rw [hg]; exact hh⟩

/-- A call in memory that the other side does not have. -/
theorem ref_left {hold1 : α → List Nat} {hold2 : α' → List Nat} {same2 : Mem → τ → σ → α' → β' → Prop}
    {H : List Nat} {pre : Mem → τ → σ → Prop} {x : Act τ α} {f : α → Act τ α'} {g : Pl σ β'} {same1 : Mem → τ → σ → α → Prop}
    (hx : Ref refs R go hold1 (fun m t s a (_ : Unit) => same1 m t s a) H pre x (Pl.pure ()))
    (hf : ∀ a, Ref refs R go hold2 same2 (hold1 a) (fun m t s => same1 m t s a) (f a) g) :
    Ref refs R go hold2 same2 H pre (x >>= f) g :=
  ref_bind (y := Pl.pure ()) (g := fun _ => g) hx (fun a _ => hf a)

theorem ref_mono {hold : α → List Nat} {same same' : Mem → τ → σ → α → β → Prop} {H : List Nat} {pre : Mem → τ → σ → Prop}
    {x : Act τ α} {y : Pl σ β} (h : Ref refs R go hold same H pre x y) (hs : ∀ m t s a b, same m t s a b → same' m t s a b) :
    Ref refs R go hold same' H pre x y := by
  intro rest m t s hi hr hp
  obtain ⟨r, t', m', e, hh⟩ := h rest m t s hi hr hp
  refine ⟨r, t', m', e, ?_⟩
  unfold Post at hh ⊢
  rcases eq : y s with ⟨q, s'⟩
  rw [eq] at hh
  cases r <;> cases q <;> dsimp only at hh ⊢ <;> first
    | exact hh.elim
    | exact ⟨hs _ _ _ _ _ hh.1, hh.2⟩
    | exact hh

end Radix.Blobs
