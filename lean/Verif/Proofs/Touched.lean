import Verif.Proofs.Fail
import Verif.Proofs.History
import Verif.Proofs.Attached

/-
Proof-internal: the invariant of trees after calls with any outcomes.
-/

set_option linter.unusedVariables false

namespace Radix
open Node

section
variable {σ τ ε : Type} {S : BlobStore σ ε} {L : Lawful S} {T : BlobStore τ ε} {M : Lawful T}

theorem convH_of {e : UEnv σ τ ε} {LA : Lawful e.SA} {LB : Lawful e.SB} {gb : Bool} {cs : SConv ε}
    (h : ∀ B, ConvOK (e := e) LA LB false gb True True B cs .identity) : ConvH LA LB gb cs where
  node b m hb := okP_imp (okP_of_rp ((h m.height).node b m (Nat.le_refl _) ⟨hb, Or.inl trivial⟩)) fun a ha =>
    ⟨m, ha.1, rfl, id, rfl⟩
  short b m k hb := okP_imp (okP_of_rp ((h m.height).short b m k (Nat.le_refl _) ⟨hb, Or.inl trivial⟩)) fun a ha =>
    ⟨m.cloneShortened k, ha, by cases m; rfl, fun ho => by cases m; exact ho, rfl⟩
  value v y hv := okP_of_rp ((h 0).value v y hv)

theorem convH_downcast {M : Lawful (detachedStore ε)} (st : σ) (gb dbg : Bool) (ab) :
    ConvH (e := ⟨S, st, detachedStore ε, (), dbg, ab⟩) L M gb (.downcast ε) :=
  convH_of fun B =>
    have h := conv_downcast L (M := M) st false gb True True dbg ab B
    ⟨h.node, h.short, h.value⟩

theorem convH_identity (st : σ) (dbg : Bool) (ab) :
    ConvH (e := ⟨S, st, S, st, dbg, ab⟩) L L false (.identity S st) :=
  convH_of fun B => conv_identity st false dbg ab B fun _ => trivial

theorem detachedS_ok {g : Bool} {st' : τ} {a : SNode} {n : Node} (h : Rep M g st' a n) (fuel : Nat) :
    OkP (detachedS T st' fuel a) (· = n.detached) := by
  have h1 := (detachedS_rep (fuel := max fuel (3 * n.nodes))).1 h (by omega)
  have h2 := leR_le (fun k => (detachedS_fuel (S := T) (st := st') k).1 a) (show fuel ≤ max fuel (3 * n.nodes) by omega)
  rcases h2 with e | e
  · rw [e]; trivial
  · rw [e]; exact okP_of_rpost h1

theorem convH_detach (L : Lawful (detachedStore ε)) (st' : τ) (gb dbg : Bool) (ab) (fuel : Nat) :
    ConvH (e := ⟨detachedStore ε, (), T, st', dbg, ab⟩) L M gb (.detach T st' fuel) where
  node b m hb := by
    refine okP_bind (Q := fun n => n = m.detached) ?_ fun n hn => ?_
    · exact okP_bind (okP_of_rpost hb.toOwned) fun a ha => detachedS_ok ha fuel
    · subst hn
      exact ⟨m.detached, embed_rep _, pfx_detached m, ord_detached m, ents_detached _ _⟩
  short b m k hb := by
    refine okP_bind (short_rep (e := ⟨detachedStore ε, (), T, st', dbg, ab⟩) (LB := M) hb k) fun a ha => okP_bind (Q := fun n => n = (m.cloneShortened k).detached) ?_ fun n hn => ?_
    · exact okP_bind (Q := fun x => x = a) rfl fun x hx => by subst hx; exact detachedS_ok ha fuel
    · subst hn
      refine ⟨_, embed_rep _, ?_, fun ho => ord_detached _ ?_, ents_detached _ _⟩
      · rw [pfx_detached]; cases m; rfl
      · cases m; exact ho
  value v y h := by
    cases v with
    | data d =>
      rcases h with h | ⟨i, h, _⟩
      · exact Or.inl h
      · cases h
    | id i => trivial

theorem computes_fh {st : σ} {st' : τ} {f : BlobV → BlobV → Res ε BlobV} {F : Bytes → Bytes → Option Bytes → Prop}
    (dbg : Bool) (ab) (h : Computes L st M st' f F) : FH (e := ⟨S, st, T, st', dbg, ab⟩) L M f F := by
  intro av bv x y ha hb
  cases e : f av bv with
  | ok v =>
    rcases (h av bv x y (isValue_iff.2 ha) (isValue_iff.2 hb)).2 v e with ⟨h1, h2⟩ | ⟨z, h1, h2⟩
    · exact ⟨none, h1, h2⟩
    · exact ⟨some z, h1, h2⟩
  | err _ => trivial
  | panic => trivial
  | deep => trivial

theorem Hold.mono {st : σ} {a : SNode} {A C : Ents} (h : Hold L st a A) (hc : ∀ k v, A k v → C k v) : Hold L st a C := by
  obtain ⟨n, h1, h2, h3⟩ := h
  exact ⟨n, h1, h2, h3.mono hc⟩

theorem in_den {n : Node} (ho : Ord n) {A : Ents} : In n A ↔ ∀ k v, den n k = some v → A k v := by
  unfold In
  constructor
  · exact fun h k v hk => h k v ((mem_ents ho [] k v).2 ⟨k, rfl, hk⟩)
  · intro h k v hk
    obtain ⟨r, e, hr⟩ := (mem_ents ho [] k v).1 hk
    cases e
    exact h _ _ hr

theorem outcome_at {α : Type} {x : Nat → α} {y : α} (h : Outcome x y) : ∃ fuel, x fuel = y := by
  obtain ⟨N, h⟩ := h
  exact ⟨N, h N (Nat.le_refl _)⟩

theorem hold_of_rec {e : UEnv σ τ ε} {LA : Lawful e.SA} {LB : Lawful e.SB} {gb : Bool}
    {op : Nat → SNode → Ref → Res ε Unit × SNode} {A B C : Ents} {a a' b : SNode} {r}
    (hrec : ∀ fuel, RecOK LA LB gb (op fuel) A B C) (ha : Hold LA e.stA a A)
    (hb : ∃ m, RefRep LB gb e.stB (.owned b) m ∧ Ord m ∧ In m B)
    (ho : ∃ fuel, op fuel a (.owned b) = (r, a')) : Hold LA e.stA a' C := by
  obtain ⟨n, h1, h2, h3⟩ := ha
  obtain ⟨m, h4, h5, h6⟩ := hb
  obtain ⟨fuel, ho⟩ := ho
  have := (hrec fuel a (.owned b) n m h1 h2 h3 h4 h5 h6).1
  rw [ho] at this
  exact this

theorem in_single (k v : Bytes) : In (single k v) fun k' v' => k' = k ∧ v' = v := by
  rw [in_iff]
  refine ⟨fun x hx => ?_, fun c hc => by cases hc⟩
  cases hx
  exact ⟨rfl, rfl⟩

theorem single_hold (k v : Bytes) :
    ∃ m, RefRep (lawfulDetached ε) false () (singleRef k v) m ∧ Ord m ∧ In m fun k' v' => k' = k ∧ v' = v :=
  ⟨single k v, embed_rep (single k v), ord_single k v, in_single k v⟩

end

theorem touched_hold {ε σ : Type} {S : BlobStore σ ε} {L : Lawful S} {st : σ} {a : SNode} {A : Ents}
    (h : Touched S L st a A) : Hold L st a A := by
  induction h with
  | start h =>
    obtain ⟨t, ho, hs, hr, hd⟩ := att_stands h
    exact ⟨t, hr, ho, (in_den ho).2 fun k v hk => by rw [← hd, hk]⟩
  | later _ hm ih =>
    obtain ⟨n, h1, h2, h3⟩ := ih
    exact ⟨n, rep_mono hm _ _ h1, h2, h3⟩
  | @insert σ S L st a a' A r dbg ab k v hab _ ho ih =>
    refine hold_of_rec (e := singleEnv S st dbg ab) (LB := lawfulDetached ε) (gb := false)
      (fun fuel => outer_hold (convH_downcast st false dbg ab)
        (F := fun x y w => w = some y) (fun av bv x y _ hb => ?_) hab fuel (fun _ _ => Or.inl) (fun _ _ => Or.inr) ?_)
      ih (single_hold k v) (outcome_at ho)
    · have : bv = .data y := repPlain_val (plain_detached _ _) hb
      subst this
      exact ⟨some y, Or.inl rfl, rfl⟩
    · intro k' x y w _ hB e
      cases e
      exact Or.inr hB
  | @remove σ S L st a a' A r dbg ab k hab _ ho ih =>
    refine hold_of_rec (e := singleEnv S st dbg ab) (LB := lawfulDetached ε) (gb := false)
      (fun fuel => left_hold (F := fun x y w => w = none) (fun av bv x y _ hb => ?_) hab fuel (fun _ _ => id) ?_)
      ih (single_hold k []) (outcome_at ho)
    · exact ⟨none, rfl, rfl⟩
    · intro k' x y w _ hB e
      cases e
  | @removePrefix σ S L st a a' A r dbg ab k hab _ ho ih =>
    exact hold_of_rec (e := singleEnv S st dbg ab) (LB := lawfulDetached ε) (gb := false)
      (fun fuel => remove_hold hab fuel) ih (single_hold k []) (outcome_at ho)
  | @filterPrefix σ S L st a a' A p s _ ho ih =>
    obtain ⟨n, h1, h2, h3⟩ := ih
    obtain ⟨N, ho⟩ := ho
    have h4 := filterPrefixS_rep h2 h1 (fuel := max n.nodes N) (by omega) p s
    rw [show filterPrefixS S (max n.nodes N) st a p s = _ from ho _ (by omega)] at h4
    refine ⟨_, h4, filterPrefix_ord h2 p s, (in_den (filterPrefix_ord h2 p s)).2 fun k v hk => ?_⟩
    rw [filterPrefix_den h2] at hk
    cases e : strip s k with
    | none => rw [e] at hk; cases hk
    | some x =>
      rw [e] at hk
      exact ⟨x, strip_eq_some.1 e, (in_den h2).1 h3 _ _ hk⟩
  | @outerDowncast σ S L M st a a' b A B r dbg ab f F hab _ _ hf ho ih ih' =>
    exact hold_of_rec (e := ⟨S, st, detachedStore ε, (), dbg, ab⟩) (LB := M) (gb := false)
      (fun fuel => outer_hold (convH_downcast st false dbg ab) (computes_fh dbg ab hf) hab fuel (fun _ _ => Or.inl)
        (fun _ _ h => Or.inr (Or.inl h)) fun k x y v h1 h2 h3 => Or.inr (Or.inr ⟨x, y, h1, h2, h3⟩)) ih ih' (outcome_at ho)
  | @outerIdentity σ S L st a a' b A B r dbg ab f F hab _ _ hf ho ih ih' =>
    exact hold_of_rec (e := ⟨S, st, S, st, dbg, ab⟩) (LB := L) (gb := false)
      (fun fuel => outer_hold (convH_identity st dbg ab) (computes_fh dbg ab hf) hab fuel (fun _ _ => Or.inl)
        (fun _ _ h => Or.inr (Or.inl h)) fun k x y v h1 h2 h3 => Or.inr (Or.inr ⟨x, y, h1, h2, h3⟩)) ih ih' (outcome_at ho)
  | @outerDetach τ T L M st' a a' b A B r dbg ab f F hab _ _ hf ho ih ih' =>
    obtain ⟨fuel0, ho⟩ := outcome_at ho
    exact hold_of_rec (e := ⟨detachedStore ε, (), T, st', dbg, ab⟩) (LB := M) (gb := false)
      (fun fuel => outer_hold (convH_detach L st' false dbg ab fuel0) (computes_fh dbg ab hf) hab fuel (fun _ _ => Or.inl)
        (fun _ _ h => Or.inr (Or.inl h)) fun k x y v h1 h2 h3 => Or.inr (Or.inr ⟨x, y, h1, h2, h3⟩)) ih ih' ⟨fuel0, ho⟩
  | @innerWith σ τ S T L M st st' a a' b A B r dbg ab f F hab _ _ hf ho ih ih' =>
    exact hold_of_rec (e := ⟨S, st, T, st', dbg, ab⟩) (LB := M) (gb := false)
      (fun fuel => inner_hold (computes_fh dbg ab hf) hab fuel (fun _ _ => Or.inl)
        fun k x y v h1 h2 h3 => Or.inr ⟨x, y, h1, h2, h3⟩) ih ih' (outcome_at ho)
  | @leftWith σ τ S T L M st st' a a' b A B r dbg ab f F hab _ _ hf ho ih ih' =>
    exact hold_of_rec (e := ⟨S, st, T, st', dbg, ab⟩) (LB := M) (gb := false)
      (fun fuel => left_hold (computes_fh dbg ab hf) hab fuel (fun _ _ => Or.inl)
        fun k x y v h1 h2 h3 => Or.inr ⟨x, y, h1, h2, h3⟩) ih ih' (outcome_at ho)
  | @removeWith σ τ S T L M st st' a a' b A B r dbg ab p hab _ _ ho ih ih' =>
    exact hold_of_rec (e := ⟨S, st, T, st', dbg, ab⟩) (LB := M) (gb := false)
      (fun fuel => remove_hold hab fuel) ih ih' (outcome_at ho)
  | @retainWith σ τ S T L M st st' a a' b A B r dbg ab p hab _ _ ho ih ih' =>
    exact hold_of_rec (e := ⟨S, st, T, st', dbg, ab⟩) (LB := M) (gb := false)
      (fun fuel => retain_hold hab fuel) ih ih' (outcome_at ho)

end Radix
