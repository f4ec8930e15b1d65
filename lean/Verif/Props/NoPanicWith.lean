import Verif.Proofs.NoSplitWith
import Verif.Props.NoPanic
import Verif.Props.StoredInPlace

/-
Property C91: combinations in place, the other tree in a store, that do not reach the unimplemented branches (`todo!()`) of
C71. `Ends` and `Computes` are those of C71, `Spec.Fits` is in Verif/Spec/Stops.lean.
-/

set_option linter.unusedVariables false

namespace Radix
open Node
open Spec (Stop Fits Shared)

section
variable {σ τ ε : Type} {S : BlobStore σ ε} {T : BlobStore τ ε} {L : Lawful S} {M : Lawful T} {st : σ} {st' : τ}

/-- A call that ends as described ends without panic unless `P`, if it does so with some stack. -/
theorem ends_np {x : Nat → Res ε Unit × SNode} {fails P : Prop} {Q : SNode → Prop} (hm : ∀ n, LeP (x n) (x (n + 1)))
    (h : Ends L st M st' fails True x Q) {N : Nat} (hn : UN P (x N)) : Ends L st M st' fails P x Q := by
  obtain ⟨r, ho, hr⟩ := h
  refine ⟨r, ho, hr.imp id fun hr => hr.imp id ?_⟩
  rintro ⟨⟨a', rfl⟩, _⟩
  refine ⟨⟨a', rfl⟩, ?_⟩
  have hd : (x N).1 ≠ .deep := by
    intro e; unfold UN UP at hn; rw [e] at hn; exact hn
  have e := outcome_unique ho (outcome_fuelP hm hd)
  unfold UN UP at hn
  rw [← e] at hn
  exact hn

theorem fok_np {f : BlobV → BlobV → Res ε BlobV} {ff : Bytes → Bytes → Option Bytes} (dbg : Bool) (ab) {P : Prop}
    (hf : Computes L st M st' f fun x y w => w = ff x y) (hP : PanicsOn L st M st' f → P) :
    FOK (e := ⟨S, st, T, st', dbg, ab⟩) L M True P f ff :=
  computes_fokE dbg ab hf (fun _ _ _ _ _ _ _ _ => trivial) fun av bv x y h1 h2 h3 => hP ⟨av, bv, x, y, h1, h2, h3⟩

theorem pred_np {p : BlobV → Res ε Bool} {pp : Bytes → Bool} (dbg : Bool) (ab) {P : Prop} (hf : Decides M st' p pp)
    (hP : PredPanicsOn M st' p → P) : PredOK (e := ⟨S, st, T, st', dbg, ab⟩) M True P p pp :=
  decides_predE dbg ab hf (fun _ _ _ _ _ => trivial) fun bv y h1 h2 => hP ⟨bv, y, h1, h2⟩

variable {a b : SNode} {m m' : Spec.Map} {long : Bool} {f : BlobV → BlobV → Res ε BlobV} {ff : Bytes → Bytes → Option Bytes}
  {p : BlobV → Res ε Bool} {pp : Bytes → Bool}

theorem att_meet (ha : Att S L false st a m) (hb : Att T M long st' b m') (h : Fits m' m) :
    ∃ t u, Rep L false st a t ∧ RefS M st' long True (.owned b) u ∧ Meet False True (.owned a) (.owned b) t u := by
  obtain ⟨t, ho, hs, hr, hd⟩ := att_stands ha
  obtain ⟨u, ho', hs', hr', hd'⟩ := att_stands hb
  exact ⟨t, u, hr, refS_owned hr', ho, ho', hs, hs', fun h => h.elim, fun _ => fits_ext h hd' hd, Or.inr ⟨⟨_, rfl⟩, _, rfl⟩⟩

section
variable (ha : Att S L false st a m) (hb : Att T M long st' b m') (h : Fits m' m) (dbg : Bool)
  (ab : List SNode → List SNode → List SNode)
include ha hb h

/-- **C91**, `try_inner_combine_with`: if the other tree stops where the target stops on the way to its keys, the call panics
only if the function of the user does, with or without debug assertions. -/
theorem C91_inner_combine_with (hf : Computes L st M st' f fun x y w => w = ff x y) :
    Ends L st M st' (FailsOn L st M st' f) (PanicsOn L st M st' f)
      (fun fuel => innerCombineWithS ⟨S, st, T, st', dbg, ab⟩ f fuel a (.owned b))
      fun a' => Att S L false st a' (m.combine (Spec.inner ff) m') := by
  obtain ⟨t, u, h1, h2, h3⟩ := att_meet ha hb h
  exact ends_np (fun n => innerCombineWithS_fuel _ n _ _) (C71_inner_attached_partial ha hb dbg ab hf)
    (un_any (innerCombineWithS_np (e := ⟨S, st, T, st', dbg, ab⟩) (Or.inl trivial) (fok_np dbg ab hf id) _ a (.owned b) t u
      (Nat.le_refl _) h1 h2 h3))

/-- **C91**, `try_left_combine_with`. -/
theorem C91_left_combine_with (hf : Computes L st M st' f fun x y w => w = ff x y) :
    Ends L st M st' (FailsOn L st M st' f) (PanicsOn L st M st' f ∨ dbg = true)
      (fun fuel => leftCombineWithS ⟨S, st, T, st', dbg, ab⟩ f fuel a (.owned b))
      fun a' => Att S L false st a' (m.combine (Spec.left ff) m') := by
  obtain ⟨t, u, h1, h2, h3⟩ := att_meet ha hb h
  exact ends_np (fun n => leftCombineWithS_fuel _ n _ _) (C71_left_attached_partial ha hb dbg ab hf)
    (leftCombineWithS_np (e := ⟨S, st, T, st', dbg, ab⟩) (Or.inl trivial) Or.inr (fok_np dbg ab hf Or.inl) _ a (.owned b) t u
      (Nat.le_refl _) h1 h2 h3)

/-- **C91**, `try_remove_prefix_with`. -/
theorem C91_remove_prefix_with (hf : Decides M st' p pp) :
    Ends L st M st' (PredFailsOn M st' p) (PredPanicsOn M st' p ∨ dbg = true)
      (fun fuel => removePrefixWithS ⟨S, st, T, st', dbg, ab⟩ p fuel a (.owned b))
      fun a' => Att S L false st a' (m.removePrefix pp m') := by
  obtain ⟨t, u, h1, h2, h3⟩ := att_meet ha hb h
  exact ends_np (fun n => removePrefixWithS_fuel _ n _ _) (C71_remove_prefix_attached_partial ha hb dbg ab hf)
    (removePrefixWithS_np (e := ⟨S, st, T, st', dbg, ab⟩) (Or.inl trivial) Or.inr (pred_np dbg ab hf Or.inl) _ a (.owned b) t u
      (Nat.le_refl _) h1 h2 h3)

/-- **C91**, `try_retain_prefix_with`; what is kept is that of `C20_retain_prefix_with_exact`. -/
theorem C91_retain_prefix_with (hf : Decides M st' p pp) :
    Ends L st M st' (PredFailsOn M st' p) (PredPanicsOn M st' p ∨ dbg = true)
      (fun fuel => retainPrefixWithS ⟨S, st, T, st', dbg, ab⟩ p fuel a (.owned b))
      fun a' => Att S L false st a' (m.retainPast pp m') := by
  obtain ⟨t, u, h1, h2, h3⟩ := att_meet ha hb h
  exact ends_np (fun n => retainPrefixWithS_fuel _ n _ _) (C71_retain_prefix_attached_partial ha hb dbg ab hf)
    (retainPrefixWithS_np (e := ⟨S, st, T, st', dbg, ab⟩) (Or.inl trivial) Or.inr (pred_np dbg ab hf Or.inl) _ a (.owned b) t u
      (Nat.le_refl _) h1 h2 h3)

end

theorem att_meetW {V : Prop} (ha : Att S L false st a m) (hb : Att T M long st' b m') (h : Fits m' (m'.both m)) (hv : V ∨ Shared m' m) :
    ∃ t u, Rep L false st a t ∧ RefS M st' long True (.owned b) u ∧ MeetW True V (.owned a) (.owned b) t u := by
  obtain ⟨t, ho, hs, hr, hd⟩ := att_stands ha
  obtain ⟨u, ho', hs', hr', hd'⟩ := att_stands hb
  cases (funext hd : den t = m)
  cases (funext hd' : den u = m')
  exact ⟨t, u, hr, refS_owned hr', ⟨ho, ho', hs, hs', fun h => h.elim, fun _ => (fits_both h).1, Or.inr ⟨⟨_, rfl⟩, _, rfl⟩⟩,
    fun _ => (fits_both h).2, hv⟩

/-- **C91**, `try_outer_combine_with`, both trees in the same store: if the other tree stops where the union of the two stops on the
way to its keys (for example, if the keys of the target are among its keys, or if the target is empty), the call panics only if the
function of the user does. -/
theorem C91_outer_combine_with (ha : Att S L false st a m) (hb : Att S L false st b m') (h : Fits m' (m'.both m))
    (dbg : Bool) (ab) (hf : Computes L st L st f fun x y w => w = ff x y) :
    Ends L st L st (FailsOn L st L st f) (PanicsOn L st L st f)
      (fun fuel => outerCombineWithS ⟨S, st, S, st, dbg, ab⟩ (.identity S st) f fuel a (.owned b))
      fun a' => Att S L false st a' (m.combine (Spec.outer ff) m') := by
  obtain ⟨t, u, h1, h2, h3⟩ := att_meetW (V := True) ha hb h (Or.inl trivial)
  exact ends_np (fun n => outerCombineWithS_fuel _ _ n _ _) (C71_outer_attached_partial ha hb dbg ab hf)
    (un_any (outerCombineWithS_np (e := ⟨S, st, S, st, dbg, ab⟩) (PB := True) (Or.inl trivial)
      (conv_identity_np L st dbg ab u.height) (fok_np dbg ab hf id) _ a (.owned b) t u (Nat.le_refl _) (Nat.le_refl _) h1 h2 h3))

/-- **C91**, `try_outer_combine_with`, the target in memory and the other tree in a store, also with long keys: if, besides, the keys
of the other tree that are on the way to keys of the target are keys of the target, too (for example, if the two trees have the same
keys), the call panics only if the function of the user does. -/
theorem C91_outer_combine_with_detached {L : Lawful (detachedStore ε)} (ha : Att (detachedStore ε) L false () a m)
    (hb : Att T M long st' b m') (h : Fits m' (m'.both m)) (hv : Shared m' m) (dbg : Bool) (ab)
    (hf : Computes L () M st' f fun x y w => w = ff x y) :
    Ends L () M st' (FailsOn L () M st' f) (PanicsOn L () M st' f)
      (fun fuel => outerCombineWithS ⟨detachedStore ε, (), T, st', dbg, ab⟩ (.detach T st' fuel) f fuel a (.owned b))
      fun a' => Att (detachedStore ε) L false () a' (m.combine (Spec.outer ff) m') := by
  obtain ⟨t, u, h1, h2, h3⟩ := att_meetW (V := False) ha hb h (Or.inr hv)
  exact ends_np (N := t.height + u.height) (fun n => outerDetach_fuel _ _ _ _ _ n) (C71_outer_detach_partial ha hb dbg ab hf)
    (un_any (outerCombineWithS_np (e := ⟨detachedStore ε, (), T, st', dbg, ab⟩) (PB := True) (Or.inl trivial)
      (conv_detach_np L () M st' long dbg ab (B := u.height) (by omega)) (fok_np dbg ab hf id) _ a (.owned b) t u (Nat.le_refl _)
      (Nat.le_refl _) h1 h2 h3))

end

/-! ### Examples -/

/-- A function of the user that loads both values and joins them. -/
def catF (st : MemState) (av bv : BlobV) : Res Unit BlobV :=
  (av.load memStore st).bind fun x => (bv.load memStore st).bind fun y => .ok (.data (x ++ y))

theorem load_value {st : MemState} {av : BlobV} {x : Bytes} (h : IsValue memLawful st av x) : av.load memStore st = .ok x := by
  have h1 := load_rep (S := memStore) (isValue_iff.1 h)
  cases e : av.load memStore st with
  | ok z => rw [e] at h1; exact congrArg _ h1
  | err _ => rw [e] at h1; exact absurd (mem_readsSucceed st) h1
  | panic => rw [e] at h1; exact h1.elim
  | deep => rw [e] at h1; exact h1.elim

theorem catF_computes (st : MemState) : Computes memLawful st memLawful st (catF st) fun x y w => w = some (x ++ y) := by
  intro av bv x y ha hb
  simp only [catF, load_value ha, load_value hb, Res.bind]
  refine ⟨by simp, fun v h => Or.inr ?_⟩
  cases h
  exact ⟨x ++ y, Or.inl rfl, rfl⟩

theorem catF_total (st : MemState) : ¬ PanicsOn memLawful st memLawful st (catF st) ∧ ¬ FailsOn memLawful st memLawful st (catF st) := by
  constructor
  · rintro ⟨av, bv, x, y, ha, hb, h⟩
    simp only [catF, load_value ha, load_value hb, Res.bind] at h
    cases h
  · rintro ⟨av, bv, x, y, e, ha, hb, h⟩
    simp only [catF, load_value ha, load_value hb, Res.bind] at h
    cases h

/-- The tree `fitsA` in a store is united with itself, in place, without panic, and the union is what it should be. -/
example : ∃ a', Outcome (fun fuel => outerCombineWithS ⟨memStore, memState fitsA, memStore, memState fitsA, true, fun d _ => d⟩
      (.identity memStore (memState fitsA)) (catF (memState fitsA)) fuel (memTree fitsA) (.owned (memTree fitsA))) (.ok (), a') ∧
    Att memStore memLawful false (memState fitsA) a'
      (Spec.Map.combine (Spec.outer fun x y => some (x ++ y)) (get fitsA) (get fitsA)) := by
  have ha := memTree_short (t := fitsA) (.fromIter _) (by decide +kernel) (by decide +kernel)
  obtain ⟨r, ho, hr⟩ := C91_outer_combine_with ha ha (fits_both_of_subset fun _ h => h) true (fun d _ => d) (catF_computes _)
  rcases hr with ⟨a', rfl, h⟩ | ⟨_, h⟩ | ⟨_, h⟩
  · exact ⟨a', ho, h⟩
  · rcases h with h | h | h
    · exact absurd (mem_readsSucceed _) h
    · exact absurd (mem_readsSucceed _) h
    · exact absurd h (catF_total _).2
  · exact absurd h (catF_total _).1

/-- A function of the user for a target in memory. -/
def catD (st : MemState) (av bv : BlobV) : Res Unit BlobV :=
  (av.load (detachedStore Unit) ()).bind fun x => (bv.load memStore st).bind fun y => .ok (.data (x ++ y))

theorem catD_eq {st : MemState} {av bv : BlobV} {x y : Bytes} (ha : IsValue (lawfulDetached Unit) () av x)
    (hb : IsValue memLawful st bv y) : catD st av bv = .ok (.data (x ++ y)) := by
  have : av.load (detachedStore Unit) () = .ok x := by
    have h1 := load_rep (S := detachedStore Unit) (isValue_iff.1 ha)
    cases e : av.load (detachedStore Unit) () with
    | ok z => rw [e] at h1; exact congrArg _ h1
    | err _ => rw [e] at h1; exact absurd (fun i d hi => absurd hi (mem_free i d)) h1
    | panic => rw [e] at h1; exact h1.elim
    | deep => rw [e] at h1; exact h1.elim
  simp only [catD, this, load_value hb, Res.bind]

/-- By `C91_outer_combine_with_detached`: the tree `fitsC` in memory is united in place with the tree `fitsA` in a store. -/
example : ∃ a', Outcome (fun fuel => outerCombineWithS ⟨detachedStore Unit, (), memStore, memState fitsA, true, fun d _ => d⟩
      (.detach memStore (memState fitsA) fuel) (catD (memState fitsA)) fuel (embed fitsC) (.owned (memTree fitsA))) (.ok (), a') ∧
    Att (detachedStore Unit) (lawfulDetached Unit) false () a'
      (Spec.Map.combine (Spec.outer fun x y => some (x ++ y)) (get fitsC) (get fitsA)) := by
  have hk : ∀ k, get fitsA k ≠ none ↔ get fitsC k ≠ none := by
    intro k
    have e : (iter fitsA).map (·.1) = (iter fitsC).map (·.1) := by decide +kernel
    rw [get_keys (t := fitsA) (.fromIter _), get_keys (t := fitsC) (.fromIter _), e]
  have ha := memTree_att (t := fitsA) (.fromIter _) (by decide +kernel)
  obtain ⟨r, ho, hr⟩ := C91_outer_combine_with_detached (L := lawfulDetached Unit) (m := get fitsC)
    (.plain () (.fromIter _)) ha (fits_both_of_subset fun k h => (hk k).2 h)
    (fun p hp _ => (hk p).1 hp) true (fun d _ => d) (f := catD (memState fitsA)) (ff := fun x y => some (x ++ y))
    (fun av bv x y h1 h2 => by
      rw [catD_eq h1 h2]
      exact ⟨by simp, fun v h => Or.inr (by cases h; exact ⟨x ++ y, Or.inl rfl, rfl⟩)⟩)
  rcases hr with ⟨a', rfl, h⟩ | ⟨_, h⟩ | ⟨_, h⟩
  · exact ⟨a', ho, h⟩
  · rcases h with h | h | ⟨av, bv, x, y, e, h1, h2, h⟩
    · exact absurd (fun i d hi => absurd hi (mem_free i d)) h
    · exact absurd (mem_readsSucceed _) h
    · rw [catD_eq h1 h2] at h; cases h
  · obtain ⟨av, bv, x, y, h1, h2, h⟩ := h
    rw [catD_eq h1 h2] at h; cases h

/-- The condition of `C91_inner_combine_with` for a target that is empty, and for a target whose keys are those of the stored
tree; and a case in which it does not hold: the key 1, 3 of the target parts from the keys of `fitsA` after the byte 1, where
`fitsA` has no branch. -/
example : Fits (get fitsA) (get Node.empty) ∧ Fits (get fitsA) (get fitsC) ∧
    ¬ Fits (get (fromIter [([1, 1, 1], [5])])) (get (fromIter [([1, 1, 1], [5]), ([1, 3], [5])])) := by
  refine ⟨fits_of_subset fun k h => absurd (by rw [get_eq_den _ _ ord_empty]; exact den_empty k) h, fits_of_subset fun k h => ?_, fun h => ?_⟩
  · have e : (iter fitsA).map (·.1) = (iter fitsC).map (·.1) := by decide +kernel
    rw [get_keys (t := fitsA) (.fromIter _), e]
    exact (get_keys (t := fitsC) (.fromIter _)).1 h
  · have := h [1] [1, 1] (Or.inr ⟨1, 3, [1], [], by decide, by decide +kernel, by decide +kernel⟩) (by decide +kernel)
    rcases this with h | ⟨x, y, r, s, hne, h1, h2⟩
    · exact h (by decide +kernel)
    · have h1 := (get_keys (t := fromIter [([1, 1, 1], [5])]) (.fromIter _)).1 h1
      have h2 := (get_keys (t := fromIter [([1, 1, 1], [5])]) (.fromIter _)).1 h2
      have e : (iter (fromIter [([1, 1, 1], [5])])).map (·.1) = [[1, 1, 1]] := by decide +kernel
      rw [e] at h1 h2
      simp at h1 h2
      exact hne (h1.1.trans h2.1.symm)

end Radix
