import Verif.Proofs.AttMapsCalls
import Verif.Props.Prefix

/-
The calls of a session with a store, one by one: combinations that make new trees, and those that read.
-/

set_option linter.unusedVariables false

namespace Radix.Kept
open Radix Node
open Radix.Heap (Choice)
open Radix.Heap.Att (Op Obs Obj NewChoice PWorld storeOf fits pstep prun ponTree ponTrees pchanged pchange pchangeWith pnewTree pnewValue pnewEntry panswer
  pattachedOf preattachOf ploadOf pcloneOf pnewIter pnextOf pnextGroupOf preadKeyOf convOf penvOf attachS reattachS setFnS predS newFnS testFnS descendS maskAb)
open Radix.Spec (Map IsEntries Selected outer inner left)
open Radix.Spec.Kept

section
variable {σ ε : Type} {S : BlobStore σ ε} {L : Lawful S} {st : σ}

/-! ### New trees -/

theorem valueOptDetached_rep {τ : Type} {T : BlobStore τ ε} {M : Lawful T} {s : τ} {E : Prop} {b : BlobV} {x : Bytes} (h : ValRep M s b (some x)) :
    RP E True (valueOptDetached (ε := ε) b) (· = some x) := by
  unfold valueOptDetached
  have := valueOpt_rep h
  cases e : b.valueOpt with
  | none => rw [e] at this; exact this.elim
  | some v =>
    rw [e] at this
    cases v with
    | id i => trivial
    | data d =>
      have this : ValRep M s (.data d) (some x) := this
      rcases this with h | ⟨i, h, _⟩
      · cases h; rfl
      · cases h

theorem cfok_of {a b : Bool} {f : BlobV → BlobV → Except ε NewChoice} {g : Bytes → Bytes → Option Bytes} (hf : Makes L st a b f g) :
    CFOK (lawOf L st a) (storeOf S st a).st (lawOf L st b) (storeOf S st b).st (Fails L st a ∨ Fails L st b ∨ Refuses L st a b f) True (newFnS f) g := by
  intro av bv x y ha hb
  have := hf av bv x y (shows_iff.1 ha) (shows_iff.1 hb)
  unfold newFnS
  cases e : f av bv with
  | error er => exact Or.inr (Or.inr ⟨av, bv, x, y, er, shows_iff.1 ha, shows_iff.1 hb, e⟩)
  | ok c =>
    rw [e] at this
    cases c with
    | clear => exact this.symm
    | left => simp only at this ⊢; rw [this]; exact valueOptDetached_rep ha
    | right => simp only at this ⊢; rw [this]; exact valueOptDetached_rep hb
    | own d => exact this.symm

theorem tfok_of {a b : Bool} {f : BlobV → BlobV → Except ε Bool} {p : Bytes → Bytes → Bool} (hf : Compares L st a b f p) :
    CFOK (lawOf L st a) (storeOf S st a).st (lawOf L st b) (storeOf S st b).st (Fails L st a ∨ Fails L st b ∨ Refuses L st a b f) True (testFnS f) p := by
  intro av bv x y ha hb
  unfold testFnS
  cases e : f av bv with
  | error er => exact Or.inr (Or.inr ⟨av, bv, x, y, er, shows_iff.1 ha, shows_iff.1 hb, e⟩)
  | ok r => exact hf av bv x y (shows_iff.1 ha) (shows_iff.1 hb) r e

theorem sideA {a b : Bool} {U : Prop} : SideOK (lawOf L st a) (storeOf S st a).st (Fails L st a ∨ Fails L st b ∨ U) True := ⟨fun h => Or.inl (fails_of h), Or.inl trivial⟩
theorem sideB {a b : Bool} {U : Prop} : SideOK (lawOf L st b) (storeOf S st b).st (Fails L st a ∨ Fails L st b ∨ U) True := ⟨fun h => Or.inr (Or.inl (fails_of h)), Or.inl trivial⟩

theorem is_embed {t : Node} {m : Map} (ho : Ord t) (hs : Shape t) (hd : ∀ k, den t k = m k) : Is L st false (embed t) m := ⟨t, ho, hs, embed_rep t, hd⟩

variable {a b : Bool} {y z : SNode} {m m' : Map} (hm : Is L st a y m) (hm' : Is L st b z m')
include hm hm'

theorem outer_call {f : BlobV → BlobV → Except ε NewChoice} {g} (hf : Makes L st a b f g) (n : Nat) :
    Out (Fails L st a ∨ Fails L st b ∨ Refuses L st a b f)
      ((outerCombineS (storeOf S st a).S (storeOf S st a).st (storeOf S st b).S (storeOf S st b).st (newFnS f) n (.owned y) (.owned z)).bind fun q => .ok (embed q))
      fun x => Is L st false x (Map.combine (outer g) m m') := by
  obtain ⟨t, ho, hs, hr, hd⟩ := hm
  obtain ⟨u, ho', hs', hr', hd'⟩ := hm'
  refine out_bind ((out_fuel (fun n => outerCombineS_fuel _ n _ _) _ (outerCombineS_rep sideA sideB (cfok_of hf) _ _ _ t u (Nat.le_refl _) (refS_owned hr) (refS_owned hr')) n).imp id fun x hx => ?_)
  have hx : x = _ := hx
  subst hx
  have hgd := outerCombine_good g t u ho ho'
  exact is_embed hgd.ord (hgd.shape hs hs') fun k => by rw [hgd.den k, hd, hd']; rfl

theorem inner_call {f : BlobV → BlobV → Except ε NewChoice} {g} (hf : Makes L st a b f g) (n : Nat) :
    Out (Fails L st a ∨ Fails L st b ∨ Refuses L st a b f)
      ((innerCombineS (storeOf S st a).S (storeOf S st a).st (storeOf S st b).S (storeOf S st b).st (newFnS f) n (.owned y) (.owned z)).bind fun q => .ok (embed q))
      fun x => Is L st false x (Map.combine (inner g) m m') := by
  obtain ⟨t, ho, hs, hr, hd⟩ := hm
  obtain ⟨u, ho', hs', hr', hd'⟩ := hm'
  refine out_bind ((out_fuel (fun n => innerCombineS_fuel _ n _ _) _ (innerCombineS_rep sideA sideB (cfok_of hf) _ _ _ t u (Nat.le_refl _) (refS_owned hr) (refS_owned hr')) n).imp id fun x hx => ?_)
  have hx : x = _ := hx
  subst hx
  have hgd := innerCombine_good g t u ho ho'
  exact is_embed hgd.ord (hgd.shape hs hs') fun k => by rw [hgd.den k, hd, hd']; rfl

theorem left_call {f : BlobV → BlobV → Except ε NewChoice} {g} (hf : Makes L st a b f g) (n : Nat) :
    Out (Fails L st a ∨ Fails L st b ∨ Refuses L st a b f)
      ((leftCombineS (storeOf S st a).S (storeOf S st a).st (storeOf S st b).S (storeOf S st b).st (newFnS f) n (.owned y) (.owned z)).bind fun q => .ok (embed q))
      fun x => Is L st false x (Map.combine (left g) m m') := by
  obtain ⟨t, ho, hs, hr, hd⟩ := hm
  obtain ⟨u, ho', hs', hr', hd'⟩ := hm'
  refine out_bind ((out_fuel (fun n => leftCombineS_fuel _ n _ _) _ (leftCombineS_rep sideA sideB (cfok_of hf) _ _ _ t u (Nat.le_refl _) (refS_owned hr) (refS_owned hr')) n).imp id fun x hx => ?_)
  have hx : x = _ := hx
  subst hx
  have hgd := leftCombine_good g t u ho ho'
  exact is_embed hgd.ord (hgd.shape hs hs') fun k => by rw [hgd.den k, hd, hd']; rfl

theorem innerPred_call {f : BlobV → BlobV → Except ε Bool} {p} (hf : Compares L st a b f p) (n : Nat) :
    Out (Fails L st a ∨ Fails L st b ∨ Refuses L st a b f)
      (innerCombinePredS (storeOf S st a).S (storeOf S st a).st (storeOf S st b).S (storeOf S st b).st (testFnS f) n (.owned y) (.owned z))
      fun x => (x = true ↔ ∃ k x y, m k = some x ∧ m' k = some y ∧ p x y = true) := by
  obtain ⟨t, ho, hs, hr, hd⟩ := hm
  obtain ⟨u, ho', hs', hr', hd'⟩ := hm'
  refine (out_fuel (fun n => innerCombinePredS_fuel _ n _ _) _ (innerCombinePredS_rep sideA sideB (tfok_of hf) _ _ _ t u (Nat.le_refl _) (refS_owned hr) (refS_owned hr')) n).imp id fun x hx => ?_
  have hx : x = _ := hx
  subst hx
  rw [innerCombinePred_iff p t u ho ho']
  unfold Ex
  simp only [hd, hd']
  constructor
  · rintro ⟨k, h⟩
    cases h1 : m k <;> cases h2 : m' k <;> rw [h1, h2] at h
    case some.some x y => exact ⟨k, x, y, h1, h2, h⟩
    all_goals cases h
  · rintro ⟨k, x, y, h1, h2, h⟩
    exact ⟨k, by rw [h1, h2]; exact h⟩

theorem leftPred_call {f : BlobV → BlobV → Except ε Bool} {p} (hf : Compares L st a b f p) (n : Nat) :
    Out (Fails L st a ∨ Fails L st b ∨ Refuses L st a b f)
      (leftCombinePredS (storeOf S st a).S (storeOf S st a).st (storeOf S st b).S (storeOf S st b).st (testFnS f) n (.owned y) (.owned z))
      fun x => (x = true ↔ ∃ k x, m k = some x ∧ (m' k = none ∨ ∃ y, m' k = some y ∧ p x y = true)) := by
  obtain ⟨t, ho, hs, hr, hd⟩ := hm
  obtain ⟨u, ho', hs', hr', hd'⟩ := hm'
  refine (out_fuel (fun n => leftCombinePredS_fuel _ n _ _) _ (leftCombinePredS_rep sideA sideB (tfok_of hf) _ _ _ t u (Nat.le_refl _) (refS_owned hr) (refS_owned hr')) n).imp id fun x hx => ?_
  have hx : x = _ := hx
  subst hx
  rw [leftCombinePred_iff p t u ho ho' hs]
  unfold Ex
  simp only [hd, hd']
  constructor
  · rintro ⟨k, h⟩
    cases h1 : m k <;> cases h2 : m' k <;> rw [h1, h2] at h
    case some.some x y => exact ⟨k, x, h1, Or.inr ⟨y, h2, h⟩⟩
    case some.none x => exact ⟨k, x, h1, Or.inl h2⟩
    all_goals cases h
  · rintro ⟨k, x, h1, h2⟩
    refine ⟨k, ?_⟩
    rw [h1]
    rcases h2 with h2 | ⟨y, h2, h⟩
    · rw [h2]; rfl
    · rw [h2]; exact h

omit hm'

theorem detached_call (n : Nat) : Out (Fails L st a) ((detachedS (storeOf S st a).S (storeOf S st a).st n y).bind fun k => .ok (embed k)) fun x => Is L st false x m := by
  obtain ⟨t, ho, hs, hr, hd⟩ := hm
  refine out_bind ((out_fuel (fun n => (detachedS_fuel n).1 y) _ (rp_of_rpost (P := True) fails_of (detachedS_rep.1 hr (Nat.le_refl _))) n).imp id fun x hx => ?_)
  have hx : x = _ := hx
  subst hx
  exact is_embed (ord_detached _ ho) (shape_detached hs) fun k => by rw [den_detached, hd]

theorem filterPrefix_call (n : Nat) (p s : Bytes) (hn : s = [] ∨ p ≠ [] ∨ ∃ k v, m k = some v) :
    Out (Fails L st a) (filterPrefixS (storeOf S st a).S n (storeOf S st a).st y p s) fun x => Is L st a x (m.filterPrefix p s) := by
  obtain ⟨t, ho, hs, hr, hd⟩ := hm
  refine (out_fuel (fun n => filterPrefixS_fuel y p s n) _ (rp_of_rpost (P := True) fails_of (filterPrefixS_rep ho hr (Nat.le_refl _) p s)) n).imp id fun x hx => ?_
  refine ⟨filterPrefix t p s, filterPrefix_ord ho p s, filterPrefix_shape' ho hs p s ?_, hx, fun k => ?_⟩
  · rcases hn with h | h | ⟨k, v, h⟩
    · exact Or.inl h
    · exact Or.inr (Or.inl h)
    · exact Or.inr (Or.inr ⟨k, v, by rw [get_eq_den _ _ ho, hd, h]⟩)
  · rw [filterPrefix_den ho, ← strip_filterPrefix]
    cases strip s k with
    | none => rfl
    | some r => exact hd _

/-! ### Reads -/

theorem get_call (n : Nat) (k : Bytes) : Out (Fails L st a) (getS (storeOf S st a).S n (storeOf S st a).st y k) fun x => OValRep (lawOf L st a) (storeOf S st a).st x (m k) := by
  obtain ⟨t, ho, hs, hr, hd⟩ := hm
  rw [← hd, ← get_eq_den _ _ ho]
  exact out_fuel (fun n => getS_fuel y k n) _ (rp_of_rpost (P := True) fails_of (getS_rep ho hr (Nat.le_refl _) k)) n

theorem containsKey_call (n : Nat) (k : Bytes) : Out (Fails L st a) (containsKeyS (storeOf S st a).S n (storeOf S st a).st y k) fun x => (x = true ↔ ∃ v, m k = some v) := by
  obtain ⟨t, ho, hs, hr, hd⟩ := hm
  refine (out_fuel (fun n => containsKeyS_fuel y k n) _ (rp_of_rpost (P := True) fails_of (containsKeyS_rep ho hr (Nat.le_refl _) k)) n).imp id fun x hx => ?_
  have hx : x = _ := hx
  rw [hx, containsKey_eq, get_eq_den _ _ ho, hd, Option.isSome_iff_exists]

theorem hasPrefix_call (n : Nat) (p : Bytes) :
    Out (Fails L st a) (hasPrefixS (storeOf S st a).S n (storeOf S st a).st y p) fun x => (x = true ↔ p = [] ∨ ∃ k v, p <+: k ∧ m k = some v) := by
  obtain ⟨t, ho, hs, hr, hd⟩ := hm
  refine (out_fuel (fun n => hasPrefixS_fuel y p n) _ (rp_of_rpost (P := True) fails_of (hasPrefixS_rep ho hr (Nat.le_refl _) p)) n).imp id fun x hx => ?_
  have hx : x = _ := hx
  have root : hasPrefix t [] = true := by
    unfold hasPrefix
    rw [find.eq_def]
    simp only [commonPrefix_nil_right, List.length_nil, Nat.sub_self, true_and, Nat.sub_zero, if_true]
    by_cases e : t.pfx.length = 0 <;> simp [e]
  have below : (∃ k v, den t (p ++ k) = some v) ↔ ∃ k v, p <+: k ∧ m k = some v := by
    constructor
    · rintro ⟨k, v, h⟩; exact ⟨p ++ k, v, List.prefix_append _ _, by rw [← hd, h]⟩
    · rintro ⟨_, v, ⟨k, rfl⟩, h⟩; exact ⟨k, v, by rw [hd, h]⟩
  rw [hx, ← below]
  constructor
  · intro hp
    rcases hs with rfl | hc
    · left
      cases p with
      | nil => rfl
      | cons x xs =>
        unfold hasPrefix at hp
        rw [find] at hp
        simp [Node.empty, commonPrefix_nil_left, loadChildren] at hp
    · exact Or.inr ((hasPrefix_iff ho hc p).1 hp)
  · rintro (rfl | hp)
    · exact root
    · exact hasPrefix_of ho hp

omit hm

theorem isEntries {t : Node} {m : Map} (ho : Ord t) (hd : ∀ k, den t k = m k) : IsEntries m (ents [] t) :=
  ⟨ents_sorted ho [], fun k v => by
    rw [mem_ents ho [] k v]
    constructor
    · rintro ⟨r, rfl, h⟩; rw [← hd]; exact h
    · intro h; exact ⟨k, rfl, by rw [hd]; exact h⟩⟩

include hm

theorem firstEntry_call (n : Nat) (p : Bytes) : ∃ es, IsEntries m es ∧
    Out (Fails L st a) (firstEntryS (storeOf S st a).S (storeOf S st a).st n p (.owned y)) fun x => OEntRep (lawOf L st a) (storeOf S st a).st x (es.head?.map fun e => (p ++ e.1, e.2)) := by
  obtain ⟨t, ho, hs, hr, hd⟩ := hm
  refine ⟨_, isEntries ho hd, ?_⟩
  have := out_fuel (fun n => firstEntryS_fuel n p (.owned y)) _ (rp_of_rpost (P := True) fails_of (firstEntryS_rep (r := .owned y) hr (Nat.le_refl _))) n
  rwa [firstEntry_eq hs ho, ents_pre, List.head?_map] at this

theorem lastEntry_call (n : Nat) (p : Bytes) : ∃ es, IsEntries m es ∧
    Out (Fails L st a) (lastEntryS (storeOf S st a).S (storeOf S st a).st n p (.owned y)) fun x => OEntRep (lawOf L st a) (storeOf S st a).st x (es.getLast?.map fun e => (p ++ e.1, e.2)) := by
  obtain ⟨t, ho, hs, hr, hd⟩ := hm
  refine ⟨_, isEntries ho hd, ?_⟩
  have := out_fuel (fun n => lastEntryS_fuel n p (.owned y)) _ (rp_of_rpost (P := True) fails_of (lastEntryS_rep (r := .owned y) hr (Nat.le_refl _))) n
  rwa [lastEntry_eq hs ho, ents_pre, List.getLast?_map] at this

theorem firstValue_call (n : Nat) : ∃ es, IsEntries m es ∧
    Out (Fails L st a) (firstValueS (storeOf S st a).S (storeOf S st a).st n (.owned y)) fun x => OValRep (lawOf L st a) (storeOf S st a).st x (es.head?.map (·.2)) := by
  obtain ⟨t, ho, hs, hr, hd⟩ := hm
  refine ⟨_, isEntries ho hd, ?_⟩
  have := out_fuel (fun n => firstValueS_fuel n (.owned y)) _ (rp_of_rpost (P := True) fails_of (firstValueS_rep (r := .owned y) hr (Nat.le_refl _))) n
  rwa [firstValue_eq t [], firstEntry_eq hs ho] at this

theorem lastValue_call (n : Nat) : ∃ es, IsEntries m es ∧
    Out (Fails L st a) (lastValueS (storeOf S st a).S (storeOf S st a).st n (.owned y)) fun x => OValRep (lawOf L st a) (storeOf S st a).st x (es.getLast?.map (·.2)) := by
  obtain ⟨t, ho, hs, hr, hd⟩ := hm
  refine ⟨_, isEntries ho hd, ?_⟩
  have := out_fuel (fun n => lastValueS_fuel n (.owned y)) _ (rp_of_rpost (P := True) fails_of (lastValueS_rep (r := .owned y) hr (Nat.le_refl _))) n
  rwa [lastValue_eq t [], lastEntry_eq hs ho] at this

theorem rootValue_call : ∃ v, OValRep (lawOf L st a) (storeOf S st a).st y.val.valueOpt v ∧ ∀ d, v = some d → ∃ k, m k = some d := by
  obtain ⟨t, ho, hs, hr, hd⟩ := hm
  refine ⟨t.val, valueOpt_rep (RefRep.val (r := .owned y) hr), fun d hv => ⟨t.pfx, ?_⟩⟩
  rw [← hd, den_eq, show strip t.pfx t.pfx = some [] by simpa using strip_append_self t.pfx []]
  exact hv

theorem isEmpty_call : y.isEmpty = true ↔ ∀ k, m k = none := by
  obtain ⟨t, ho, hs, hr, hd⟩ := hm
  rw [rep_isEmpty hr, isEmpty_iff ho hs]
  simp only [hd]

/-! ### Iterators -/

theorem iter_call : ∃ es, IsEntries m es ∧ RelItem L st (.kv a (iterS y)) (.entries a es) := by
  obtain ⟨t, ho, hs, hr, hd⟩ := hm
  exact ⟨_, isEntries ho hd, .kv (iterS_rep hr) (by rw [iter_stack, iter_eq])⟩

theorem values_call : ∃ es, IsEntries m es ∧ RelItem L st (.vals a (valuesS y)) (.vals a (es.map (·.2))) := by
  obtain ⟨t, ho, hs, hr, hd⟩ := hm
  refine ⟨_, isEntries ho hd, .vals (s' := [[t]]) ⟨?_, trivial⟩ (by rw [vals_stack, values_eq])⟩
  show RepL _ _ _ [y] [t]
  exact repL_cons.2 ⟨y, [], rfl, hr, repL_nil.2 rfl⟩

theorem groupBy_call : ∃ es, IsEntries m es ∧ RelItem L st (.group a (groupByS y)) (.groups a es) := by
  obtain ⟨t, ho, hs, hr, hd⟩ := hm
  refine ⟨_, isEntries ho hd, .group (iterS_rep hr) ?_ (by rw [iter_stack, iter_eq])⟩
  rcases hs with rfl | hc
  · exact Or.inl rfl
  · right
    intro f hf l hl x hx
    simp only [kvIter, List.mem_singleton] at hf
    subst hf
    cases hl
    simp only [List.mem_singleton] at hx
    subst hx
    exact ⟨ho, hc⟩

theorem scanPrefix_call (n : Nat) (p : Bytes) : ∃ es d, IsEntries m es ∧
    Out (Fails L st a) (scanPrefixS (storeOf S st a).S n (storeOf S st a).st y p) fun x => RelItem L st (.kv a x)
      (.entries a ((es.filter fun e => p.isPrefixOf e.1).map fun e => (p ++ d ++ e.1.drop p.length, e.2))) := by
  obtain ⟨t, ho, hs, hr, hd⟩ := hm
  obtain ⟨d, _, e⟩ := scanPrefix_keys ho p
  refine ⟨_, d, isEntries ho hd, (out_fuel (fun n => scanPrefixS_fuel y p n) _ (rp_of_rpost (P := True) fails_of (scanPrefixS_rep ho hr (Nat.le_refl _) p)) n).imp id fun x hx => ?_⟩
  refine .kv hx ?_
  rw [scan_stack, e, below, iter_eq]

omit hm

theorem next_call {s : SIter} {s' : KVIter} (h : SIterRep (lawOf L st a) false (storeOf S st a).st s s') (n : Nat) :
    Out (Fails L st a) (SIter.next0 (storeOf S st a).S (storeOf S st a).st n s) fun x =>
      OEntRep (lawOf L st a) (storeOf S st a).st x.1 s'.next0.1 ∧ SIterRep (lawOf L st a) false (storeOf S st a).st x.2 s'.next0.2 :=
  out_fuel (fun n => next0_fuel n s) _ (rp_of_rpost (P := True) fails_of (next0_rep h (Nat.lt_succ_self _))) n

theorem valNext_call {s : List TIter} {s' : List (List Node)} (h : VStackRep (lawOf L st a) false (storeOf S st a).st s s') (n : Nat) :
    Out (Fails L st a) (valNext0S (storeOf S st a).S (storeOf S st a).st n s) fun x =>
      OValRep (lawOf L st a) (storeOf S st a).st x.1 (valNext0 s').1 ∧ VStackRep (lawOf L st a) false (storeOf S st a).st x.2 (valNext0 s').2 :=
  out_fuel (fun n => valNext0S_fuel n s) _ (rp_of_rpost (P := True) fails_of (valNext0_rep h (Nat.lt_succ_self _))) n

/-- The answer of a function that always gives one. -/
def answerOf (d : Bytes → Except ε Bool) (p : Bytes) (_ : Node) : Bool :=
  match d p with
  | .ok b => b
  | .error _ => false

theorem groupNext_call {s : SIter} {s' : KVIter} (h : SIterRep (lawOf L st a) false (storeOf S st a).st s s') {d : Bytes → Except ε Bool} (hd : ∀ p, ∃ b, d p = .ok b) (n : Nat) :
    Out (Fails L st a) (groupNext0S (storeOf S st a).S (descendS d) (storeOf S st a).st n s) fun x =>
      ONodeRep (lawOf L st a) false (storeOf S st a).st x.1 (groupNext0 (answerOf d) s').1 ∧ SIterRep (lawOf L st a) false (storeOf S st a).st x.2 (groupNext0 (answerOf d) s').2 := by
  refine out_fuel (fun n => groupNext0S_fuel _ n s) _ (rp_of_rpost (P := True) fails_of (groupNext0_rep (d := answerOf d) ?_ h (Nat.lt_succ_self _))) n
  intro path r nd _
  obtain ⟨b, hb⟩ := hd path
  unfold descendS answerOf
  rw [hb]
  exact rfl

end

end Radix.Kept
