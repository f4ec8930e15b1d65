import Verif.Props.Persist
import Verif.Props.Combine

/-
Properties C34 and C36: changing trees that are attached to a store, and combining functions that fail.

`dbg` says whether debug assertions are compiled in, `ab` is the unspecified behaviour of `InPlaceVecBuilder` on an error
(see Verif/Stored/Update.lean); the theorems hold for every `ab`.
-/

set_option linter.unusedVariables false

namespace Radix
open Node

/-- An update of an attached tree ends well: it succeeds with a tree that the given condition holds for; only if some read
of the store fails it may return an error instead; it never panics. -/
def Updates {σ ε : Type} {S : BlobStore σ ε} (L : Lawful S) (st : σ) (x : Nat → Res ε Unit × SNode)
    (Q : SNode → Prop) : Prop :=
  ∃ r, Outcome x r ∧ ((∃ a', r = (.ok (), a') ∧ Q a') ∨ (∃ e a', r = (.err e, a')) ∧ ¬ ReadsSucceed L st)

section
variable {σ ε : Type} {S : BlobStore σ ε} {L : Lawful S} {long : Bool} {st : σ} {a : SNode} {m : Spec.Map}

theorem updates_of {f : Nat → Res ε Unit × SNode} {P : Prop} {Q Q' : SNode → Prop} (hm : ∀ n, LeP (f n) (f (n + 1)))
    {N : Nat} (h : UP (¬ ReadsSucceed L st) P (f N) fun _ => Q') (hP : ¬ P)
    (hQ : ∀ a', Outcome f (.ok (), a') → Q a') : Updates L st f Q := by
  obtain ⟨r, hor, hr⟩ := up_outcome hm h hP
  refine ⟨r, hor, ?_⟩
  rcases hr with ⟨x, y, rfl, _⟩ | h
  · exact Or.inl ⟨y, rfl, hQ _ hor⟩
  · exact Or.inr h

theorem panics_or {f : Nat → Res ε Unit × SNode} {P : Prop} {Q Q' : SNode → Prop} (hm : ∀ n, LeP (f n) (f (n + 1)))
    {N : Nat} (h : UP (¬ ReadsSucceed L st) P (f N) fun _ => Q') (hQ : ∀ a', Outcome f (.ok (), a') → Q a') :
    Outcome (fun fuel => (f fuel).1) .panic ∨ Updates L st f Q := by
  by_cases hp : (f N).1 = .panic
  · obtain ⟨M, hM⟩ := outcome_fuelP hm (N := N) (by rw [hp]; simp)
    exact Or.inl ⟨M, fun fuel hf => by show (f fuel).1 = _; rw [hM fuel hf, hp]⟩
  · refine Or.inr (updates_of (P := False) hm (N := N) (Q' := Q') ?_ id hQ)
    rcases e : f N with ⟨_ | _ | _ | _, a⟩ <;> rw [e] at h hp <;> first | exact h | exact absurd rfl hp

/-- **C34**, `try_insert`: with or without debug assertions, after every history and for keys and stored prefixes of every
length, it succeeds and the result is an attached tree for the map with the entry set. All theorems about attached trees
(C33, C35, C29) apply to it again. -/
theorem C34_insert (h : Att S L long st a m) (dbg : Bool) (ab) (k v : Bytes) :
    Updates L st (fun fuel => insertS S st dbg ab fuel a k v) fun a' => Att S L long st a' (m.insert k v) := by
  obtain ⟨t, ho, hs, hr, hd⟩ := att_stands h
  exact updates_of (fun n => outerCombineWithS_fuel _ _ n _ _)
    (insertS_rep hr (Or.inr ⟨ho, hs⟩) dbg ab (Nat.le_refl _) k v) id fun a' ho => .insert dbg ab k v h ho

/-- **C34**, `try_remove`: the same without debug assertions, after histories that put no key of 128 or more bytes into the
store. What is missing: the claim is false for longer keys (`C34_remove_long_false`) and with debug assertions
(`C34_remove_debug_false`). -/
theorem C34_remove_partial (h : Att S L false st a m) (ab) (k : Bytes) :
    Updates L st (fun fuel => removeS S st false ab fuel a k) fun a' => Att S L false st a' (m.erase k) := by
  obtain ⟨t, ho, hs, hr, hd⟩ := att_stands h
  exact updates_of (fun n => leftCombineWithS_fuel _ n _ _)
    (removeS_rep hr hs false ab (Nat.le_refl _) k) (by simp) fun a' ho => .remove false ab k rfl h ho

/-- **C34**, `try_remove_prefix`: likewise. -/
theorem C34_remove_prefix_partial (h : Att S L false st a m) (ab) (p : Bytes) :
    Updates L st (fun fuel => removePrefixS S st false ab fuel a p) fun a' => Att S L false st a' (m.erasePrefix p) := by
  obtain ⟨t, ho, hs, hr, hd⟩ := att_stands h
  exact updates_of (fun n => removePrefixWithS_fuel _ n _ _)
    (removePrefixS_rep hr hs false ab (Nat.le_refl _) p) (by simp) fun a' ho => .removePrefix false ab p rfl h ho

/-- **C34**, with debug assertions: `try_remove` and `try_remove_prefix` panic or do the right thing. -/
theorem C34_remove_debug_partial (h : Att S L false st a m) (dbg : Bool) (ab) (k : Bytes) :
    (Outcome (fun fuel => (removeS S st dbg ab fuel a k).1) .panic ∨
      Updates L st (fun fuel => removeS S st dbg ab fuel a k) fun a' => Att S L false st a' (m.erase k)) ∧
    (Outcome (fun fuel => (removePrefixS S st dbg ab fuel a k).1) .panic ∨
      Updates L st (fun fuel => removePrefixS S st dbg ab fuel a k) fun a' => Att S L false st a' (m.erasePrefix k)) := by
  obtain ⟨t, ho, hs, hr, hd⟩ := att_stands h
  exact ⟨panics_or (fun n => leftCombineWithS_fuel _ n _ _) (removeS_rep hr hs dbg ab (Nat.le_refl _) k)
      fun a' ho => .remove dbg ab k rfl h ho,
    panics_or (fun n => removePrefixWithS_fuel _ n _ _) (removePrefixS_rep hr hs dbg ab (Nat.le_refl _) k)
      fun a' ho => .removePrefix dbg ab k rfl h ho⟩

end

/-! ### A concrete case -/

/-- `sampleA` attached to a `MemStore`, changed in three ways; the last result stands for the expected map, so its lookups
are given by C33. -/
example : ∃ a st a1 a2 a3, Att memStore memLawful false st a (get sampleA) ∧
    Outcome (fun fuel => insertS memStore st true (fun a _ => a) fuel a [97, 120] [5]) (.ok (), a1) ∧
    Outcome (fun fuel => removeS memStore st false (fun a _ => a) fuel a1 [97]) (.ok (), a2) ∧
    Outcome (fun fuel => removePrefixS memStore st false (fun a _ => a) fuel a2 [97, 98]) (.ok (), a3) ∧
    Att memStore memLawful false st a3 (((Spec.Map.insert (get sampleA) [97, 120] [5]).erase [97]).erasePrefix [97, 98]) := by
  obtain ⟨a, st, h, _⟩ := mem_att
  obtain ⟨_, o1, ⟨a1, rfl, h1⟩ | ⟨_, hn⟩⟩ := C34_insert h true (fun a _ => a) [97, 120] [5]
  · obtain ⟨_, o2, ⟨a2, rfl, h2⟩ | ⟨_, hn⟩⟩ := C34_remove_partial h1 (fun a _ => a) [97]
    · obtain ⟨_, o3, ⟨a3, rfl, h3⟩ | ⟨_, hn⟩⟩ := C34_remove_prefix_partial h2 (fun a _ => a) [97, 98]
      · exact ⟨a, st, a1, a2, a3, h, o1, o2, o3, h3⟩
      · exact absurd (mem_readsSucceed st) hn
    · exact absurd (mem_readsSucceed st) hn
  · exact absurd (mem_readsSucceed st) hn

/-! ### What is false -/

/-- The tree attached to an empty `MemStore`. -/
def memTree (t : Node) : SNode :=
  match (tryAttached memStore t []).1 with
  | .ok a => a
  | _ => .empty

/-- The store after that. -/
def memState (t : Node) : MemState := (tryAttached memStore t []).2

/-- The outcome is a success. -/
def okB {ε α : Type} : Res ε α → Bool
  | .ok _ => true
  | _ => false

theorem memTree_eq {t : Node} (h : okB (tryAttached memStore t []).1 = true) :
    tryAttached memStore t [] = (.ok (memTree t), memState t) := by
  unfold memTree memState
  rcases e : tryAttached memStore t [] with ⟨_ | _ | _ | _, _⟩ <;> rw [e] at h <;> first | rfl | cases h

/-- Two keys that share their first 128 bytes. -/
def longTree : Node := fromIter [(List.replicate 128 120 ++ [1], [1]), (List.replicate 128 120 ++ [2], [2])]

/-- **C34** is false for `try_remove` without debug assertions if keys are long: in an attached tree with two keys that
share their first 128 bytes, removing one of them loses the other one without an error. -/
theorem C34_remove_long_false : ∃ a st a', Att memStore memLawful true st a (get longTree) ∧
    get longTree (List.replicate 128 120 ++ [2]) = some [2] ∧
    Outcome (fun fuel => removeS memStore st false (fun a _ => a) fuel a (List.replicate 128 120 ++ [1])) (.ok (), a') ∧
    Outcome (fun fuel => getLoadS memStore fuel st a' (List.replicate 128 120 ++ [2])) (.ok none) := by
  have e := memTree_eq (t := longTree) (by decide +kernel)
  refine ⟨memTree longTree, memState longTree, (removeS memStore (memState longTree) false (fun a _ => a) 10
    (memTree longTree) (List.replicate 128 120 ++ [1])).2, .attach (.fromIter _) (by simp) e, by decide +kernel, ?_, ?_⟩
  · have h : (removeS memStore (memState longTree) false (fun a _ => a) 10 (memTree longTree)
      (List.replicate 128 120 ++ [1])).1 = .ok () := by decide +kernel
    have := outcome_fuelP (f := fun fuel => removeS memStore (memState longTree) false (fun a _ => a) fuel
      (memTree longTree) (List.replicate 128 120 ++ [1])) (fun n => leftCombineWithS_fuel _ n _ _) (N := 10)
      (by show _ ≠ _; rw [h]; simp)
    rwa [← h]
  · have h : getLoadS memStore 10 (memState longTree) (removeS memStore (memState longTree) false (fun a _ => a) 10
      (memTree longTree) (List.replicate 128 120 ++ [1])).2 (List.replicate 128 120 ++ [2]) = .ok none := by decide +kernel
    rw [← h]
    exact outcome_fuel (f := fun fuel => getLoadS memStore fuel _ _ _)
      (fun n => leR_bind (getS_fuel _ _ n) fun _ => leR_refl _) (by show _ ≠ _; rw [h]; simp)

/-- **C34** is false for `try_remove` with debug assertions: removing a key that is not there from an attached tree with
two short keys panics. -/
theorem C34_remove_debug_false : ∃ t a st, Att memStore memLawful false st a (get t) ∧
    Outcome (fun fuel => (removeS memStore st true (fun a _ => a) fuel a [5]).1) .panic := by
  have e := memTree_eq (t := fromIter [([1, 1], [1]), ([1, 2], [2])]) (by decide +kernel)
  refine ⟨_, _, _, .attach (.fromIter _) (fun _ => short_of_iter (.fromIter _) (by decide +kernel)) e, ?_⟩
  have h : (removeS memStore (memState (fromIter [([1, 1], [1]), ([1, 2], [2])])) true (fun a _ => a) 10
    (memTree (fromIter [([1, 1], [1]), ([1, 2], [2])])) [5]).1 = .panic := by decide +kernel
  rw [← h]
  obtain ⟨N, hN⟩ := outcome_fuelP (f := fun fuel => removeS memStore (memState (fromIter [([1, 1], [1]), ([1, 2], [2])])) true
    (fun a _ => a) fuel (memTree (fromIter [([1, 1], [1]), ([1, 2], [2])])) [5])
    (fun n => leftCombineWithS_fuel _ n _ _) (N := 10) (by show _ ≠ _; rw [h]; simp)
  exact ⟨N, fun fuel hf => by rw [← hN fuel hf]⟩

/-! ### Combining functions that fail -/

/-- A user function that may fail, on values that are at hand. (An id cannot occur in a detached tree.) -/
def userF {ε : Type} (f : Bytes → Bytes → Except ε (Option Bytes)) : BlobV → BlobV → Res ε BlobV
  | .data x, .data y =>
    match f x y with
    | .ok v => .ok (embedVal v)
    | .error e => .err e
  | _, _ => .panic

/-- The in-place combinations of detached trees with a function that may fail (src/node/mod.rs 3593-3660 with
`DetachConverter`). -/
def outerF {ε : Type} (dbg : Bool) (ab : List SNode → List SNode → List SNode)
    (f : Bytes → Bytes → Except ε (Option Bytes)) (a b : Node) (fuel : Nat) :
    Res ε Unit × SNode :=
  outerCombineWithS (plainEnv ε dbg ab) (SConv.detach (detachedStore ε) () fuel) (userF f) fuel (embed a) (.owned (embed b))

/-- See `outerF`. -/
def innerF {ε : Type} (dbg : Bool) (ab : List SNode → List SNode → List SNode)
    (f : Bytes → Bytes → Except ε (Option Bytes)) (a b : Node) (fuel : Nat) :
    Res ε Unit × SNode := innerCombineWithS (plainEnv ε dbg ab) (userF f) fuel (embed a) (.owned (embed b))

/-- See `outerF`. -/
def leftF {ε : Type} (dbg : Bool) (ab : List SNode → List SNode → List SNode)
    (f : Bytes → Bytes → Except ε (Option Bytes)) (a b : Node) (fuel : Nat) :
    Res ε Unit × SNode := leftCombineWithS (plainEnv ε dbg ab) (userF f) fuel (embed a) (.owned (embed b))

/-- The call returns an error. -/
def Errs {ε : Type} (x : Nat → Res ε Unit × SNode) : Prop := ∃ N, ∀ fuel, N ≤ fuel → ∃ e a, x fuel = (.err e, a)

section
variable {ε : Type}

/-- Where `f` fails, put `d`. -/
def fill (d : Option Bytes) (f : Bytes → Bytes → Except ε (Option Bytes)) (x y : Bytes) : Option Bytes :=
  match f x y with
  | .ok v => v
  | .error _ => d

theorem fok_user (dbg : Bool) (ab) (d : Option Bytes) (f : Bytes → Bytes → Except ε (Option Bytes)) {E : Prop}
    (hE : (∃ x y e, f x y = .error e) → E) :
    FOK (e := plainEnv ε dbg ab) (lawfulDetached ε) (lawfulDetached ε) E False (userF f) (fill d f) := by
  intro av bv x y ha hb
  have h1 : av = .data x := repPlain_val (plain_detached _ _) ha
  have h2 : bv = .data y := repPlain_val (plain_detached _ _) hb
  subst h1 h2
  simp only [userF, fill]
  cases e : f x y with
  | ok v => exact embedVal_rep v
  | error e' => exact hE ⟨x, y, e', e⟩

theorem embedVal_inj : ∀ {v w : Option Bytes}, embedVal v = embedVal w → v = w
  | none, none, _ => rfl
  | none, some _, h => by simp [embedVal, BlobV.none] at h
  | some _, none, h => by simp [embedVal, BlobV.none] at h
  | some _, some _, h => by simpa [embedVal] using h

mutual
theorem embed_inj : ∀ {n m : Node}, embed n = embed m → n = m
  | .mk p v none, .mk q w none, h => by
    simp only [embed, SNode.ref.injEq, BlobV.data.injEq] at h
    obtain ⟨rfl, h2, _⟩ := h
    rw [embedVal_inj h2]
  | .mk p v (some l), .mk q w (some k), h => by
    simp only [embed, SNode.arc.injEq, BlobV.data.injEq] at h
    obtain ⟨rfl, h2, h3⟩ := h
    rw [embedVal_inj h2, embedL_inj h3]
  | .mk p v none, .mk q w (some _), h => by simp [embed] at h
  | .mk p v (some _), .mk q w none, h => by simp [embed] at h

theorem embedL_inj : ∀ {l k : List Node}, embedL l = embedL k → l = k
  | [], [], _ => rfl
  | n :: l, m :: k, h => by
    simp only [embedL, List.cons.injEq] at h
    rw [embed_inj h.1, embedL_inj h.2]
  | [], _ :: _, h => by simp [embedL] at h
  | _ :: _, [], h => by simp [embedL] at h
end

theorem errs_of {x : Nat → Res ε Unit × SNode} {n1 n2 : Node} {N : Nat} (hne : n1 ≠ n2)
    (h1 : ∀ fuel, N ≤ fuel → UP True False (x fuel) fun _ a' => Rep (lawfulDetached ε) false () a' n1)
    (h2 : ∀ fuel, N ≤ fuel → UP True False (x fuel) fun _ a' => Rep (lawfulDetached ε) false () a' n2) : Errs x := by
  refine ⟨N, fun fuel hf => ?_⟩
  have h1 := h1 fuel hf
  have h2 := h2 fuel hf
  rcases e : x fuel with ⟨_ | _ | _ | _, a⟩ <;> rw [e] at h1 h2
  · have e1 := repPlain (plain_detached _ _) _ _ h1
    have e2 := repPlain (plain_detached _ _) _ _ h2
    exact absurd (embed_inj (e1.symm.trans e2)) hne
  · exact ⟨_, _, rfl⟩
  · exact h1.elim
  · exact h1.elim

theorem up_embed {x : Res ε Unit × SNode} {n : Node}
    (h : UP False False x fun _ a' => Rep (lawfulDetached ε) false () a' n) : x = (.ok (), embed n) := by
  rcases x with ⟨_ | _ | _ | _, a⟩
  · have e : a = embed n := repPlain (plain_detached _ _) _ _ h
    rw [e]
  · exact h.elim
  · exact h.elim
  · exact h.elim

theorem fill_ne {f : Bytes → Bytes → Except ε (Option Bytes)} {x y : Bytes} {e : ε} (h : f x y = .error e) :
    fill none f x y ≠ fill (some []) f x y := by simp [fill, h]

variable {a b : Node} (ha : Reachable a) (hb : Reachable b) (dbg : Bool) (ab : List SNode → List SNode → List SNode)
  {f : Bytes → Bytes → Except ε (Option Bytes)}
include ha hb

/-- **C36**, what does hold: if `f` fails on the values of some key that both trees have, the call returns an error, with
every behaviour of `InPlaceVecBuilder` on errors; it does not panic. What is missing: the target is not left unchanged
(`C36_false`). -/
theorem C36_error_partial {k x y : Bytes} {e : ε} (hx : get a k = some x) (hy : get b k = some y)
    (he : f x y = .error e) : Errs (outerF dbg ab f a b) ∧ Errs (innerF dbg ab f a b) ∧ Errs (leftF dbg ab f a b) := by
  have key := fun d => fok_user dbg ab d f (E := True) fun _ => trivial
  refine ⟨errs_of (N := 3 * (a.nodes + b.nodes)) (n1 := outerCombineWith .detach (fill none f) a b)
    (n2 := outerCombineWith .detach (fill (some []) f) a b) (fun h => fill_ne he ?_)
    (fun fuel hf => outerCombineWithS_rep (uok_plain dbg ab) (conv_detach_plain dbg ab (B := b.nodes) (by omega)) (key _)
      (Or.inl rfl) fuel _ _ _ _ (by omega) (Nat.le_refl _) (Or.inl rfl) (embed_rep a) (plain_refOK dbg ab b))
    (fun fuel hf => outerCombineWithS_rep (uok_plain dbg ab) (conv_detach_plain dbg ab (B := b.nodes) (by omega)) (key _)
      (Or.inl rfl) fuel _ _ _ _ (by omega) (Nat.le_refl _) (Or.inl rfl) (embed_rep a) (plain_refOK dbg ab b)),
   errs_of (N := 3 * (a.nodes + b.nodes)) (n1 := innerCombineWith (fill none f) a b)
    (n2 := innerCombineWith (fill (some []) f) a b) (fun h => fill_ne he ?_)
    (fun fuel hf => innerCombineWithS_rep (uok_plain dbg ab) (key _) fuel _ _ _ _ (by omega) (embed_rep a)
      (plain_refOK dbg ab b))
    (fun fuel hf => innerCombineWithS_rep (uok_plain dbg ab) (key _) fuel _ _ _ _ (by omega) (embed_rep a)
      (plain_refOK dbg ab b)),
   errs_of (N := 3 * (a.nodes + b.nodes)) (n1 := leftCombineWith (fill none f) a b)
    (n2 := leftCombineWith (fill (some []) f) a b) (fun h => fill_ne he ?_)
    (fun fuel hf => leftCombineWithS_rep (uok_plain dbg ab) (fun _ => Or.inr (plain_detached _ _)) (key _) fuel _ _ _ _
      (by omega) (Or.inr (plain_detached _ _)) (embed_rep a) (plain_refOK dbg ab b))
    (fun fuel hf => leftCombineWithS_rep (uok_plain dbg ab) (fun _ => Or.inr (plain_detached _ _)) (key _) fuel _ _ _ _
      (by omega) (Or.inr (plain_detached _ _)) (embed_rep a) (plain_refOK dbg ab b))⟩
  · have h1 := (C15_outer_combine_with ha hb .detach (fill none f) k).1
    rw [h, (C15_outer_combine_with ha hb .detach (fill (some []) f) k).1, hx, hy] at h1
    exact h1.symm
  · have h1 := (C16_inner_combine_with ha hb (fill none f) k).1
    rw [h, (C16_inner_combine_with ha hb (fill (some []) f) k).1, hx, hy] at h1
    exact h1.symm
  · have h1 := (C17_left_combine_with ha hb (fill none f) k).1
    rw [h, (C17_left_combine_with ha hb (fill (some []) f) k).1, hx, hy] at h1
    exact h1.symm

/-- **C36**: and if `f` never fails, the call succeeds with the contents of the join. -/
theorem C36_success_partial (hf : ∀ x y, ∃ v, f x y = .ok v) :
    (∃ r, Outcome (outerF dbg ab f a b) (.ok (), embed r) ∧ ∀ k, get r k = Spec.outer (fill none f) (get a k) (get b k)) ∧
    (∃ r, Outcome (innerF dbg ab f a b) (.ok (), embed r) ∧ ∀ k, get r k = Spec.inner (fill none f) (get a k) (get b k)) ∧
    (∃ r, Outcome (leftF dbg ab f a b) (.ok (), embed r) ∧ ∀ k, get r k = Spec.left (fill none f) (get a k) (get b k)) := by
  have key := fok_user dbg ab none f (E := False) fun ⟨x, y, e, h⟩ => by
    obtain ⟨v, hv⟩ := hf x y
    rw [hv] at h; cases h
  refine ⟨⟨_, ⟨3 * (a.nodes + b.nodes), fun fuel hfu => up_embed ?_⟩, fun k => (C15_outer_combine_with ha hb .detach _ k).1⟩,
    ⟨_, ⟨3 * (a.nodes + b.nodes), fun fuel hfu => up_embed ?_⟩, fun k => (C16_inner_combine_with ha hb _ k).1⟩,
    ⟨_, ⟨3 * (a.nodes + b.nodes), fun fuel hfu => up_embed ?_⟩, fun k => (C17_left_combine_with ha hb _ k).1⟩⟩
  · exact outerCombineWithS_rep (uok_plain dbg ab) (conv_detach_plain dbg ab (B := b.nodes) (by omega)) key
      (Or.inl rfl) fuel _ _ _ _ (by omega) (Nat.le_refl _) (Or.inl rfl) (embed_rep a) (plain_refOK dbg ab b)
  · exact innerCombineWithS_rep (uok_plain dbg ab) key fuel _ _ _ _ (by omega) (embed_rep a) (plain_refOK dbg ab b)
  · exact leftCombineWithS_rep (uok_plain dbg ab) (fun _ => Or.inr (plain_detached _ _)) key fuel _ _ _ _
      (by omega) (Or.inr (plain_detached _ _)) (embed_rep a) (plain_refOK dbg ab b)

end

/-- **C36** is false: a tree with the one entry `"" → 1` is combined with another one, and `f` fails. The call returns the
error of `f`, and the entry is gone. This happens in all three operations, with every behaviour of `InPlaceVecBuilder` on
errors. -/
theorem C36_false (dbg : Bool) (ab : List SNode → List SNode → List SNode) :
    get (single [] [1]) [] = some [1] ∧
    (∃ a', Outcome (outerF dbg ab (fun _ _ => .error ()) (single [] [1]) (single [] [2])) (.err (), a') ∧
      Outcome (fun fuel => getLoadS (detachedStore Unit) fuel () a' []) (.ok none)) ∧
    (∃ a', Outcome (innerF dbg ab (fun _ _ => .error ()) (single [] [1]) (single [] [2])) (.err (), a') ∧
      Outcome (fun fuel => getLoadS (detachedStore Unit) fuel () a' []) (.ok none)) ∧
    (∃ a', Outcome (leftF dbg ab (fun _ _ => .error ()) (single [] [1]) (single [] [2])) (.err (), a') ∧
      Outcome (fun fuel => getLoadS (detachedStore Unit) fuel () a' []) (.ok none)) := by
  have hg : Outcome (fun fuel => getLoadS (detachedStore Unit) fuel () (.ref (.data []) .none []) []) (.ok none) := by
    have h : getLoadS (detachedStore Unit) 1 () (.ref (.data []) .none []) [] = .ok none := by decide +kernel
    rw [← h]
    exact outcome_fuel (f := fun fuel => getLoadS (detachedStore Unit) fuel _ _ _)
      (fun n => leR_bind (getS_fuel _ _ n) fun _ => leR_refl _) (by show _ ≠ _; rw [h]; simp)
  refine ⟨by decide +kernel, ⟨_, ⟨1, fun fuel hf => ?_⟩, hg⟩, ⟨_, ⟨1, fun fuel hf => ?_⟩, hg⟩, ⟨_, ⟨1, fun fuel hf => ?_⟩, hg⟩⟩
  all_goals
    obtain ⟨n, rfl⟩ : ∃ n, fuel = n + 1 := ⟨fuel - 1, by omega⟩
    rfl

/-- A concrete case of `C36_error_partial` below the root: `sampleA` and `sampleB` have the key `"a"` in common. -/
example (dbg : Bool) (ab) : Errs (outerF dbg ab (fun x _ => if x = [1] then .error "no" else .ok none) sampleA sampleB) :=
  (C36_error_partial sampleA_reachable sampleB_reachable dbg ab (k := [97]) (x := [1]) (y := [5]) (e := "no")
    (by decide +kernel) (by decide +kernel) rfl).1

end Radix
