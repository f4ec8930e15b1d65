import Verif.Proofs.CombineFuel
import Verif.Props.StoredUpdate

/-
Property C43: the operations of the infallible API (`impl RadixTree`, src/node/mod.rs 3228-3483) run on the `Detached`
store, whose `read` and `write` panic (src/store/blob_store.rs 242-263). In the model of the stored trees
(Verif/Stored) `detachedStore` panics in the same places, and so do the branches that the code has not implemented
(`todo!()`). The theorems say that every call on every tree that the API can produce ends without a panic and without
an error, and that its result is the one of the model of plain trees (Verif/Tree), to which properties C01 - C27 apply.

`embed t` is the detached tree with the nodes of the plain tree `t`. `dbg` says whether debug assertions are compiled in.
-/

set_option linter.unusedVariables false

namespace Radix
open Node

section
variable (ε : Type)

/-- A function of the user on the two values of a common key, for the in-place combinations (src/node/mod.rs 3347-3378).
It can look only at values that are at hand. -/
def pureF (f : Bytes → Bytes → Option Bytes) : BlobV → BlobV → Res ε BlobV
  | .data x, .data y => .ok (embedVal (f x y))
  | _, _ => .panic

/-- The same for the copying combinations and the predicates (src/node/mod.rs 3285-3327). -/
def pureC {α : Type} (f : Bytes → Bytes → α) : BlobV → BlobV → Res ε α
  | .data x, .data y => .ok (f x y)
  | _, _ => .panic

/-- A predicate of the user on one value (src/node/mod.rs 3388-3404). -/
def pureP (f : Bytes → Bool) : BlobV → Res ε Bool
  | .data x => .ok (f x)
  | _ => .panic

/-- A function of the user on the path and the node, for `group_by` (src/node/mod.rs 3270-3282, 3166). -/
def pureD (d : Bytes → SNode → Bool) (path : Bytes) : Ref → Res ε Bool
  | .owned a => .ok (d path a)
  | .borrowed r => .ok (d path (.ref r.pfx r.val (match r.ch with | .id i => i | .data _ => [])))

/-- The trees that calls of the infallible API produce, in the model of the stored trees: every constructor is one call
that ended without a panic (src/node/mod.rs 3228-3483; `FromIterator` 3469-3477 is a sequence of `insert`s). -/
inductive DetTree : SNode → Prop
  | empty : DetTree .empty
  | leaf (v : Bytes) : DetTree (.ref (.data []) (.data v) [])
  | single (k v : Bytes) : DetTree (.ref (.data k) (.data v) [])
  | insert {a a'} (dbg ab) (k v : Bytes) : DetTree a →
      Outcome (fun fuel => insertS (detachedStore ε) () dbg ab fuel a k v) (.ok (), a') → DetTree a'
  | remove {a a'} (dbg ab) (k : Bytes) : DetTree a →
      Outcome (fun fuel => removeS (detachedStore ε) () dbg ab fuel a k) (.ok (), a') → DetTree a'
  | removePrefix {a a'} (dbg ab) (p : Bytes) : DetTree a →
      Outcome (fun fuel => removePrefixS (detachedStore ε) () dbg ab fuel a p) (.ok (), a') → DetTree a'
  | filterPrefix {a a'} (p s : Bytes) : DetTree a →
      Outcome (fun fuel => filterPrefixS (detachedStore ε) fuel () a p s) (.ok a') → DetTree a'
  | outerCombineWith {a b a'} (dbg ab f) : DetTree a → DetTree b →
      Outcome (fun fuel => outerCombineWithS (plainEnv ε dbg ab) (SConv.detach (detachedStore ε) () fuel) (pureF ε f) fuel a
        (.owned b)) (.ok (), a') → DetTree a'
  | innerCombineWith {a b a'} (dbg ab f) : DetTree a → DetTree b →
      Outcome (fun fuel => innerCombineWithS (plainEnv ε dbg ab) (pureF ε f) fuel a (.owned b)) (.ok (), a') → DetTree a'
  | leftCombineWith {a b a'} (dbg ab f) : DetTree a → DetTree b →
      Outcome (fun fuel => leftCombineWithS (plainEnv ε dbg ab) (pureF ε f) fuel a (.owned b)) (.ok (), a') → DetTree a'
  | retainPrefixWith {a b a'} (dbg ab f) : DetTree a → DetTree b →
      Outcome (fun fuel => retainPrefixWithS (plainEnv ε dbg ab) (pureP ε f) fuel a (.owned b)) (.ok (), a') → DetTree a'
  | removePrefixWith {a b a'} (dbg ab f) : DetTree a → DetTree b →
      Outcome (fun fuel => removePrefixWithS (plainEnv ε dbg ab) (pureP ε f) fuel a (.owned b)) (.ok (), a') → DetTree a'
  | outerCombine {a b t} (f) : DetTree a → DetTree b →
      Outcome (fun fuel => outerCombineS (detachedStore ε) () (detachedStore ε) () (pureC ε f) fuel (.owned a) (.owned b))
        (.ok t) → DetTree (embed t)
  | innerCombine {a b t} (f) : DetTree a → DetTree b →
      Outcome (fun fuel => innerCombineS (detachedStore ε) () (detachedStore ε) () (pureC ε f) fuel (.owned a) (.owned b))
        (.ok t) → DetTree (embed t)
  | leftCombine {a b t} (f) : DetTree a → DetTree b →
      Outcome (fun fuel => leftCombineS (detachedStore ε) () (detachedStore ε) () (pureC ε f) fuel (.owned a) (.owned b))
        (.ok t) → DetTree (embed t)
  | groupBy {a g log} (d) : DetTree a → IterLog (groupNextS (detachedStore ε) (pureD ε d)) (groupByS a) log →
      ((), some (.ok g)) ∈ log → DetTree g
  | detached {a t} : DetTree a → Outcome (fun fuel => detachedS (detachedStore ε) () fuel a) (.ok t) → DetTree (embed t)

/-- `n` calls of `next`: they all return, and the results are the items of the list, in this order, then `None` forever. -/
def Yields {ι α : Type} (next : Unit → Nat → ι → Res Empty (Option (Except ε α) × ι)) (s : ι) (l : List α) : Prop :=
  ∀ n : Nat, ∃ log, log.length = n ∧ IterLog next s log ∧ ∀ (i : Nat) (h : i < log.length), log[i].2 = (l[i]?).map .ok

variable {ε}

/-! ### Tools -/

theorem rp_exact {α} {x : Res ε α} {y : α} (h : RP False False x (· = y)) : x = .ok y := by
  cases x with
  | ok a => rw [show a = y from h]
  | err _ => exact h.elim
  | panic => exact h.elim
  | deep => exact h.elim

theorem up_absurd {E : Prop} {x : Res ε Unit × SNode} {Q : Unit → SNode → Prop} (h : UP E False x Q) (hE : ¬ E) :
    UP False False x Q := by
  rcases x with ⟨_ | _ | _ | _, a⟩
  · exact h
  · exact (hE h).elim
  · exact h.elim
  · exact h.elim

theorem rpost_exact {α} {x : Res ε α} {Q : α → Prop} {y : α} (h : RPost (lawfulDetached ε) () x Q)
    (hq : ∀ a, Q a → a = y) : x = .ok y := by
  obtain ⟨a, rfl, ha⟩ := rpost_success h (readsSucceed_detached ())
  rw [hq a ha]

theorem side_plain : SideOK (lawfulDetached ε) () False False :=
  ⟨fun h => absurd (readsSucceed_detached ()) h, Or.inr (plain_detached _ _)⟩

theorem fok_pure (dbg : Bool) (ab) (f : Bytes → Bytes → Option Bytes) {E : Prop} :
    FOK (e := plainEnv ε dbg ab) (lawfulDetached ε) (lawfulDetached ε) E False (pureF ε f) f := by
  intro av bv x y ha hb
  have h1 : av = .data x := repPlain_val (plain_detached _ _) ha
  have h2 : bv = .data y := repPlain_val (plain_detached _ _) hb
  subst h1 h2
  exact embedVal_rep _

theorem cfok_pure {α : Type} (f : Bytes → Bytes → α) :
    CFOK (lawfulDetached ε) () (lawfulDetached ε) () False False (pureC ε f) f := by
  intro av bv x y ha hb
  have h1 : av = .data x := repPlain_val (plain_detached _ _) ha
  have h2 : bv = .data y := repPlain_val (plain_detached _ _) hb
  subst h1 h2
  exact rp_ok rfl

theorem predOK_pure (dbg : Bool) (ab) (f : Bytes → Bool) :
    PredOK (e := plainEnv ε dbg ab) (lawfulDetached ε) False False (pureP ε f) f := by
  intro bv y hb
  have h2 : bv = .data y := repPlain_val (plain_detached _ _) hb
  subst h2
  exact rp_ok rfl

theorem refS_embed (n : Node) : RefS (lawfulDetached ε) () false False (.owned (embed n)) n := refS_owned (embed_rep n)

theorem oval_plain {o : Option BlobV} {v : Option Bytes} (h : OValRep (lawfulDetached ε) () o v) : o = v.map .data := by
  rcases oval_cases h with ⟨rfl, rfl⟩ | ⟨b, w, rfl, rfl, hb⟩
  · rfl
  · rw [show b = .data w from repPlain_val (plain_detached _ _) hb]; rfl

theorem oent_plain {o : Option (Bytes × BlobV)} {v : Option (Bytes × Bytes)} (h : OEntRep (lawfulDetached ε) () o v) :
    o = v.map fun e => (e.1, .data e.2) := by
  rcases o with _ | ⟨k, b⟩ <;> rcases v with _ | ⟨k', w⟩
  · rfl
  · exact h.elim
  · exact h.elim
  · obtain ⟨h1, h2⟩ := h
    have h1 : k = k' := h1
    rw [show b = .data w from repPlain_val (plain_detached _ _) h2, h1]; rfl

/-! ### Changing a tree -/

section
variable (t u : Node) (dbg : Bool) (ab : List SNode → List SNode → List SNode)

/-- **C43**, `insert`, `remove`, `remove_prefix`: no panic, no error, and the result of the plain tree. -/
theorem C43_insert (k v : Bytes) :
    Outcome (fun fuel => insertS (detachedStore ε) () dbg ab fuel (embed t) k v) (.ok (), embed (insert t k v)) :=
  ⟨_, fun fuel hf => up_embed (up_absurd (insertS_rep (embed_rep t) (Or.inl rfl) dbg ab hf k v)
    fun h => h (readsSucceed_detached ()))⟩

theorem C43_remove (k : Bytes) :
    Outcome (fun fuel => removeS (detachedStore ε) () dbg ab fuel (embed t) k) (.ok (), embed (remove t k)) :=
  ⟨_, fun fuel hf => up_embed (leftCombineWithS_rep (e := singleEnv (detachedStore ε) () dbg ab) (LA := lawfulDetached ε)
    (LB := lawfulDetached ε) (gb := false) (f := fun _ _ => .ok .none) (ff := fun _ _ => none) (uok_plain dbg ab)
    (fun _ => Or.inr (plain_detached _ _)) (fun _ _ _ _ _ _ => rfl) fuel _ _ t (single k [])
    (by simpa [single, nodes, nodesO] using hf) (Or.inr (plain_detached _ _)) (embed_rep t) (single_refOK dbg ab _ _ _))⟩

theorem C43_remove_prefix (p : Bytes) :
    Outcome (fun fuel => removePrefixS (detachedStore ε) () dbg ab fuel (embed t) p) (.ok (), embed (removePrefix t p)) :=
  ⟨_, fun fuel hf => up_embed (removePrefixWithS_rep (e := singleEnv (detachedStore ε) () dbg ab) (LA := lawfulDetached ε)
    (LB := lawfulDetached ε) (gb := false) (f := fun _ => .ok true) (ff := fun _ => true) (uok_plain dbg ab)
    (fun _ => Or.inr (plain_detached _ _)) (fun _ _ _ => rfl) fuel _ _ t (single p [])
    (by simpa [single, nodes, nodesO] using hf) (Or.inr (plain_detached _ _)) (embed_rep t) (single_refOK dbg ab _ _ _))⟩

/-- **C43**, `outer_combine_with`. -/
theorem C43_outer_combine_with (f) :
    Outcome (fun fuel => outerCombineWithS (plainEnv ε dbg ab) (SConv.detach (detachedStore ε) () fuel) (pureF ε f) fuel
      (embed t) (.owned (embed u))) (.ok (), embed (outerCombineWith .detach f t u)) :=
  ⟨3 * (t.nodes + u.nodes), fun fuel hf => up_embed (outerCombineWithS_rep (uok_plain dbg ab)
    (conv_detach_plain dbg ab (B := u.nodes) (by omega)) (fok_pure dbg ab f) (Or.inl rfl) fuel _ _ _ _ (by omega)
    (Nat.le_refl _) (Or.inl rfl) (embed_rep t) (plain_refOK dbg ab u))⟩

/-- **C43**, `inner_combine_with`. -/
theorem C43_inner_combine_with (f) :
    Outcome (fun fuel => innerCombineWithS (plainEnv ε dbg ab) (pureF ε f) fuel (embed t) (.owned (embed u)))
      (.ok (), embed (innerCombineWith f t u)) :=
  ⟨_, fun fuel hf => up_embed (innerCombineWithS_rep (uok_plain dbg ab) (fok_pure dbg ab f) fuel _ _ _ _ hf (embed_rep t)
    (plain_refOK dbg ab u))⟩

/-- **C43**, `left_combine_with`. -/
theorem C43_left_combine_with (f) :
    Outcome (fun fuel => leftCombineWithS (plainEnv ε dbg ab) (pureF ε f) fuel (embed t) (.owned (embed u)))
      (.ok (), embed (leftCombineWith f t u)) :=
  ⟨_, fun fuel hf => up_embed (leftCombineWithS_rep (uok_plain dbg ab) (fun _ => Or.inr (plain_detached _ _))
    (fok_pure dbg ab f) fuel _ _ _ _ hf (Or.inr (plain_detached _ _)) (embed_rep t) (plain_refOK dbg ab u))⟩

/-- **C43**, `retain_prefix_with`. -/
theorem C43_retain_prefix_with (f) :
    Outcome (fun fuel => retainPrefixWithS (plainEnv ε dbg ab) (pureP ε f) fuel (embed t) (.owned (embed u)))
      (.ok (), embed (retainPrefixWith f t u)) :=
  ⟨_, fun fuel hf => up_embed (retainPrefixWithS_rep (uok_plain dbg ab) (fun _ => Or.inr (plain_detached _ _))
    (predOK_pure dbg ab f) fuel _ _ _ _ hf (Or.inr (plain_detached _ _)) (embed_rep t) (plain_refOK dbg ab u))⟩

/-- **C43**, `remove_prefix_with`. -/
theorem C43_remove_prefix_with (f) :
    Outcome (fun fuel => removePrefixWithS (plainEnv ε dbg ab) (pureP ε f) fuel (embed t) (.owned (embed u)))
      (.ok (), embed (removePrefixWith f t u)) :=
  ⟨_, fun fuel hf => up_embed (removePrefixWithS_rep (uok_plain dbg ab) (fun _ => Or.inr (plain_detached _ _))
    (predOK_pure dbg ab f) fuel _ _ _ _ hf (Or.inr (plain_detached _ _)) (embed_rep t) (plain_refOK dbg ab u))⟩

end

/-! ### Copying combinations and predicates -/

section
variable (t u : Node)

/-- **C43**, `outer_combine`. -/
theorem C43_outer_combine (f) :
    Outcome (fun fuel => outerCombineS (detachedStore ε) () (detachedStore ε) () (pureC ε f) fuel (.owned (embed t))
      (.owned (embed u))) (.ok (outerCombine f t u)) :=
  ⟨_, fun fuel hf => rp_exact (outerCombineS_rep side_plain side_plain (cfok_pure f) fuel _ _ _ _ hf (refS_embed t)
    (refS_embed u))⟩

/-- **C43**, `inner_combine`. -/
theorem C43_inner_combine (f) :
    Outcome (fun fuel => innerCombineS (detachedStore ε) () (detachedStore ε) () (pureC ε f) fuel (.owned (embed t))
      (.owned (embed u))) (.ok (innerCombine f t u)) :=
  ⟨_, fun fuel hf => rp_exact (innerCombineS_rep side_plain side_plain (cfok_pure f) fuel _ _ _ _ hf (refS_embed t)
    (refS_embed u))⟩

/-- **C43**, `left_combine`. -/
theorem C43_left_combine (f) :
    Outcome (fun fuel => leftCombineS (detachedStore ε) () (detachedStore ε) () (pureC ε f) fuel (.owned (embed t))
      (.owned (embed u))) (.ok (leftCombine f t u)) :=
  ⟨_, fun fuel hf => rp_exact (leftCombineS_rep side_plain side_plain (cfok_pure f) fuel _ _ _ _ hf (refS_embed t)
    (refS_embed u))⟩

/-- **C43**, `inner_combine_pred`. -/
theorem C43_inner_combine_pred (f) :
    Outcome (fun fuel => innerCombinePredS (detachedStore ε) () (detachedStore ε) () (pureC ε f) fuel (.owned (embed t))
      (.owned (embed u))) (.ok (innerCombinePred f t u)) :=
  ⟨_, fun fuel hf => rp_exact (innerCombinePredS_rep side_plain side_plain (cfok_pure f) fuel _ _ _ _ hf (refS_embed t)
    (refS_embed u))⟩

/-- **C43**, `left_combine_pred`. -/
theorem C43_left_combine_pred (f) :
    Outcome (fun fuel => leftCombinePredS (detachedStore ε) () (detachedStore ε) () (pureC ε f) fuel (.owned (embed t))
      (.owned (embed u))) (.ok (leftCombinePred f t u)) :=
  ⟨_, fun fuel hf => rp_exact (leftCombinePredS_rep side_plain side_plain (cfok_pure f) fuel _ _ _ _ hf (refS_embed t)
    (refS_embed u))⟩

end

/-! ### Reading -/

section
variable {t : Node} (h : Reachable t)
include h

/-- **C43**, `get`, `contains_key`, `has_prefix`, `filter_prefix`. -/
theorem C43_get (k : Bytes) :
    Outcome (fun fuel => getS (detachedStore ε) fuel () (embed t) k) (.ok ((get t k).map .data)) ∧
    Outcome (fun fuel => containsKeyS (detachedStore ε) fuel () (embed t) k) (.ok (containsKey t k)) ∧
    Outcome (fun fuel => hasPrefixS (detachedStore ε) fuel () (embed t) k) (.ok (hasPrefix t k)) ∧
    ∀ s, Outcome (fun fuel => filterPrefixS (detachedStore ε) fuel () (embed t) k s) (.ok (embed (filterPrefix t k s))) := by
  have ho := reach_ord h
  have hr := embed_rep (L := lawfulDetached ε) (st := ()) (g := false) t
  exact ⟨⟨_, fun fuel hf => rpost_exact (getS_rep ho hr hf k) fun _ => oval_plain⟩,
    ⟨_, fun fuel hf => rpost_exact (containsKeyS_rep ho hr hf k) fun _ => id⟩,
    ⟨_, fun fuel hf => rpost_exact (hasPrefixS_rep ho hr hf k) fun _ => id⟩,
    fun s => ⟨_, fun fuel hf => rpost_exact (filterPrefixS_rep ho hr hf k s) fun _ => repPlain (plain_detached _ _) _ _⟩⟩

omit h in
/-- **C43**, `first_value`, `last_value`, `first_entry`, `last_entry`. -/
theorem C43_first_last (p : Bytes) :
    Outcome (fun fuel => firstValueS (detachedStore ε) () fuel (.owned (embed t))) (.ok ((firstValue t).map .data)) ∧
    Outcome (fun fuel => lastValueS (detachedStore ε) () fuel (.owned (embed t))) (.ok ((lastValue t).map .data)) ∧
    Outcome (fun fuel => firstEntryS (detachedStore ε) () fuel p (.owned (embed t)))
      (.ok ((firstEntry p t).map fun e => (e.1, .data e.2))) ∧
    Outcome (fun fuel => lastEntryS (detachedStore ε) () fuel p (.owned (embed t)))
      (.ok ((lastEntry p t).map fun e => (e.1, .data e.2))) := by
  have hr : RefRep (lawfulDetached ε) false () (.owned (embed t)) t := embed_rep t
  exact ⟨⟨_, fun fuel hf => rpost_exact (firstValueS_rep hr hf) fun _ => oval_plain⟩,
    ⟨_, fun fuel hf => rpost_exact (lastValueS_rep hr hf) fun _ => oval_plain⟩,
    ⟨_, fun fuel hf => rpost_exact (firstEntryS_rep hr hf) fun _ => oent_plain⟩,
    ⟨_, fun fuel hf => rpost_exact (lastEntryS_rep hr hf) fun _ => oent_plain⟩⟩

omit h in
/-- **C43**, `detached`. -/
theorem C43_detached : Outcome (fun fuel => detachedS (detachedStore ε) () fuel (embed t)) (.ok t.detached) :=
  ⟨_, fun fuel hf => rpost_exact (detachedS_rep.1 (embed_rep (L := lawfulDetached ε) (st := ()) (g := false) t) hf)
    fun _ => id⟩

omit h in
theorem yields_of {ι α β : Type} {next : Unit → Nat → ι → Res Empty (Option (Except ε α) × ι)} {s : ι} {l : List β}
    {same : Unit → α → β → Prop} (emb : β → α) (hs : ∀ a b, same () a b → a = emb b)
    (h : ∀ sts : List Unit, ∃ log, log.map (·.1) = sts ∧ IterLog next s log ∧ GoodLog (lawfulDetached ε) same l log) :
    Yields ε next s (l.map emb) := by
  intro n
  obtain ⟨log, h1, h2, h3⟩ := h (List.replicate n ())
  refine ⟨log, by simpa using congrArg List.length h1, h2, ?_⟩
  clear h1 h2 h
  induction log generalizing l with
  | nil => intro i h; simp at h
  | cons e log ih =>
    obtain ⟨_, o⟩ := e
    intro i hi
    cases l with
    | nil =>
      cases o with
      | none =>
        cases i with
        | zero => rfl
        | succ i => simpa using h3 _ (List.getElem_mem (by simpa using hi))
      | some r =>
        cases r with
        | ok a => exact h3.elim
        | error e => exact absurd (readsSucceed_detached ()) h3.1
    | cons b l =>
      cases o with
      | none => exact h3.elim
      | some r =>
        cases r with
        | error e => exact absurd (readsSucceed_detached ()) h3.1
        | ok a =>
          cases i with
          | zero => simp [hs _ _ h3.1]
          | succ i => simpa using ih h3.2 i (by simpa using hi)

omit h in
theorem later_unit : ∀ sts : List Unit, Later (lawfulDetached ε) () sts
  | [] => trivial
  | () :: sts => ⟨Mono.refl _ _, later_unit sts⟩

omit h in
theorem holds_plain {v : BlobV} {d : Bytes} (hv : Holds (lawfulDetached ε) () v d) : v = .data d := by
  rcases hv () (Mono.refl _ _) with h | ⟨_, h⟩
  · cases v with
    | data x => simpa [BlobV.load] using h
    | id i => simp [BlobV.load, detachedStore] at h
  · exact absurd (readsSucceed_detached ()) h

omit h in
/-- **C43**, `iter`, `values`: the iterators yield what the plain model lists. -/
theorem C43_iter :
    Yields ε (SIter.next (detachedStore ε)) (iterS (embed t)) ((iter t).map fun e => (e.1, .data e.2)) ∧
    Yields ε (valNextS (detachedStore ε)) (valuesS (embed t)) ((values t).map .data) := by
  have hr := embed_rep (L := lawfulDetached ε) (st := ()) (g := false) t
  constructor
  · refine yields_of (same := SameEntry (lawfulDetached ε)) (fun e => (e.1, .data e.2))
      (fun a b h => Prod.ext h.1 (holds_plain h.2)) fun sts => ?_
    rw [← iter_stack]
    exact iter_log sts (iterS_rep hr) (later_unit sts)
  · refine yields_of (same := Holds (lawfulDetached ε)) .data (fun a b h => holds_plain h) fun sts => ?_
    rw [← vals_stack]
    exact val_log (g := false) sts (s' := [[t]]) (by simpa [valuesS, VStackRep, IterRep, RepL] using hr) (later_unit sts)

/-- **C43**, `scan_prefix`. -/
theorem C43_scan_prefix (p : Bytes) :
    ∃ s, Outcome (fun fuel => scanPrefixS (detachedStore ε) fuel () (embed t) p) (.ok s) ∧
      Yields ε (SIter.next (detachedStore ε)) s ((scanPrefix t p).map fun e => (e.1, .data e.2)) := by
  have hr := embed_rep (L := lawfulDetached ε) (st := ()) (g := false) t
  obtain ⟨r, hor, hr⟩ := rpost_outcome (fun n => scanPrefixS_fuel (embed t) p n)
    (scanPrefixS_rep (reach_ord h) hr (Nat.le_refl _) p)
  obtain ⟨s, rfl, hs⟩ := rpost_success hr (readsSucceed_detached ())
  refine ⟨s, hor, yields_of (same := SameEntry (lawfulDetached ε)) (fun e => (e.1, .data e.2))
      (fun a b h => Prod.ext h.1 (holds_plain h.2)) fun sts => ?_⟩
  rw [← scan_stack]
  exact iter_log sts hs (later_unit sts)

omit h in
/-- **C43**, `group_by`. -/
theorem C43_group_by (d : Bytes → SNode → Bool) :
    Yields ε (groupNextS (detachedStore ε) (pureD ε d)) (groupByS (embed t))
      ((groupBy t fun path n => d path (embed n)).map embed) := by
  have hr := embed_rep (L := lawfulDetached ε) (st := ()) (g := false) t
  refine yields_of (same := Rep (lawfulDetached ε) false) embed (fun a b h => repPlain (plain_detached _ _) _ _ h)
    fun sts => ?_
  rw [groupBy, groupToList_groups]
  refine group_log_rep (g := false) ?_ sts (iterS_rep hr) (later_unit sts)
  intro _ path r n hn
  cases r with
  | owned a =>
    have : a = embed n := repPlain (plain_detached _ _) _ _ hn
    subst this
    exact rpost_ok rfl
  | borrowed r =>
    obtain ⟨i, hi, hn⟩ := hn
    have : SNode.ref r.pfx r.val i = embed n := repPlain (plain_detached _ _) _ _ hn
    refine rpost_ok ?_
    rw [hi, ← this]

end

/-! ### Histories -/

theorem iterLog_unique {ι α : Type} {next : Unit → Nat → ι → Res Empty (Option (Except ε α) × ι)} {s : ι} {l1 l2}
    (h1 : IterLog next s l1) (h2 : IterLog next s l2) (hl : l1.length = l2.length) : l1 = l2 := by
  induction h1 generalizing l2 with
  | nil => cases h2 with
    | nil => rfl
    | cons _ _ => simp at hl
  | @cons s s' st r rest ho _ ih =>
    cases h2 with
    | nil => simp at hl
    | @cons _ s2 st2 r2 rest2 ho2 hr2 =>
      have e := outcome_unique ho ho2
      simp only [Res.ok.injEq, Prod.mk.injEq] at e
      obtain ⟨rfl, rfl⟩ := e
      rw [ih hr2 (by simpa using hl)]

/-- **C43**: every tree that the infallible API produces is one of the plain model, with all its values and prefixes at
hand. So the theorems above apply to it: no call on it panics. -/
theorem C43_history {a : SNode} (h : DetTree ε a) : ∃ t, Reachable t ∧ a = embed t := by
  have ok {x y : SNode} {f : Nat → Res ε Unit × SNode} (h1 : Outcome f (.ok (), x)) (h2 : Outcome f (.ok (), y)) : x = y :=
    congrArg Prod.snd (outcome_unique h1 h2)
  have rok {α : Type} {x y : α} {f : Nat → Res ε α} (h1 : Outcome f (.ok x)) (h2 : Outcome f (.ok y)) : x = y :=
    Res.ok.inj (outcome_unique h1 h2)
  induction h with
  | empty => exact ⟨_, .empty, rfl⟩
  | leaf v => exact ⟨_, .leaf v, rfl⟩
  | single k v => exact ⟨_, .single k v, rfl⟩
  | insert dbg ab k v _ ho ih =>
    obtain ⟨t, ht, rfl⟩ := ih
    exact ⟨_, .insert k v ht, ok ho (C43_insert t dbg ab k v)⟩
  | remove dbg ab k _ ho ih =>
    obtain ⟨t, ht, rfl⟩ := ih
    exact ⟨_, .remove k ht, ok ho (C43_remove t dbg ab k)⟩
  | removePrefix dbg ab p _ ho ih =>
    obtain ⟨t, ht, rfl⟩ := ih
    exact ⟨_, .removePrefix p ht, ok ho (C43_remove_prefix t dbg ab p)⟩
  | filterPrefix p s _ ho ih =>
    obtain ⟨t, ht, rfl⟩ := ih
    exact ⟨_, .filterPrefix p s ht (by simp), rok ho ((C43_get ht p).2.2.2 s)⟩
  | outerCombineWith dbg ab f _ _ ho ih ih' =>
    obtain ⟨t, ht, rfl⟩ := ih
    obtain ⟨u, hu, rfl⟩ := ih'
    exact ⟨_, .outerCombineWith .detach f ht hu, ok ho (C43_outer_combine_with t u dbg ab f)⟩
  | innerCombineWith dbg ab f _ _ ho ih ih' =>
    obtain ⟨t, ht, rfl⟩ := ih
    obtain ⟨u, hu, rfl⟩ := ih'
    exact ⟨_, .innerCombineWith f ht hu, ok ho (C43_inner_combine_with t u dbg ab f)⟩
  | leftCombineWith dbg ab f _ _ ho ih ih' =>
    obtain ⟨t, ht, rfl⟩ := ih
    obtain ⟨u, hu, rfl⟩ := ih'
    exact ⟨_, .leftCombineWith f ht hu, ok ho (C43_left_combine_with t u dbg ab f)⟩
  | retainPrefixWith dbg ab f _ _ ho ih ih' =>
    obtain ⟨t, ht, rfl⟩ := ih
    obtain ⟨u, hu, rfl⟩ := ih'
    exact ⟨_, .retainPrefixWith f ht hu, ok ho (C43_retain_prefix_with t u dbg ab f)⟩
  | removePrefixWith dbg ab f _ _ ho ih ih' =>
    obtain ⟨t, ht, rfl⟩ := ih
    obtain ⟨u, hu, rfl⟩ := ih'
    exact ⟨_, .removePrefixWith f ht hu, ok ho (C43_remove_prefix_with t u dbg ab f)⟩
  | outerCombine f _ _ ho ih ih' =>
    obtain ⟨t, ht, rfl⟩ := ih
    obtain ⟨u, hu, rfl⟩ := ih'
    exact ⟨_, .outerCombine f ht hu, congrArg embed (rok ho (C43_outer_combine t u f))⟩
  | innerCombine f _ _ ho ih ih' =>
    obtain ⟨t, ht, rfl⟩ := ih
    obtain ⟨u, hu, rfl⟩ := ih'
    exact ⟨_, .innerCombine f ht hu, congrArg embed (rok ho (C43_inner_combine t u f))⟩
  | leftCombine f _ _ ho ih ih' =>
    obtain ⟨t, ht, rfl⟩ := ih
    obtain ⟨u, hu, rfl⟩ := ih'
    exact ⟨_, .leftCombine f ht hu, congrArg embed (rok ho (C43_left_combine t u f))⟩
  | groupBy d _ hl hm ih =>
    obtain ⟨t, ht, rfl⟩ := ih
    obtain ⟨log, h1, h2, h3⟩ := C43_group_by (t := t) d _
    have := iterLog_unique hl h2 h1.symm
    subst this
    obtain ⟨i, hi, he⟩ := List.getElem_of_mem hm
    have h3 := h3 i hi
    rw [he] at h3
    simp only [List.getElem?_map] at h3
    cases e : (groupBy t fun path n => d path (embed n))[i]? with
    | none => rw [e] at h3; cases h3
    | some u =>
      rw [e] at h3
      simp only [Option.map_some, Option.some.injEq, Except.ok.injEq] at h3
      exact ⟨u, .groupBy _ u ht (List.mem_of_getElem? e), h3⟩
  | detached _ ho ih =>
    obtain ⟨t, ht, rfl⟩ := ih
    exact ⟨_, .detached ht, congrArg embed (rok ho C43_detached)⟩

/-- A history with a lookup, an update, a combination and an iteration. -/
example : DetTree Empty (embed (outerCombineWith .detach (fun _ y => some y) (insert (single [1, 1] [5]) [1, 2] [6])
    (single [1, 1] [7]))) ∧
    iter (outerCombineWith .detach (fun _ y => some y) (insert (single [1, 1] [5]) [1, 2] [6]) (single [1, 1] [7])) =
      [([1, 1], [7]), ([1, 2], [6])] :=
  ⟨.outerCombineWith false (fun a _ => a) (fun _ y => some y) (.insert false (fun a _ => a) [1, 2] [6] (.single [1, 1] [5])
    (C43_insert (single [1, 1] [5]) _ _ _ _)) (.single [1, 1] [7]) (C43_outer_combine_with _ (single [1, 1] [7]) _ _ _),
    by decide +kernel⟩

end

end Radix
