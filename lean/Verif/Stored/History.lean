import Verif.Stored.Update
import Verif.Tree.Api
import Verif.Spec.Format

/-
The trees a user of the fallible API (`impl RadixTree<S>`, src/node/mod.rs 3486-3820) can get hold of when they are
attached to a store, and the vocabulary to speak about outcomes of calls on them.
-/

set_option linter.unusedVariables false

namespace Radix

/-- The call has this outcome: it is the outcome of the model for every large enough bound on the levels of recursion.
The bound is a device of the model (see `Res.deep`); the code has none. For src/node/mod.rs 3406-3819. -/
def Outcome {α : Type} (x : Nat → α) (y : α) : Prop := ∃ N, ∀ fuel, N ≤ fuel → x fuel = y

section
variable {σ ε : Type} {S : BlobStore σ ε}

/-- The read returns `y`, or an error, the latter only if some read of a blob that the store has fails. In particular it
does not panic. For src/node/mod.rs 3406-3819. -/
def Agrees (L : Lawful S) {α : Type} (st : σ) (x : Nat → Res ε α) (y : α) : Prop :=
  ∃ r, Outcome x r ∧ (r = .ok y ∨ (∃ e, r = .err e) ∧ ¬ ReadsSucceed L st)

/-- `Value::load` (src/node/mod.rs 606-614) on the value of an option. -/
def loadOptV (S : BlobStore σ ε) (st : σ) : Option BlobV → Res ε (Option Bytes)
  | none => .ok none
  | some v => (v.load S st).bind fun d => .ok (some d)

/-- `Value::load` (src/node/mod.rs 606-614) on the value of an optional entry. -/
def loadOptE (S : BlobStore σ ε) (st : σ) : Option (Bytes × BlobV) → Res ε (Option (Bytes × Bytes))
  | none => .ok none
  | some (k, v) => (v.load S st).bind fun d => .ok (some (k, d))

/-- `try_get` (src/node/mod.rs 3495-3497) and `Value::load` (606-614) of the result. -/
def getLoadS (S : BlobStore σ ε) (fuel : Nat) (st : σ) (a : SNode) (k : Bytes) : Res ε (Option Bytes) :=
  (getS S fuel st a k).bind (loadOptV S st)

/-- The value is the bytes `d`: at hand, or as the id of a blob (src/node/mod.rs 556-560, `Value`, and 441-517, `ValueRef`). -/
def IsValue (L : Lawful S) (st : σ) (v : BlobV) (d : Bytes) : Prop :=
  v = .data d ∨ ∃ i, v = .id i ∧ i ≠ [] ∧ i.length < 128 ∧ L.Has st i d

end

/-- The results of a function of the user on two values, where it succeeds (the parameter `f` of the in-place operations,
src/node/mod.rs 3606-3775); `F x y w` says that `w` may come of the values `x` and `y`.
(`deep` is a device of the model, functions of the user do not return it.) -/
def Computes {σ τ ε : Type} {S : BlobStore σ ε} {T : BlobStore τ ε} (L : Lawful S) (st : σ) (M : Lawful T) (st' : τ)
    (f : BlobV → BlobV → Res ε BlobV) (F : Bytes → Bytes → Option Bytes → Prop) : Prop :=
  ∀ av bv x y, IsValue L st av x → IsValue M st' bv y → f av bv ≠ .deep ∧ ∀ v, f av bv = .ok v →
    v = .none ∧ F x y none ∨ ∃ z, IsValue L st v z ∧ F x y (some z)

/-- The results of a predicate of the user, where it succeeds. For src/node/mod.rs 3690-3809. -/
def Decides {τ ε : Type} {T : BlobStore τ ε} (M : Lawful T) (st' : τ) (p : BlobV → Res ε Bool) (pp : Bytes → Bool) : Prop :=
  ∀ bv y, IsValue M st' bv y → p bv ≠ .deep ∧ ∀ r, p bv = .ok r → r = pp y

/-- The trees of type `RadixTree<S>` that a user can get by successful calls of the fallible API
(src/node/mod.rs 3406-3428, 3495-3540, 3606-3775, 3813-3819): `Att S L long st a m` says that `a` is such a tree when the
store is in the state `st`, and that the same calls on a plain map give `m`. `long = false` leaves out histories that write
keys of 128 or more bytes to the store; with `long = true` there are no removals (finding F7 in DESIGN.md says why). Every
call may be made with or without debug assertions. Any number of writes by others can come between two calls (`later`).
A tree may also be loaded that some other program has written, if it follows the documented format (`foreign`).
The other tree of an in-place combination may be attached to any store, or be a detached tree (`plain`, with the store
`Detached`). What `retain_prefix_with` keeps is that of `C20_retain_prefix_with_exact`. -/
inductive Att {ε : Type} : {σ : Type} → (S : BlobStore σ ε) → Lawful S → Bool → σ → SNode → Spec.Map → Prop
  | empty {σ : Type} {S : BlobStore σ ε} {L : Lawful S} {long : Bool} (st : σ) : Att S L long st SNode.empty .empty
  | plain {σ : Type} {S : BlobStore σ ε} {L : Lawful S} {long : Bool} {t : Node} (st : σ) : Proper t →
      Att S L long st (embed t) (get t)
  | attach {σ : Type} {S : BlobStore σ ε} {L : Lawful S} {long : Bool} {t : Node} {st st' : σ} {a : SNode} : Proper t →
      (long = false → ∀ k v, get t k = some v → k.length < 128) →
      tryAttached S t st = (.ok a, st') → Att S L long st' a (get t)
  | insert {σ : Type} {S : BlobStore σ ε} {L : Lawful S} {long : Bool} {st : σ} {a a' : SNode} {m : Spec.Map} (dbg : Bool) (ab)
      (k v : Bytes) : Att S L long st a m →
      Outcome (fun fuel => insertS S st dbg ab fuel a k v) (.ok (), a') → Att S L long st a' (m.insert k v)
  | remove {σ : Type} {S : BlobStore σ ε} {L : Lawful S} {long : Bool} {st : σ} {a a' : SNode} {m : Spec.Map} (dbg : Bool) (ab)
      (k : Bytes) : long = false → Att S L long st a m →
      Outcome (fun fuel => removeS S st dbg ab fuel a k) (.ok (), a') → Att S L long st a' (m.erase k)
  | removePrefix {σ : Type} {S : BlobStore σ ε} {L : Lawful S} {long : Bool} {st : σ} {a a' : SNode} {m : Spec.Map} (dbg : Bool)
      (ab) (p : Bytes) : long = false →
      Att S L long st a m → Outcome (fun fuel => removePrefixS S st dbg ab fuel a p) (.ok (), a') →
      Att S L long st a' (m.erasePrefix p)
  | filterPrefix {σ : Type} {S : BlobStore σ ε} {L : Lawful S} {long : Bool} {st : σ} {a a' : SNode} {m : Spec.Map}
      (p s : Bytes) : Att S L long st a m →
      (s = [] ∨ p ≠ [] ∨ ∃ k v, m k = some v) →
      Outcome (fun fuel => filterPrefixS S fuel st a p s) (.ok a') → Att S L long st a' (m.filterPrefix p s)
  | later {σ : Type} {S : BlobStore σ ε} {L : Lawful S} {long : Bool} {st st' : σ} {a : SNode} {m : Spec.Map} :
      Att S L long st a m → Mono L st st' → Att S L long st' a m
  | reattach {σ : Type} {S : BlobStore σ ε} {L : Lawful S} {long : Bool} {st st' : σ} {a a' : SNode} {m : Spec.Map} {i : Bytes} :
      Att S L long st a m →
      (long = false → ∀ k v, m k = some v → k.length < 128) →
      tryReattach S a st = (.ok (a', i), st') → Att S L long st' a' m
  | foreign {σ : Type} {S : BlobStore σ ε} {L : Lawful S} {long : Bool} {st : σ} {a : SNode} {i bs : Bytes} {d : Spec.Format.Doc} :
      L.Has st i bs → Spec.Format.IsNode ⟨long, false⟩ (L.Has st) d bs → Spec.Format.Valid d →
      tryLoad S st i = .ok a → Att S L long st a (Spec.Format.mapOf d)
  | load {σ : Type} {S : BlobStore σ ε} {L : Lawful S} {long : Bool} {st st' st'' : σ} {a a' a'' : SNode} {m : Spec.Map}
      {i : Bytes} : Att S L long st a m →
      (long = false → ∀ k v, m k = some v → k.length < 128) →
      tryReattach S a st = (.ok (a', i), st') → Mono L st' st'' → tryLoad S st'' i = .ok a'' →
      Att S L long st'' a'' m
  | outerDowncast {σ : Type} {S : BlobStore σ ε} {L : Lawful S} {M : Lawful (detachedStore ε)} {long long' : Bool} {st : σ}
      {a a' b : SNode} {m m' : Spec.Map} (dbg : Bool) (ab) {f} (ff : Bytes → Bytes → Option Bytes) : long = false →
      Att S L long st a m → Att (detachedStore ε) M long' () b m' → Computes L st M () f (fun x y w => w = ff x y) →
      Outcome (fun fuel => outerCombineWithS ⟨S, st, detachedStore ε, (), dbg, ab⟩ (.downcast ε) f fuel a (.owned b)) (.ok (), a') →
      Att S L long st a' (m.combine (Spec.outer ff) m')
  | outerIdentity {σ : Type} {S : BlobStore σ ε} {L : Lawful S} {long : Bool} {st : σ}
      {a a' b : SNode} {m m' : Spec.Map} (dbg : Bool) (ab) {f} (ff : Bytes → Bytes → Option Bytes) : long = false →
      Att S L long st a m → Att S L long st b m' → Computes L st L st f (fun x y w => w = ff x y) →
      Outcome (fun fuel => outerCombineWithS ⟨S, st, S, st, dbg, ab⟩ (.identity S st) f fuel a (.owned b)) (.ok (), a') →
      Att S L long st a' (m.combine (Spec.outer ff) m')
  | outerDetach {τ : Type} {T : BlobStore τ ε} {L : Lawful (detachedStore ε)} {M : Lawful T} {long long' : Bool} {st' : τ}
      {a a' b : SNode} {m m' : Spec.Map} (dbg : Bool) (ab) {f} (ff : Bytes → Bytes → Option Bytes) : long = false →
      Att (detachedStore ε) L long () a m → Att T M long' st' b m' → Computes L () M st' f (fun x y w => w = ff x y) →
      Outcome (fun fuel => outerCombineWithS ⟨detachedStore ε, (), T, st', dbg, ab⟩ (.detach T st' fuel) f fuel a (.owned b))
        (.ok (), a') →
      Att (detachedStore ε) L long () a' (m.combine (Spec.outer ff) m')
  | innerWith {σ τ : Type} {S : BlobStore σ ε} {T : BlobStore τ ε} {L : Lawful S} {M : Lawful T} {long long' : Bool} {st : σ}
      {st' : τ} {a a' b : SNode} {m m' : Spec.Map} (dbg : Bool) (ab) {f} (ff : Bytes → Bytes → Option Bytes) : long = false →
      Att S L long st a m → Att T M long' st' b m' → Computes L st M st' f (fun x y w => w = ff x y) →
      Outcome (fun fuel => innerCombineWithS ⟨S, st, T, st', dbg, ab⟩ f fuel a (.owned b)) (.ok (), a') →
      Att S L long st a' (m.combine (Spec.inner ff) m')
  | leftWith {σ τ : Type} {S : BlobStore σ ε} {T : BlobStore τ ε} {L : Lawful S} {M : Lawful T} {long long' : Bool} {st : σ}
      {st' : τ} {a a' b : SNode} {m m' : Spec.Map} (dbg : Bool) (ab) {f} (ff : Bytes → Bytes → Option Bytes) : long = false →
      Att S L long st a m → Att T M long' st' b m' → Computes L st M st' f (fun x y w => w = ff x y) →
      Outcome (fun fuel => leftCombineWithS ⟨S, st, T, st', dbg, ab⟩ f fuel a (.owned b)) (.ok (), a') →
      Att S L long st a' (m.combine (Spec.left ff) m')
  | removeWith {σ τ : Type} {S : BlobStore σ ε} {T : BlobStore τ ε} {L : Lawful S} {M : Lawful T} {long long' : Bool} {st : σ}
      {st' : τ} {a a' b : SNode} {m m' : Spec.Map} (dbg : Bool) (ab) {p} (pp : Bytes → Bool) : long = false →
      Att S L long st a m → Att T M long' st' b m' → Decides M st' p pp →
      Outcome (fun fuel => removePrefixWithS ⟨S, st, T, st', dbg, ab⟩ p fuel a (.owned b)) (.ok (), a') →
      Att S L long st a' (m.removePrefix pp m')
  | retainWith {σ τ : Type} {S : BlobStore σ ε} {T : BlobStore τ ε} {L : Lawful S} {M : Lawful T} {long long' : Bool} {st : σ}
      {st' : τ} {a a' b : SNode} {m m' : Spec.Map} (dbg : Bool) (ab) {p} (pp : Bytes → Bool) : long = false →
      Att S L long st a m → Att T M long' st' b m' → Decides M st' p pp →
      Outcome (fun fuel => retainPrefixWithS ⟨S, st, T, st', dbg, ab⟩ p fuel a (.owned b)) (.ok (), a') →
      Att S L long st a' (m.retainPast pp m')

/-- What an abandoned `InPlaceVecBuilder` (crate `inplace-vec-builder`, whose source is not part of /repo; used at
src/node/mod.rs 2196, 2466, 2741, 2838, 2940) leaves in the vector: some of the elements, in their order. -/
def Keeps (ab : List SNode → List SNode → List SNode) : Prop := ∀ done src, (ab done src).Sublist (done ++ src)

/-- The trees of type `RadixTree<S>` after any calls of the in-place API (src/node/mod.rs 3495-3540, 3606-3775), **whatever
their outcomes were**: success, an error of the store or of a function of the user, or a panic. `Touched S L st a A` says
that `a` is such a tree, and `A` are the entries that somebody put there: those of the tree it all began with (`start`),
those inserted, those of trees it was united with, and the results of functions of the user. Nothing is ever taken out of
`A`, so it says nothing about removals (C34, C71 do, for calls that succeed). -/
inductive Touched {ε : Type} : {σ : Type} → (S : BlobStore σ ε) → Lawful S → σ → SNode → (Bytes → Bytes → Prop) → Prop
  | start {σ : Type} {S : BlobStore σ ε} {L : Lawful S} {st : σ} {a : SNode} {m : Spec.Map} :
      Att S L false st a m → Touched S L st a fun k v => m k = some v
  | later {σ : Type} {S : BlobStore σ ε} {L : Lawful S} {st st' : σ} {a : SNode} {A} :
      Touched S L st a A → Mono L st st' → Touched S L st' a A
  | insert {σ : Type} {S : BlobStore σ ε} {L : Lawful S} {st : σ} {a a' : SNode} {A} {r} (dbg : Bool) {ab} (k v : Bytes) :
      Keeps ab → Touched S L st a A → Outcome (fun fuel => insertS S st dbg ab fuel a k v) (r, a') →
      Touched S L st a' fun k' v' => A k' v' ∨ k' = k ∧ v' = v
  | remove {σ : Type} {S : BlobStore σ ε} {L : Lawful S} {st : σ} {a a' : SNode} {A} {r} (dbg : Bool) {ab} (k : Bytes) :
      Keeps ab → Touched S L st a A → Outcome (fun fuel => removeS S st dbg ab fuel a k) (r, a') → Touched S L st a' A
  | removePrefix {σ : Type} {S : BlobStore σ ε} {L : Lawful S} {st : σ} {a a' : SNode} {A} {r} (dbg : Bool) {ab} (p : Bytes) :
      Keeps ab → Touched S L st a A → Outcome (fun fuel => removePrefixS S st dbg ab fuel a p) (r, a') →
      Touched S L st a' A
  | filterPrefix {σ : Type} {S : BlobStore σ ε} {L : Lawful S} {st : σ} {a a' : SNode} {A} (p s : Bytes) :
      Touched S L st a A → Outcome (fun fuel => filterPrefixS S fuel st a p s) (.ok a') →
      Touched S L st a' fun k v => ∃ x, k = s ++ x ∧ A (p ++ x) v
  | outerDowncast {σ : Type} {S : BlobStore σ ε} {L : Lawful S} {M : Lawful (detachedStore ε)} {st : σ} {a a' b : SNode} {A B}
      {r} (dbg : Bool) {ab} {f F} : Keeps ab → Touched S L st a A → Touched (detachedStore ε) M () b B →
      Computes L st M () f F →
      Outcome (fun fuel => outerCombineWithS ⟨S, st, detachedStore ε, (), dbg, ab⟩ (.downcast ε) f fuel a (.owned b)) (r, a') →
      Touched S L st a' fun k v => A k v ∨ B k v ∨ ∃ x y, A k x ∧ B k y ∧ F x y (some v)
  | outerIdentity {σ : Type} {S : BlobStore σ ε} {L : Lawful S} {st : σ} {a a' b : SNode} {A B} {r} (dbg : Bool) {ab} {f F} :
      Keeps ab → Touched S L st a A → Touched S L st b B → Computes L st L st f F →
      Outcome (fun fuel => outerCombineWithS ⟨S, st, S, st, dbg, ab⟩ (.identity S st) f fuel a (.owned b)) (r, a') →
      Touched S L st a' fun k v => A k v ∨ B k v ∨ ∃ x y, A k x ∧ B k y ∧ F x y (some v)
  | outerDetach {τ : Type} {T : BlobStore τ ε} {L : Lawful (detachedStore ε)} {M : Lawful T} {st' : τ} {a a' b : SNode} {A B}
      {r} (dbg : Bool) {ab} {f F} : Keeps ab → Touched (detachedStore ε) L () a A → Touched T M st' b B →
      Computes L () M st' f F →
      Outcome (fun fuel => outerCombineWithS ⟨detachedStore ε, (), T, st', dbg, ab⟩ (.detach T st' fuel) f fuel a (.owned b))
        (r, a') →
      Touched (detachedStore ε) L () a' fun k v => A k v ∨ B k v ∨ ∃ x y, A k x ∧ B k y ∧ F x y (some v)
  | innerWith {σ τ : Type} {S : BlobStore σ ε} {T : BlobStore τ ε} {L : Lawful S} {M : Lawful T} {st : σ} {st' : τ}
      {a a' b : SNode} {A B} {r} (dbg : Bool) {ab} {f F} : Keeps ab → Touched S L st a A → Touched T M st' b B →
      Computes L st M st' f F →
      Outcome (fun fuel => innerCombineWithS ⟨S, st, T, st', dbg, ab⟩ f fuel a (.owned b)) (r, a') →
      Touched S L st a' fun k v => A k v ∨ ∃ x y, A k x ∧ B k y ∧ F x y (some v)
  | leftWith {σ τ : Type} {S : BlobStore σ ε} {T : BlobStore τ ε} {L : Lawful S} {M : Lawful T} {st : σ} {st' : τ}
      {a a' b : SNode} {A B} {r} (dbg : Bool) {ab} {f F} : Keeps ab → Touched S L st a A → Touched T M st' b B →
      Computes L st M st' f F →
      Outcome (fun fuel => leftCombineWithS ⟨S, st, T, st', dbg, ab⟩ f fuel a (.owned b)) (r, a') →
      Touched S L st a' fun k v => A k v ∨ ∃ x y, A k x ∧ B k y ∧ F x y (some v)
  | removeWith {σ τ : Type} {S : BlobStore σ ε} {T : BlobStore τ ε} {L : Lawful S} {M : Lawful T} {st : σ} {st' : τ}
      {a a' b : SNode} {A B} {r} (dbg : Bool) {ab} (p : BlobV → Res ε Bool) : Keeps ab → Touched S L st a A →
      Touched T M st' b B →
      Outcome (fun fuel => removePrefixWithS ⟨S, st, T, st', dbg, ab⟩ p fuel a (.owned b)) (r, a') → Touched S L st a' A
  | retainWith {σ τ : Type} {S : BlobStore σ ε} {T : BlobStore τ ε} {L : Lawful S} {M : Lawful T} {st : σ} {st' : τ}
      {a a' b : SNode} {A B} {r} (dbg : Bool) {ab} (p : BlobV → Res ε Bool) : Keeps ab → Touched S L st a A →
      Touched T M st' b B →
      Outcome (fun fuel => retainPrefixWithS ⟨S, st, T, st', dbg, ab⟩ p fuel a (.owned b)) (r, a') → Touched S L st a' A

section
variable {σ ε : Type} {S : BlobStore σ ε}

/-- Each store state comes after the one before it: nothing is lost in between, other clients may write. For src/store/blob_store.rs 12-34. -/
def Later (L : Lawful S) : σ → List σ → Prop
  | _, [] => True
  | st, st' :: sts => Mono L st st' ∧ Later L st' sts

/-- The calls of `next` on an iterator, each in some state of the store, and what they returned. For src/node/mod.rs 3000-3220. -/
inductive IterLog {ι α : Type} (next : σ → Nat → ι → Res Empty (Option (Except ε α) × ι)) :
    ι → List (σ × Option (Except ε α)) → Prop
  | nil (s : ι) : IterLog next s []
  | cons {s s' : ι} {st : σ} {r : Option (Except ε α)} {rest} : Outcome (fun fuel => next st fuel s) (.ok (r, s')) →
      IterLog next s' rest → IterLog next s ((st, r) :: rest)

/-- The log of an iterator over the items `l`: the items in order, and after the last one `None` forever; or, when a
read fails, one error and then `None` forever. For src/node/mod.rs 3000-3220. -/
def GoodLog {α β : Type} (L : Lawful S) (same : σ → α → β → Prop) : List β → List (σ × Option (Except ε α)) → Prop
  | _, [] => True
  | [], (_, none) :: rest => ∀ e ∈ rest, e.2 = none
  | b :: l, (st, some (.ok a)) :: rest => same st a b ∧ GoodLog L same l rest
  | _, (st, some (.error _)) :: rest => ¬ ReadsSucceed L st ∧ ∀ e ∈ rest, e.2 = none
  | _, _ => False

/-- The value, loaded now or at any later time, is `d`. For src/node/mod.rs 3406-3819. -/
def Holds (L : Lawful S) (st : σ) (v : BlobV) (d : Bytes) : Prop :=
  ∀ st', Mono L st st' → v.load S st' = .ok d ∨ (∃ e, v.load S st' = .err e) ∧ ¬ ReadsSucceed L st'

/-- The same key, and a value that holds the same bytes. For src/node/mod.rs 3000-3220. -/
def SameEntry (L : Lawful S) (st : σ) (x : Bytes × BlobV) (y : Bytes × Bytes) : Prop := x.1 = y.1 ∧ Holds L st x.2 y.2

/-- Detaching the tree (`try_detached`, src/node/mod.rs 3486-3493, 719-731), now or at any later time, gives `t`. -/
def HoldsTree (L : Lawful S) (st : σ) (a : SNode) (t : Node) : Prop :=
  ∀ st', Mono L st st' → Agrees L st' (fun fuel => detachedS S st' fuel a) t

/-- Reading the tree gives the map `m`: `try_get` and `try_contains_key` of every key, `try_iter` (now and later; in the
order of the keys) and `try_detached` agree with it (src/node/mod.rs 3486-3505, 3542-3549). -/
structure ReadsAs (L : Lawful S) (st : σ) (a : SNode) (m : Spec.Map) : Prop where
  get : ∀ k, Agrees L st (fun fuel => getLoadS S fuel st a k) (m k)
  containsKey : ∀ k, Agrees L st (fun fuel => containsKeyS S fuel st a k) (m k).isSome
  iter : ∃ l : List (Bytes × Bytes), l.Pairwise (fun x y => x.1 < y.1) ∧ (∀ k v, (k, v) ∈ l ↔ m k = some v) ∧
    ∀ sts, Later L st sts → ∃ log, log.map (·.1) = sts ∧ IterLog (SIter.next S) (iterS a) log ∧
      GoodLog L (SameEntry L) l log
  detached : ∃ t : Node, (∀ k, Radix.get t k = m k) ∧ HoldsTree L st a t

end

end Radix
