import Verif.Stored.SelfWritten
import Verif.Stored.Cost

/-
Trees that were changed since they were saved or loaded, with a measure of the changes (property C73).
-/

set_option linter.unusedVariables false

namespace Radix

/-- Trees of type `RadixTree<S>` that were written to the store or read from it, and changed in place since then, **whatever the outcomes** of these calls were (success, an error, or a panic;
src/node/mod.rs 3406-3428, 3495-3540, 3606-3775, 3813-3819). `Changed S L st a n`: the keys of the calls with a single key since then, and the keys of the trees it was combined with since then,
have together the size `n`, with the constants given here. Keys and values may have any length. The other parameters are those of `FromDocs`. -/
inductive Changed {σ ε : Type} (S : BlobStore σ ε) (L : Lawful S) : σ → SNode → Nat → Prop
  | attached {t : Node} {st st' : σ} {a : SNode} : tryAttached S t st = (.ok a, st') → Changed S L st' a 0
  | saved {st st' : σ} {a a' : SNode} {i : Bytes} : FromDocs false S L st a → tryReattach S a st = (.ok (a', i), st') → Changed S L st' a' 0
  | loaded {st : σ} {a : SNode} {i bs : Bytes} {d : Spec.Format.Doc} : L.Has st i bs → Spec.Format.IsNode ⟨true, false⟩ (L.Has st) d bs → tryLoad S st i = .ok a →
      Changed S L st a 0
  | reloaded {st st' st'' : σ} {a a' a'' : SNode} {i : Bytes} : FromDocs false S L st a → tryReattach S a st = (.ok (a', i), st') → Mono L st' st'' →
      tryLoad S st'' i = .ok a'' → Changed S L st'' a'' 0
  | later {st st' : σ} {a : SNode} {n : Nat} : Changed S L st a n → Mono L st st' → Changed S L st' a n
  | insert {st : σ} {a a' : SNode} {n : Nat} {r} (dbg : Bool) {ab} (k v : Bytes) : Keeps ab → Changed S L st a n →
      Outcome (fun fuel => insertS S st dbg ab fuel a k v) (r, a') → Changed S L st a' (n + (k.length + 6))
  | remove {st : σ} {a a' : SNode} {n : Nat} {r} (dbg : Bool) {ab} (k : Bytes) : Keeps ab → Changed S L st a n →
      Outcome (fun fuel => removeS S st dbg ab fuel a k) (r, a') → Changed S L st a' (n + (k.length + 6))
  | removePrefix {st : σ} {a a' : SNode} {n : Nat} {r} (dbg : Bool) {ab} (p : Bytes) : Keeps ab → Changed S L st a n →
      Outcome (fun fuel => removePrefixS S st dbg ab fuel a p) (r, a') → Changed S L st a' (n + (p.length + 6))
  | filterPrefix {st : σ} {a a' : SNode} {n : Nat} (p s : Bytes) : Changed S L st a n →
      Outcome (fun fuel => filterPrefixS S fuel st a p s) (.ok a') → Changed S L st a' (n + 1)
  | outerDowncast {M : Lawful (detachedStore ε)} {long : Bool} {st : σ} {a a' b : SNode} {n : Nat} {m' : Spec.Map} {ks : List Bytes} {r} (dbg : Bool) {ab} {f} : Keeps ab →
      Changed S L st a n → Att (detachedStore ε) M long () b m' → (∀ k v, m' k = some v → k ∈ ks) → NoNewIds false L st M () f →
      Outcome (fun fuel => outerCombineWithS ⟨S, st, detachedStore ε, (), dbg, ab⟩ (.downcast ε) f fuel a (.owned b)) (r, a') → Changed S L st a' (n + sizeOfKeys ks)
  | outerIdentity {long : Bool} {st : σ} {a a' b : SNode} {n : Nat} {m' : Spec.Map} {ks : List Bytes} {r} (dbg : Bool) {ab} {f} : Keeps ab →
      Changed S L st a n → Att S L long st b m' → (∀ k v, m' k = some v → k ∈ ks) → NoNewIds false L st L st f →
      Outcome (fun fuel => outerCombineWithS ⟨S, st, S, st, dbg, ab⟩ (.identity S st) f fuel a (.owned b)) (r, a') → Changed S L st a' (n + sizeOfKeys ks)
  | innerWith {τ : Type} {T : BlobStore τ ε} {M : Lawful T} {long : Bool} {st : σ} {st' : τ} {a a' b : SNode} {n : Nat} {m' : Spec.Map} {ks : List Bytes} {r} (dbg : Bool) {ab} {f} :
      Keeps ab → Changed S L st a n → Att T M long st' b m' → (∀ k v, m' k = some v → k ∈ ks) → NoNewIds false L st M st' f →
      Outcome (fun fuel => innerCombineWithS ⟨S, st, T, st', dbg, ab⟩ f fuel a (.owned b)) (r, a') → Changed S L st a' (n + sizeOfKeys ks)
  | leftWith {τ : Type} {T : BlobStore τ ε} {M : Lawful T} {long : Bool} {st : σ} {st' : τ} {a a' b : SNode} {n : Nat} {m' : Spec.Map} {ks : List Bytes} {r} (dbg : Bool) {ab} {f} :
      Keeps ab → Changed S L st a n → Att T M long st' b m' → (∀ k v, m' k = some v → k ∈ ks) → NoNewIds false L st M st' f →
      Outcome (fun fuel => leftCombineWithS ⟨S, st, T, st', dbg, ab⟩ f fuel a (.owned b)) (r, a') → Changed S L st a' (n + sizeOfKeys ks)
  | removeWith {τ : Type} {T : BlobStore τ ε} {M : Lawful T} {long : Bool} {st : σ} {st' : τ} {a a' b : SNode} {n : Nat} {m' : Spec.Map} {ks : List Bytes} {r} (dbg : Bool) {ab}
      (p : BlobV → Res ε Bool) : Keeps ab → Changed S L st a n → Att T M long st' b m' → (∀ k v, m' k = some v → k ∈ ks) →
      Outcome (fun fuel => removePrefixWithS ⟨S, st, T, st', dbg, ab⟩ p fuel a (.owned b)) (r, a') → Changed S L st a' (n + sizeOfKeys ks)
  | retainWith {τ : Type} {T : BlobStore τ ε} {M : Lawful T} {long : Bool} {st : σ} {st' : τ} {a a' b : SNode} {n : Nat} {m' : Spec.Map} {ks : List Bytes} {r} (dbg : Bool) {ab}
      (p : BlobV → Res ε Bool) : Keeps ab → Changed S L st a n → Att T M long st' b m' → (∀ k v, m' k = some v → k ∈ ks) →
      Outcome (fun fuel => retainPrefixWithS ⟨S, st, T, st', dbg, ab⟩ p fuel a (.owned b)) (r, a') → Changed S L st a' (n + sizeOfKeys ks)

end Radix
