import Verif.Stored.History

/-
Trees that a program can get from blobs in the documented format, whatever the outcomes of its calls are. If these blobs follow the rules for writers too, for example because this library has
written them, then so does what is saved (property C82).
-/

set_option linter.unusedVariables false

namespace Radix

/-- The value is at hand, or it is in the store, or there is no value. With `ex`, a value that is in the store has at least 128 bytes (`OwnedBlobRef::serialize` writes a blob for these values
only, src/node/mod.rs 363-381). -/
def HandOrStored (ex : Bool) {σ ε : Type} {S : BlobStore σ ε} (L : Lawful S) (st : σ) (v : BlobV) : Prop :=
  ∀ i, v = .id i → i = [] ∨ i.length ≤ 127 ∧ ∃ d, L.Has st i d ∧ (ex = true → 127 < d.length)

/-- The function of the user (the parameter `f` of the in-place operations, src/node/mod.rs 3606-3775) does not make up ids: what it returns for two values from such trees is a value at hand, in
the store (with `ex`, a long one), or nothing. -/
def NoNewIds (ex : Bool) {σ τ ε : Type} {S : BlobStore σ ε} {T : BlobStore τ ε} (L : Lawful S) (st : σ) (M : Lawful T) (st' : τ) (f : BlobV → BlobV → Res ε BlobV) : Prop :=
  ∀ av bv v, av ≠ .none → bv ≠ .none → HandOrStored ex L st av → HandOrStored ex M st' bv → f av bv = .ok v → HandOrStored ex L st v

/-- The trees of type `RadixTree<S>` that a user can get by calls of the fallible API (src/node/mod.rs 3406-3428, 3495-3540, 3606-3775, 3813-3819), **whatever the outcomes of the calls that change
a tree in place were**, from trees in memory and from blobs that follow the documented format (`foreign`), with `ex` including the rules for writers. Keys and values may have any length. -/
inductive FromDocs (ex : Bool) {ε : Type} : {σ : Type} → (S : BlobStore σ ε) → Lawful S → σ → SNode → Prop
  | empty {σ : Type} {S : BlobStore σ ε} {L : Lawful S} (st : σ) : FromDocs ex S L st SNode.empty
  | plain {σ : Type} {S : BlobStore σ ε} {L : Lawful S} (t : Node) (st : σ) : FromDocs ex S L st (embed t)
  | attach {σ : Type} {S : BlobStore σ ε} {L : Lawful S} {t : Node} {st st' : σ} {a : SNode} : tryAttached S t st = (.ok a, st') → FromDocs ex S L st' a
  | foreign {σ : Type} {S : BlobStore σ ε} {L : Lawful S} {st : σ} {a : SNode} {i bs : Bytes} {d : Spec.Format.Doc} :
      L.Has st i bs → Spec.Format.IsNode ⟨true, ex⟩ (L.Has st) d bs → tryLoad S st i = .ok a → FromDocs ex S L st a
  | att {σ : Type} {S : BlobStore σ ε} {L : Lawful S} {long : Bool} {st : σ} {a : SNode} {m : Spec.Map} : ex = false → Att S L long st a m → FromDocs ex S L st a
  | later {σ : Type} {S : BlobStore σ ε} {L : Lawful S} {st st' : σ} {a : SNode} : FromDocs ex S L st a → Mono L st st' → FromDocs ex S L st' a
  | reattach {σ : Type} {S : BlobStore σ ε} {L : Lawful S} {st st' : σ} {a a' : SNode} {i : Bytes} : FromDocs ex S L st a →
      tryReattach S a st = (.ok (a', i), st') → FromDocs ex S L st' a'
  | load {σ : Type} {S : BlobStore σ ε} {L : Lawful S} {st st' st'' : σ} {a a' a'' : SNode} {i : Bytes} : FromDocs ex S L st a →
      tryReattach S a st = (.ok (a', i), st') → Mono L st' st'' → tryLoad S st'' i = .ok a'' → FromDocs ex S L st'' a''
  | insert {σ : Type} {S : BlobStore σ ε} {L : Lawful S} {st : σ} {a a' : SNode} {r} (dbg : Bool) {ab} (k v : Bytes) : Keeps ab → FromDocs ex S L st a →
      Outcome (fun fuel => insertS S st dbg ab fuel a k v) (r, a') → FromDocs ex S L st a'
  | remove {σ : Type} {S : BlobStore σ ε} {L : Lawful S} {st : σ} {a a' : SNode} {r} (dbg : Bool) {ab} (k : Bytes) : Keeps ab → FromDocs ex S L st a →
      Outcome (fun fuel => removeS S st dbg ab fuel a k) (r, a') → FromDocs ex S L st a'
  | removePrefix {σ : Type} {S : BlobStore σ ε} {L : Lawful S} {st : σ} {a a' : SNode} {r} (dbg : Bool) {ab} (p : Bytes) : Keeps ab → FromDocs ex S L st a →
      Outcome (fun fuel => removePrefixS S st dbg ab fuel a p) (r, a') → FromDocs ex S L st a'
  | filterPrefix {σ : Type} {S : BlobStore σ ε} {L : Lawful S} {st : σ} {a a' : SNode} (p s : Bytes) : FromDocs ex S L st a →
      Outcome (fun fuel => filterPrefixS S fuel st a p s) (.ok a') → FromDocs ex S L st a'
  | outerDowncast {σ : Type} {S : BlobStore σ ε} {L : Lawful S} {M : Lawful (detachedStore ε)} {st : σ} {a a' b : SNode} {r} (dbg : Bool) {ab} {f} : Keeps ab →
      FromDocs ex S L st a → FromDocs ex (detachedStore ε) M () b → NoNewIds ex L st M () f →
      Outcome (fun fuel => outerCombineWithS ⟨S, st, detachedStore ε, (), dbg, ab⟩ (.downcast ε) f fuel a (.owned b)) (r, a') → FromDocs ex S L st a'
  | outerIdentity {σ : Type} {S : BlobStore σ ε} {L : Lawful S} {st : σ} {a a' b : SNode} {r} (dbg : Bool) {ab} {f} : Keeps ab → FromDocs ex S L st a → FromDocs ex S L st b →
      NoNewIds ex L st L st f →
      Outcome (fun fuel => outerCombineWithS ⟨S, st, S, st, dbg, ab⟩ (.identity S st) f fuel a (.owned b)) (r, a') → FromDocs ex S L st a'
  | innerWith {σ τ : Type} {S : BlobStore σ ε} {T : BlobStore τ ε} {L : Lawful S} {M : Lawful T} {st : σ} {st' : τ} {a a' b : SNode} {r} (dbg : Bool) {ab} {f} : Keeps ab →
      FromDocs ex S L st a → FromDocs ex T M st' b → NoNewIds ex L st M st' f →
      Outcome (fun fuel => innerCombineWithS ⟨S, st, T, st', dbg, ab⟩ f fuel a (.owned b)) (r, a') → FromDocs ex S L st a'
  | leftWith {σ τ : Type} {S : BlobStore σ ε} {T : BlobStore τ ε} {L : Lawful S} {M : Lawful T} {st : σ} {st' : τ} {a a' b : SNode} {r} (dbg : Bool) {ab} {f} : Keeps ab →
      FromDocs ex S L st a → FromDocs ex T M st' b → NoNewIds ex L st M st' f →
      Outcome (fun fuel => leftCombineWithS ⟨S, st, T, st', dbg, ab⟩ f fuel a (.owned b)) (r, a') → FromDocs ex S L st a'
  | removeWith {σ τ : Type} {S : BlobStore σ ε} {T : BlobStore τ ε} {L : Lawful S} {M : Lawful T} {st : σ} {st' : τ} {a a' b : SNode} {r} (dbg : Bool) {ab}
      (p : BlobV → Res ε Bool) : Keeps ab → FromDocs ex S L st a → FromDocs ex T M st' b →
      Outcome (fun fuel => removePrefixWithS ⟨S, st, T, st', dbg, ab⟩ p fuel a (.owned b)) (r, a') → FromDocs ex S L st a'
  | retainWith {σ τ : Type} {S : BlobStore σ ε} {T : BlobStore τ ε} {L : Lawful S} {M : Lawful T} {st : σ} {st' : τ} {a a' b : SNode} {r} (dbg : Bool) {ab}
      (p : BlobV → Res ε Bool) : Keeps ab → FromDocs ex S L st a → FromDocs ex T M st' b →
      Outcome (fun fuel => retainPrefixWithS ⟨S, st, T, st', dbg, ab⟩ p fuel a (.owned b)) (r, a') → FromDocs ex S L st a'

end Radix
