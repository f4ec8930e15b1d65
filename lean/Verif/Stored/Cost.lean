import Verif.Stored.History

/-
Vocabulary to speak about how often a call uses the store.
-/

set_option linter.unusedVariables false

namespace Radix

section
variable {σ ε : Type}

/-- The store `S` with a counter of the calls of `BlobStore::write` (src/store/blob_store.rs 11-31). -/
def counted (S : BlobStore σ ε) : BlobStore (σ × Nat) ε where
  read s i := S.read s.1 i
  write s d := ((S.write s.1 d).1, (S.write s.1 d).2, s.2 + 1)
  ofAnyhow := S.ofAnyhow

/-- How often `try_reattach` (src/node/mod.rs 3813-3819) calls `write` of the store. -/
def writesOf (S : BlobStore σ ε) (st : σ) (a : SNode) : Nat := (tryReattach (counted S) a (st, 0)).2.2

/-- The call `x`, made with the store `S` in the state `st`, reads at most `n` blobs: there are `n` ids such that with
every store whose blobs with these ids are the same (or fail in the same way), whatever it gives for other ids, the call has
the same outcome. For src/store/blob_store.rs 17. -/
def ReadsAtMost {α : Type} (S : BlobStore σ ε) (st : σ) (n : Nat) (x : {τ : Type} → BlobStore τ ε → τ → Nat → α) : Prop :=
  ∃ ids : List Bytes, ids.length ≤ n ∧ ∀ {τ : Type} (T : BlobStore τ ε) (st' : τ),
    (∀ i ∈ ids, T.read st' i = S.read st i) → ∀ y, Outcome (x S st) y → Outcome (x T st') y

/-- The next `n` writes of blobs of at most `B` bytes succeed. For src/store/blob_store.rs 22. -/
def Accepts (S : BlobStore σ ε) (B : Nat) : Nat → σ → Prop
  | 0, _ => True
  | n + 1, st => ∀ d, d.length ≤ B → ∃ i st', S.write st d = (.ok i, st') ∧ Accepts S B n st'

/-- How many blobs a node of a stored tree consists of, besides those of its value: the one with its children, and one for
the prefix if that has 128 or more bytes, which needs `long = true` (src/node/mod.rs 363-381, 770-800). -/
def blobsPerNode (long : Bool) : Nat := if long then 2 else 1

/-- A tree of type `RadixTree<S>` that a user can get, by calls that succeed (`Att`), or, with keys of less than 128 bytes, by
calls with any outcomes (`Touched`). -/
def Gotten (S : BlobStore σ ε) (L : Lawful S) (long : Bool) (st : σ) (a : SNode) : Prop :=
  (∃ m, Att S L long st a m) ∨ long = false ∧ ∃ A, Touched S L st a A

/-- A bound for the size of a tree with the keys `ks`. Of the model only, for the recursion of src/node/mod.rs 850-2960. -/
def sizeOfKeys (ks : List Bytes) : Nat := 6 + (ks.map fun k => k.length + 12).sum

end

end Radix
