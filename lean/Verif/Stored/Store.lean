import Verif.Stored.Blob

/-
The interface of blob stores (src/store/blob_store.rs 11-31) and what a conforming store guarantees.
-/

namespace Radix

/-- Outcome of a call: a value, an error value, a panic, or (only in the model) a recursion that did not end within
the number of levels it was given. For src/store/blob_store.rs 12-34. -/
inductive Res (ε α : Type) where
  | ok (a : α)
  | err (e : ε)
  | panic
  | deep
  deriving DecidableEq

namespace Res

/-- The `?` operator, panics and too deep recursions propagate. For src/node/mod.rs 850-2960. -/
def bind {ε α β} (x : Res ε α) (f : α → Res ε β) : Res ε β :=
  match x with
  | ok a => f a
  | err e => err e
  | panic => panic
  | deep => deep

/-- Monad of calls that can fail, as in src/node/mod.rs 850-2960. -/
instance {ε} : Monad (Res ε) where
  pure := ok
  bind := bind

/-- The value of a successful call. For src/store/blob_store.rs 12-34. -/
def toOption {ε α} : Res ε α → Option α
  | ok a => some a
  | _ => none

end Res

/-- `BlobStore` (src/store/blob_store.rs 11-31). `σ` is the state behind the `&self` of the store, `ε` its error type.
`read` may touch caches in the code; at this level it does not change the state. `sync` is not called by the
tree. `ofAnyhow` is `From<anyhow::Error>` (13), used when a record cannot be decoded. -/
structure BlobStore (σ ε : Type) where
  read : σ → Bytes → Res ε Bytes
  write : σ → Bytes → Res ε Bytes × σ
  ofAnyhow : Res ε Empty

/-- `Detached` (src/store/blob_store.rs 242-263): every call panics; `NoError` (269, 277-281) has no values and its
`From<anyhow::Error>` panics. `ε` is the error type that the (non-existing) errors are converted to. -/
def detachedStore (ε : Type) : BlobStore Unit ε where
  read _ _ := .panic
  write _ _ := (.panic, ())
  ofAnyhow := .panic

/-- What a conforming store guarantees, from the point of view of one of its clients. `Has st i d` means: `i` is an id
that the store has handed out for the bytes `d`. The contract of src/store/blob_store.rs 12-34. -/
structure Lawful {σ ε} (S : BlobStore σ ε) where
  Has : σ → Bytes → Bytes → Prop
  read_has : ∀ {st i d}, Has st i d → S.read st i = .ok d ∨ ∃ e, S.read st i = .err e
  write_ok : ∀ {st d i st'}, S.write st d = (.ok i, st') → Has st' i d ∧ 1 ≤ i.length ∧ i.length ≤ 126
  write_mono : ∀ {st d r st' i e}, S.write st d = (r, st') → Has st i e → Has st' i e

/-- Reading an id that the store has handed out succeeds (no I/O errors). For src/store/blob_store.rs 17. -/
def ReadsSucceed {σ ε} {S : BlobStore σ ε} (L : Lawful S) (st : σ) : Prop :=
  ∀ i d, L.Has st i d → S.read st i = .ok d

/-- The store `st'` still has everything that `st` has: some time later. For src/store/blob_store.rs 12-34. -/
def Mono {σ ε} {S : BlobStore σ ε} (L : Lawful S) (st st' : σ) : Prop := ∀ i d, L.Has st i d → L.Has st' i d

/-- The next `n` writes succeed, whatever is written. (A store has finitely many ids of at most 126 bytes, so no store
can promise this for all `n`.) -/
def CanWrite {σ ε} (S : BlobStore σ ε) : Nat → σ → Prop
  | 0, _ => True
  | n + 1, st => ∀ d, ∃ i st', S.write st d = (.ok i, st') ∧ CanWrite S n st'

/-- The next `n` writes succeed or return an error, whatever is written; none panics. For src/store/blob_store.rs 22. -/
def NoPanic {σ ε} (S : BlobStore σ ε) : Nat → σ → Prop
  | 0, _ => True
  | n + 1, st => ∀ d, (∃ i st', S.write st d = (.ok i, st') ∧ NoPanic S n st') ∨ ∃ e st', S.write st d = (.err e, st')

end Radix
