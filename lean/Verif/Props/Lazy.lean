import Verif.Proofs.Lazy
import Verif.Props.Cost

/-
Property C89: reading a part of a stored tree, in order, reads few blobs, however large the tree is.

`Att S L long st a m` (Verif/Stored/History.lean): `a` is a tree attached to the store `S` in the state `st` that a user got by
calls that succeeded, and it stands for the map `m`; `long = false` leaves out keys of 128 or more bytes. `ReadsAtMost S st n x`
(Verif/Stored/Cost.lean): there are at most `n` blobs that the outcome of the call `x` depends on; other blobs may be damaged
or missing. `keyBytes l` (Verif/Stored/Lazy.lean): the bytes of the keys in `l`, and one more for each of them.
`firstEntriesS`, `firstValuesS`, `scanEntriesS` (same file): an iterator is made and `n` elements are taken from it.
In each theorem `l` is the list of the entries of the map, in order.
-/

set_option linter.unusedVariables false

namespace Radix
open Node

section
variable {σ ε : Type} {S : BlobStore σ ε} {L : Lawful S} {long : Bool} {st : σ} {a : SNode} {m : Spec.Map}
  {l : List (Bytes × Bytes)}

/-- **C89**, `try_iter`: taking `n` entries depends on one blob (two with long keys) for each byte of their keys, and one more
for each of them. The values are not loaded; to load one reads at most one more blob. -/
theorem C89_iter (h : Att S L long st a m) (hl : l.Pairwise fun x y => x.1 < y.1) (hm : ∀ k v, (k, v) ∈ l ↔ m k = some v)
    (n : Nat) : ReadsAtMost S st (blobsPerNode long * keyBytes (l.take n)) fun T st' fuel => firstEntriesS T st' fuel a n :=
  iter_reads h hl hm n

/-- **C89**, `try_values`: the long pieces of keys are not read. -/
theorem C89_values (h : Att S L long st a m) (hl : l.Pairwise fun x y => x.1 < y.1) (hm : ∀ k v, (k, v) ∈ l ↔ m k = some v)
    (n : Nat) : ReadsAtMost S st (keyBytes (l.take n)) fun T st' fuel => firstValuesS T st' fuel a n :=
  values_reads h hl hm n

/-- **C89**, `try_scan_prefix`: the bytes of the prefix, and those of the keys below it that are taken. -/
theorem C89_scan_prefix (h : Att S L long st a m) (hl : l.Pairwise fun x y => x.1 < y.1)
    (hm : ∀ k v, (k, v) ∈ l ↔ m k = some v) (p : Bytes) (n : Nat) :
    ReadsAtMost S st (blobsPerNode long * (p.length + 1 + keyBytes ((l.filter fun e => p.isPrefixOf e.1).take n)))
      fun T st' fuel => scanEntriesS T st' fuel a p n :=
  scan_reads h hl hm p n

/-- **C89**, `try_first_entry`, `try_last_entry`, `try_first_value` and `try_last_value`: the bytes of the first or last key. -/
theorem C89_first_last (h : Att S L long st a m) (hl : l.Pairwise fun x y => x.1 < y.1)
    (hm : ∀ k v, (k, v) ∈ l ↔ m k = some v) (pre : Bytes) :
    (ReadsAtMost S st (blobsPerNode long * keyBytes l.head?.toList) fun T st' fuel => firstEntryS T st' fuel pre (.owned a)) ∧
    (ReadsAtMost S st (blobsPerNode long * keyBytes l.getLast?.toList) fun T st' fuel => lastEntryS T st' fuel pre (.owned a)) ∧
    (ReadsAtMost S st (keyBytes l.head?.toList) fun T st' fuel => firstValueS T st' fuel (.owned a)) ∧
    (ReadsAtMost S st (keyBytes l.getLast?.toList) fun T st' fuel => lastValueS T st' fuel (.owned a)) :=
  ends_reads h hl hm pre

/-- **C89**, `try_has_prefix`: however many keys have the prefix. -/
theorem C89_has_prefix (h : Gotten S L long st a) (p : Bytes) :
    ReadsAtMost S st (blobsPerNode long * (p.length + 1)) fun T st' fuel => hasPrefixS T fuel st' a p :=
  find_reads h p _

end

/-! ### A concrete case -/

deriving instance DecidableEq for Except

/-- The theorems apply to `wide` (Verif/Props/Cost.lean), which has nine entries and seven blobs. -/
example : Att memStore memLawful false (memState wide) (memTree wide) (get wide) ∧
    ((iter wide).Pairwise fun x y => x.1 < y.1) ∧ (∀ k v, (k, v) ∈ iter wide ↔ get wide k = some v) ∧
    (iter wide).length = 9 ∧ (memState wide).length = 7 :=
  ⟨memTree_short (.fromIter _) (by decide +kernel) (by decide +kernel),
    iter_sorted (reach_ord (show Proper wide from .fromIter _).reachable),
    mem_iter (reach_ord (show Proper wide from .fromIter _).reachable),
    by decide +kernel, by decide +kernel⟩

/-- The first entry depends on two of the seven blobs (the bound is 3): without the other five it is found, without one of the two
it is not. -/
example : keyBytes ((iter wide).take 1) = 3 ∧
    firstEntriesS memStore ((memState wide).filter fun e => e.1 == 1 || e.1 == 7) 30 (memTree wide) 1 =
      .ok [.ok ([1, 1], .data [1])] ∧
    firstEntriesS memStore ((memState wide).filter fun e => e.1 == 7) 30 (memTree wide) 1 = .ok [.error ()] ∧
    firstEntryS memStore ((memState wide).filter fun e => e.1 == 1 || e.1 == 7) 30 [] (.owned (memTree wide)) =
      .ok (some ([1, 1], .data [1])) := by
  decide +kernel

/-- The last entry and value depend on two others of them. -/
example : keyBytes (iter wide).getLast?.toList = 3 ∧
    lastEntryS memStore ((memState wide).filter fun e => e.1 == 6 || e.1 == 7) 30 [] (.owned (memTree wide)) =
      .ok (some ([4, 2], .id [0, 0, 0, 0, 0, 0, 0, 5])) ∧
    lastValueS memStore ((memState wide).filter fun e => e.1 == 6 || e.1 == 7) 30 (.owned (memTree wide)) =
      .ok (some (.id [0, 0, 0, 0, 0, 0, 0, 5])) ∧
    lastEntryS memStore ((memState wide).filter fun e => e.1 == 7) 30 [] (.owned (memTree wide)) = .err () := by
  decide +kernel

set_option synthInstance.maxSize 1000 in
/-- The first entry below 4,1 depends on three of them; whether there is one, on two of them. (That the key has a byte too
many is finding F1.) -/
example : keyBytes (((iter wide).filter fun e => [4, 1].isPrefixOf e.1).take 1) = 4 ∧
    scanEntriesS memStore ((memState wide).filter fun e => e.1 == 4 || e.1 == 6 || e.1 == 7) 30 (memTree wide) [4, 1] 1 =
      .ok (.ok [.ok ([4, 1, 1, 1], .data [7])]) ∧
    scanEntriesS memStore ((memState wide).filter fun e => e.1 == 6 || e.1 == 7) 30 (memTree wide) [4, 1] 1 =
      .ok (.ok [.error ()]) ∧
    hasPrefixS memStore 30 ((memState wide).filter fun e => e.1 == 6 || e.1 == 7) (memTree wide) [4, 1] = .ok true := by
  decide +kernel

end Radix
