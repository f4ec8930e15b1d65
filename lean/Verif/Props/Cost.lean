import Verif.Proofs.Local
import Verif.Proofs.CostDocs
import Verif.Props.StoredInPlace

/-
Properties C72 and C73: how much of a stored tree the calls read and write.

`Gotten S L long st a` (Verif/Stored/Cost.lean): `a` is a tree attached to the store `S` in the state `st` that a user can
get; `long = false` leaves out keys of 128 or more bytes. `ReadsAtMost S st n x` (same file): there are at most `n` blobs
that the outcome of the call `x` depends on; other blobs may be damaged or missing. `Changed S L st a n`
(Verif/Stored/Changed.lean): the tree `a` was saved or loaded, and since then changed by calls with keys of total size `n`.
`writesOf S st a` (Verif/Stored/Cost.lean): the number of blobs that saving `a` writes.
-/

set_option linter.unusedVariables false

namespace Radix
open Node

section
variable {σ ε : Type} {S : BlobStore σ ε} {L : Lawful S} {long : Bool} {st : σ} {a : SNode}

/-! ### C72 -/

/-- **C72**, `try_get` with the value loaded: the blobs of as many nodes as the key has bytes, of the root, and the value. -/
theorem C72_get (h : Gotten S L long st a) (k : Bytes) :
    ReadsAtMost S st (blobsPerNode long * (k.length + 1) + 1) fun T st' fuel => getLoadS T fuel st' a k :=
  getLoad_reads h k

/-- **C72**, `try_contains_key`. -/
theorem C72_contains_key (h : Gotten S L long st a) (k : Bytes) :
    ReadsAtMost S st (blobsPerNode long * (k.length + 1)) fun T st' fuel => containsKeyS T fuel st' a k :=
  find_reads h k _

/-- **C72**, `try_filter_prefix`: however many keys have the prefix. -/
theorem C72_filter_prefix (h : Gotten S L long st a) (p s : Bytes) :
    ReadsAtMost S st (blobsPerNode long * (p.length + 1) + 1) fun T st' fuel => filterPrefixS T fuel st' a p s :=
  filterPrefix_reads h p s

/-- **C72**, `try_insert`: the outcome is the result and the changed tree. -/
theorem C72_insert (h : Gotten S L long st a) (dbg : Bool) (ab) (k v : Bytes) :
    ReadsAtMost S st (blobsPerNode long * (k.length + 1)) fun T st' fuel => insertS T st' dbg ab fuel a k v :=
  oneKey_reads (insert_oneKey dbg ab v) h k

/-- **C72**, `try_remove`. -/
theorem C72_remove (h : Gotten S L long st a) (dbg : Bool) (ab) (k : Bytes) :
    ReadsAtMost S st (blobsPerNode long * (k.length + 1)) fun T st' fuel => removeS T st' dbg ab fuel a k :=
  oneKey_reads (remove_oneKey dbg ab) h k

/-- **C72**, `try_remove_prefix`: however many keys have the prefix. -/
theorem C72_remove_prefix (h : Gotten S L long st a) (dbg : Bool) (ab) (p : Bytes) :
    ReadsAtMost S st (blobsPerNode long * (p.length + 1)) fun T st' fuel => removePrefixS T st' dbg ab fuel a p :=
  oneKey_reads (removePrefix_oneKey dbg ab) h p

/-! ### C73 -/

/-- **C73**: saving a tree again writes the root and at most as many other blobs as the total size of the keys with which it
was changed since it was saved or loaded, however large the tree is, whatever the outcomes of these calls were, and for keys
and values of any length. -/
theorem C73_writes {n : Nat} (h : Changed S L st a n) : writesOf S st a ≤ n + 1 := Self.changed_writes h

/-- **C73**, that `writesOf` counts the writes of the call: the counter changes neither its result nor the store. -/
theorem C73_counter_faithful (a : SNode) (st : σ) :
    (tryReattach (counted S) a (st, 0)).1 = (tryReattach S a st).1 ∧
    (tryReattach (counted S) a (st, 0)).2.1 = (tryReattach S a st).2 := by
  have h := reattach_writes (S := S) a st 0
  exact ⟨h.1, h.2.1⟩

end

/-! ### A concrete case -/

/-- Nine entries, in seven blobs when it is saved, one of them for the long value. -/
def wide : Node := fromIter [([1, 1], [1]), ([1, 2], [2]), ([2, 1], [3]), ([2, 2], [4]), ([3, 1], [5]), ([3, 2], [6]),
  ([4, 1, 1], [7]), ([4, 1, 2], [8]), ([4, 2], List.replicate 200 7)]

theorem wide_short : ∀ k v, get wide k = some v → k.length < 128 :=
  short_of_iter (show Proper wide from .fromIter _).reachable (by decide +kernel)

/-- The theorems of C72 apply to it, and the bounds are small: the lookup of 4,2 depends on three of the seven blobs (the
bound is 4), so that the loss of the other ones does not matter, and the loss of one of them does. -/
example : Gotten memStore memLawful false (memState wide) (memTree wide) ∧ (memState wide).length = 7 ∧
    blobsPerNode false * ([4, 2].length + 1) + 1 = 4 ∧
    getLoadS memStore 10 ((memState wide).filter fun e => e.1 == 5 || e.1 == 6 || e.1 == 7) (memTree wide) [4, 2] =
      .ok (some (List.replicate 200 7)) ∧
    getLoadS memStore 10 ((memState wide).filter fun e => e.1 == 5 || e.1 == 7) (memTree wide) [4, 2] = .err () :=
  ⟨Or.inl ⟨_, memTree_short (.fromIter _) (by decide +kernel) (by decide +kernel)⟩, by decide +kernel, by decide +kernel,
    by decide +kernel, by decide +kernel⟩

/-- `try_insert` of 2,3 into it. -/
def wideInsert (fuel : Nat) : Res Unit Unit × SNode :=
  insertS memStore (memState wide) true (fun a _ => a) fuel (memTree wide) [2, 3] [9]

/-- `try_insert` of a key of 200 bytes, into the tree after `wideInsert`. -/
def wideLong (fuel : Nat) : Res Unit Unit × SNode :=
  insertS memStore (memState wide) true (fun a _ => a) fuel (wideInsert 10).2 (List.replicate 200 3) [9]

/-- C73 applies to it after insertions, also of a key of 200 bytes. Saving it for the first time writes eight blobs, saving
it again without a change writes one, after the first insertion it writes three, after the second one five. -/
example : (∃ a', Outcome wideInsert (.ok (), a') ∧ Changed memStore memLawful (memState wide) a' 8 ∧
      writesOf memStore (memState wide) a' = 3 ∧
      ∃ a'', Outcome wideLong (.ok (), a'') ∧ Changed memStore memLawful (memState wide) a'' 214 ∧
        writesOf memStore (memState wide) a'' = 5) ∧
    Changed memStore memLawful (memState wide) (memTree wide) 0 ∧
    writesOf memStore (memState wide) (memTree wide) = 1 ∧ writesOf memStore [] (embed wide) = 8 := by
  have e := memTree_eq (t := wide) (by decide +kernel)
  have h0 : Changed memStore memLawful (memState wide) (memTree wide) 0 := .attached e
  have h : (wideInsert 10).1 = .ok () := by decide +kernel
  have ho := outcome_fuelP (f := wideInsert) (fun n => outerCombineWithS_fuel _ _ n _ _) (N := 10) (by rw [h]; simp)
  rw [show wideInsert 10 = (.ok (), (wideInsert 10).2) from Prod.ext h rfl] at ho
  have h1 : Changed memStore memLawful (memState wide) (wideInsert 10).2 8 := .insert true [2, 3] [9] (fun d s => List.sublist_append_left d s) h0 ho
  have h' : (wideLong 10).1 = .ok () := by decide +kernel
  have ho' := outcome_fuelP (f := wideLong) (fun n => outerCombineWithS_fuel _ _ n _ _) (N := 10) (by rw [h']; simp)
  rw [show wideLong 10 = (.ok (), (wideLong 10).2) from Prod.ext h' rfl] at ho'
  have h2 := Changed.insert true (List.replicate 200 3) [9] (fun d s => List.sublist_append_left d s) h1 ho'
  rw [List.length_replicate] at h2
  exact ⟨⟨_, ho, h1, by decide +kernel, _, ho', h2, by decide +kernel⟩, h0, by decide +kernel, by decide +kernel⟩

end Radix
