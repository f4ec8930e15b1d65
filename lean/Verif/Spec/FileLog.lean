import Verif.Spec.File
import Verif.Browser.History

/-
Specification: when the log of calls on one file makes sense. It speaks only of the calls, what they returned, and the contents of a
file as a function from offsets to bytes.
-/

namespace Radix.Spec

open Radix.Browser (Call Seen Out Cache Name)

/-- The record that a `put` stores: the length in 4 bytes, then the data. -/
def record (data : Bytes) : Bytes := toBE 4 data.length ++ data

/-- A call takes the contents from `v` to `v'` and its result fits.

A write that returns `Ok` has changed the contents as asked; one that does not return `Ok` has done that, or nothing. Truncating keeps
the bytes below the limit in any case; if it returns `Ok`, the others are gone, else each of them may be. `put` writes its record at the
offset that it returns. A read that returns bytes returns those of the contents. Nothing else changes the contents, opening the file
in particular. -/
def Explains (v : Contents) : Call → Seen → Contents → Prop
  | .write offset data _, .done r, v' => v' = overwrite v offset data ∨ r ≠ .ok () ∧ v' = v
  | .truncate n _, .done r, v' => (∀ p, p < n → v' p = v p) ∧ ∀ p, n ≤ p → v' p = 0 ∨ r ≠ .ok () ∧ v' p = v p
  | .put data _, .bytes (.ok id), v' => id.length = 8 ∧ v' = overwrite v (ofBE id) (record data)
  | .put data _, .bytes _, v' => v' = v ∨ ∃ offset, v' = overwrite v offset (record data)
  | .read a b _, .bytes (.ok bs), v' => v' = v ∧ bs.length = b - a ∧ Shows v a bs
  | _, _, v' => v' = v

/-- There are contents of the file between the calls of the log, from `v` to `v'`, that explain what was seen. -/
def Possible (v : Contents) : List (Call × Seen) → Contents → Prop
  | [], v' => v' = v
  | e :: es, v' => ∃ u, Explains v e.1 e.2 u ∧ Possible u es v'

/-- Nothing was written yet. -/
def nothing : Contents := fun _ => 0

/-- The cache has no entry of the file. -/
def Unused (cache : Cache) (name : Name) : Prop := ∀ e ∈ cache, Browser.parseRequest e.1 name = none

/-- How far the calls can reach: no write ends after it. -/
def reach : Nat → List Call → Nat
  | n, [] => n
  | n, .write offset data _ :: cs => reach (max n (offset + data.length)) cs
  | n, .put data _ :: cs => reach (n + (record data).length) cs
  | n, _ :: cs => reach n cs

end Radix.Spec
