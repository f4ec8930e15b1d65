import Verif.Browser.History

/-
Specification vocabulary for C92: how far a file has no gap.
-/

namespace Radix.Browser

/-- All offsets up to `p` are in chunks. -/
def BeforeGap (cs : List Chunk) (p : Nat) : Prop := ∀ q, q ≤ p → ∃ c ∈ cs, c.offset ≤ q ∧ q < c.offset + c.len

/-- All bytes up to `p` were written by writes of the log that returned `Ok`. -/
def WrittenUpTo (l : List (Call × Seen)) (p : Nat) : Prop :=
  ∀ q, q ≤ p → ∃ o d evs, (Call.write o d evs, Seen.done (.ok ())) ∈ l ∧ o ≤ q ∧ q < o + d.length

end Radix.Browser
