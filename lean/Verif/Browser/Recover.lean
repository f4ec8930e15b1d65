import Verif.Browser.History

/-
The two functions of browser/src/web_cache_fs.rs that clean up the chunks of a file when it is opened: `open` (765-800, run by a
unit test only) and `retain_relevant` (559-591, the call in line 312 is commented out).
-/

namespace Radix.Browser

/-! ### Sets of ranges

`RangeSet2<u64>` comes from the crate `range_collections`, which is not in /repo. It is taken to be a set of numbers; iteration gives
the longest ranges of it in ascending order. -/

/-- `RangeSet2::is_disjoint` of two ranges (crate `range_collections`). For browser/src/web_cache_fs.rs 780. -/
def disjointRanges (a b : Range) : Bool := decide (min a.2 b.2 ≤ max a.1 b.1)

/-- The ranges `ps` without `r`. For browser/src/web_cache_fs.rs 784. -/
def subtract (r : Range) (ps : List Range) : List Range :=
  ps.flatMap fun p =>
    if disjointRanges p r then [p]
    else (if p.1 < r.1 then [(p.1, r.1)] else []) ++ (if r.2 < p.2 then [(r.2, p.2)] else [])

/-- The ranges of `RangeSet2::difference` of a range and the union of `covered`. For browser/src/web_cache_fs.rs 784. -/
def difference (r : Range) (covered : List Range) : List Range :=
  covered.foldl (fun ps c => subtract c ps) (if r.1 < r.2 then [r] else [])

/-- Sorting by the start of the range. For browser/src/web_cache_fs.rs 755-758. -/
def insertRange (r : Range) : List Range → List Range
  | [] => [r]
  | x :: xs => if r.1 ≤ x.1 then r :: x :: xs else x :: insertRange r xs

/-- The end of the range that starts at 0 in the union of `[0, e)` and of the ranges in ascending order. For browser/src/web_cache_fs.rs 755-760. -/
def joined : Nat → List Range → Nat
  | e, [] => e
  | e, r :: rs => if r.1 ≤ e then joined (max e r.2) rs else e

/-- `get_file_range` (browser/src/web_cache_fs.rs 754-763): the first range of the union if it starts at 0, otherwise nothing. -/
def fileRange (rs : List Range) : Range := (0, joined 0 (rs.foldr insertRange []))

/-! ### `open` -/

/-- The loop of `open` (browser/src/web_cache_fs.rs 777-798), over the chunks from the last one to the first. -/
def openSteps (file : Range) (level : Nat) : List Chunk → List Range → List Op
  | [], _ => []
  | c :: cs, covered =>
    if disjointRanges c.range file then .delete c :: openSteps file level cs covered
    else
      (if difference c.range covered ≠ [c.range] then
        (difference c.range covered).map (fun r => .rewrite (.new r level)) ++ [.delete c]
       else []) ++ openSteps file level cs (c.range :: covered)

/-- `open` (browser/src/web_cache_fs.rs 765-800): the steps that clean up the chunks of a file. -/
def openPlan (cs : List Chunk) : Out (List Op) := do
  let level ← levelAbove cs
  return openSteps (fileRange (cs.map (·.range))) level cs.reverse []

/-- Carrying out the plan of `open` (browser/src/web_cache_fs.rs 765-800) with `execute_plan` (444-470), as `write` (394-398) and `truncate`
(404-408) do with theirs. The code has no call of `open`. -/
def recover : M Unit := do
  let plan ← lift (openPlan (← self).chunks)
  exec plan

/-- The file is opened and cleaned up, with what happens to the cache operations. For browser/src/web_cache_fs.rs 309-319, 765-800. -/
def recoverWorld (w : World) (evs : List Ev) : Out Unit × World :=
  let r := recover { openFile w.cache w.name with evs := evs }
  (r.1, after r)

/-! ### `retain_relevant` -/

/-- Sorting a vector of chunks (`chunks.sort()`, browser/src/web_cache_fs.rs 560). -/
def insertChunk (c : Chunk) : List Chunk → List Chunk
  | [] => [c]
  | d :: ds => if c.lt d then c :: d :: ds else d :: insertChunk c ds

/-- The decision in `retain` (browser/src/web_cache_fs.rs 563-588) to keep `c` if `prev` was the last one kept. `prev.level + 1` does not overflow:
in a sorted vector no chunk has a level below that of `prev`, so if that is the highest one the levels are the same. -/
def retains (prev c : Chunk) : Bool :=
  if prev.level = c.level then decide (prev.range.2 = c.range.1)
  else if prev.level + 1 = c.level then decide (c.range.1 ≤ prev.range.2)
  else false

/-- The loop of `retain_relevant` (browser/src/web_cache_fs.rs 561-589): what is kept and what is to be deleted. -/
def retainLoop : Chunk → List Chunk → List Chunk × List Chunk
  | _, [] => ([], [])
  | prev, c :: cs =>
    if retains prev c then let r := retainLoop c cs; (c :: r.1, r.2)
    else let r := retainLoop prev cs; (r.1, c :: r.2)

/-- `retain_relevant` (browser/src/web_cache_fs.rs 559-591): the chunks that stay in the vector and those that are returned. -/
def retainRelevant (cs : List Chunk) : List Chunk × List Chunk := retainLoop ⟨0, 0, 0⟩ (cs.foldr insertChunk [])

end Radix.Browser
