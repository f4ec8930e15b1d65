import Verif.Stored.Mem

/-
The pure helpers of the browser file system: intervals (browser/src/lib.rs), chunks and their names, and the plans of cache
operations that add or cut off bytes (browser/src/web_cache_fs.rs).

The target is 32 bit WebAssembly: `usize` has 32 bits. Arithmetic overflow is a panic (builds with overflow checks).
-/

namespace Radix.Browser

/-- Outcome of a call. `crash`: the page is closed before the call returns. For browser/src/web_cache_fs.rs 308-432. -/
inductive Out (α : Type) where
  | ok (a : α)
  | err
  | panic
  | crash
  deriving DecidableEq

namespace Out

/-- The `?` operator. For browser/src/web_cache_fs.rs 308-432. -/
def bind {α β : Type} (x : Out α) (f : α → Out β) : Out β :=
  match x with
  | ok a => f a
  | err => err
  | panic => panic
  | crash => crash

/-- Monad for browser/src/web_cache_fs.rs 595-664. -/
instance : Monad Out where
  pure := ok
  bind := bind

end Out

/-- Conversion of a number that is at most `2 ^ 64 - 1` to `i64` (Rust std `i64::try_from`). -/
def toI64 (n : Nat) : Out Int := if n < 2 ^ 63 then .ok n else .err

/-- Addition or subtraction of two `i64` with result `z`. -/
def checkI64 (z : Int) : Out Int := if -(2 ^ 63) ≤ z ∧ z < 2 ^ 63 then .ok z else .panic

/-- `usize::try_from`, from `u64` or `i64` (Rust std). -/
def toUsize (z : Int) : Out Nat := if 0 ≤ z ∧ z < 2 ^ 32 then .ok z.toNat else .err

/-- `i32::try_from(usize)` (Rust std). -/
def toI32 (n : Nat) : Out Nat := if n < 2 ^ 31 then .ok n else .err

/-- `Range<u64>` or `Range<usize>`: start and end; the start can be behind the end. -/
abbrev Range := Nat × Nat

/-- `ranges` (browser/src/lib.rs 51-62). -/
def ranges (src tgt : Range) : Out (Range × Range) := do
  let srcLen := src.2 - src.1
  let s1 ← toI64 (min (tgt.1 - src.1) srcLen)
  let s2 ← toI64 (min (tgt.2 - src.1) srcLen)
  let a ← toI64 src.1
  let b ← toI64 tgt.1
  let t ← checkI64 (a - b)
  let t1 ← checkI64 (s1 + t)
  let t2 ← checkI64 (s2 + t)
  let s1 ← toUsize s1
  let s2 ← toUsize s2
  let t1 ← toUsize (max t1 0)
  let t2 ← toUsize (max t2 0)
  return ((s1, s2), (t1, t2))

/-- `overlap` (browser/src/lib.rs 65-67). -/
def overlap (a b : Range) : Bool := !(decide (a.2 ≤ b.1) || decide (b.2 ≤ a.1))

/-- `contains` (browser/src/lib.rs 70-72). -/
def contains (a b : Range) : Bool := decide (a.1 ≤ b.1) && decide (a.2 ≥ b.2)

/-! ### Chunks -/

/-- `ChunkMeta` (browser/src/web_cache_fs.rs 593-604). -/
structure Chunk where
  level : Nat
  offset : Nat
  len : Nat
  deriving DecidableEq

/-- `ChunkMeta::range` (browser/src/web_cache_fs.rs 615-617). All chunks come from plans, where the end has been computed
before, so the addition does not overflow. -/
def Chunk.range (c : Chunk) : Range := (c.offset, c.offset + c.len)

/-- `ChunkMeta::new` (browser/src/web_cache_fs.rs 607-613); the callers pass ranges with start ≤ end. -/
def Chunk.new (range : Range) (level : Nat) : Chunk := ⟨level, range.1, range.2 - range.1⟩

/-- The derived `Ord` of `ChunkMeta` (browser/src/web_cache_fs.rs 593): by level, then offset, then length. -/
def Chunk.lt (a b : Chunk) : Bool :=
  decide (a.level < b.level) || (decide (a.level = b.level) &&
    (decide (a.offset < b.offset) || (decide (a.offset = b.offset) && decide (a.len < b.len))))

/-- `BTreeSet::insert` (Rust std) on the sorted list of the elements. For browser/src/web_cache_fs.rs 451-468. -/
def insert (c : Chunk) : List Chunk → List Chunk
  | [] => [c]
  | d :: ds => if c.lt d then c :: d :: ds else if c = d then d :: ds else d :: insert c ds

/-- `BTreeSet::remove` (Rust std) on the sorted list of the elements. For browser/src/web_cache_fs.rs 451-468. -/
def remove (c : Chunk) (cs : List Chunk) : List Chunk := cs.filter (· ≠ c)

/-! ### Names of chunks -/

/-- The name of a file or directory. (`SharedStr`, browser/src/web_cache_fs.rs 299-306.) -/
abbrev Name := List Char

/-- A hexadecimal digit. For browser/src/web_cache_fs.rs 638-650. -/
def hexDigit (n : Nat) : Char := "0123456789abcdef".toList.getD n '0'

/-- `{:x}` (Rust std). For browser/src/web_cache_fs.rs 638-650. -/
def hex (n : Nat) : List Char := if n < 16 then [hexDigit n] else hex (n / 16) ++ [hexDigit (n % 16)]
termination_by n

/-- `{:0wx}` (Rust std): at least `w` digits. -/
def hexPad (w n : Nat) : List Char := List.replicate (w - (hex n).length) '0' ++ hex n

/-- `ChunkMeta::to_string` (browser/src/web_cache_fs.rs 646-650). -/
def Chunk.query (c : Chunk) : List Char := hexPad 4 c.level ++ '-' :: hexPad 8 c.offset ++ '-' :: hexPad 4 c.len

/-- `ChunkMeta::to_request_str` (browser/src/web_cache_fs.rs 638-643). -/
def Chunk.request (c : Chunk) (name : Name) : List Char := '/' :: name ++ '?' :: c.query

/-- The value of a hexadecimal digit of either case (Rust std `char::to_digit`). For browser/src/web_cache_fs.rs 652-664. -/
def digitValue (c : Char) : Option Nat :=
  if '0' ≤ c ∧ c ≤ '9' then some (c.toNat - 48)
  else if 'a' ≤ c ∧ c ≤ 'f' then some (c.toNat - 87)
  else if 'A' ≤ c ∧ c ≤ 'F' then some (c.toNat - 55)
  else none

/-- The loop of `u64::from_str_radix(_, 16)` (Rust std): no other characters, no overflow. -/
def parseDigits : Nat → List Char → Option Nat
  | acc, [] => some acc
  | acc, c :: cs =>
    match digitValue c with
    | some d => if acc * 16 + d < 2 ^ 64 then parseDigits (acc * 16 + d) cs else none
    | none => none

/-- `u64::from_str_radix(_, 16)` (Rust std): a leading plus sign is allowed, there must be a digit. -/
def parseHex : List Char → Option Nat
  | [] => none
  | '+' :: cs => if cs.isEmpty then none else parseDigits 0 cs
  | cs => parseDigits 0 cs

/-- `str::split` at a character (Rust std). For browser/src/web_cache_fs.rs 619-636, 652-664. -/
def splitAt (sep : Char) : List Char → List (List Char)
  | [] => [[]]
  | c :: cs =>
    if c = sep then [] :: splitAt sep cs
    else match splitAt sep cs with
      | [] => [[c]]
      | p :: ps => (c :: p) :: ps

/-- `ChunkMeta::from_str` (browser/src/web_cache_fs.rs 652-663); `none` for errors. -/
def parseChunk (args : List Char) : Option Chunk :=
  match splitAt '-' args with
  | [a, b, c] => do return ⟨← parseHex a, ← parseHex b, ← parseHex c⟩
  | _ => none

/-- `ChunkMeta::parse_and_filter` (browser/src/web_cache_fs.rs 619-636) followed by the two `filter_map` of `chunks`
(552-553): errors and `None` are both dropped. The URL is given without its origin. Of `Url::parse` only this is modelled: the
path ends at the first `?` and the query is what follows it (up to a `#`). Other characters with a meaning in URLs, percent
encoding and `.` and `..` as path segments are not modelled; see `Plain`. -/
def parseRequest (url : List Char) (name : Name) : Option Chunk :=
  let path := url.takeWhile (· ≠ '?')
  let query := (url.dropWhile (· ≠ '?')).drop 1
  if url.contains '?' then
    if path = '/' :: name then parseChunk (query.takeWhile (· ≠ '#')) else none
  else none

/-- File names that are their own URL path: letters, digits and `-`, `_`, `.`, but not the names `.` and `..`. For browser/src/web_cache_fs.rs 619-644. -/
def Plain (name : Name) : Prop := (∀ c ∈ name, c.isAlphanum ∨ c = '-' ∨ c = '_' ∨ c = '.') ∧ name ≠ ['.'] ∧ name ≠ ['.', '.']

/-! ### Plans -/

/-- `Op` (browser/src/web_cache_fs.rs 665-673). -/
inductive Op where
  | rewrite (c : Chunk)
  | delete (c : Chunk)
  | write (c : Chunk) (data : Bytes)
  deriving DecidableEq

/-- The level above the given chunks: `map(level).max().map(|x| x + 1).unwrap_or_default()` (browser/src/web_cache_fs.rs 698-703,
736-741). -/
def levelAbove (cs : List Chunk) : Out Nat :=
  match cs.map (·.level) with
  | [] => .ok 0
  | l :: ls =>
    let m := ls.foldl max l
    if m + 1 < 2 ^ 64 then .ok (m + 1) else .panic

/-- `add` (browser/src/web_cache_fs.rs 690-725): the steps to write `data` at `offset`. -/
def add (cs : List Chunk) (offset : Nat) (data : Bytes) : Out (List Op) :=
  if offset + data.length < 2 ^ 64 then do
    let range : Range := (offset, offset + data.length)
    let relevant := cs.filter fun x => overlap x.range range
    let level ← levelAbove relevant
    let rewrite := relevant.filter fun x => !contains range x.range
    let delete := relevant.filter fun x => contains range x.range
    return .write (.new range level) data :: delete.map .delete ++
      rewrite.flatMap fun r =>
        (if r.range.1 < range.1 then [.rewrite (.new (r.range.1, range.1) level)] else []) ++
        (if r.range.2 > range.2 then [.rewrite (.new (range.2, r.range.2) level)] else []) ++ [.delete r]
  else .panic

/-- `truncate` (browser/src/web_cache_fs.rs 728-752): the steps to cut off everything from `offset` on. -/
def truncatePlan (cs : List Chunk) (offset : Nat) : Out (List Op) := do
  let relevant := cs.filter fun x => decide (x.range.2 > offset)
  let level ← levelAbove relevant
  let first :=
    match relevant.map (·.offset) with
    | [] => []
    | s :: ss =>
      let start := ss.foldl min s
      if start < offset then [.rewrite (.new (start, offset) level)] else []
  return first ++ relevant.map .delete

end Radix.Browser
