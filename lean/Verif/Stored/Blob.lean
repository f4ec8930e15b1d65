import Verif.Tree.Node

/-
Model of headers, the small-buffer blob representation and `Blob` slices
(src/node/mod.rs 23-314, src/store/blob_store.rs 36-197).
-/

namespace Radix

/-- `PTR_SIZE` (src/node/mod.rs 23) on a 64 bit target. -/
def ptrSize : Nat := 8

/-- `Header` (src/node/mod.rs 229-231): one byte. -/
abbrev Hdr := UInt8

namespace Hdr

/-- `Header::id` (src/node/mod.rs 265-268); `none` is the failed `assert!(len < 0x80)`. -/
def id? (len : Nat) : Option Hdr := if len < 0x80 then some (UInt8.ofNat len ||| 0x80) else none

/-- `Header::data` (src/node/mod.rs 270-276). -/
def data (len : Nat) : Hdr := if len ≤ 0x7f then UInt8.ofNat len else 0x7f

/-- `Header::NONE` (src/node/mod.rs 261). -/
def none : Hdr := 0x80

/-- `Header::EMPTY` (src/node/mod.rs 259). -/
def empty : Hdr := 0

/-- `Header::ARCDATA` (src/node/mod.rs 263). -/
def arcData : Hdr := 0x7f

/-- `Header::is_id` (src/node/mod.rs 279-281). -/
def isId (h : Hdr) : Bool := (h &&& 0x80) != 0

/-- `Header::is_data` (src/node/mod.rs 284-286). -/
def isData (h : Hdr) : Bool := !isId h

/-- `Header::is_none` (src/node/mod.rs 289-291). -/
def isNone (h : Hdr) : Bool := h == 0x80

/-- `Header::len`, `Header::len_u8` (src/node/mod.rs 306-313). -/
def len (h : Hdr) : Nat := (h &&& 0x7f).toNat

/-- `Header::is_inline` (src/node/mod.rs 294-296). -/
def isInline (h : Hdr) : Bool := decide (len h ≤ ptrSize)

/-- `Header::is_arc` (src/node/mod.rs 299-301). -/
def isArc (h : Hdr) : Bool := decide (len h > ptrSize)

end Hdr

/-- `CompactOwnedBlob` (src/node/mod.rs 31-34): a union of an `Arc<Vec<u8>>` and 8 inline bytes. The model
remembers which field was written last; reading the other one is undefined behaviour in the code. -/
inductive Compact where
  | arc (v : Bytes)
  | inline (a : Bytes)

namespace Compact

/-- `CompactOwnedBlob::EMPTY` (src/node/mod.rs 37-39). -/
def empty : Compact := inline (List.replicate ptrSize 0)

/-- `CompactOwnedBlob::copy_from_slice` (src/node/mod.rs 41-52). -/
def copyFromSlice (data : Bytes) : Compact :=
  if data.length > ptrSize then arc data
  else inline (data ++ List.replicate (ptrSize - data.length) 0)

/-- `CompactOwnedBlob::slice` (src/node/mod.rs 62-70); `none` is a read of the wrong union field. -/
def slice : Compact → Hdr → Option Bytes
  | inline a, h => if h.isInline then some (a.take h.len) else none
  | arc v, h => if h.isInline then none else some v

/-- `CompactOwnedBlob::manual_clone` (src/node/mod.rs 72-84); `none` is a read of the wrong union field. -/
def manualClone : Compact → Hdr → Option Compact
  | arc v, h => if h.isArc then some (arc v) else none
  | inline a, h => if h.isArc then none else some (inline a)

end Compact

/-- A header with its blob: `OwnedBlobRef` (src/node/mod.rs 319-323), the prefix or value fields of a
`TreeNode` (651-666) and `Value` (556-560). -/
structure OwnedBlob where
  hdr : Hdr
  data : Compact

namespace OwnedBlob

/-- `TreeNode::set_prefix_slice` and `set_value_slice(Some(_))` (src/node/mod.rs 993-997, 1032-1036). -/
def ofData (b : Bytes) : OwnedBlob := ⟨Hdr.data b.length, Compact.copyFromSlice b⟩

/-- `set_value_slice(None)` (src/node/mod.rs 1037-1040), `Value::EMPTY` (593-597). -/
def none : OwnedBlob := ⟨Hdr.none, Compact.empty⟩

/-- `set_prefix_borrowed`, `set_value_borrowed` (src/node/mod.rs 1005-1015): the header of a borrowed blob with a copy
of its bytes; the bytes of a borrowed blob are as many as its header says (`BorrowedBlobRef::slice`, 420-426). -/
def ofBorrowed (h : Hdr) (b : Bytes) : OwnedBlob := ⟨h, Compact.copyFromSlice b⟩

/-- `OwnedBlobRef::slice` (src/node/mod.rs 359-361). -/
def slice (o : OwnedBlob) : Option Bytes := o.data.slice o.hdr

/-- `set_prefix_owned`, `set_value_owned` (src/node/mod.rs 987-991, 999-1003), `OwnedValueRef::to_owned` (532-538),
the prefix and value parts of `TreeNode::clone` (1127-1138). -/
def clone (o : OwnedBlob) : Option OwnedBlob := (o.data.manualClone o.hdr).map fun d => ⟨o.hdr, d⟩

end OwnedBlob

/-- One end of a range: `std::ops::Bound<usize>`. For src/store/blob_store.rs 127-164. -/
inductive RBound where
  | included (n : Nat)
  | excluded (n : Nat)
  | unbounded

/-- `Blob::slice` (src/store/blob_store.rs 127-163) on the bytes of the blob; `none` is a failed `assert!` or `expect`.
`wordSize` is `usize::MAX + 1`. For `Excluded(usize::MAX)` as a start, `n + 1` overflows: the code panics in debug
builds and gives start 0 in release builds; the model has the panic. -/
def blobSlice (wordSize : Nat) (data : Bytes) (s e : RBound) : Option Bytes :=
  let begin? : Option Nat :=
    match s with
    | .included n => some n
    | .excluded n => if n + 1 < wordSize then some (n + 1) else none
    | .unbounded => some 0
  let end? : Option Nat :=
    match e with
    | .included n => if n + 1 < wordSize then some (n + 1) else none
    | .excluded n => some n
    | .unbounded => some data.length
  match begin?, end? with
  | some b, some e =>
    if ¬ b ≤ e then none
    else if ¬ e ≤ data.length then none
    else if e = b then some []
    else some ((data.drop b).take (e - b))
  | _, _ => none

/-- `Blob::slice_ref` (src/store/blob_store.rs 166-197): `subset` is `subLen` bytes at address `subP`, the blob is at address
`p`. Adding lengths to addresses does not overflow for slices that exist. -/
def blobSliceRef (wordSize : Nat) (p : Nat) (data : Bytes) (subP subLen : Nat) : Option Bytes :=
  if subLen = 0 then some []
  else if ¬ p ≤ subP then none
  else if ¬ subP + subLen ≤ p + data.length then none
  else blobSlice wordSize data (.included (subP - p)) (.excluded (subP - p + subLen))

end Radix
