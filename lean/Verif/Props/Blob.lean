import Verif.Stored.Blob

/-
Properties C31 (small-buffer blobs) and C42 (blob slices).
-/

namespace Radix

theorem hdr_data_spec (n : Nat) : (Hdr.data n).len = min n 127 ∧ (Hdr.data n).isId = false := by
  unfold Hdr.data
  split
  · have hn : n = 127 ∨ n < 127 := by omega
    constructor
    · unfold Hdr.len
      rw [UInt8.toNat_and, UInt8.toNat_ofNat']
      rw [show (127 : UInt8).toNat = 2^7 - 1 by rfl, Nat.and_two_pow_sub_one_eq_mod]
      omega
    · unfold Hdr.isId
      have : UInt8.ofNat n &&& 128 = 0 := by
        apply UInt8.toNat_inj.1
        rw [UInt8.toNat_and, UInt8.toNat_ofNat', Nat.mod_eq_of_lt (by omega)]
        apply Nat.eq_of_testBit_eq
        intro i
        rw [Nat.testBit_and]
        by_cases hi : i = 7
        · subst hi
          rw [Nat.testBit_lt_two_pow (by omega : n < 2^7)]; simp
        · have : (128 : UInt8).toNat.testBit i = false := by
            rw [show (128 : UInt8).toNat = 2^7 by rfl, Nat.testBit_two_pow]; simp; omega
          rw [this]; simp
      rw [this]; rfl
  · constructor
    · rw [show Hdr.len 127 = 127 by decide]; omega
    · decide

theorem hdr_id_spec {n : Nat} {h : Hdr} (e : Hdr.id? n = some h) : h.len = n ∧ h.isId = true ∧ (h.isNone = true ↔ n = 0) := by
  unfold Hdr.id? at e
  split at e
  · rename_i hn
    cases e
    have key : ∀ m : Fin 128, Hdr.len (UInt8.ofNat m.1 ||| 128) = m.1 ∧ Hdr.isId (UInt8.ofNat m.1 ||| 128) = true ∧
        (Hdr.isNone (UInt8.ofNat m.1 ||| 128) = true ↔ m.1 = 0) := by decide +kernel
    exact key ⟨n, hn⟩
  · cases e

/-- **C31**. Any byte string stored as a prefix or value is read back unchanged, no union field is read that was not
written, copies denote the same bytes, the header says "data" and never "none", and tells inline (at most 8 bytes)
from heap. -/
theorem C31_small_buffer (b : Bytes) :
    (OwnedBlob.ofData b).slice = some b ∧
    (∃ c, (OwnedBlob.ofData b).clone = some c ∧ c.slice = some b ∧ c.hdr = (OwnedBlob.ofData b).hdr) ∧
    (OwnedBlob.ofData b).hdr.isData = true ∧ (OwnedBlob.ofData b).hdr.isNone = false ∧
    ((OwnedBlob.ofData b).hdr.isInline = true ↔ b.length ≤ 8) ∧
    ((OwnedBlob.ofData b).hdr.isArc = true ↔ 8 < b.length) ∧
    (b.length ≤ 127 → (OwnedBlob.ofData b).hdr.len = b.length) := by
  have h1 := hdr_data_spec b.length
  have hnone : (Hdr.data b.length).isNone = false := by
    cases e : (Hdr.data b.length).isNone with
    | false => rfl
    | true =>
      have : Hdr.data b.length = 0x80 := by simpa [Hdr.isNone] using e
      rw [this] at h1
      exact absurd h1.2 (by decide)
  have hin : (Hdr.data b.length).isInline = decide (b.length ≤ 8) := by
    unfold Hdr.isInline ptrSize; rw [h1.1]; simp; omega
  have harc : (Hdr.data b.length).isArc = decide (8 < b.length) := by
    unfold Hdr.isArc ptrSize; rw [h1.1]; simp; omega
  have hs : Compact.slice (Compact.copyFromSlice b) (Hdr.data b.length) = some b := by
    unfold Compact.copyFromSlice ptrSize
    split
    · simp only [Compact.slice, hin]
      rw [if_neg (by simpa using by assumption)]
    · rename_i hl
      have hl' : b.length ≤ 8 := by omega
      simp only [Compact.slice, hin]
      rw [if_pos (by simpa using hl'), h1.1, Nat.min_eq_left (by omega), List.take_left']
      rfl
  have hc : Compact.manualClone (Compact.copyFromSlice b) (Hdr.data b.length) = some (Compact.copyFromSlice b) := by
    unfold Compact.copyFromSlice ptrSize
    split
    · simp only [Compact.manualClone, harc]
      rw [if_pos (by simpa using by assumption)]
    · simp only [Compact.manualClone, harc]
      rw [if_neg (by simpa using by omega)]
  refine ⟨hs, ⟨OwnedBlob.ofData b, ?_, hs, rfl⟩, ?_, hnone, ?_, ?_, ?_⟩
  · simp only [OwnedBlob.clone, OwnedBlob.ofData, hc, Option.map_some]
  · simp [OwnedBlob.ofData, Hdr.isData, h1.2]
  · show (Hdr.data b.length).isInline = true ↔ _
    rw [hin]; simp
  · show (Hdr.data b.length).isArc = true ↔ _
    rw [harc]; simp
  · intro hl
    show (Hdr.data b.length).len = _
    rw [h1.1]; omega

/-- The absent value is told apart from every present one. -/
theorem C31_none (b : Bytes) : OwnedBlob.none.hdr.isNone = true ∧ OwnedBlob.none.slice = some [] ∧
    (OwnedBlob.ofData b).hdr ≠ OwnedBlob.none.hdr := by
  refine ⟨by decide, by decide, fun h => ?_⟩
  have := (C31_small_buffer b).2.2.2.1
  rw [h] at this
  exact absurd this (by decide)

/-- The same for blobs copied from a stored record: any header byte with as many bytes as it announces. -/
theorem C31_borrowed (h : Hdr) (b : Bytes) (hb : b.length = h.len) :
    (OwnedBlob.ofBorrowed h b).slice = some b ∧
    ∃ c, (OwnedBlob.ofBorrowed h b).clone = some c ∧ c.slice = some b ∧ c.hdr = h := by
  have hs : Compact.slice (Compact.copyFromSlice b) h = some b := by
    unfold Compact.copyFromSlice ptrSize
    split
    · simp only [Compact.slice, Hdr.isInline, ptrSize, ← hb]
      rw [if_neg (by simpa using by assumption)]
    · rename_i hl
      simp only [Compact.slice, Hdr.isInline, ptrSize, ← hb]
      rw [if_pos (by simpa using by omega), List.take_left']
      rfl
  refine ⟨hs, OwnedBlob.ofBorrowed h b, ?_, hs, rfl⟩
  simp only [OwnedBlob.clone, OwnedBlob.ofBorrowed]
  unfold Compact.copyFromSlice ptrSize
  split
  · simp only [Compact.manualClone, Hdr.isArc, ptrSize, ← hb]
    rw [if_pos (by simpa using by assumption)]; rfl
  · simp only [Compact.manualClone, Hdr.isArc, ptrSize, ← hb]
    rw [if_neg (by simpa using by omega)]; rfl

example : (OwnedBlob.ofData (List.replicate 8 7)).hdr.isInline = true ∧
    (OwnedBlob.ofData (List.replicate 9 7)).hdr.isArc = true ∧
    (OwnedBlob.ofData (List.replicate 300 7)).hdr = 0x7f := by decide +kernel
example : ([1, 2, 3] : Bytes).length = Hdr.len 0x83 := by decide

/-- The first index and the end index that a range denotes in a blob of the given length. -/
def rangeOf (len : Nat) : RBound → RBound → Nat × Nat
  | s, e =>
    ((match s with | .included n => n | .excluded n => n + 1 | .unbounded => 0),
     (match e with | .included n => n + 1 | .excluded n => n | .unbounded => len))

/-- **C42**. `slice` gives the bytes of the range, and panics exactly when the range is decreasing or ends behind the
blob. Indices are words; the blob is not longer than `isize::MAX`. -/
theorem C42_blob_slice (w : Nat) (data : Bytes) (s e : RBound) (hd : data.length + 1 < w)
    (hs : ∀ n, s = .included n ∨ s = .excluded n → n < w) (he : ∀ n, e = .included n ∨ e = .excluded n → n < w) :
    (blobSlice w data s e = none ↔ ¬ ((rangeOf data.length s e).1 ≤ (rangeOf data.length s e).2 ∧
      (rangeOf data.length s e).2 ≤ data.length)) ∧
    ∀ r, blobSlice w data s e = some r →
      r.length = (rangeOf data.length s e).2 - (rangeOf data.length s e).1 ∧
      ∀ i, i < r.length → r[i]? = data[(rangeOf data.length s e).1 + i]? := by
  have main : ∀ b e', ((if ¬ b ≤ e' then none else if ¬ e' ≤ data.length then none
        else if e' = b then some [] else some ((data.drop b).take (e' - b)) : Option Bytes) = none ↔
        ¬ (b ≤ e' ∧ e' ≤ data.length)) ∧
      ∀ r, (if ¬ b ≤ e' then none else if ¬ e' ≤ data.length then none
        else if e' = b then some [] else some ((data.drop b).take (e' - b)) : Option Bytes) = some r →
      r.length = e' - b ∧ ∀ i, i < r.length → r[i]? = data[b + i]? := by
    intro b e'
    by_cases h1 : b ≤ e'
    · by_cases h2 : e' ≤ data.length
      · by_cases h3 : e' = b
        · subst h3; simp [h2]
        · simp only [h1, h2, h3, not_true_eq_false, if_false, and_self]
          refine ⟨by simp, fun r hr => ?_⟩
          cases hr
          refine ⟨by simp; omega, fun i hi => ?_⟩
          simp only [List.length_take, List.length_drop] at hi
          rw [List.getElem?_take_of_lt (by omega), List.getElem?_drop]
      · simp [h1, h2]
    · simp [h1]
  unfold blobSlice rangeOf
  cases s with
  | included n =>
    cases e with
    | included m =>
      have := he m (Or.inl rfl)
      by_cases hm : m + 1 < w
      · simp only [hm, if_true]; exact main _ _
      · simp only [hm, if_false]; constructor
        · constructor
          · intro _; omega
          · intro _; trivial
        · intro r hr; cases hr
    | excluded m => exact main _ _
    | unbounded => exact main _ _
  | excluded n =>
    have := hs n (Or.inr rfl)
    by_cases hn : n + 1 < w
    · simp only [hn, if_true]
      cases e with
      | included m =>
        by_cases hm : m + 1 < w
        · simp only [hm, if_true]; exact main _ _
        · simp only [hm, if_false]; constructor
          · constructor
            · intro _; omega
            · intro _; trivial
          · intro r hr; cases hr
      | excluded m => exact main _ _
      | unbounded => exact main _ _
    · simp only [hn, if_false]
      cases e with
      | included m =>
        have := he m (Or.inl rfl)
        constructor
        · constructor
          · intro _; simp only; omega
          · intro _; trivial
        · intro r hr; cases hr
      | excluded m =>
        have := he m (Or.inr rfl)
        constructor
        · constructor
          · intro _; simp only; omega
          · intro _; trivial
        · intro r hr; cases hr
      | unbounded =>
        constructor
        · constructor
          · intro _; simp only; omega
          · intro _; trivial
        · intro r hr; cases hr
  | unbounded =>
    cases e with
    | included m =>
      have := he m (Or.inl rfl)
      by_cases hm : m + 1 < w
      · simp only [hm, if_true]; exact main _ _
      · simp only [hm, if_false]; constructor
        · constructor
          · intro _; omega
          · intro _; trivial
        · intro r hr; cases hr
    | excluded m => exact main _ _
    | unbounded => exact main _ _

example : blobSlice (2^64) [10, 11, 12, 13] (.excluded 0) (.included 2) = some [11, 12] ∧
    blobSlice (2^64) [10, 11, 12, 13] (.included 3) (.excluded 5) = none ∧
    blobSlice (2^64) [10, 11, 12, 13] (.included 4) .unbounded = some [] := by decide +kernel

/-- `slice_ref` of a part of the blob gives that part: for `data = a ++ sub ++ c` with `sub` at its address. -/
theorem C42_slice_ref (w p : Nat) (a sub c : Bytes) :
    blobSliceRef w p (a ++ sub ++ c) (p + a.length) sub.length = some sub := by
  unfold blobSliceRef
  by_cases h : sub.length = 0
  · rw [if_pos h]; rw [List.length_eq_zero_iff.1 h]
  · rw [if_neg h, if_neg (by omega), if_neg (by simp [Nat.add_assoc])]
    simp only [blobSlice]
    rw [if_neg (by omega), if_neg (by simp), if_neg (by omega)]
    congr 1
    rw [show p + a.length - p = a.length by omega, List.append_assoc, List.drop_left']
    · rw [show a.length + sub.length - a.length = sub.length by omega, List.take_left']; rfl
    · rfl

/-- `slice_ref` of bytes outside the blob panics. -/
theorem C42_slice_ref_outside (w p : Nat) (data : Bytes) (q n : Nat) (hn : 0 < n)
    (h : q < p ∨ p + data.length < q + n) : blobSliceRef w p data q n = none := by
  unfold blobSliceRef
  rw [if_neg (by omega)]
  by_cases hp : p ≤ q
  · rw [if_neg (by omega), if_pos (by omega)]
  · rw [if_pos hp]

end Radix
