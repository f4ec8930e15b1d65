import Verif.Stored.Mem
import Verif.Proofs.Record

/-
Proof-internal: big-endian integers, `MemStore` conforms to the store interface.
-/

set_option linter.unusedVariables false

namespace Radix

theorem toBE_length (n x : Nat) : (toBE n x).length = n := by
  induction n generalizing x with
  | zero => rfl
  | succ n ih => simp [toBE, ih]

theorem ofBE_snoc (bs : Bytes) (b : UInt8) : ofBE (bs ++ [b]) = ofBE bs * 256 + b.toNat := by
  simp [ofBE]

theorem ofBE_toBE (n x : Nat) : ofBE (toBE n x) = x % 256 ^ n := by
  induction n generalizing x with
  | zero => simp [toBE, ofBE, Nat.mod_one]
  | succ n ih =>
    rw [toBE, ofBE_snoc, ih, Nat.pow_succ, Nat.mul_comm (256 ^ n) 256, Nat.mod_mul]
    simp [Nat.mul_comm]; omega

theorem ofBE_toBE_lt {n x : Nat} (h : x < 256 ^ n) : ofBE (toBE n x) = x := by
  rw [ofBE_toBE, Nat.mod_eq_of_lt h]

theorem snoc_induction {P : Bytes → Prop} (h0 : P []) (h1 : ∀ bs b, P bs → P (bs ++ [b])) (bs : Bytes) : P bs := by
  have : ∀ l : Bytes, P l.reverse := by
    intro l
    induction l with
    | nil => exact h0
    | cons a l ih => rw [List.reverse_cons]; exact h1 _ _ ih
  simpa using this bs.reverse

theorem ofBE_lt (bs : Bytes) : ofBE bs < 256 ^ bs.length := by
  induction bs using snoc_induction with
  | h0 => simp [ofBE]
  | h1 bs b ih =>
    rw [ofBE_snoc, List.length_append, List.length_singleton, Nat.pow_succ]
    have := b.toNat_lt
    omega

theorem toBE_ofBE (bs : Bytes) : toBE bs.length (ofBE bs) = bs := by
  induction bs using snoc_induction with
  | h0 => rfl
  | h1 bs b ih =>
    rw [List.length_append, List.length_singleton, toBE, ofBE_snoc]
    have := b.toNat_lt
    rw [show (ofBE bs * 256 + b.toNat) / 256 = ofBE bs by omega, ih]
    congr 2
    rw [← UInt8.toNat_inj]; simp

theorem ofBE_inj {as bs : Bytes} (hl : as.length = bs.length) (h : ofBE as = ofBE bs) : as = bs := by
  rw [← toBE_ofBE as, ← toBE_ofBE bs, hl, h]

theorem foldl_max (st : MemState) (m : Nat) : st.foldl (fun m e => Nat.max m e.1) m = Nat.max m st.max := by
  induction st generalizing m with
  | nil => simp [MemState.max]
  | cons e st ih =>
    simp only [MemState.max, List.foldl_cons]
    rw [ih, ih]; simp [Nat.max_assoc]

theorem max_cons (e : Nat × Bytes) (st : MemState) : MemState.max (e :: st) = Nat.max e.1 st.max := by
  simp only [MemState.max, List.foldl_cons]
  rw [foldl_max]; simp [MemState.max]

theorem find_cons (e : Nat × Bytes) (st : MemState) (i : Nat) :
    MemState.find (e :: st) i = if e.1 = i then some e.2 else MemState.find st i := by
  simp only [MemState.find, List.find?_cons]
  by_cases h : e.1 = i
  · simp [h]
  · rw [if_neg h, show (e.1 == i) = false from by simpa using h]

theorem find_le {st : MemState} {i : Nat} {d : Bytes} (h : st.find i = some d) : i ≤ st.max := by
  induction st with
  | nil => simp [MemState.find] at h
  | cons e st ih =>
    rw [find_cons] at h
    rw [max_cons]
    by_cases hi : e.1 = i
    · subst hi; exact Nat.le_max_left _ _
    · rw [if_neg hi] at h; exact Nat.le_trans (ih h) (Nat.le_max_right _ _)

/-- `MemStore` conforms. -/
def memLawful : Lawful memStore where
  Has st i d := i.length = 8 ∧ st.find (ofBE i) = some d
  read_has {st i d} h := by
    left
    simp only [memStore]
    rw [if_pos h.1, h.2]
  write_ok {st d i st'} h := by
    simp only [memStore] at h
    split at h
    · rename_i hl
      simp only [Prod.mk.injEq, Res.ok.injEq] at h
      obtain ⟨rfl, rfl⟩ := h
      refine ⟨⟨toBE_length _ _, ?_⟩, by simp [toBE_length], by simp [toBE_length]⟩
      rw [find_cons, ofBE_toBE_lt (by simpa using hl)]; simp
    · cases h
  write_mono {st d r st' i e} h hh := by
    simp only [memStore] at h
    split at h
    · simp only [Prod.mk.injEq] at h
      obtain ⟨_, rfl⟩ := h
      refine ⟨hh.1, ?_⟩
      rw [find_cons, if_neg, hh.2]
      have := find_le hh.2
      show st.max + 1 ≠ _
      omega
    · cases h; exact hh

theorem mem_readsSucceed (st : MemState) : ReadsSucceed memLawful st := by
  intro i d h
  simp only [memStore]
  rw [if_pos h.1, h.2]

theorem mem_canWrite {n : Nat} {st : MemState} (h : st.max + n < 2 ^ 64) : CanWrite memStore n st := by
  induction n generalizing st with
  | zero => trivial
  | succ n ih =>
    intro d
    refine ⟨toBE 8 (st.max + 1), _, ?_, ih (st := (st.max + 1, d) :: st) ?_⟩
    · simp only [memStore]; rw [if_pos (by omega)]
    · rw [max_cons]
      have : Nat.max (st.max + 1) st.max = st.max + 1 := Nat.max_eq_left (by omega)
      show Nat.max (st.max + 1) st.max + n < _
      omega

end Radix
