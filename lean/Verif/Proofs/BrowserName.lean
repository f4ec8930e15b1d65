import Verif.Proofs.BrowserChunk

/-
Helper lemmas: names of chunks.
-/

set_option linter.unusedVariables false

namespace Radix.Browser

theorem hexDigit_fin : ∀ d : Fin 16, digitValue (hexDigit d) = some d.val ∧ hexDigit d ≠ '-' ∧ hexDigit d ≠ '#' ∧ hexDigit d ≠ '?' ∧
    hexDigit d ≠ '+' := by decide

theorem hexDigit_spec {d : Nat} (h : d < 16) : digitValue (hexDigit d) = some d ∧ hexDigit d ≠ '-' ∧ hexDigit d ≠ '#' ∧
    hexDigit d ≠ '?' ∧ hexDigit d ≠ '+' := hexDigit_fin ⟨d, h⟩

/-- A character of a hexadecimal number. -/
def IsHex (c : Char) : Prop := ∃ d, d < 16 ∧ c = hexDigit d

theorem IsHex.ne {c : Char} (h : IsHex c) : c ≠ '-' ∧ c ≠ '#' ∧ c ≠ '?' ∧ c ≠ '+' := by
  obtain ⟨d, hd, rfl⟩ := h
  exact (hexDigit_spec hd).2

theorem hex_isHex (n : Nat) : ∀ c ∈ hex n, IsHex c := by
  induction n using Nat.strongRecOn with
  | ind n ih =>
    intro c hc
    unfold hex at hc
    split at hc
    · rename_i h
      rw [List.mem_singleton] at hc
      exact ⟨n, h, hc⟩
    · rcases List.mem_append.1 hc with hc | hc
      · exact ih (n / 16) (by omega) c hc
      · rw [List.mem_singleton] at hc
        exact ⟨n % 16, by omega, hc⟩

theorem hex_ne_nil (n : Nat) : hex n ≠ [] := by
  unfold hex
  split <;> simp

theorem parseDigits_hex (n : Nat) (hn : n < 2 ^ 64) : ∀ rest, parseDigits 0 (hex n ++ rest) = parseDigits n rest := by
  induction n using Nat.strongRecOn with
  | ind n ih =>
    intro rest
    unfold hex
    split
    · rename_i h
      show parseDigits 0 (hexDigit n :: rest) = _
      simp only [parseDigits, (hexDigit_spec h).1]
      rw [if_pos (by omega)]
      simp
    · rename_i h
      rw [List.append_assoc, ih (n / 16) (by omega) (by omega)]
      show parseDigits (n / 16) (hexDigit (n % 16) :: rest) = _
      simp only [parseDigits, (hexDigit_spec (Nat.mod_lt n (by omega : 16 > 0))).1]
      have e : n / 16 * 16 + n % 16 = n := by omega
      rw [e, if_pos hn]

theorem parseDigits_zeros (j : Nat) (cs : List Char) : parseDigits 0 (List.replicate j '0' ++ cs) = parseDigits 0 cs := by
  induction j with
  | zero => simp
  | succ j ih =>
    rw [List.replicate_succ]
    show parseDigits 0 ('0' :: (List.replicate j '0' ++ cs)) = _
    have : digitValue '0' = some 0 := by decide
    simp only [parseDigits, this]
    rw [if_pos (by omega)]
    exact ih

theorem hexPad_isHex (w n : Nat) : ∀ c ∈ hexPad w n, IsHex c := by
  intro c hc
  unfold hexPad at hc
  rcases List.mem_append.1 hc with hc | hc
  · exact ⟨0, by omega, (List.eq_of_mem_replicate hc).trans (by decide)⟩
  · exact hex_isHex n c hc

theorem parseHex_hexPad (w : Nat) {n : Nat} (hn : n < 2 ^ 64) : parseHex (hexPad w n) = some n := by
  have h1 : parseDigits 0 (hexPad w n) = some n := by
    unfold hexPad
    rw [parseDigits_zeros]
    have := parseDigits_hex n hn []
    rw [List.append_nil] at this
    rw [this]; rfl
  have h2 := hexPad_isHex w n
  have h3 : hexPad w n ≠ [] := by
    unfold hexPad
    intro h
    exact hex_ne_nil n (List.append_eq_nil_iff.1 h).2
  generalize hexPad w n = cs at h1 h2 h3
  match cs with
  | [] => exact absurd rfl h3
  | c :: cs =>
    have := (h2 c (by simp)).ne.2.2.2
    unfold parseHex
    split
    · rename_i h; exact absurd h (by simp)
    · rename_i h; exact absurd (List.cons.inj h).1 this
    · exact h1

theorem splitAt_append {sep : Char} : ∀ {a : List Char} (b : List Char), sep ∉ a → splitAt sep (a ++ sep :: b) = a :: splitAt sep b
  | [], b, _ => by simp [splitAt]
  | c :: a, b, h => by
    have hc : c ≠ sep := fun e => h (by simp [e])
    show splitAt sep (c :: (a ++ sep :: b)) = _
    rw [splitAt, if_neg hc, splitAt_append b (fun e => h (by simp [e]))]

theorem splitAt_single {sep : Char} : ∀ {a : List Char}, sep ∉ a → splitAt sep a = [a]
  | [], _ => rfl
  | c :: a, h => by
    have hc : c ≠ sep := fun e => h (by simp [e])
    rw [splitAt, if_neg hc, splitAt_single (fun e => h (by simp [e]))]

/-- The numbers of a chunk have 64 bits. -/
def Chunk.Valid (c : Chunk) : Prop := c.level < 2 ^ 64 ∧ c.offset + c.len < 2 ^ 64

theorem parse_query {c : Chunk} (h1 : c.level < 2 ^ 64) (h2 : c.offset < 2 ^ 64) (h3 : c.len < 2 ^ 64) : parseChunk c.query = some c := by
  have hd : ∀ w n, '-' ∉ hexPad w n := fun w n h => (hexPad_isHex w n _ h).ne.1 rfl
  unfold parseChunk Chunk.query
  rw [List.append_assoc, List.cons_append, splitAt_append _ (hd _ _)]
  show (match hexPad 4 c.level :: splitAt '-' (hexPad 8 c.offset ++ '-' :: hexPad 4 c.len) with
    | [a, b, c] => do return (⟨← parseHex a, ← parseHex b, ← parseHex c⟩ : Chunk)
    | _ => none) = _
  rw [splitAt_append _ (hd _ _), splitAt_single (hd _ _)]
  simp only [parseHex_hexPad _ h1, parseHex_hexPad _ h2, parseHex_hexPad _ h3]
  rfl

theorem query_chars {c : Chunk} : ∀ x ∈ c.query, x ≠ '#' ∧ x ≠ '?' := by
  intro x hx
  unfold Chunk.query at hx
  have hh : ∀ w n, x ∈ hexPad w n → x ≠ '#' ∧ x ≠ '?' := fun w n h => ⟨(hexPad_isHex w n x h).ne.2.1, (hexPad_isHex w n x h).ne.2.2.1⟩
  rcases List.mem_append.1 hx with hx | hx
  · rcases List.mem_append.1 hx with hx | hx
    · exact hh _ _ hx
    · rcases List.mem_cons.1 hx with rfl | hx
      · decide
      · exact hh _ _ hx
  · rcases List.mem_cons.1 hx with rfl | hx
    · decide
    · exact hh _ _ hx

theorem takeWhile_stop {P : Char → Bool} : ∀ {a : List Char} {x : Char} (b : List Char), (∀ c ∈ a, P c = true) → P x = false →
    (a ++ x :: b).takeWhile P = a ∧ (a ++ x :: b).dropWhile P = x :: b
  | [], x, b, _, hx => by simp [hx]
  | c :: a, x, b, h, hx => by
    have := takeWhile_stop (a := a) b (fun d hd => h d (List.mem_cons_of_mem _ hd)) hx
    simp [h c (by simp), this]

theorem takeWhile_all {P : Char → Bool} : ∀ {a : List Char}, (∀ c ∈ a, P c = true) → a.takeWhile P = a
  | [], _ => rfl
  | c :: a, h => by
    rw [List.takeWhile_cons, if_pos (h c (by simp)), takeWhile_all fun d hd => h d (List.mem_cons_of_mem _ hd)]

theorem Plain.ne {name : Name} (h : Plain name) : ∀ c ∈ name, c ≠ '?' := by
  rintro c hc rfl
  rcases h.1 '?' hc with h | h | h | h
  · exact absurd h (by decide)
  · exact absurd h (by decide)
  · exact absurd h (by decide)
  · exact absurd h (by decide)

/-- Only the file with this name has the chunk, and it is that chunk. -/
theorem parse_request {c : Chunk} {name name' : Name} (hp : ∀ x ∈ name, x ≠ '?') (h1 : c.level < 2 ^ 64) (h2 : c.offset < 2 ^ 64)
    (h3 : c.len < 2 ^ 64) : parseRequest (c.request name) name' = if name = name' then some c else none := by
  have hpre : ∀ x ∈ '/' :: name, decide (x ≠ '?') = true := by
    intro x hx
    rcases List.mem_cons.1 hx with rfl | hx
    · decide
    · simp [hp x hx]
  have := takeWhile_stop (P := fun x => decide (x ≠ '?')) (x := '?') c.query hpre (by decide)
  unfold parseRequest Chunk.request
  dsimp only
  rw [this.1, this.2, if_pos (by simp)]
  have hq : (c.query.takeWhile fun x => decide (x ≠ '#')) = c.query :=
    takeWhile_all fun x hx => by simp [(query_chars x hx).1]
  simp only [List.drop_succ_cons, List.drop_zero]
  rw [hq, parse_query h1 h2 h3]
  simp

/-- Different chunks, and different files, have different entries. -/
theorem request_inj {c c' : Chunk} {name name' : Name} (hp : ∀ x ∈ name, x ≠ '?') (hp' : ∀ x ∈ name', x ≠ '?')
    (hc : c.Valid) (hc' : c'.Valid) (h : c.request name = c'.request name') : c = c' ∧ name = name' := by
  unfold Chunk.Valid at hc hc'
  have a := parse_request (name' := name) hp hc.1 (by omega) (by omega)
  have b := parse_request (name' := name) hp' hc'.1 (by omega) (by omega)
  rw [h, b] at a
  simp only [if_true] at a
  split at a
  · rename_i e; exact ⟨(Option.some.inj a).symm, e.symm⟩
  · exact absurd a (by simp)

end Radix.Browser
