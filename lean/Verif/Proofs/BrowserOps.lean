import Verif.Proofs.BrowserPlan
import Verif.Browser.History
import Verif.Proofs.Mem

/-
Helper lemmas: what the operations of a file do, whatever happens to their cache operations.
-/

set_option linter.unusedVariables false

namespace Radix.Browser

open Radix.Spec (overwrite cut Shows)

/-- The file after a call, whatever its outcome. -/
structure Next (w w' : File) : Prop where
  name : w'.name = w.name
  inv : CInv w'.name w'.cache
  calm : Calm w.evs → Calm w'.evs
  others : others w.name w'.cache = others w.name w.cache

theorem Inv.valid {w : File} (h : Inv w) : ∀ c ∈ w.chunks, c.Valid := fun c hc => (h.1.chunk (by rw [← h.2]; exact hc)).1

/-- Executing the plan of a write. -/
theorem write_plan {w : File} (h : Inv w) (offset : Nat) (data : Bytes) (hpl : ∃ plan, add w.chunks offset data = .ok plan) :
    ∃ plan w' r, add w.chunks offset data = .ok plan ∧ exec plan w = (r, w') ∧ Next w w' ∧ (r ≠ .crash → Inv w') ∧
      ((∀ p, byteAt w'.name w'.cache p = byteAt w.name w.cache p) ∧ r ≠ .ok () ∨
       ∀ p, byteAt w'.name w'.cache p = overwrite (byteAt w.name w.cache) offset data p) := by
  rcases add_spec w.chunks offset data h.valid with ⟨l, ops, e, hok, hsafe, hlev, -⟩ | ⟨e, -⟩
  · obtain ⟨cache', chunks', evs', r, k, hq, ex, hk, hc, hrk, hinv⟩ := exec_spec _ h hok
    refine ⟨_, _, r, e, ex, ⟨rfl, ?_, hq, ?_⟩, hinv, ?_⟩
    · dsimp only
      rw [hc]
      exact CInv.effects h.1 fun op hop => hok op (List.mem_of_mem_take hop)
    · dsimp only
      rw [hc]
      exact others_effects h.1.1 fun op hop => hok op (List.mem_of_mem_take hop)
    · dsimp only
      rw [hc]
      match k, hrk with
      | 0, hrk => exact Or.inl ⟨fun p => rfl, fun hr => absurd (hrk hr) (by simp)⟩
      | k + 1, _ => exact Or.inr fun p => effects_add h.1 hok hsafe (by rw [← h.2]; exact hlev) k p
  · obtain ⟨plan, hp⟩ := hpl
    rw [e] at hp; exact absurd hp (by simp)

/-- `write`: nothing happens, or all of it; it is complete if it returns `Ok`. -/
theorem write_spec {w : File} (h : Inv w) (offset : Nat) (data : Bytes) : ∃ w' r, write offset data w = (r, w') ∧ Next w w' ∧
    (r ≠ .crash → Inv w') ∧
    ((∀ p, byteAt w'.name w'.cache p = byteAt w.name w.cache p) ∧ r ≠ .ok () ∨
     ∀ p, byteAt w'.name w'.cache p = overwrite (byteAt w.name w.cache) offset data p) := by
  unfold write
  rw [bind_ok (x := self) rfl]
  rcases add_spec w.chunks offset data h.valid with ⟨l, ops, e, -⟩ | ⟨e, -⟩
  · obtain ⟨plan, w', r, e', hex, h1, h2, h3⟩ := write_plan h offset data ⟨_, e⟩
    rw [e', bind_ok (x := lift _) rfl]
    exact ⟨w', r, hex, h1, h2, h3⟩
  · rw [e, bind_panic (x := lift _) rfl]
    exact ⟨w, .panic, rfl, ⟨rfl, h.1, fun h => h, rfl⟩, fun _ => h, Or.inl ⟨fun p => rfl, by simp⟩⟩

/-- `append` writes at the length. -/
theorem append_spec {w : File} (h : Inv w) (data : Bytes) : ∃ w' r, append data w = (r, w') ∧ Next w w' ∧
    (r ≠ .crash → Inv w') ∧ (∀ n, r = .ok n → n = length w) ∧
    ((∀ p, byteAt w'.name w'.cache p = byteAt w.name w.cache p) ∧ (∀ n, r ≠ .ok n) ∨
     ∀ p, byteAt w'.name w'.cache p = overwrite (byteAt w.name w.cache) (length w) data p) := by
  unfold append
  rw [bind_ok (x := self) rfl, bind_ok (x := self) rfl]
  have hl : (prev w).range.2 = length w := rfl
  rw [hl]
  rcases add_spec w.chunks (length w) data h.valid with ⟨l, ops, e, -⟩ | ⟨e, -⟩
  · obtain ⟨plan, w', r, e', hex, h1, h2, h3⟩ := write_plan h (length w) data ⟨_, e⟩
    rw [e', bind_ok (x := lift _) rfl]
    match r, hex, h2, h3 with
    | .ok (), hex, h2, h3 =>
      rw [bind_ok hex]
      exact ⟨w', _, rfl, h1, fun _ => h2 (by simp), fun n hn => (by cases hn; rfl), Or.inr (h3.resolve_left fun h => h.2 rfl)⟩
    | .err, hex, h2, h3 =>
      rw [bind_err hex]
      exact ⟨w', _, rfl, h1, fun _ => h2 (by simp), by simp, h3.imp_left fun h => ⟨h.1, by simp⟩⟩
    | .panic, hex, h2, h3 =>
      rw [bind_panic hex]
      exact ⟨w', _, rfl, h1, fun _ => h2 (by simp), by simp, h3.imp_left fun h => ⟨h.1, by simp⟩⟩
    | .crash, hex, h2, h3 =>
      rw [bind_crash hex]
      exact ⟨w', _, rfl, h1, fun h => absurd rfl h, by simp, h3.imp_left fun h => ⟨h.1, by simp⟩⟩
  · rw [e, bind_panic (x := lift _) rfl]
    exact ⟨w, .panic, rfl, ⟨rfl, h.1, fun h => h, rfl⟩, fun _ => h, by simp, Or.inl ⟨fun p => rfl, by simp⟩⟩

theorem length_le_of {w : File} {n : Nat} (h : ∀ c ∈ w.chunks, c.offset + c.len ≤ n) : length w ≤ n := by
  unfold length prev
  cases hl : w.chunks.getLast? with
  | none => simp [Chunk.range]
  | some c => exact h c (List.mem_of_getLast? hl)

/-- `truncate`: the bytes below `n` stay; the others stay or go, and are gone if it returns `Ok`. -/
theorem truncate_spec {w : File} (h : Inv w) (n : Nat) : ∃ w' r, truncate n w = (r, w') ∧ Next w w' ∧
    (r ≠ .crash → Inv w') ∧
    (∀ p, p < n → byteAt w'.name w'.cache p = byteAt w.name w.cache p) ∧
    (∀ p, byteAt w'.name w'.cache p = byteAt w.name w.cache p ∨ byteAt w'.name w'.cache p = 0) ∧
    (r = .ok () → (∀ p, n ≤ p → byteAt w'.name w'.cache p = 0) ∧ ∀ c ∈ w'.chunks, c.offset + c.len ≤ n) := by
  unfold truncate
  rw [bind_ok (x := self) rfl]
  have hbv : ∀ c ∈ beyond w.chunks n, c.Valid := fun c hc => h.valid c (mem_beyond.1 hc).1
  rcases truncatePlan_spec w.chunks n h.valid with ⟨first, l, e, hok, hfirst, hlev, -, hsafe⟩ | ⟨e, -⟩
  · rw [e, bind_ok (x := lift _) rfl]
    have hok' : ∀ op ∈ first ++ (beyond w.chunks n).map .delete, OpOk op := by
      intro op hop
      rcases List.mem_append.1 hop with hop | hop
      · exact hok op hop
      · obtain ⟨c, hc, rfl⟩ := List.mem_map.1 hop
        exact hbv c hc
    obtain ⟨cache', chunks', evs', r, k, hq, ex, hk, hc, hrk, hinv⟩ := exec_spec _ h hok'
    have hci : CInv w.name cache' := by
      rw [hc]
      exact CInv.effects h.1 fun op hop => hok' op (List.mem_of_mem_take hop)
    have hco : others w.name cache' = others w.name w.cache := by
      rw [hc]
      exact others_effects h.1.1 fun op hop => hok' op (List.mem_of_mem_take hop)
    -- the file after the first step
    have h1 : CInv w.name (effects w.name w.cache first) := CInv.effects h.1 hok
    have hbytes : ∀ p, byteAt w.name (effects w.name w.cache first) p = byteAt w.name w.cache p := by
      intro p
      rcases hfirst with rfl | ⟨c, rfl, -⟩
      · rfl
      · have hv : c.Valid := hok (.rewrite c) (by simp)
        exact byteAt_rewrite h.1 hv p
    have hmem : ∀ c, c ∈ chunksOf (effects w.name w.cache first) w.name → c ∈ w.chunks ∨ c.offset + c.len ≤ n ∧ c ∉ beyond w.chunks n := by
      intro c hcm
      rcases hfirst with rfl | ⟨c', rfl, h2, h3, h4, -⟩
      · rw [h.2]; exact Or.inl hcm
      · have hcm : c ∈ chunksOf (w.cache.set _ _) w.name := hcm
        have hv : c'.Valid := hok (.rewrite c') (by simp)
        rw [chunksOf_set h.1 hv, ← h.2] at hcm
        rcases mem_insert.1 hcm with rfl | hcm
        · exact Or.inr ⟨by omega, fun hb => by have := hlev c hb; omega⟩
        · exact Or.inl hcm
    have hall : ∀ p, n ≤ p → ∀ c ∈ chunksOf (effects w.name w.cache first) w.name, Covers c p → c ∈ beyond w.chunks n := by
      intro p hp c hcm hcov
      unfold Covers at hcov
      rcases hmem c hcm with hcm | ⟨hcm, -⟩
      · exact mem_beyond.2 ⟨hcm, by omega⟩
      · omega
    have hsorted : Sorted (beyond w.chunks n) := by
      have : Sorted w.chunks := by rw [h.2]; exact sorted_chunksOf _ _
      exact List.Pairwise.filter _ this
    have htake : (first ++ (beyond w.chunks n).map Op.delete).take k =
        first.take k ++ ((beyond w.chunks n).map Op.delete).take (k - first.length) := by rw [List.take_append]
    refine ⟨_, r, ex, ⟨rfl, hci, hq, hco⟩, hinv, fun p hp => ?_, fun p => ?_, fun hr => ?_⟩
    · dsimp only
      rw [hc]
      exact effects_safe h.1 hok' (by simp) hsafe k p hp
    · by_cases hp : p < n
      · dsimp only
        rw [hc]
        exact Or.inl (effects_safe h.1 hok' (by simp) hsafe k p hp)
      · dsimp only
        rw [hc, htake, effects_append]
        by_cases hk' : first.length ≤ k
        · rw [List.take_of_length_le hk', ← hbytes p]
          exact effects_deletes h1 hbv hsorted (hall p (by omega)) _
        · have : k - first.length = 0 := by omega
          rw [this]
          have : first.take k = [] := by
            rcases hfirst with rfl | ⟨c', rfl, -⟩
            · simp
            · simp only [List.length_singleton] at hk'
              have : k = 0 := by omega
              rw [this]; rfl
          rw [this]
          exact Or.inl rfl
    · have hkl := hrk hr
      rw [hkl, List.take_length, effects_append] at hc
      have hm := fun c => chunksOf_deletes h1 hbv c
      have hend : ∀ c ∈ chunksOf cache' w.name, c.offset + c.len ≤ n := by
        intro c hcm
        rw [hc, hm] at hcm
        rcases hmem c hcm.1 with h2 | h2
        · exact Nat.le_of_not_lt fun hlt => hcm.2 (mem_beyond.2 ⟨h2, hlt⟩)
        · exact h2.1
      constructor
      · intro p hp
        refine view_none fun c hcm hcov => ?_
        have := hend c hcm
        unfold Covers at hcov
        omega
      · dsimp only
        intro c hcm
        have hi := hinv (by rw [hr]; simp)
        exact hend c (by rw [← hi.2]; exact hcm)
  · rw [e, bind_panic (x := lift _) rfl]
    exact ⟨w, .panic, rfl, ⟨rfl, h.1, fun h => h, rfl⟩, fun _ => h, fun p _ => rfl, fun p => Or.inl rfl, fun hr => absurd hr (by simp)⟩

/-- `WebCacheFile::read`. -/
theorem read_spec {a b : Nat} (hab : a ≤ b) {w : File} (h : Inv w) : ∃ evs' r, (Calm w.evs → Calm evs') ∧ read (a, b) w = (r, { w with evs := evs' }) ∧
    (∀ bs, r = .ok bs → b ≤ length w ∧ bs = tab a (b - a) (byteAt w.name w.cache)) ∧
    (Calm w.evs → SmallChunks w.chunks → b ≤ length w → ∃ bs, r = .ok bs) := by
  unfold read
  dsimp only
  have hl : (prev w).range.2 = length w := rfl
  have hsmall : SmallChunks w.chunks → length w < 2 ^ 31 := fun hs => by
    have := length_le_of (w := w) (n := 2 ^ 31 - 1) fun c hc => by have := hs c hc; omega
    omega
  by_cases h1 : b - a < 2 ^ 32
  case neg =>
    rw [toUsize_err (by omega), bind_err (x := lift _) rfl]
    exact ⟨w.evs, .err, fun h => h, rfl, by simp, fun _ hs hb => by have := hsmall hs; omega⟩
  rw [toUsize_ok (by omega), bind_ok (x := lift _) rfl, bind_ok (x := self) rfl, hl]
  by_cases h2 : b ≤ length w
  case neg =>
    rw [bind_err (w' := w) (by simp [ensure, lift, h2])]
    exact ⟨w.evs, .err, fun h => h, rfl, by simp, fun _ hs hb => absurd hb h2⟩
  rw [bind_ok (w' := w) (a := ()) (by simp [ensure, lift, h2])]
  obtain ⟨evs', hq, hr⟩ := readRange_spec hab h
  have he : (lift (buffer (a, b)) >>= fun res => self >>= fun x => fill (a, b) (intersecting x.chunks (a, b)) res) w = readRange (a, b) w := rfl
  rw [he]
  rcases hr with e | ⟨hn, e⟩
  · rw [e]; exact ⟨evs', _, hq, rfl, fun bs hb => ⟨h2, (Out.ok.inj hb).symm⟩, fun _ _ _ => ⟨_, rfl⟩⟩
  · have hnot : Calm w.evs → SmallChunks w.chunks → b ≤ length w → False := by
      intro hc hs hb
      rcases hn with hn | hn
      · exact hn hc
      · have := hsmall hs
        exact hn ⟨hs, by omega⟩
    rcases e with e | e | e
    · rw [e]; exact ⟨evs', _, hq, rfl, by simp, fun hc hs hb => (hnot hc hs hb).elim⟩
    · rw [e]; exact ⟨evs', _, hq, rfl, by simp, fun hc hs hb => (hnot hc hs hb).elim⟩
    · rw [e]; exact ⟨evs', _, hq, rfl, by simp, fun hc hs hb => (hnot hc hs hb).elim⟩

end Radix.Browser
