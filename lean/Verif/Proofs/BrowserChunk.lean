import Verif.Browser.File

/-
Helper lemmas: intervals, sets of chunks, the bytes that a set of chunks shows.
-/

set_option linter.unusedVariables false

namespace Radix.Browser

/-! ### Outcomes -/

theorem out_bind_ok {α β : Type} (a : α) (f : α → Out β) : ((Out.ok a : Out α) >>= f) = f a := by exact id rfl
theorem out_bind_err {α β : Type} (f : α → Out β) : ((Out.err : Out α) >>= f) = .err := by exact id rfl
theorem out_bind_panic {α β : Type} (f : α → Out β) : ((Out.panic : Out α) >>= f) = .panic := by exact id rfl
theorem out_pure {α : Type} (a : α) : (pure a : Out α) = .ok a := by exact id rfl

theorem toI64_ok {n : Nat} (h : n < 2 ^ 63) : toI64 n = .ok n := by unfold toI64; rw [if_pos h]
theorem toI64_err {n : Nat} (h : ¬ n < 2 ^ 63) : toI64 n = .err := by unfold toI64; rw [if_neg h]
theorem checkI64_ok {z : Int} (h : -(2 ^ 63) ≤ z ∧ z < 2 ^ 63) : checkI64 z = .ok z := by unfold checkI64; rw [if_pos h]
theorem toUsize_ok {z : Int} (h : 0 ≤ z ∧ z < 2 ^ 32) : toUsize z = .ok z.toNat := by unfold toUsize; rw [if_pos h]
theorem toUsize_err {z : Int} (h : ¬ (0 ≤ z ∧ z < 2 ^ 32)) : toUsize z = .err := by unfold toUsize; rw [if_neg h]

theorem overlap_iff {a b : Range} : overlap a b = true ↔ b.1 < a.2 ∧ a.1 < b.2 := by
  simp only [overlap, Bool.not_eq_true', Bool.or_eq_false_iff, decide_eq_false_iff_not]; omega

theorem contains_iff {a b : Range} : contains a b = true ↔ a.1 ≤ b.1 ∧ b.2 ≤ a.2 := by
  simp only [contains, Bool.and_eq_true, decide_eq_true_eq, ge_iff_le]

/-- `ranges` in closed form for overlapping intervals: it is an error or the intersection. -/
theorem ranges_cases {src tgt : Range} (ho : overlap src tgt = true) (hs : src.1 ≤ src.2) (ht : tgt.1 ≤ tgt.2)
    (hl : tgt.2 - tgt.1 < 2 ^ 63) :
    (ranges src tgt = .err ∧
      ¬ (src.1 < 2 ^ 63 ∧ tgt.1 < 2 ^ 63 ∧ min src.2 tgt.2 - src.1 < 2 ^ 32 ∧ min src.2 tgt.2 - tgt.1 < 2 ^ 32)) ∨
    ranges src tgt = .ok ((max src.1 tgt.1 - src.1, min src.2 tgt.2 - src.1), (max src.1 tgt.1 - tgt.1, min src.2 tgt.2 - tgt.1)) := by
  obtain ⟨s1, s2⟩ := src
  obtain ⟨t1, t2⟩ := tgt
  rw [overlap_iff] at ho
  dsimp only at ho hs ht hl ⊢
  unfold ranges
  dsimp only
  have e1 : min (t1 - s1) (s2 - s1) = max s1 t1 - s1 := by omega
  have e2 : min (t2 - s1) (s2 - s1) = min s2 t2 - s1 := by omega
  rw [e1, e2]
  generalize hM : max s1 t1 = M
  generalize hm : min s2 t2 = m
  by_cases h1 : M - s1 < 2 ^ 63
  case neg => rw [toI64_err h1]; exact Or.inl ⟨by simp only [out_bind_ok, out_bind_err], by omega⟩
  by_cases h2 : m - s1 < 2 ^ 63
  case neg => rw [toI64_ok h1, toI64_err h2]; exact Or.inl ⟨by simp only [out_bind_ok, out_bind_err], by omega⟩
  by_cases h3 : s1 < 2 ^ 63
  case neg => rw [toI64_ok h1, toI64_ok h2, toI64_err h3]; exact Or.inl ⟨by simp only [out_bind_ok, out_bind_err], by omega⟩
  by_cases h4 : t1 < 2 ^ 63
  case neg => rw [toI64_ok h1, toI64_ok h2, toI64_ok h3, toI64_err h4]; exact Or.inl ⟨by simp only [out_bind_ok, out_bind_err], by omega⟩
  rw [toI64_ok h1, toI64_ok h2, toI64_ok h3, toI64_ok h4]
  simp only [out_bind_ok]
  rw [checkI64_ok (by omega), out_bind_ok, checkI64_ok (by omega), out_bind_ok, checkI64_ok (by omega), out_bind_ok]
  by_cases h5 : m - s1 < 2 ^ 32
  case neg =>
    rw [toUsize_err (z := ((m - s1 : Nat) : Int)) (by omega)]
    refine Or.inl ⟨?_, by omega⟩
    by_cases h6 : M - s1 < 2 ^ 32
    · rw [toUsize_ok (by omega)]; simp only [out_bind_ok, out_bind_err]
    · rw [toUsize_err (by omega)]; simp only [out_bind_ok, out_bind_err]
  rw [toUsize_ok (by omega), out_bind_ok, toUsize_ok (by omega), out_bind_ok]
  by_cases h7 : m - t1 < 2 ^ 32
  case neg =>
    rw [toUsize_err (z := max (((m - s1 : Nat) : Int) + (↑s1 - ↑t1)) 0) (by omega)]
    refine Or.inl ⟨?_, by omega⟩
    by_cases h6 : M - t1 < 2 ^ 32
    · rw [toUsize_ok (by omega)]; simp only [out_bind_ok, out_bind_err]
    · rw [toUsize_err (by omega)]; simp only [out_bind_ok, out_bind_err]
  rw [toUsize_ok (by omega), out_bind_ok, toUsize_ok (by omega), out_bind_ok]
  refine Or.inr ?_
  rw [out_pure]
  have q1 : (((M - s1 : Nat) : Int)).toNat = M - s1 := by omega
  have q2 : (((m - s1 : Nat) : Int)).toNat = m - s1 := by omega
  have q3 : (max (((M - s1 : Nat) : Int) + (↑s1 - ↑t1)) 0).toNat = M - t1 := by omega
  have q4 : (max (((m - s1 : Nat) : Int) + (↑s1 - ↑t1)) 0).toNat = m - t1 := by omega
  rw [q1, q2, q3, q4]

/-! ### Sets of chunks -/

/-- The order of chunks as a proposition. -/
theorem lt_iff {a b : Chunk} : a.lt b = true ↔
    a.level < b.level ∨ a.level = b.level ∧ (a.offset < b.offset ∨ a.offset = b.offset ∧ a.len < b.len) := by
  simp only [Chunk.lt, Bool.or_eq_true, Bool.and_eq_true, decide_eq_true_eq]

theorem Chunk.ext' {a b : Chunk} (h1 : a.level = b.level) (h2 : a.offset = b.offset) (h3 : a.len = b.len) : a = b := by
  cases a; cases b; simp_all

theorem lt_trans {a b c : Chunk} (h1 : a.lt b = true) (h2 : b.lt c = true) : a.lt c = true := by
  rw [lt_iff] at *; omega

theorem lt_irrefl {a : Chunk} : ¬ a.lt a = true := by rw [lt_iff]; omega

theorem lt_asymm {a b : Chunk} (h1 : a.lt b = true) : ¬ b.lt a = true := by rw [lt_iff] at *; omega

theorem lt_total {a b : Chunk} (h1 : ¬ a.lt b = true) (h2 : a ≠ b) : b.lt a = true := by
  rw [lt_iff] at *
  refine Decidable.byContradiction fun h3 => ?_
  exact h2 (Chunk.ext' (by omega) (by omega) (by omega))

/-- A sorted set. -/
def Sorted (cs : List Chunk) : Prop := cs.Pairwise fun a b => a.lt b = true

theorem mem_insert {c d : Chunk} {cs : List Chunk} : d ∈ insert c cs ↔ d = c ∨ d ∈ cs := by
  induction cs with
  | nil => simp [insert]
  | cons e es ih =>
    unfold insert
    split
    · simp
    · split
      · rename_i h; subst h; simp
      · simp only [List.mem_cons, ih]; exact or_left_comm

theorem sorted_insert {c : Chunk} {cs : List Chunk} (h : Sorted cs) : Sorted (insert c cs) := by
  induction cs with
  | nil => simp [insert, Sorted]
  | cons e es ih =>
    have h' := List.pairwise_cons.1 h
    unfold insert
    split
    · rename_i hl
      refine List.pairwise_cons.2 ⟨?_, h⟩
      intro a ha
      rcases List.mem_cons.1 ha with rfl | ha
      · exact hl
      · exact lt_trans hl (h'.1 a ha)
    · split
      · exact h
      · rename_i h1 h2
        refine List.pairwise_cons.2 ⟨?_, ih h'.2⟩
        intro a ha
        rcases mem_insert.1 ha with rfl | ha
        · exact lt_total h1 h2
        · exact h'.1 a ha

theorem mem_remove {c d : Chunk} {cs : List Chunk} : d ∈ remove c cs ↔ d ∈ cs ∧ d ≠ c := by
  simp [remove]

theorem sorted_remove {c : Chunk} {cs : List Chunk} (h : Sorted cs) : Sorted (remove c cs) := h.filter _

/-- Sorted sets with the same elements are equal. -/
theorem sorted_ext : ∀ {as bs : List Chunk}, Sorted as → Sorted bs → (∀ c, c ∈ as ↔ c ∈ bs) → as = bs
  | [], [], _, _, _ => rfl
  | [], b :: bs, _, _, h => absurd ((h b).2 (by simp)) (by simp)
  | a :: as, [], _, _, h => absurd ((h a).1 (by simp)) (by simp)
  | a :: as, b :: bs, ha, hb, h => by
    have ha' := List.pairwise_cons.1 ha
    have hb' := List.pairwise_cons.1 hb
    have hab : a = b := by
      rcases List.mem_cons.1 ((h a).1 (by simp)) with e | e
      · exact e
      · rcases List.mem_cons.1 ((h b).2 (by simp)) with e' | e'
        · exact e'.symm
        · exact absurd (ha'.1 b e') (lt_asymm (hb'.1 a e))
    subst hab
    rw [sorted_ext ha'.2 hb'.2 (fun c => ?_)]
    constructor
    · intro hc
      rcases List.mem_cons.1 ((h c).1 (List.mem_cons_of_mem _ hc)) with e | e
      · subst e; exact absurd (ha'.1 c hc) lt_irrefl
      · exact e
    · intro hc
      rcases List.mem_cons.1 ((h c).2 (List.mem_cons_of_mem _ hc)) with e | e
      · subst e; exact absurd (hb'.1 c hc) lt_irrefl
      · exact e

/-- The chunk has a byte for this offset. -/
def Covers (c : Chunk) (p : Nat) : Prop := c.offset ≤ p ∧ p < c.offset + c.len

instance (c : Chunk) (p : Nat) : Decidable (Covers c p) := by unfold Covers; infer_instance

/-- The byte at `p` that chunks show, the later ones above the earlier ones; `v` below all of them. -/
def viewFrom (dat : Chunk → Bytes) (p : Nat) (v : UInt8) (cs : List Chunk) : UInt8 :=
  cs.foldl (fun v c => if Covers c p then (dat c).getD (p - c.offset) 0 else v) v

/-- The byte at `p` that a set of chunks shows. -/
def view (cs : List Chunk) (dat : Chunk → Bytes) (p : Nat) : UInt8 := viewFrom dat p 0 cs

/-- The chunk that is visible at `p`. -/
def Top (cs : List Chunk) (p : Nat) (c : Chunk) : Prop :=
  c ∈ cs ∧ Covers c p ∧ ∀ d ∈ cs, Covers d p → d = c ∨ d.lt c = true

theorem viewFrom_none {dat : Chunk → Bytes} {p : Nat} : ∀ {cs : List Chunk} {v : UInt8}, (∀ c ∈ cs, ¬ Covers c p) →
    viewFrom dat p v cs = v
  | [], _, _ => rfl
  | c :: cs, v, h => by
    have := h c (by simp)
    show viewFrom dat p (if Covers c p then _ else v) cs = v
    rw [if_neg this]
    exact viewFrom_none fun d hd => h d (by simp [hd])

theorem viewFrom_top {dat : Chunk → Bytes} {p : Nat} {c : Chunk} : ∀ {cs : List Chunk} {v : UInt8}, Sorted cs → Top cs p c →
    viewFrom dat p v cs = (dat c).getD (p - c.offset) 0
  | [], _, _, h => absurd h.1 (by simp)
  | e :: es, v, hs, h => by
    have hs' := List.pairwise_cons.1 hs
    show viewFrom dat p (if Covers e p then _ else v) es = _
    rcases List.mem_cons.1 h.1 with rfl | hc
    · rw [if_pos h.2.1]
      refine viewFrom_none fun d hd hcov => ?_
      rcases h.2.2 d (by simp [hd]) hcov with rfl | hlt
      · exact lt_irrefl (hs'.1 _ hd)
      · exact lt_asymm hlt (hs'.1 _ hd)
    · exact viewFrom_top hs'.2 ⟨hc, h.2.1, fun d hd => h.2.2 d (by simp [hd])⟩

theorem view_none {cs : List Chunk} {dat : Chunk → Bytes} {p : Nat} (h : ∀ c ∈ cs, ¬ Covers c p) : view cs dat p = 0 := viewFrom_none h

theorem view_top {cs : List Chunk} {dat : Chunk → Bytes} {p : Nat} {c : Chunk} (hs : Sorted cs) (h : Top cs p c) :
    view cs dat p = (dat c).getD (p - c.offset) 0 := viewFrom_top hs h

/-- Either nothing is visible, or one chunk is. -/
theorem top_or_none (cs : List Chunk) (p : Nat) : (∀ c ∈ cs, ¬ Covers c p) ∨ ∃ c, Top cs p c := by
  induction cs with
  | nil => left; simp
  | cons e es ih =>
    by_cases he : Covers e p
    · right
      rcases ih with h | ⟨c, h⟩
      · refine ⟨e, by simp, he, fun d hd hc => ?_⟩
        rcases List.mem_cons.1 hd with rfl | hd
        · exact Or.inl rfl
        · exact absurd hc (h d hd)
      · by_cases hlt : e.lt c = true
        · refine ⟨c, by simp [h.1], h.2.1, fun d hd hc => ?_⟩
          rcases List.mem_cons.1 hd with rfl | hd
          · exact Or.inr hlt
          · exact h.2.2 d hd hc
        · refine ⟨e, by simp, he, fun d hd hc => ?_⟩
          rcases List.mem_cons.1 hd with rfl | hd
          · exact Or.inl rfl
          · by_cases hce : c = e
            · rw [← hce]; exact h.2.2 d hd hc
            · have hce' : c.lt e = true := lt_total hlt (fun h => hce h.symm)
              rcases h.2.2 d hd hc with rfl | hdc
              · exact Or.inr hce'
              · exact Or.inr (lt_trans hdc hce')
    · rcases ih with h | ⟨c, h⟩
      · left
        intro d hd
        rcases List.mem_cons.1 hd with rfl | hd
        · exact he
        · exact h d hd
      · right
        refine ⟨c, by simp [h.1], h.2.1, fun d hd hc => ?_⟩
        rcases List.mem_cons.1 hd with rfl | hd
        · exact absurd hc he
        · exact h.2.2 d hd hc

/-- Views agree if the data agree on the chunks. -/
theorem view_congr {cs : List Chunk} {dat dat' : Chunk → Bytes} {p : Nat} (hs : Sorted cs) (h : ∀ c ∈ cs, dat c = dat' c) :
    view cs dat p = view cs dat' p := by
  rcases top_or_none cs p with h0 | ⟨c, hc⟩
  · rw [view_none h0, view_none h0]
  · rw [view_top hs hc, view_top hs hc, h c hc.1]

/-- Removing a chunk that is covered by a higher one. -/
theorem view_remove {cs : List Chunk} {dat : Chunk → Bytes} {p : Nat} {c : Chunk} (hs : Sorted cs)
    (h : Covers c p → ∃ d ∈ cs, c.lt d = true ∧ Covers d p) : view (remove c cs) dat p = view cs dat p := by
  rcases top_or_none cs p with h0 | ⟨t, ht⟩
  · rw [view_none h0, view_none fun d hd => h0 d (mem_remove.1 hd).1]
  · rw [view_top hs ht]
    refine view_top (sorted_remove hs) ⟨mem_remove.2 ⟨ht.1, ?_⟩, ht.2.1, fun d hd => ht.2.2 d (mem_remove.1 hd).1⟩
    rintro rfl
    obtain ⟨d, hd, hlt, hcov⟩ := h ht.2.1
    rcases ht.2.2 d hd hcov with rfl | h'
    · exact lt_irrefl hlt
    · exact lt_asymm hlt h'

/-- Inserting a chunk whose bytes are the visible ones. -/
theorem view_insert_same {cs : List Chunk} {dat dat' : Chunk → Bytes} {p : Nat} {c : Chunk} (hs : Sorted cs)
    (hd : ∀ d ∈ cs, d ≠ c → dat' d = dat d) (h : Covers c p → (dat' c).getD (p - c.offset) 0 = view cs dat p) :
    view (insert c cs) dat' p = view cs dat p := by
  rcases top_or_none (insert c cs) p with h0 | ⟨t, ht⟩
  · rw [view_none h0, view_none fun d hd => h0 d (mem_insert.2 (Or.inr hd))]
  · rw [view_top (sorted_insert hs) ht]
    by_cases htc : t = c
    · subst htc; exact h ht.2.1
    · have htm : t ∈ cs := (mem_insert.1 ht.1).resolve_left htc
      rw [hd t htm htc]
      exact (view_top hs ⟨htm, ht.2.1, fun d hd => ht.2.2 d (mem_insert.2 (Or.inr hd))⟩).symm

/-- Inserting a chunk above all that overlap it. -/
theorem view_insert_above {cs : List Chunk} {dat dat' : Chunk → Bytes} {p : Nat} {c : Chunk} (hs : Sorted cs)
    (hd : ∀ d ∈ cs, d ≠ c → dat' d = dat d) (hab : ∀ d ∈ cs, Covers d p → Covers c p → d.lt c = true) :
    view (insert c cs) dat' p = if Covers c p then (dat' c).getD (p - c.offset) 0 else view cs dat p := by
  by_cases hc : Covers c p
  · rw [if_pos hc]
    refine view_top (sorted_insert hs) ⟨mem_insert.2 (Or.inl rfl), hc, fun d hd hcov => ?_⟩
    rcases mem_insert.1 hd with rfl | hd
    · exact Or.inl rfl
    · exact Or.inr (hab d hd hcov hc)
  · rw [if_neg hc]
    exact view_insert_same hs hd fun h => absurd h hc

end Radix.Browser
