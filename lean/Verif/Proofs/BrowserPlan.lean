import Verif.Proofs.BrowserFile
import Verif.Spec.File

/-
Helper lemmas: what the plans for writing and truncating do to the bytes of a file, at every point where they can be interrupted.
-/

set_option linter.unusedVariables false

namespace Radix.Browser

open Radix.Spec (overwrite cut Shows)

variable {name : Name} {cache : Cache}

/-! ### Single steps -/

theorem byteAt_delete (h : CInv name cache) {c : Chunk} (hv : c.Valid) {p : Nat}
    (hc : Covers c p → ∃ d ∈ chunksOf cache name, c.lt d = true ∧ Covers d p) :
    byteAt name (effect name cache (.delete c)) p = byteAt name cache p := by
  unfold byteAt effect
  dsimp only
  rw [chunksOf_del h hv, ← view_remove (sorted_chunksOf cache name) hc]
  refine view_congr (sorted_remove (sorted_chunksOf _ _)) fun x hx => ?_
  obtain ⟨h1, h2⟩ := mem_remove.1 hx
  exact dat_del_ne h hv (h.chunk h1).1 h2

theorem byteAt_delete_none (h : CInv name cache) {c : Chunk} (hv : c.Valid) {p : Nat}
    (hc : ∀ d ∈ chunksOf cache name, Covers d p → d = c) : byteAt name (effect name cache (.delete c)) p = 0 := by
  unfold byteAt effect
  dsimp only
  rw [chunksOf_del h hv]
  refine view_none fun d hd hcov => ?_
  obtain ⟨h1, h2⟩ := mem_remove.1 hd
  exact h2 (hc d h1 hcov)

theorem byteAt_rewrite (h : CInv name cache) {c : Chunk} (hv : c.Valid) (p : Nat) :
    byteAt name (effect name cache (.rewrite c)) p = byteAt name cache p := by
  unfold byteAt
  show view (chunksOf (cache.set (c.request name) _) name) (dat name (cache.set (c.request name) _)) p = _
  rw [chunksOf_set h hv]
  refine view_insert_same (sorted_chunksOf _ _) (fun d hd hne => dat_set_ne h hv (h.chunk hd).1 hne) fun hcov => ?_
  rw [dat_set_self]
  unfold Covers at hcov
  rw [List.getD_eq_getElem?_getD, List.getElem?_eq_getElem (by rw [tab_length]; omega), Option.getD_some, tab_get]
  unfold byteAt
  congr 1
  omega

theorem byteAt_write (h : CInv name cache) {c : Chunk} (hv : c.Valid) {d : Bytes} {p : Nat}
    (hab : ∀ x ∈ chunksOf cache name, Covers x p → Covers c p → x.lt c = true) :
    byteAt name (effect name cache (.write c d)) p = if Covers c p then d.getD (p - c.offset) 0 else byteAt name cache p := by
  unfold byteAt
  show view (chunksOf (cache.set (c.request name) d) name) (dat name (cache.set (c.request name) d)) p = _
  rw [chunksOf_set h hv, view_insert_above (sorted_chunksOf _ _) (fun x hx hne => dat_set_ne h hv (h.chunk hx).1 hne) hab, dat_set_self]

/-! ### Safe plans -/

/-- A plan that never hides or uncovers a byte at an offset in `P`; `S` are chunks that are known to be there. -/
def Safe (P : Nat → Prop) : (Chunk → Prop) → List Op → Prop
  | _, [] => True
  | S, .delete c :: ops => (∀ p, P p → Covers c p → ∃ d, S d ∧ c.lt d = true ∧ Covers d p) ∧ Safe P (fun d => S d ∧ d ≠ c) ops
  | S, .rewrite c :: ops => Safe P (fun d => S d ∨ d = c) ops
  | _, .write _ _ :: _ => False

theorem Safe.mono {P : Nat → Prop} : ∀ {ops : List Op} {S S' : Chunk → Prop}, (∀ d, S d → S' d) → Safe P S ops → Safe P S' ops
  | [], _, _, _, _ => trivial
  | .delete c :: ops, S, S', hs, h =>
    ⟨fun p hp hc => let ⟨d, h1, h2⟩ := h.1 p hp hc; ⟨d, hs d h1, h2⟩, Safe.mono (fun d hd => ⟨hs d hd.1, hd.2⟩) h.2⟩
  | .rewrite c :: ops, S, S', hs, h => Safe.mono (ops := ops) (fun d hd => hd.imp_left (hs d)) h
  | .write _ _ :: _, _, _, _, h => h.elim

theorem effects_safe {P : Nat → Prop} : ∀ {ops : List Op} {S : Chunk → Prop} {cache : Cache}, CInv name cache → (∀ op ∈ ops, OpOk op) →
    (∀ d, S d → d ∈ chunksOf cache name) → Safe P S ops → ∀ k p, P p →
    byteAt name (effects name cache (ops.take k)) p = byteAt name cache p
  | [], _, _, _, _, _, _, k, p, hp => by simp [effects]
  | op :: ops, S, cache, h, ho, hS, hsafe, 0, p, hp => rfl
  | .delete c :: ops, S, cache, h, ho, hS, hsafe, k + 1, p, hp => by
    have hv : c.Valid := ho (.delete c) (by simp)
    show byteAt name (effects name (effect name cache (.delete c)) (ops.take k)) p = _
    rw [effects_safe (CInv.effect h (ho (.delete c) (by simp))) (fun x hx => ho x (by simp [hx])) ?_ hsafe.2 k p hp]
    · refine byteAt_delete h hv fun hc => ?_
      obtain ⟨d, h1, h2⟩ := hsafe.1 p hp hc
      exact ⟨d, hS d h1, h2⟩
    · rintro d ⟨h1, h2⟩
      show d ∈ chunksOf (cache.del _) name
      rw [chunksOf_del h hv]
      exact mem_remove.2 ⟨hS d h1, h2⟩
  | .rewrite c :: ops, S, cache, h, ho, hS, hsafe, k + 1, p, hp => by
    have hv : c.Valid := ho (.rewrite c) (by simp)
    have hsafe : Safe P (fun d => S d ∨ d = c) ops := hsafe
    show byteAt name (effects name (effect name cache (.rewrite c)) (ops.take k)) p = _
    rw [effects_safe (CInv.effect h (ho (.rewrite c) (by simp))) (fun x hx => ho x (by simp [hx])) ?_ hsafe k p hp]
    · exact byteAt_rewrite h hv p
    · intro d hd
      show d ∈ chunksOf (cache.set _ _) name
      rw [chunksOf_set h hv]
      exact mem_insert.2 (hd.symm.imp_right (hS d))
  | .write _ _ :: _, _, _, _, _, _, h, _ + 1, _, _ => h.elim

/-! ### Levels -/

theorem foldl_max_spec : ∀ {ls : List Nat} {l : Nat}, (∀ x ∈ l :: ls, x ≤ ls.foldl max l) ∧ ls.foldl max l ∈ l :: ls
  | [], l => by simp
  | a :: ls, l => by
    rw [List.foldl_cons]
    obtain ⟨h1, h2⟩ := foldl_max_spec (ls := ls) (l := max l a)
    constructor
    · intro x hx
      have h0 := h1 (max l a) (by simp)
      rcases List.mem_cons.1 hx with rfl | hx
      · omega
      · rcases List.mem_cons.1 hx with rfl | hx
        · omega
        · exact h1 x (by simp [hx])
    · rcases List.mem_cons.1 h2 with h2 | h2
      · rw [h2]
        by_cases hla : a ≤ l
        · rw [Nat.max_eq_left hla]; simp
        · rw [Nat.max_eq_right (by omega)]; simp
      · simp [h2]

theorem foldl_min_spec : ∀ {ls : List Nat} {l : Nat}, (∀ x ∈ l :: ls, ls.foldl min l ≤ x) ∧ ls.foldl min l ∈ l :: ls
  | [], l => by simp
  | a :: ls, l => by
    rw [List.foldl_cons]
    obtain ⟨h1, h2⟩ := foldl_min_spec (ls := ls) (l := min l a)
    constructor
    · intro x hx
      have h0 := h1 (min l a) (by simp)
      rcases List.mem_cons.1 hx with rfl | hx
      · omega
      · rcases List.mem_cons.1 hx with rfl | hx
        · omega
        · exact h1 x (by simp [hx])
    · rcases List.mem_cons.1 h2 with h2 | h2
      · rw [h2]
        by_cases hla : l ≤ a
        · rw [Nat.min_eq_left hla]; simp
        · rw [Nat.min_eq_right (by omega)]; simp
      · simp [h2]

theorem levelAbove_spec (cs : List Chunk) :
    (∃ l, levelAbove cs = .ok l ∧ l < 2 ^ 64 ∧ (∀ c ∈ cs, c.level < l) ∧ (l = 0 ∨ ∃ c ∈ cs, l = c.level + 1)) ∨
    levelAbove cs = .panic ∧ ∃ c ∈ cs, ¬ c.level + 1 < 2 ^ 64 := by
  unfold levelAbove
  match cs with
  | [] => exact Or.inl ⟨0, rfl, by omega, by simp, Or.inl rfl⟩
  | c :: cs =>
    simp only [List.map_cons]
    obtain ⟨h1, h2⟩ := foldl_max_spec (ls := cs.map (·.level)) (l := c.level)
    generalize (cs.map (·.level)).foldl max c.level = m at h1 h2
    have h2' : ∃ d ∈ c :: cs, m = d.level := by
      rw [← List.map_cons (f := Chunk.level), List.mem_map] at h2
      obtain ⟨d, hd, he⟩ := h2
      exact ⟨d, hd, he.symm⟩
    have h1' : ∀ d ∈ c :: cs, d.level ≤ m := fun d hd => h1 _ (by rw [← List.map_cons (f := Chunk.level)]; exact List.mem_map_of_mem hd)
    split
    · rename_i hlt
      refine Or.inl ⟨m + 1, rfl, hlt, fun d hd => by have := h1' d hd; omega, Or.inr ?_⟩
      obtain ⟨d, hd, he⟩ := h2'
      exact ⟨d, hd, by rw [he]⟩
    · rename_i hlt
      obtain ⟨d, hd, he⟩ := h2'
      exact Or.inr ⟨rfl, d, hd, by rw [← he]; exact hlt⟩

/-! ### Writing -/

theorem safe_deletes {P : Nat → Prop} {N : Chunk} {rest : List Op} : ∀ {ds : List Chunk},
    (∀ c ∈ ds, c.lt N = true ∧ ∀ p, P p → Covers c p → Covers N p) → Safe P (fun d => d = N) rest →
    Safe P (fun d => d = N) (ds.map .delete ++ rest)
  | [], _, h => h
  | c :: ds, hc, h => by
    obtain ⟨h1, h2⟩ := hc c (by simp)
    refine ⟨fun p hp hcov => ⟨N, rfl, h1, h2 p hp hcov⟩, ?_⟩
    refine Safe.mono (S := fun d => d = N) (fun d hd => ⟨hd, ?_⟩) (safe_deletes (fun x hx => hc x (by simp [hx])) h)
    rintro rfl
    subst hd
    exact lt_irrefl h1

/-- The steps of `add` for a chunk that is overwritten in part. -/
def splitOps (range : Range) (level : Nat) (r : Chunk) : List Op :=
  (if r.range.1 < range.1 then [.rewrite (.new (r.range.1, range.1) level)] else []) ++
  (if r.range.2 > range.2 then [.rewrite (.new (range.2, r.range.2) level)] else []) ++ [.delete r]

theorem lt_of_level {a b : Chunk} (h : a.level < b.level) : a.lt b = true := by rw [lt_iff]; omega

theorem safe_splits {P : Nat → Prop} {N : Chunk} {range : Range} {level : Nat} (hN : N = .new range level) (hr : range.1 ≤ range.2) :
    ∀ {rs : List Chunk}, (∀ c ∈ rs, c.level < level) → Safe P (fun d => d = N) (rs.flatMap (splitOps range level))
  | [], _ => trivial
  | r :: rs, hc => by
    have h1 := hc r (by simp)
    have ih := safe_splits (P := P) hN hr fun c hc' => hc c (List.mem_cons_of_mem _ hc')
    have key : ∀ S : Chunk → Prop, S N → (r.range.1 < range.1 → S (.new (r.range.1, range.1) level)) →
        (r.range.2 > range.2 → S (.new (range.2, r.range.2) level)) → Safe P S (.delete r :: rs.flatMap (splitOps range level)) := by
      intro S s1 s2 s3
      refine ⟨fun p hp hcov => ?_, Safe.mono (fun d hd => ?_) ih⟩
      · unfold Covers at hcov
        by_cases q1 : p < range.1
        · refine ⟨_, s2 (by dsimp only [Chunk.range]; omega), lt_of_level h1, ?_⟩
          unfold Covers Chunk.new; dsimp only [Chunk.range]; omega
        · by_cases q2 : p < range.2
          · refine ⟨_, s1, lt_of_level (by rw [hN]; exact h1), ?_⟩
            rw [hN]; unfold Covers Chunk.new; dsimp only; omega
          · refine ⟨_, s3 (by dsimp only [Chunk.range]; omega), lt_of_level h1, ?_⟩
            unfold Covers Chunk.new; dsimp only [Chunk.range]; omega
      · subst hd
        refine ⟨s1, ?_⟩
        rintro rfl
        rw [hN] at h1
        exact absurd h1 (by unfold Chunk.new; dsimp only; omega)
    rw [List.flatMap_cons]
    unfold splitOps at ih key ⊢
    rw [List.append_assoc, List.append_assoc]
    by_cases c1 : r.range.1 < range.1
    · rw [if_pos c1]
      by_cases c2 : r.range.2 > range.2
      · rw [if_pos c2]
        exact key _ (Or.inl (Or.inl rfl)) (fun _ => Or.inl (Or.inr rfl)) (fun _ => Or.inr rfl)
      · rw [if_neg c2]
        exact key _ (Or.inl rfl) (fun _ => Or.inr rfl) (fun h => absurd h c2)
    · rw [if_neg c1]
      by_cases c2 : r.range.2 > range.2
      · rw [if_pos c2]
        exact key _ (Or.inl rfl) (fun h => absurd h c1) (fun _ => Or.inr rfl)
      · rw [if_neg c2]
        exact key _ rfl (fun h => absurd h c1) (fun h => absurd h c2)

/-- The chunks that are in the way of a write. -/
def inTheWay (cs : List Chunk) (offset : Nat) (data : Bytes) : List Chunk := cs.filter fun x => overlap x.range (offset, offset + data.length)

theorem mem_inTheWay {cs : List Chunk} {offset : Nat} {data : Bytes} {c : Chunk} :
    c ∈ inTheWay cs offset data ↔ c ∈ cs ∧ offset < c.offset + c.len ∧ c.offset < offset + data.length := by
  unfold inTheWay
  rw [List.mem_filter, overlap_iff]
  rfl

/-- The plan for a write. -/
theorem add_spec (cs : List Chunk) (offset : Nat) (data : Bytes) (hv : ∀ c ∈ cs, c.Valid) :
    (∃ l ops, add cs offset data = .ok (.write ⟨l, offset, data.length⟩ data :: ops) ∧
      (∀ op ∈ Op.write ⟨l, offset, data.length⟩ data :: ops, OpOk op) ∧
      Safe (fun _ => True) (fun d => d = ⟨l, offset, data.length⟩) ops ∧
      (∀ c ∈ inTheWay cs offset data, c.level < l) ∧ (l = 0 ∨ ∃ c ∈ inTheWay cs offset data, l = c.level + 1) ∧
      (∀ c, .rewrite c ∈ ops → c.level = l ∧ ∃ d ∈ inTheWay cs offset data, c.offset + c.len ≤ d.offset + d.len) ∧
      (∀ op ∈ ops, ∀ c d, op ≠ .write c d) ∧
      (inTheWay cs offset data = [] → ops = [])) ∨
    add cs offset data = .panic ∧
      ¬ (offset + data.length < 2 ^ 64 ∧ ∀ c ∈ inTheWay cs offset data, c.level + 1 < 2 ^ 64) := by
  unfold add
  by_cases hlt : offset + data.length < 2 ^ 64
  case neg => rw [if_neg hlt]; exact Or.inr ⟨rfl, fun h => hlt h.1⟩
  rw [if_pos hlt]
  dsimp only
  have hrel : (cs.filter fun x => overlap x.range (offset, offset + data.length)) = inTheWay cs offset data := rfl
  rw [hrel]
  rcases levelAbove_spec (inTheWay cs offset data) with ⟨l, e, hl, hlev, hl0⟩ | ⟨e, c, hc, hn⟩
  · rw [e, out_bind_ok, out_pure]
    have hN : Chunk.new (offset, offset + data.length) l = ⟨l, offset, data.length⟩ := by unfold Chunk.new; simp
    rw [hN, List.cons_append]
    refine Or.inl ⟨l, _, rfl, ?_, ?_, hlev, hl0, ?_, ?_, ?_⟩
    · intro op hop
      rcases List.mem_cons.1 hop with rfl | hop
      · exact ⟨⟨hl, hlt⟩, rfl⟩
      · rcases List.mem_append.1 hop with hop | hop
        · obtain ⟨c, hc, rfl⟩ := List.mem_map.1 hop
          exact hv c (mem_inTheWay.1 (List.mem_filter.1 hc).1).1
        · obtain ⟨c, hc, hop⟩ := List.mem_flatMap.1 hop
          have hcv : c.Valid := hv c (mem_inTheWay.1 (List.mem_filter.1 hc).1).1
          unfold Chunk.Valid at hcv
          rcases List.mem_append.1 hop with hop | hop
          · rcases List.mem_append.1 hop with hop | hop
            · split at hop
              · rename_i h
                rw [List.mem_singleton.1 hop]
                refine ⟨hl, ?_⟩
                unfold Chunk.new; dsimp only [Chunk.range] at *; omega
              · exact absurd hop (by simp)
            · split at hop
              · rename_i h
                rw [List.mem_singleton.1 hop]
                refine ⟨hl, ?_⟩
                unfold Chunk.new; dsimp only [Chunk.range] at *; omega
              · exact absurd hop (by simp)
          · rw [List.mem_singleton.1 hop]; exact hcv
    · refine safe_deletes (fun c hc => ⟨lt_of_level (hlev c (List.mem_filter.1 hc).1), fun p _ hcov => ?_⟩) ?_
      · have := contains_iff.1 (List.mem_filter.1 hc).2
        unfold Covers at *
        dsimp only [Chunk.range] at *
        omega
      · exact safe_splits (range := (offset, offset + data.length)) hN.symm (by dsimp only; omega) fun c hc => hlev c (List.mem_filter.1 hc).1
    · intro x hop
      rcases List.mem_append.1 hop with hop | hop
      · obtain ⟨c, hc, he⟩ := List.mem_map.1 hop
        exact absurd he (by simp)
      · obtain ⟨c, hc, hop⟩ := List.mem_flatMap.1 hop
        have hw := (List.mem_filter.1 hc).1
        have hw' := (mem_inTheWay.1 hw).2
        rcases List.mem_append.1 hop with hop | hop
        · rcases List.mem_append.1 hop with hop | hop
          · split at hop
            · rename_i h
              rw [Op.rewrite.inj (List.mem_singleton.1 hop)]
              refine ⟨rfl, c, hw, ?_⟩
              unfold Chunk.new; dsimp only [Chunk.range] at *; omega
            · exact absurd hop (by simp)
          · split at hop
            · rename_i h
              rw [Op.rewrite.inj (List.mem_singleton.1 hop)]
              refine ⟨rfl, c, hw, ?_⟩
              unfold Chunk.new; dsimp only [Chunk.range] at *; omega
            · exact absurd hop (by simp)
        · exact absurd (List.mem_singleton.1 hop) (by simp)
    · intro op hop x d he
      subst he
      rcases List.mem_append.1 hop with hop | hop
      · obtain ⟨c, hc, he⟩ := List.mem_map.1 hop
        exact absurd he (by simp)
      · obtain ⟨c, hc, hop⟩ := List.mem_flatMap.1 hop
        rcases List.mem_append.1 hop with hop | hop
        · rcases List.mem_append.1 hop with hop | hop
          · split at hop
            · exact absurd (List.mem_singleton.1 hop) (by simp)
            · exact absurd hop (by simp)
          · split at hop
            · exact absurd (List.mem_singleton.1 hop) (by simp)
            · exact absurd hop (by simp)
        · exact absurd (List.mem_singleton.1 hop) (by simp)
    · intro h0; rw [h0]; rfl
  · rw [e, out_bind_panic]
    exact Or.inr ⟨rfl, fun h => hn (h.2 c hc)⟩

/-- A write changes the bytes in its first step, and never again. -/
theorem effects_add (h : CInv name cache) {offset : Nat} {data : Bytes} {l : Nat} {ops : List Op}
    (hok : ∀ op ∈ Op.write ⟨l, offset, data.length⟩ data :: ops, OpOk op)
    (hsafe : Safe (fun _ => True) (fun d => d = ⟨l, offset, data.length⟩) ops)
    (hlev : ∀ c ∈ inTheWay (chunksOf cache name) offset data, c.level < l) (k : Nat) (p : Nat) :
    byteAt name (effects name cache ((Op.write ⟨l, offset, data.length⟩ data :: ops).take (k + 1))) p =
      overwrite (byteAt name cache) offset data p := by
  have hw := hok (.write ⟨l, offset, data.length⟩ data) (by simp)
  show byteAt name (effects name (effect name cache (.write ⟨l, offset, data.length⟩ data)) (ops.take k)) p = _
  rw [effects_safe (CInv.effect h hw) (fun x hx => hok x (by simp [hx])) ?_ hsafe k p trivial]
  · rw [byteAt_write h hw.1]
    · rfl
    · intro x hx hc1 hc2
      refine lt_of_level (hlev x (mem_inTheWay.2 ⟨hx, ?_⟩))
      unfold Covers at hc1 hc2
      dsimp only at hc2
      omega
  · rintro d rfl
    show _ ∈ chunksOf (cache.set _ _) name
    rw [chunksOf_set h hw.1]
    exact mem_insert.2 (Or.inl rfl)

/-! ### Truncating -/

/-- The chunks that reach beyond `n`. -/
def beyond (cs : List Chunk) (n : Nat) : List Chunk := cs.filter fun x => decide (x.range.2 > n)

theorem mem_beyond {cs : List Chunk} {n : Nat} {c : Chunk} : c ∈ beyond cs n ↔ c ∈ cs ∧ n < c.offset + c.len := by
  unfold beyond
  rw [List.mem_filter]
  simp [Chunk.range]

theorem truncatePlan_spec (cs : List Chunk) (n : Nat) (hv : ∀ c ∈ cs, c.Valid) :
    (∃ first l, truncatePlan cs n = .ok (first ++ (beyond cs n).map .delete) ∧ (∀ op ∈ first, OpOk op) ∧
      (first = [] ∨ ∃ c, first = [.rewrite c] ∧ c.offset < n ∧ c.offset + c.len = n ∧ c.level = l ∧
        ∃ d ∈ beyond cs n, c.offset = d.offset) ∧
      (∀ c ∈ beyond cs n, c.level < l) ∧ (l = 0 ∨ ∃ c ∈ beyond cs n, l = c.level + 1) ∧
      Safe (fun p => p < n) (fun _ => False) (first ++ (beyond cs n).map .delete)) ∨
    truncatePlan cs n = .panic ∧ ¬ ∀ c ∈ beyond cs n, c.level + 1 < 2 ^ 64 := by
  unfold truncatePlan
  dsimp only
  have hrel : (cs.filter fun x => decide (x.range.2 > n)) = beyond cs n := rfl
  rw [hrel]
  rcases levelAbove_spec (beyond cs n) with ⟨l, e, hl, hlev, hl0⟩ | ⟨e, c, hc, hn⟩
  case inr => rw [e, out_bind_panic]; exact Or.inr ⟨rfl, fun h => hn (h c hc)⟩
  rw [e, out_bind_ok, out_pure]
  left
  cases hb : beyond cs n with
  | nil => exact ⟨[], l, rfl, by simp, Or.inl rfl, by simp, Or.inl (by simpa [hb] using hl0), trivial⟩
  | cons b bs =>
    rw [hb] at hlev hl0
    simp only [List.map_cons]
    obtain ⟨h1, h2⟩ := foldl_min_spec (ls := bs.map (·.offset)) (l := b.offset)
    generalize (bs.map (·.offset)).foldl min b.offset = m at h1 h2
    have h2' : ∃ d ∈ b :: bs, m = d.offset := by
      rw [← List.map_cons (f := Chunk.offset), List.mem_map] at h2
      obtain ⟨d, hd, he⟩ := h2
      exact ⟨d, hd, he.symm⟩
    have h1' : ∀ d ∈ b :: bs, m ≤ d.offset := fun d hd => h1 _ (by rw [← List.map_cons (f := Chunk.offset)]; exact List.mem_map_of_mem hd)
    have hmv : m < n → OpOk (.rewrite (.new (m, n) l)) := by
      intro hmn
      obtain ⟨d, hd, he⟩ := h2'
      have hdm := mem_beyond.1 (hb ▸ hd)
      have := hv d hdm.1
      unfold Chunk.Valid at this
      refine ⟨hl, ?_⟩
      unfold Chunk.new; dsimp only; omega
    refine ⟨_, l, rfl, ?_, ?_, hlev, hl0, ?_⟩
    · intro op hop
      split at hop
      · rename_i hmn
        rw [List.mem_singleton.1 hop]; exact hmv hmn
      · exact absurd hop (by simp)
    · split
      · rename_i hmn
        refine Or.inr ⟨_, rfl, hmn, ?_, rfl, ?_⟩
        · unfold Chunk.new; dsimp only; omega
        · obtain ⟨d, hd, he⟩ := h2'; exact ⟨d, hd, he⟩
      · exact Or.inl rfl
    · split
      · rename_i hmn
        show Safe _ (fun d => False ∨ d = _) _
        refine Safe.mono (S := fun d => d = .new (m, n) l) (fun d hd => Or.inr hd) ?_
        have := safe_deletes (P := fun p => p < n) (N := .new (m, n) l) (rest := []) (ds := b :: bs) (fun c hc => ⟨lt_of_level (hlev c hc), fun p hp hcov => ?_⟩) trivial
        · rw [List.append_nil] at this; exact this
        · have := h1' c hc
          unfold Covers Chunk.new at *
          dsimp only at *
          omega
      · rename_i hmn
        have : ∀ (ds : List Chunk) (S : Chunk → Prop), (∀ c ∈ ds, m ≤ c.offset) → Safe (fun p => p < n) S (ds.map .delete) := by
          intro ds
          induction ds with
          | nil => exact fun _ _ => trivial
          | cons d ds ih =>
            intro S hd
            refine ⟨fun p hp hcov => ?_, ih _ fun c hc => hd c (by simp [hc])⟩
            have := hd d (by simp)
            unfold Covers at hcov
            omega
        exact this _ _ h1'

/-- Deleting chunks in ascending order shows the byte of before, or none. -/
theorem effects_deletes : ∀ {ds : List Chunk} {cache : Cache} (h : CInv name cache) (hv : ∀ c ∈ ds, c.Valid) (hs : Sorted ds) {p : Nat}
    (hall : ∀ c ∈ chunksOf cache name, Covers c p → c ∈ ds) (k : Nat),
    byteAt name (effects name cache ((ds.map Op.delete).take k)) p = byteAt name cache p ∨
    byteAt name (effects name cache ((ds.map Op.delete).take k)) p = 0
  | [], cache, h, hv, hs, p, hall, k => by simp [effects]
  | d :: ds, cache, h, hv, hs, p, hall, 0 => Or.inl rfl
  | d :: ds, cache, h, hv, hs, p, hall, k + 1 => by
    have hs' := List.pairwise_cons.1 hs
    show byteAt name (effects name (effect name cache (.delete d)) ((ds.map Op.delete).take k)) p = _ ∨
      byteAt name (effects name (effect name cache (.delete d)) ((ds.map Op.delete).take k)) p = _
    have hdv : d.Valid := hv d (by simp)
    have ih := effects_deletes (CInv.effect h (op := .delete d) hdv) (fun c hc => hv c (by simp [hc])) hs'.2 (p := p) (fun c hc hcov => by
      have hc' : c ∈ chunksOf (cache.del _) name := hc
      rw [chunksOf_del h hdv] at hc'
      obtain ⟨h1, h2⟩ := mem_remove.1 hc'
      exact (List.mem_cons.1 (hall c h1 hcov)).resolve_left h2) k
    have hstep : byteAt name (effect name cache (.delete d)) p = byteAt name cache p ∨ byteAt name (effect name cache (.delete d)) p = 0 := by
      by_cases hex : ∃ c ∈ chunksOf cache name, Covers c p ∧ c ≠ d
      · left
        obtain ⟨c, hc, hcov, hne⟩ := hex
        exact byteAt_delete h hdv fun _ => ⟨c, hc, hs'.1 c ((List.mem_cons.1 (hall c hc hcov)).resolve_left hne), hcov⟩
      · right
        refine byteAt_delete_none h hdv fun c hc hcov => ?_
        exact Decidable.byContradiction fun hne => hex ⟨c, hc, hcov, hne⟩
    rcases ih with ih | ih
    · rcases hstep with hs | hs
      · exact Or.inl (ih.trans hs)
      · exact Or.inr (ih.trans hs)
    · exact Or.inr ih

theorem chunksOf_deletes : ∀ {ds : List Chunk} {cache : Cache} (h : CInv name cache) (hv : ∀ c ∈ ds, c.Valid) (c : Chunk),
    c ∈ chunksOf (effects name cache (ds.map Op.delete)) name ↔ c ∈ chunksOf cache name ∧ c ∉ ds
  | [], cache, h, hv, c => by simp [effects]
  | d :: ds, cache, h, hv, c => by
    have hdv : d.Valid := hv d (by simp)
    show c ∈ chunksOf (effects name (effect name cache (.delete d)) (ds.map Op.delete)) name ↔ _
    rw [chunksOf_deletes (CInv.effect h (op := .delete d) hdv) (fun c hc => hv c (by simp [hc]))]
    show c ∈ chunksOf (cache.del _) name ∧ _ ↔ _
    rw [chunksOf_del h hdv, mem_remove, List.mem_cons]
    constructor
    · rintro ⟨⟨a, b⟩, c⟩; exact ⟨a, fun h => h.elim b c⟩
    · rintro ⟨a, b⟩; exact ⟨⟨a, fun h => b (Or.inl h)⟩, fun h => b (Or.inr h)⟩

theorem effects_append {a b : List Op} : ∀ {cache : Cache}, effects name cache (a ++ b) = effects name (effects name cache a) b := by
  induction a with
  | nil => intro cache; rfl
  | cons x a ih => intro cache; exact ih

/-! ### Other files -/

/-- The entries of the cache that do not belong to the file. -/
def others (name : Name) (cache : Cache) : Cache := cache.filter fun e => (parseRequest e.1 name).isNone

theorem others_del (hp : ∀ x ∈ name, x ≠ '?') {c : Chunk} (hv : c.Valid) : others name (cache.del (c.request name)) = others name cache := by
  unfold others Cache.del
  rw [List.filter_filter]
  refine List.filter_congr fun e he => ?_
  by_cases hk : e.1 = c.request name
  · rw [hk, parse_own hp hv]; simp
  · simp [hk]

theorem others_set (hp : ∀ x ∈ name, x ≠ '?') {c : Chunk} (hv : c.Valid) (d : Bytes) :
    others name (cache.set (c.request name) d) = others name cache := by
  rw [← others_del (cache := cache) hp hv]
  unfold others Cache.set
  rw [List.filter_append]
  simp [parse_own hp hv]

theorem others_effects (hp : ∀ x ∈ name, x ≠ '?') : ∀ {ops : List Op} {cache : Cache} (ho : ∀ op ∈ ops, OpOk op),
    others name (effects name cache ops) = others name cache
  | [], _, _ => rfl
  | op :: ops, cache, ho => by
    show others name (effects name (effect name cache op) ops) = _
    rw [others_effects hp fun x hx => ho x (by simp [hx])]
    have h := ho op (by simp)
    match op with
    | .delete c => exact others_del hp h
    | .write c d => exact others_set hp h.1 d
    | .rewrite c => exact others_set hp h _

end Radix.Browser
