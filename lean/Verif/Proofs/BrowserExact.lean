import Verif.Proofs.BrowserFlat
import Verif.Spec.Pieces

/-
Helper lemmas: the chunks after writes that may overlap and that all returned `Ok`.
-/

set_option linter.unusedVariables false

namespace Radix.Browser

open Radix.Spec (Piece levelFor stack pieces TopEnd)

/-- What an operation does with the chunks. -/
def pureOp (cs : List Chunk) : Op → List Chunk
  | .delete c => remove c cs
  | .write c _ => insert c cs
  | .rewrite c => insert c cs

theorem chunksOf_effects {name : Name} : ∀ (ops : List Op) {cache : Cache} (h : CInv name cache) (ho : ∀ op ∈ ops, OpOk op),
    chunksOf (effects name cache ops) name = ops.foldl pureOp (chunksOf cache name)
  | [], cache, h, ho => rfl
  | op :: ops, cache, h, ho => by
    have h1 := ho op (by simp)
    have ih := chunksOf_effects ops (h.effect h1) fun x hx => ho x (by simp [hx])
    rw [List.foldl_cons]
    show chunksOf (effects name (effect name cache op) ops) name = _
    rw [ih]
    congr 1
    cases op with
    | delete c => exact chunksOf_del h h1
    | write c d => exact chunksOf_set h h1.1 d
    | rewrite c => exact chunksOf_set h h1 _

/-- What is left of a chunk. -/
def partsOf (range : Range) (level : Nat) (r : Chunk) : List Chunk :=
  (if r.range.1 < range.1 then [.new (r.range.1, range.1) level] else []) ++
  (if r.range.2 > range.2 then [.new (range.2, r.range.2) level] else [])

theorem partsOf_level {range : Range} {level : Nat} {r c : Chunk} (h : c ∈ partsOf range level r) : c.level = level := by
  unfold partsOf at h
  rcases List.mem_append.1 h with h | h <;> split at h
  · rw [List.mem_singleton.1 h]; rfl
  · exact absurd h (by simp)
  · rw [List.mem_singleton.1 h]; rfl
  · exact absurd h (by simp)

theorem mem_deletes : ∀ {ds cs : List Chunk} {c : Chunk}, c ∈ (ds.map Op.delete).foldl pureOp cs ↔ c ∈ cs ∧ c ∉ ds
  | [], cs, c => by simp
  | d :: ds, cs, c => by
    rw [List.map_cons, List.foldl_cons, mem_deletes]
    show c ∈ remove d cs ∧ _ ↔ _
    rw [mem_remove]
    simp only [List.mem_cons, not_or]
    exact and_assoc

theorem mem_split {range : Range} {level : Nat} {r c : Chunk} {cs : List Chunk} :
    c ∈ (splitOps range level r).foldl pureOp cs ↔ (c ∈ cs ∨ c ∈ partsOf range level r) ∧ c ≠ r := by
  unfold splitOps partsOf
  by_cases h1 : r.range.1 < range.1 <;> by_cases h2 : r.range.2 > range.2
  · rw [if_pos h1, if_pos h2, if_pos h1, if_pos h2]
    simp only [List.cons_append, List.nil_append, List.foldl_cons, List.foldl_nil, pureOp, mem_remove, mem_insert, List.mem_cons, List.not_mem_nil, or_false]
    constructor
    · rintro ⟨h | h | h, h'⟩ <;> exact ⟨by simp [h], h'⟩
    · rintro ⟨h | h | h, h'⟩ <;> exact ⟨by simp [h], h'⟩
  · rw [if_pos h1, if_neg h2, if_pos h1, if_neg h2]
    simp only [List.cons_append, List.nil_append, List.foldl_cons, List.foldl_nil, pureOp, mem_remove, mem_insert, List.mem_cons, List.not_mem_nil, or_false]
    constructor
    · rintro ⟨h | h, h'⟩ <;> exact ⟨by simp [h], h'⟩
    · rintro ⟨h | h, h'⟩ <;> exact ⟨by simp [h], h'⟩
  · rw [if_neg h1, if_pos h2, if_neg h1, if_pos h2]
    simp only [List.cons_append, List.nil_append, List.foldl_cons, List.foldl_nil, pureOp, mem_remove, mem_insert, List.mem_cons, List.not_mem_nil, or_false]
    constructor
    · rintro ⟨h | h, h'⟩ <;> exact ⟨by simp [h], h'⟩
    · rintro ⟨h | h, h'⟩ <;> exact ⟨by simp [h], h'⟩
  · rw [if_neg h1, if_neg h2, if_neg h1, if_neg h2]
    simp only [List.nil_append, List.foldl_cons, List.foldl_nil, pureOp, mem_remove, List.not_mem_nil, or_false]

theorem mem_splits {range : Range} {level : Nat} {c : Chunk} : ∀ {rs cs : List Chunk}, (∀ r ∈ rs, r.level < level) →
    (c ∈ (rs.flatMap (splitOps range level)).foldl pureOp cs ↔ c ∈ cs ∧ c ∉ rs ∨ ∃ r ∈ rs, c ∈ partsOf range level r)
  | [], cs, h => by simp
  | r :: rs, cs, h => by
    have h1 := h r (by simp)
    rw [List.flatMap_cons, List.foldl_append, mem_splits fun x hx => h x (by simp [hx]), mem_split]
    constructor
    · rintro (⟨⟨h2 | h2, h3⟩, h4⟩ | ⟨x, hx, h2⟩)
      · exact Or.inl ⟨h2, by simp [h3, h4]⟩
      · exact Or.inr ⟨r, by simp, h2⟩
      · exact Or.inr ⟨x, by simp [hx], h2⟩
    · rintro (⟨h2, h3⟩ | ⟨x, hx, h2⟩)
      · rw [List.mem_cons, not_or] at h3
        exact Or.inl ⟨⟨Or.inl h2, h3.1⟩, h3.2⟩
      · rcases List.mem_cons.1 hx with rfl | hx
        · have hl := partsOf_level h2
          refine Or.inl ⟨⟨Or.inr h2, fun e => ?_⟩, fun e => ?_⟩
          · rw [e] at hl; omega
          · have := h c (by simp [e]); omega
        · exact Or.inr ⟨x, hx, h2⟩

theorem partsOf_inside {range : Range} {level : Nat} {r : Chunk} (h : contains range r.range = true) : partsOf range level r = [] := by
  have := contains_iff.1 h
  unfold partsOf
  rw [if_neg (by omega), if_neg (by omega)]
  rfl

/-- The chunks after a write that returned `Ok`. -/
theorem write_ok_mem {w w' : File} (h : Inv w) {offset : Nat} {data : Bytes} (e : write offset data w = (.ok (), w')) :
    ∃ l, (∀ c ∈ inTheWay w.chunks offset data, c.level < l) ∧ (l = 0 ∨ ∃ c ∈ inTheWay w.chunks offset data, l = c.level + 1) ∧
      ∀ c, c ∈ chunksOf w'.cache w.name ↔ c = ⟨l, offset, data.length⟩ ∨ c ∈ w.chunks ∧ c ∉ inTheWay w.chunks offset data ∨
        ∃ r ∈ inTheWay w.chunks offset data, c ∈ partsOf (offset, offset + data.length) l r := by
  unfold write at e
  rw [bind_ok (x := self) rfl] at e
  rcases add_spec w.chunks offset data h.valid with ⟨l, ops, e1, hok, -, hlev, hl, -⟩ | ⟨e1, -⟩
  · have hops : ops = ((inTheWay w.chunks offset data).filter fun x => contains (offset, offset + data.length) x.range).map .delete ++
        ((inTheWay w.chunks offset data).filter fun x => !contains (offset, offset + data.length) x.range).flatMap (splitOps (offset, offset + data.length) l) := by
      have e2 := e1
      unfold add at e2
      by_cases hlt : offset + data.length < 2 ^ 64
      case neg => rw [if_neg hlt] at e2; exact absurd e2 (by simp)
      rw [if_pos hlt] at e2
      dsimp only at e2
      have hrel : (w.chunks.filter fun x => overlap x.range (offset, offset + data.length)) = inTheWay w.chunks offset data := rfl
      rw [hrel] at e2
      cases hla : levelAbove (inTheWay w.chunks offset data) with
      | ok l' =>
        rw [hla, out_bind_ok, out_pure, List.cons_append] at e2
        have e3 := Out.ok.inj e2
        have e4 := (List.cons.inj e3).1
        have hl' : l' = l := by
          have := (Op.write.inj e4).1
          exact congrArg Chunk.level this
        rw [hl'] at e3
        exact (List.cons.inj e3).2.symm
      | err => rw [hla, out_bind_err] at e2; exact absurd e2 (by simp)
      | panic => rw [hla, out_bind_panic] at e2; exact absurd e2 (by simp)
      | crash => rw [hla] at e2; exact absurd (show (Out.crash : Out (List Op)) = _ from e2) (by simp)
    refine ⟨l, hlev, hl, fun c => ?_⟩
    rw [e1, bind_ok (x := lift _) rfl] at e
    obtain ⟨cache', chunks', evs', r, k, hq, ex, hk, hc, hrk, hinv⟩ := exec_spec _ h hok
    rw [ex] at e
    have hr : r = .ok () := (Prod.mk.inj e).1
    have hw' := (Prod.mk.inj e).2
    rw [← hw']
    dsimp only
    rw [hc, hrk hr, List.take_length, chunksOf_effects _ h.1 hok, List.foldl_cons, ← h.2, hops, List.foldl_append,
      mem_splits fun r hr => hlev r (List.mem_filter.1 hr).1, mem_deletes]
    show (c ∈ insert _ _ ∧ _) ∧ _ ∨ _ ↔ _
    rw [mem_insert]
    constructor
    · rintro (⟨⟨h1 | h1, h2⟩, h3⟩ | ⟨x, hx, h1⟩)
      · exact Or.inl h1
      · refine Or.inr (Or.inl ⟨h1, fun h4 => ?_⟩)
        by_cases h5 : contains (offset, offset + data.length) c.range = true
        · exact h2 (List.mem_filter.2 ⟨h4, h5⟩)
        · exact h3 (List.mem_filter.2 ⟨h4, by simp [h5]⟩)
      · exact Or.inr (Or.inr ⟨x, (List.mem_filter.1 hx).1, h1⟩)
    · rintro (h1 | ⟨h1, h2⟩ | ⟨x, hx, h1⟩)
      · have hn : c ∉ inTheWay w.chunks offset data := fun h4 => by
          have := hlev c h4
          rw [h1] at this
          exact absurd this (by simp)
        exact Or.inl ⟨⟨Or.inl h1, fun h4 => hn (List.mem_filter.1 h4).1⟩, fun h4 => hn (List.mem_filter.1 h4).1⟩
      · exact Or.inl ⟨⟨Or.inr h1, fun h4 => h2 (List.mem_filter.1 h4).1⟩, fun h4 => h2 (List.mem_filter.1 h4).1⟩
      · refine Or.inr ⟨x, List.mem_filter.2 ⟨hx, ?_⟩, h1⟩
        by_cases h5 : contains (offset, offset + data.length) x.range = true
        · rw [partsOf_inside h5] at h1; exact absurd h1 (by simp)
        · simp [h5]
  · rw [e1, bind_panic (x := lift _) rfl] at e
    exact absurd (Prod.mk.inj e).1 (by simp)

/-- A chunk as a piece. -/
def toPiece (c : Chunk) : Piece := ⟨c.level, c.offset, c.len⟩

theorem toPiece_inj {a b : Chunk} (h : toPiece a = toPiece b) : a = b :=
  Chunk.ext' (congrArg Piece.level h) (congrArg Piece.offset h) (congrArg Piece.len h)

/-- The chunks are the pieces. -/
def AsPieces (cs : List Chunk) (ps : List Piece) : Prop := ∀ p, p ∈ ps ↔ ∃ c ∈ cs, toPiece c = p

theorem foldr_max_le {α : Type} (f : α → Nat) : ∀ {l : List α} {x : α}, x ∈ l → f x ≤ (l.map f).foldr max 0
  | [], x, h => absurd h (by simp)
  | a :: l, x, h => by
    rw [List.map_cons, List.foldr_cons]
    rcases List.mem_cons.1 h with rfl | h
    · omega
    · have := foldr_max_le f h; omega

theorem foldr_max_mem {α : Type} (f : α → Nat) : ∀ {l : List α}, (l.map f).foldr max 0 = 0 ∨ ∃ x ∈ l, f x = (l.map f).foldr max 0
  | [] => Or.inl rfl
  | a :: l => by
    rw [List.map_cons, List.foldr_cons]
    rcases foldr_max_mem f (l := l) with h | ⟨x, hx, h⟩
    · rw [h]; exact Or.inr ⟨a, by simp, by omega⟩
    · by_cases h1 : f a ≤ (l.map f).foldr max 0
      · exact Or.inr ⟨x, by simp [hx], by omega⟩
      · exact Or.inr ⟨a, by simp, by omega⟩

theorem hit_iff {p : Piece} {w : Nat × Nat} : p.hit w = true ↔ w.1 < p.offset + p.len ∧ p.offset < w.1 + w.2 := by
  unfold Piece.hit; simp

theorem mem_stack {ps : List Piece} {w : Nat × Nat} {p : Piece} : p ∈ stack ps w ↔ p = ⟨levelFor ps w, w.1, w.2⟩ ∨ p ∈ ps ∧ ¬ p.hit w = true ∨
    ∃ q ∈ ps, q.hit w = true ∧ p ∈ q.left w (levelFor ps w) := by
  unfold stack
  rw [List.cons_append, List.mem_cons, List.mem_append, List.mem_filter, List.mem_flatMap]
  constructor
  · rintro (h | ⟨h, h'⟩ | ⟨q, hq, h⟩)
    · exact Or.inl h
    · exact Or.inr (Or.inl ⟨h, by simpa using h'⟩)
    · exact Or.inr (Or.inr ⟨q, (List.mem_filter.1 hq).1, (List.mem_filter.1 hq).2, h⟩)
  · rintro (h | ⟨h, h'⟩ | ⟨q, hq, hq', h⟩)
    · exact Or.inl h
    · exact Or.inr (Or.inl ⟨h, by simpa using h'⟩)
    · exact Or.inr (Or.inr ⟨q, List.mem_filter.2 ⟨hq, hq'⟩, h⟩)

theorem levelFor_above {ps : List Piece} {w : Nat × Nat} {p : Piece} (hp : p ∈ ps) (hh : p.hit w = true) : p.level < levelFor ps w :=
  foldr_max_le (fun p : Piece => p.level + 1) (List.mem_filter.2 ⟨hp, hh⟩)

theorem levelFor_cases (ps : List Piece) (w : Nat × Nat) : levelFor ps w = 0 ∨ ∃ p ∈ ps, p.hit w = true ∧ p.level + 1 = levelFor ps w := by
  rcases foldr_max_mem (fun p : Piece => p.level + 1) (l := ps.filter (Piece.hit w)) with h | ⟨x, hx, h⟩
  · exact Or.inl h
  · exact Or.inr ⟨x, (List.mem_filter.1 hx).1, (List.mem_filter.1 hx).2, h⟩

theorem pieces_hit {cs : List Chunk} {o : Nat} {d : Bytes} {c : Chunk} (hc : c ∈ cs) : (toPiece c).hit (o, d.length) = true ↔ c ∈ inTheWay cs o d := by
  rw [hit_iff, mem_inTheWay]
  exact ⟨fun h => ⟨hc, h⟩, fun h => h.2⟩

theorem left_parts {o n l : Nat} {c : Chunk} {p : Piece} : p ∈ (toPiece c).left (o, n) l ↔ ∃ x ∈ partsOf (o, o + n) l c, toPiece x = p := by
  unfold Piece.left partsOf toPiece Chunk.range
  dsimp only
  by_cases h1 : c.offset < o <;> by_cases h2 : o + n < c.offset + c.len <;>
    simp only [h1, h2, if_true, if_false, List.cons_append, List.nil_append, List.mem_cons, List.not_mem_nil, or_false, exists_eq_or_imp, exists_eq_left,
      Chunk.new, false_and, exists_false, eq_comm]

/-- A write that returned `Ok` changes the chunks like the pieces. -/
theorem write_pieces {w w' : File} (h : Inv w) {ps : List Piece} (hs : AsPieces w.chunks ps) {offset : Nat} {data : Bytes}
    (e : write offset data w = (.ok (), w')) : AsPieces (chunksOf w'.cache w.name) (stack ps (offset, data.length)) := by
  obtain ⟨l, h1, h2, h3⟩ := write_ok_mem h e
  have hl : levelFor ps (offset, data.length) = l := by
    rcases levelFor_cases ps (offset, data.length) with h4 | ⟨p, hp, hh, h4⟩
    · rcases h2 with h2 | ⟨c, hc, h2⟩
      · rw [h4, h2]
      · have hc' := (mem_inTheWay.1 hc).1
        have := levelFor_above ((hs (toPiece c)).2 ⟨c, hc', rfl⟩) ((pieces_hit hc').2 hc)
        omega
    · obtain ⟨c, hc, rfl⟩ := (hs p).1 hp
      have h5 := h1 c ((pieces_hit hc).1 hh)
      have h4 : c.level + 1 = _ := h4
      rcases h2 with h2 | ⟨d, hd, h2⟩
      · omega
      · have hd' := (mem_inTheWay.1 hd).1
        have h6 := levelFor_above ((hs (toPiece d)).2 ⟨d, hd', rfl⟩) ((pieces_hit hd').2 hd)
        have h6 : d.level < _ := h6
        omega
  intro p
  rw [mem_stack, hl]
  constructor
  · rintro (rfl | ⟨hp, hh⟩ | ⟨q, hq, hh, hp⟩)
    · exact ⟨⟨l, offset, data.length⟩, (h3 _).2 (Or.inl rfl), rfl⟩
    · obtain ⟨c, hc, rfl⟩ := (hs p).1 hp
      exact ⟨c, (h3 c).2 (Or.inr (Or.inl ⟨hc, fun h => hh ((pieces_hit hc).2 h)⟩)), rfl⟩
    · obtain ⟨c, hc, rfl⟩ := (hs q).1 hq
      obtain ⟨x, hx, rfl⟩ := left_parts.1 hp
      exact ⟨x, (h3 x).2 (Or.inr (Or.inr ⟨c, (pieces_hit hc).1 hh, hx⟩)), rfl⟩
  · rintro ⟨c, hc, rfl⟩
    rcases (h3 c).1 hc with rfl | ⟨h4, h5⟩ | ⟨r, hr, h4⟩
    · exact Or.inl rfl
    · exact Or.inr (Or.inl ⟨(hs _).2 ⟨c, h4, rfl⟩, fun h => h5 ((pieces_hit h4).1 h)⟩)
    · have hr' := (mem_inTheWay.1 hr).1
      exact Or.inr (Or.inr ⟨toPiece r, (hs _).2 ⟨r, hr', rfl⟩, (pieces_hit hr').2 hr, left_parts.2 ⟨c, h4, rfl⟩⟩)

theorem step_pieces {w : World} {ps : List Piece} (h : WInv w) (he : AsPieces (chunksOf w.cache w.name) ps) {c : Call}
    (hc : (∀ n evs, c ≠ .truncate n evs) ∧ ∀ d evs, c ≠ .put d evs) (hok : ∀ o d evs, c = .write o d evs → (step w c).1 = .done (.ok ())) :
    AsPieces (chunksOf (step w c).2.cache w.name) ((writesOf [c]).foldl stack ps) := by
  cases c with
  | truncate n evs => exact absurd rfl (hc.1 n evs)
  | put d evs => exact absurd rfl (hc.2 d evs)
  | reopen => exact he
  | length =>
    unfold step
    cases hh : w.handle <;> exact he
  | read a b evs =>
    unfold step
    cases hh : w.handle with
    | none => exact he
    | some cs =>
      dsimp only
      rw [cache_after, cache_reader (reader_read _)]
      exact he
  | get id evs =>
    unfold step
    cases hh : w.handle with
    | none => exact he
    | some cs =>
      dsimp only
      split
      · dsimp only
        rw [cache_after, cache_reader (reader_loadPrefixed _)]
        exact he
      · exact he
  | write o d evs =>
    have hok := hok o d evs rfl
    unfold step at hok ⊢
    cases hh : w.handle with
    | none => rw [hh] at hok; exact absurd hok (by simp)
    | some cs =>
      rw [hh] at hok
      dsimp only at hok ⊢
      rw [cache_after]
      have hi := h.file hh evs
      have hcs : cs = chunksOf w.cache w.name := hi.2
      rw [← hcs] at he
      rcases hw : write o d ⟨w.cache, w.name, cs, evs⟩ with ⟨r, w'⟩
      rw [hw] at hok
      dsimp only at hok ⊢
      have hr : r = .ok () := Seen.done.inj hok
      subst hr
      exact write_pieces hi he hw

theorem run_pieces : ∀ (cs : List Call) {w : World} {ps : List Piece} (h : WInv w) (he : AsPieces (chunksOf w.cache w.name) ps)
    (hc : OnlyWrites cs) (hok : WritesOk (log w cs)), AsPieces (chunksOf (run w cs).cache w.name) ((writesOf cs).foldl stack ps)
  | [], w, ps, h, he, hc, hok => he
  | c :: cs, w, ps, h, he, hc, hok => by
    rw [writesOf_cons, List.foldl_append]
    obtain ⟨-, h2, h3, -⟩ := step_spec h c
    have h4 := step_pieces h he (hc c (by simp)) fun o d evs hcw => hok (c, (step w c).1) (by simp [log]) o d evs hcw
    have := run_pieces cs h2 (by rw [h3]; exact h4) (fun x hx => hc x (by simp [hx])) fun e he =>
      hok e (by unfold log; exact List.mem_cons_of_mem _ he)
    rw [h3] at this
    exact this

/-! ### The pieces have no byte in common -/

/-- No two pieces meet. -/
def NoneMeet (ps : List Piece) : Prop := ∀ p ∈ ps, ∀ q ∈ ps, p ≠ q → p.offset + p.len ≤ q.offset ∨ q.offset + q.len ≤ p.offset

theorem mem_left {p q : Piece} {w : Nat × Nat} {l : Nat} (h : p ∈ q.left w l) : p.level = l ∧
    (q.offset < w.1 ∧ p = ⟨l, q.offset, w.1 - q.offset⟩ ∨ w.1 + w.2 < q.offset + q.len ∧ p = ⟨l, w.1 + w.2, q.offset + q.len - (w.1 + w.2)⟩) := by
  unfold Piece.left at h
  rcases List.mem_append.1 h with h | h <;> split at h
  · rename_i h'; have := List.mem_singleton.1 h; exact ⟨by rw [this], Or.inl ⟨h', this⟩⟩
  · exact absurd h (by simp)
  · rename_i h'; have := List.mem_singleton.1 h; exact ⟨by rw [this], Or.inr ⟨h', this⟩⟩
  · exact absurd h (by simp)

theorem disjoint_stack {ps : List Piece} (h : NoneMeet ps) (w : Nat × Nat) : NoneMeet (stack ps w) := by
  intro p hp q hq hne
  rcases mem_stack.1 hp with rfl | ⟨hp, hp'⟩ | ⟨a, ha, ha', hp⟩ <;> rcases mem_stack.1 hq with rfl | ⟨hq, hq'⟩ | ⟨b, hb, hb', hq⟩
  · exact absurd rfl hne
  · rw [hit_iff] at hq'; dsimp only; omega
  · rw [hit_iff] at hb'
    rcases (mem_left hq).2 with ⟨h1, rfl⟩ | ⟨h1, rfl⟩ <;> dsimp only <;> omega
  · rw [hit_iff] at hp'; dsimp only; omega
  · exact h p hp q hq hne
  · have hab : p ≠ b := fun e => hp' (by rw [e]; exact hb')
    have := h p hp b hb hab
    rw [hit_iff] at hb' hp'
    rcases (mem_left hq).2 with ⟨h1, rfl⟩ | ⟨h1, rfl⟩ <;> dsimp only <;> omega
  · rw [hit_iff] at ha'
    rcases (mem_left hp).2 with ⟨h1, rfl⟩ | ⟨h1, rfl⟩ <;> dsimp only <;> omega
  · have hab : q ≠ a := fun e => hq' (by rw [e]; exact ha')
    have := h q hq a ha hab
    rw [hit_iff] at ha' hq'
    rcases (mem_left hp).2 with ⟨h1, rfl⟩ | ⟨h1, rfl⟩ <;> dsimp only <;> omega
  · rw [hit_iff] at ha' hb'
    by_cases hab : a = b
    · subst hab
      rcases (mem_left hp).2 with ⟨h1, rfl⟩ | ⟨h1, rfl⟩ <;> rcases (mem_left hq).2 with ⟨h2, rfl⟩ | ⟨h2, rfl⟩
      · exact absurd rfl hne
      · dsimp only; omega
      · dsimp only; omega
      · exact absurd rfl hne
    · have := h a ha b hb hab
      rcases (mem_left hp).2 with ⟨h1, rfl⟩ | ⟨h1, rfl⟩ <;> rcases (mem_left hq).2 with ⟨h2, rfl⟩ | ⟨h2, rfl⟩ <;> dsimp only <;> omega

theorem disjoint_foldl : ∀ (ws : List (Nat × Nat)) {ps : List Piece}, NoneMeet ps → NoneMeet (ws.foldl stack ps)
  | [], ps, h => h
  | w :: ws, ps, h => disjoint_foldl ws (disjoint_stack h w)

/-- The length of the file is the furthest end on the highest level. -/
theorem length_top {w : File} (hsort : Sorted w.chunks) {ps : List Piece} (hs : AsPieces w.chunks ps) (hd : NoneMeet ps) : TopEnd ps (length w) := by
  unfold length prev
  cases hl : w.chunks.getLast? with
  | none =>
    rw [List.getLast?_eq_none_iff] at hl
    refine Or.inl ⟨List.eq_nil_iff_forall_not_mem.2 fun p hp => ?_, rfl⟩
    obtain ⟨c, hc, -⟩ := (hs p).1 hp
    rw [hl] at hc
    exact absurd hc (by simp)
  | some l =>
    obtain ⟨h1, h2⟩ := getLast_spec hsort hl
    have hm := (hs (toPiece l)).2 ⟨l, h1, rfl⟩
    refine Or.inr ⟨toPiece l, hm, fun q hq => ?_, fun q hq hlev => ?_, rfl⟩
    · obtain ⟨c, hc, rfl⟩ := (hs q).1 hq
      rcases h2 c hc with rfl | h3
      · exact Nat.le_refl _
      · rw [lt_iff] at h3
        show c.level ≤ l.level
        omega
    · obtain ⟨c, hc, rfl⟩ := (hs q).1 hq
      rcases h2 c hc with rfl | h3
      · exact Nat.le_refl _
      · by_cases hne : toPiece c = toPiece l
        · rw [hne]; exact Nat.le_refl _
        · have h4 := hd _ hq _ hm hne
          rw [lt_iff] at h3
          have hlev : c.level = l.level := hlev
          have h4 : c.offset + c.len ≤ l.offset ∨ l.offset + l.len ≤ c.offset := h4
          show c.offset + c.len ≤ l.offset + l.len
          omega

/-- There is one. -/
theorem topEnd_unique {ps : List Piece} {m n : Nat} (h1 : TopEnd ps m) (h2 : TopEnd ps n) : m = n := by
  rcases h1 with ⟨e, h1⟩ | ⟨p, hp, h3, h4, h1⟩ <;> rcases h2 with ⟨e', h2⟩ | ⟨q, hq, h5, h6, h2⟩
  · omega
  · rw [e] at hq; exact absurd hq (by simp)
  · rw [e'] at hp; exact absurd hp (by simp)
  · have h7 := h3 q hq
    have h8 := h5 p hp
    have h9 := h4 q hq (by omega)
    have h10 := h6 p hp (by omega)
    omega

/-! ### What the pieces of some writes look like -/

theorem stack_inside {ps : List Piece} {ws : List (Nat × Nat)} (h : ∀ p ∈ ps, ∃ x ∈ ws, x.1 ≤ p.offset ∧ p.offset + p.len ≤ x.1 + x.2) (w : Nat × Nat) :
    ∀ p ∈ stack ps w, ∃ x ∈ ws ++ [w], x.1 ≤ p.offset ∧ p.offset + p.len ≤ x.1 + x.2 := by
  intro p hp
  rcases mem_stack.1 hp with rfl | ⟨hp, -⟩ | ⟨q, hq, hh, hp⟩
  · exact ⟨w, by simp, Nat.le_refl _, Nat.le_refl _⟩
  · obtain ⟨x, hx, h1⟩ := h p hp
    exact ⟨x, by simp [hx], h1⟩
  · obtain ⟨x, hx, h1⟩ := h q hq
    rw [hit_iff] at hh
    refine ⟨x, by simp [hx], ?_⟩
    rcases (mem_left hp).2 with ⟨h2, rfl⟩ | ⟨h2, rfl⟩ <;> dsimp only <;> omega

theorem foldl_inside : ∀ (ws : List (Nat × Nat)) {ps : List Piece} {vs : List (Nat × Nat)},
    (∀ p ∈ ps, ∃ x ∈ vs, x.1 ≤ p.offset ∧ p.offset + p.len ≤ x.1 + x.2) →
    ∀ p ∈ ws.foldl stack ps, ∃ x ∈ vs ++ ws, x.1 ≤ p.offset ∧ p.offset + p.len ≤ x.1 + x.2
  | [], ps, vs, h => by rw [List.append_nil]; exact h
  | w :: ws, ps, vs, h => by
    have := foldl_inside ws (stack_inside h w)
    rw [List.append_assoc] at this
    exact this

/-- Each piece is inside one of the writes. -/
theorem pieces_inside (ws : List (Nat × Nat)) : ∀ p ∈ pieces ws, ∃ x ∈ ws, x.1 ≤ p.offset ∧ p.offset + p.len ≤ x.1 + x.2 := by
  have := foldl_inside ws (ps := []) (vs := []) (by simp)
  rw [List.nil_append] at this
  exact this

/-- A piece above level 0 stays, or there is another one. -/
theorem high_stack {ps : List Piece} (h : ∃ p ∈ ps, 1 ≤ p.level) (w : Nat × Nat) : ∃ p ∈ stack ps w, 1 ≤ p.level := by
  obtain ⟨p, hp, h1⟩ := h
  by_cases hh : p.hit w = true
  · exact ⟨_, mem_stack.2 (Or.inl rfl), Nat.le_of_lt (Nat.lt_of_le_of_lt h1 (levelFor_above hp hh))⟩
  · exact ⟨p, mem_stack.2 (Or.inr (Or.inl ⟨hp, hh⟩)), h1⟩

theorem high_foldl : ∀ (ws : List (Nat × Nat)) {ps : List Piece}, (∃ p ∈ ps, 1 ≤ p.level) → ∃ p ∈ ws.foldl stack ps, 1 ≤ p.level
  | [], ps, h => h
  | w :: ws, ps, h => high_foldl ws (high_stack h w)

theorem hit_of_not_apart {a w : Nat × Nat} {l : Nat} (h : ¬ Apart a w) : (⟨l, a.1, a.2⟩ : Piece).hit w = true := by
  rw [hit_iff]
  unfold Apart at h
  dsimp only
  omega

/-- A write that meets nothing. -/
theorem mem_stack_apart {ps : List Piece} {w : Nat × Nat} (hn : ∀ p ∈ ps, ¬ p.hit w = true) {p : Piece} : p ∈ stack ps w ↔ p = ⟨0, w.1, w.2⟩ ∨ p ∈ ps := by
  have hl : levelFor ps w = 0 := by
    rcases levelFor_cases ps w with h | ⟨q, hq, hh, -⟩
    · exact h
    · exact absurd hh (hn q hq)
  rw [mem_stack, hl]
  constructor
  · rintro (h | ⟨h, -⟩ | ⟨q, hq, hh, -⟩)
    · exact Or.inl h
    · exact Or.inr h
    · exact absurd hh (hn q hq)
  · rintro (h | h)
    · exact Or.inl h
    · exact Or.inr (Or.inl ⟨h, hn p h⟩)

/-- Once there is a piece above level 0, a write that meets nothing does not change the length. -/
theorem top_stack_apart {ps : List Piece} {w : Nat × Nat} (hn : ∀ p ∈ ps, ¬ p.hit w = true) (hh : ∃ p ∈ ps, 1 ≤ p.level) {n : Nat} (h : TopEnd ps n) :
    TopEnd (stack ps w) n := by
  obtain ⟨a, ha, ha1⟩ := hh
  rcases h with ⟨e, -⟩ | ⟨p, hp, h1, h2, h3⟩
  · rw [e] at ha; exact absurd ha (by simp)
  · have h4 := h1 a ha
    refine Or.inr ⟨p, (mem_stack_apart hn).2 (Or.inr hp), fun q hq => ?_, fun q hq hl => ?_, h3⟩
    · rcases (mem_stack_apart hn).1 hq with rfl | hq
      · exact Nat.zero_le _
      · exact h1 q hq
    · rcases (mem_stack_apart hn).1 hq with rfl | hq
      · have hl : 0 = p.level := hl
        omega
      · exact h2 q hq hl

/-- So with any number of such writes. -/
theorem top_foldl_apart : ∀ (ws : List (Nat × Nat)) {ps : List Piece} {vs : List (Nat × Nat)},
    (∀ p ∈ ps, ∃ x ∈ vs, x.1 ≤ p.offset ∧ p.offset + p.len ≤ x.1 + x.2) → (∀ x ∈ vs, ∀ y ∈ ws, Apart x y) → ws.Pairwise Apart →
    (∃ p ∈ ps, 1 ≤ p.level) → ∀ {n : Nat}, TopEnd ps n → TopEnd (ws.foldl stack ps) n
  | [], ps, vs, h, ha, hp, hh, n, ht => ht
  | w :: ws, ps, vs, h, ha, hp, hh, n, ht => by
    have hn : ∀ p ∈ ps, ¬ p.hit w = true := by
      intro p hp
      obtain ⟨x, hx, h1⟩ := h p hp
      have := ha x hx w (by simp)
      unfold Apart at this
      rw [hit_iff]
      omega
    refine top_foldl_apart ws (stack_inside h w) ?_ (List.pairwise_cons.1 hp).2 (high_stack hh w) (top_stack_apart hn hh ht)
    intro x hx y hy
    rcases List.mem_append.1 hx with hx | hx
    · exact ha x hx y (by simp [hy])
    · rw [List.mem_singleton.1 hx]; exact (List.pairwise_cons.1 hp).1 y hy

/-- A write from before the length to the furthest end or more makes its end the length. -/
theorem top_cover {ps : List Piece} {m n : Nat} (ht : TopEnd ps n) (hm : ∀ p ∈ ps, p.offset + p.len ≤ m) {w : Nat × Nat} (h1 : w.1 < n) (h2 : m ≤ w.1 + w.2) :
    TopEnd (stack ps w) (w.1 + w.2) := by
  rcases ht with ⟨e, h3⟩ | ⟨p, hp, h3, h4, h5⟩
  · omega
  have hend : ∀ q ∈ stack ps w, q.offset + q.len ≤ w.1 + w.2 := by
    intro q hq
    rcases mem_stack.1 hq with rfl | ⟨hq, -⟩ | ⟨r, hr, hh, hq⟩
    · exact Nat.le_refl _
    · have := hm q hq; omega
    · have := hm r hr
      rcases (mem_left hq).2 with ⟨h2, rfl⟩ | ⟨h2, rfl⟩ <;> dsimp only <;> omega
  have hpm := hm p hp
  by_cases hlev : p.level ≤ levelFor ps w
  · refine Or.inr ⟨_, mem_stack.2 (Or.inl rfl), fun q hq => ?_, fun q hq _ => hend q hq, rfl⟩
    rcases mem_stack.1 hq with rfl | ⟨hq, -⟩ | ⟨r, hr, hh, hq⟩
    · exact Nat.le_refl _
    · exact Nat.le_trans (h3 q hq) hlev
    · rw [(mem_left hq).1]; exact Nat.le_refl _
  · have hnh : ¬ p.hit w = true := fun h => hlev (Nat.le_of_lt (levelFor_above hp h))
    have hnh' := hnh
    rw [hit_iff] at hnh'
    refine Or.inr ⟨p, mem_stack.2 (Or.inr (Or.inl ⟨hp, hnh⟩)), fun q hq => ?_, fun q hq _ => ?_, by omega⟩
    · rcases mem_stack.1 hq with rfl | ⟨hq, -⟩ | ⟨r, hr, hh, hq⟩
      · dsimp only; omega
      · exact h3 q hq
      · rw [(mem_left hq).1]; omega
    · have := hend q hq
      omega

/-- If two of the writes overlap, there is a piece above level 0. -/
theorem high_of_overlap : ∀ (ws : List (Nat × Nat)) {ps : List Piece} {vs : List (Nat × Nat)}, (∀ p, p ∈ ps ↔ ∃ x ∈ vs, p = ⟨0, x.1, x.2⟩) →
    vs.Pairwise Apart → ¬ (vs ++ ws).Pairwise Apart → ∃ p ∈ ws.foldl stack ps, 1 ≤ p.level
  | [], ps, vs, h, h1, h2 => by rw [List.append_nil] at h2; exact absurd h1 h2
  | w :: ws, ps, vs, h, h1, h2 => by
    rw [List.foldl_cons]
    by_cases ha : ∀ x ∈ vs, Apart x w
    · have hn : ∀ p ∈ ps, ¬ p.hit w = true := by
        intro p hp
        obtain ⟨x, hx, rfl⟩ := (h p).1 hp
        have := ha x hx
        unfold Apart at this
        rw [hit_iff]
        dsimp only
        omega
      refine high_of_overlap ws (vs := vs ++ [w]) (fun p => ?_) ?_ (by rw [List.append_assoc]; exact h2)
      · rw [mem_stack_apart hn, h p]
        constructor
        · rintro (rfl | ⟨x, hx, rfl⟩)
          · exact ⟨w, by simp, rfl⟩
          · exact ⟨x, by simp [hx], rfl⟩
        · rintro ⟨x, hx, rfl⟩
          rcases List.mem_append.1 hx with hx | hx
          · exact Or.inr ⟨x, hx, rfl⟩
          · rw [List.mem_singleton.1 hx]; exact Or.inl rfl
      · rw [List.pairwise_append]
        exact ⟨h1, by simp, fun x hx y hy => by rw [List.mem_singleton.1 hy]; exact ha x hx⟩
    · have ⟨x, hx, hxa⟩ : ∃ x ∈ vs, ¬ Apart x w := by
        apply Classical.byContradiction
        intro hn
        exact ha fun x hx => Classical.byContradiction fun hxa => hn ⟨x, hx, hxa⟩
      exact high_foldl ws ⟨_, mem_stack.2 (Or.inl rfl), Nat.lt_of_le_of_lt (Nat.zero_le _) (levelFor_above ((h _).2 ⟨x, hx, rfl⟩) (hit_of_not_apart hxa))⟩

/-- Writes that do not overlap are the pieces, all on level 0. -/
theorem mem_foldl_apart : ∀ (ws : List (Nat × Nat)) {ps : List Piece} {vs : List (Nat × Nat)}, (∀ p, p ∈ ps ↔ ∃ x ∈ vs, p = ⟨0, x.1, x.2⟩) →
    (vs ++ ws).Pairwise Apart → ∀ p, p ∈ ws.foldl stack ps ↔ ∃ x ∈ vs ++ ws, p = ⟨0, x.1, x.2⟩
  | [], ps, vs, h, hp => by rw [List.append_nil]; exact h
  | w :: ws, ps, vs, h, hp => by
    have ea : vs ++ w :: ws = (vs ++ [w]) ++ ws := by simp
    rw [ea] at hp ⊢
    rw [List.foldl_cons]
    have hn : ∀ p ∈ ps, ¬ p.hit w = true := by
      intro p hp'
      obtain ⟨x, hx, rfl⟩ := (h p).1 hp'
      have := (List.pairwise_append.1 (List.pairwise_append.1 hp).1).2.2 x hx w (by simp)
      unfold Apart at this
      rw [hit_iff]
      dsimp only
      omega
    refine mem_foldl_apart ws (fun p => ?_) hp
    rw [mem_stack_apart hn, h p]
    constructor
    · rintro (rfl | ⟨x, hx, rfl⟩)
      · exact ⟨w, by simp, rfl⟩
      · exact ⟨x, by simp [hx], rfl⟩
    · rintro ⟨x, hx, rfl⟩
      rcases List.mem_append.1 hx with hx | hx
      · exact Or.inr ⟨x, hx, rfl⟩
      · rw [List.mem_singleton.1 hx]; exact Or.inl rfl

theorem mem_pieces_apart (ws : List (Nat × Nat)) (h : ws.Pairwise Apart) (p : Piece) : p ∈ pieces ws ↔ ∃ x ∈ ws, p = ⟨0, x.1, x.2⟩ := by
  have := mem_foldl_apart ws (ps := []) (vs := []) (by simp) (by rw [List.nil_append]; exact h) p
  rw [List.nil_append] at this
  exact this

end Radix.Browser
