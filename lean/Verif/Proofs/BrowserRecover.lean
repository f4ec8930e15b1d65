import Verif.Proofs.BrowserOps
import Verif.Proofs.BrowserHistory
import Verif.Proofs.BrowserAppend
import Verif.Browser.Recover
import Verif.Spec.Recover

/-
Helper lemmas: what the plan of `open` does to the bytes and the chunks of a file.
-/

set_option linter.unusedVariables false

namespace Radix.Browser

open Radix.Spec (overwrite cut Shows)

variable {name : Name} {cache : Cache}

/-! ### Sets of ranges -/

/-- `p` is in the range. -/
def InR (r : Range) (p : Nat) : Prop := r.1 ≤ p ∧ p < r.2

theorem disjoint_iff {a b : Range} : disjointRanges a b = true ↔ ∀ p, ¬ (InR a p ∧ InR b p) := by
  unfold disjointRanges InR
  rw [decide_eq_true_iff]
  constructor
  · intro h p hp; omega
  · intro h
    have := h (max a.1 b.1)
    omega

theorem mem_subtract {r q : Range} {ps : List Range} : q ∈ subtract r ps ↔ ∃ p ∈ ps,
    (disjointRanges p r = true ∧ q = p) ∨
    (disjointRanges p r = false ∧ (p.1 < r.1 ∧ q = (p.1, r.1) ∨ r.2 < p.2 ∧ q = (r.2, p.2))) := by
  unfold subtract
  rw [List.mem_flatMap]
  constructor
  · rintro ⟨p, hp, hq⟩
    refine ⟨p, hp, ?_⟩
    cases hd : disjointRanges p r with
    | true => rw [hd, if_pos rfl] at hq; exact Or.inl ⟨rfl, List.mem_singleton.1 hq⟩
    | false =>
      rw [hd, if_neg (by simp)] at hq
      refine Or.inr ⟨rfl, ?_⟩
      rcases List.mem_append.1 hq with hq | hq
      · split at hq
        · exact Or.inl ⟨by assumption, List.mem_singleton.1 hq⟩
        · exact absurd hq (by simp)
      · split at hq
        · exact Or.inr ⟨by assumption, List.mem_singleton.1 hq⟩
        · exact absurd hq (by simp)
  · rintro ⟨p, hp, hq⟩
    refine ⟨p, hp, ?_⟩
    rcases hq with ⟨hd, rfl⟩ | ⟨hd, hq⟩
    · rw [if_pos hd]; simp
    · rw [hd, if_neg (by simp)]
      rcases hq with ⟨h, rfl⟩ | ⟨h, rfl⟩
      · rw [if_pos h]; simp
      · rw [if_pos h]; simp

/-- What holds of the pieces of a range. -/
structure Pieces (ps : List Range) : Prop where
  full : ∀ q ∈ ps, q.1 < q.2
  apart : ∀ q ∈ ps, ∀ q' ∈ ps, ∀ p, InR q p → InR q' p → q = q'

theorem subtract_pieces {r : Range} {ps : List Range} (h : Pieces ps) : Pieces (subtract r ps) ∧
    ∀ x, (∃ q ∈ subtract r ps, InR q x) ↔ (∃ q ∈ ps, InR q x) ∧ ¬ InR r x := by
  refine ⟨⟨?_, ?_⟩, ?_⟩
  · intro q hq
    obtain ⟨p, hp, hq⟩ := mem_subtract.1 hq
    have := h.full p hp
    rcases hq with ⟨-, rfl⟩ | ⟨-, ⟨hl, rfl⟩ | ⟨hl, rfl⟩⟩ <;> simp_all
  · intro q hq q' hq' x hx hx'
    obtain ⟨p, hp, hq⟩ := mem_subtract.1 hq
    obtain ⟨p', hp', hq'⟩ := mem_subtract.1 hq'
    have hin : InR p x := by
      rcases hq with ⟨-, rfl⟩ | ⟨hd, ⟨hl, rfl⟩ | ⟨hl, rfl⟩⟩
      · exact hx
      all_goals
        unfold disjointRanges at hd
        have hd := of_decide_eq_false hd
        unfold InR at *
        dsimp only at *
        omega
    have hin' : InR p' x := by
      rcases hq' with ⟨-, rfl⟩ | ⟨hd, ⟨hl, rfl⟩ | ⟨hl, rfl⟩⟩
      · exact hx'
      all_goals
        unfold disjointRanges at hd
        have hd := of_decide_eq_false hd
        unfold InR at *
        dsimp only at *
        omega
    have he := h.apart p hp p' hp' x hin hin'
    subst he
    rcases hq with ⟨hd, rfl⟩ | ⟨hd, ⟨hl, rfl⟩ | ⟨hl, rfl⟩⟩ <;>
      rcases hq' with ⟨hd', rfl⟩ | ⟨hd', ⟨hl', rfl⟩ | ⟨hl', rfl⟩⟩
    all_goals first
      | rfl
      | (exfalso; rw [hd] at hd'; exact Bool.noConfusion hd')
      | (exfalso
         unfold disjointRanges at hd
         have hd := of_decide_eq_false hd
         unfold InR at *
         dsimp only at *
         omega)
  · intro x
    constructor
    · rintro ⟨q, hq, hx⟩
      obtain ⟨p, hp, hq⟩ := mem_subtract.1 hq
      rcases hq with ⟨hd, rfl⟩ | ⟨hd, ⟨hl, rfl⟩ | ⟨hl, rfl⟩⟩
      · exact ⟨⟨_, hp, hx⟩, fun hr => disjoint_iff.1 hd x ⟨hx, hr⟩⟩
      all_goals
        unfold disjointRanges at hd
        have hd := of_decide_eq_false hd
        refine ⟨⟨p, hp, ?_⟩, ?_⟩ <;> (unfold InR at *; dsimp only at *; omega)
    · rintro ⟨⟨p, hp, hx⟩, hr⟩
      cases hd : disjointRanges p r with
      | true => exact ⟨p, mem_subtract.2 ⟨p, hp, Or.inl ⟨hd, rfl⟩⟩, hx⟩
      | false =>
        by_cases hl : x < r.1
        · refine ⟨(p.1, r.1), mem_subtract.2 ⟨p, hp, Or.inr ⟨hd, Or.inl ⟨?_, rfl⟩⟩⟩, ?_⟩
          all_goals (unfold InR at *; (try dsimp only at *); omega)
        · refine ⟨(r.2, p.2), mem_subtract.2 ⟨p, hp, Or.inr ⟨hd, Or.inr ⟨?_, rfl⟩⟩⟩, ?_⟩
          all_goals (unfold InR at *; (try dsimp only at *); omega)

theorem fold_subtract : ∀ {covered ps : List Range}, Pieces ps →
    Pieces (covered.foldl (fun ps c => subtract c ps) ps) ∧
    ∀ x, (∃ q ∈ covered.foldl (fun ps c => subtract c ps) ps, InR q x) ↔ (∃ q ∈ ps, InR q x) ∧ ∀ r ∈ covered, ¬ InR r x
  | [], ps, h => ⟨h, fun x => by simp⟩
  | r :: covered, ps, h => by
    obtain ⟨h1, h2⟩ := subtract_pieces (r := r) h
    obtain ⟨h3, h4⟩ := fold_subtract (covered := covered) h1
    refine ⟨h3, fun x => ?_⟩
    rw [List.foldl_cons, h4 x, h2 x]
    simp only [List.mem_cons, forall_eq_or_imp]
    exact and_assoc

theorem difference_spec (r : Range) (covered : List Range) : Pieces (difference r covered) ∧
    ∀ x, (∃ q ∈ difference r covered, InR q x) ↔ InR r x ∧ ∀ c ∈ covered, ¬ InR c x := by
  have h0 : Pieces (if r.1 < r.2 then [r] else []) := by
    split
    · rename_i h
      exact ⟨fun q hq => by rw [List.mem_singleton.1 hq]; exact h, fun q hq q' hq' _ _ _ => by
        rw [List.mem_singleton.1 hq, List.mem_singleton.1 hq']⟩
    · exact ⟨by simp, by simp⟩
  obtain ⟨h1, h2⟩ := fold_subtract (covered := covered) h0
  refine ⟨h1, fun x => ?_⟩
  unfold difference
  rw [h2 x]
  refine and_congr_left' ?_
  split
  · simp
  · unfold InR; simp; omega

theorem difference_disjoint {r : Range} (hr : r.1 < r.2) : ∀ {covered : List Range}, (∀ c ∈ covered, ∀ p, ¬ (InR r p ∧ InR c p)) →
    difference r covered = [r] := by
  intro covered h
  unfold difference
  rw [if_pos hr]
  induction covered with
  | nil => rfl
  | cons c covered ih =>
    rw [List.foldl_cons]
    have : subtract c [r] = [r] := by
      unfold subtract
      simp only [List.flatMap_cons, List.flatMap_nil, List.append_nil]
      rw [if_pos (disjoint_iff.2 (h c (by simp)))]
    rw [this]
    exact ih fun d hd => h d (by simp [hd])

/-! ### The range of the file -/

theorem mem_insertRange {r x : Range} : ∀ {xs : List Range}, x ∈ insertRange r xs ↔ x = r ∨ x ∈ xs
  | [] => by simp [insertRange]
  | y :: ys => by
    unfold insertRange
    split
    · simp
    · rw [List.mem_cons, mem_insertRange, List.mem_cons]
      constructor
      · rintro (h | h | h) <;> simp [h]
      · rintro (h | h | h) <;> simp [h]

theorem sorted_insertRange {r : Range} : ∀ {xs : List Range}, xs.Pairwise (fun a b => a.1 ≤ b.1) →
    (insertRange r xs).Pairwise (fun a b => a.1 ≤ b.1)
  | [], _ => by simp [insertRange]
  | y :: ys, h => by
    obtain ⟨h1, h2⟩ := List.pairwise_cons.1 h
    unfold insertRange
    split
    · rename_i hl
      refine List.pairwise_cons.2 ⟨fun x hx => ?_, h⟩
      rcases List.mem_cons.1 hx with rfl | hx
      · exact hl
      · have := h1 x hx; omega
    · rename_i hl
      refine List.pairwise_cons.2 ⟨fun x hx => ?_, sorted_insertRange h2⟩
      rcases mem_insertRange.1 hx with rfl | hx
      · omega
      · exact h1 x hx

theorem mem_sortRanges {x : Range} : ∀ {rs : List Range}, x ∈ rs.foldr insertRange [] ↔ x ∈ rs
  | [] => by simp
  | r :: rs => by rw [List.foldr_cons, mem_insertRange, mem_sortRanges, List.mem_cons]

theorem sorted_sortRanges : ∀ {rs : List Range}, (rs.foldr insertRange []).Pairwise (fun a b => a.1 ≤ b.1)
  | [] => by simp
  | r :: rs => by rw [List.foldr_cons]; exact sorted_insertRange sorted_sortRanges

theorem joined_spec : ∀ {rs : List Range} {e : Nat}, rs.Pairwise (fun a b => a.1 ≤ b.1) →
    e ≤ joined e rs ∧ (∀ r ∈ rs, r.1 ≤ joined e rs → r.2 ≤ joined e rs) ∧
    ∀ p, e ≤ p → p < joined e rs → ∃ r ∈ rs, InR r p
  | [], e, _ => by simp [joined]
  | r :: rs, e, h => by
    obtain ⟨h1, h2⟩ := List.pairwise_cons.1 h
    unfold joined
    split
    · rename_i hl
      obtain ⟨i1, i2, i3⟩ := joined_spec (rs := rs) (e := max e r.2) h2
      refine ⟨by omega, ?_, ?_⟩
      · intro x hx hx1
        rcases List.mem_cons.1 hx with rfl | hx
        · omega
        · exact i2 x hx hx1
      · intro p hp hlt
        by_cases hp' : p < r.2
        · exact ⟨r, by simp, by unfold InR; omega⟩
        · obtain ⟨x, hx, hxp⟩ := i3 p (by omega) hlt
          exact ⟨x, by simp [hx], hxp⟩
    · rename_i hl
      refine ⟨Nat.le_refl _, ?_, fun p h1 h2 => by omega⟩
      intro x hx hx1
      rcases List.mem_cons.1 hx with rfl | hx
      · omega
      · have := h1 x hx; omega

theorem fileRange_spec (cs : List Chunk) : (∀ p, InR (fileRange (cs.map (·.range))) p ↔ BeforeGap cs p) ∧
    ∀ c ∈ cs, disjointRanges c.range (fileRange (cs.map (·.range))) = false → ∀ p, Covers c p → BeforeGap cs p := by
  obtain ⟨-, h2, h3⟩ := joined_spec (e := 0) (sorted_sortRanges (rs := cs.map (·.range)))
  have hin : ∀ p, InR (fileRange (cs.map (·.range))) p ↔ p < joined 0 ((cs.map (·.range)).foldr insertRange []) := by
    intro p; unfold InR fileRange; simp
  have hmem : ∀ c ∈ cs, c.range ∈ (cs.map (·.range)).foldr insertRange [] := fun c hc => mem_sortRanges.2 (List.mem_map_of_mem hc)
  generalize hE : joined 0 ((cs.map (·.range)).foldr insertRange []) = E at *
  have hiff : ∀ p, InR (fileRange (cs.map (·.range))) p ↔ BeforeGap cs p := by
    intro p
    rw [hin p]
    constructor
    · intro hp q hq
      obtain ⟨r, hr, hrq⟩ := h3 q (by omega) (by omega)
      obtain ⟨c, hc, rfl⟩ := List.mem_map.1 (mem_sortRanges.1 hr)
      exact ⟨c, hc, hrq⟩
    · intro hp
      refine Decidable.byContradiction fun hn => ?_
      obtain ⟨c, hc, hcov⟩ := hp E (by omega)
      have := h2 c.range (hmem c hc) hcov.1
      have := hcov.2
      unfold Chunk.range at *
      dsimp only at *
      omega
  refine ⟨hiff, fun c hc hd p hp => ?_⟩
  have hd := of_decide_eq_false hd
  rw [← hiff, hin]
  have hf : fileRange (cs.map (·.range)) = (0, E) := by unfold fileRange; rw [hE]
  rw [hf] at hd
  have := h2 c.range (hmem c hc)
  unfold Covers at hp
  unfold Chunk.range at *
  dsimp only at *
  omega

/-! ### The plan is safe -/

theorem safe_rewrites {P : Nat → Prop} {rest : List Op} : ∀ {ns : List Chunk} {S : Chunk → Prop},
    Safe P (fun d => S d ∨ d ∈ ns) rest → Safe P S (ns.map .rewrite ++ rest)
  | [], S, h => Safe.mono (fun d hd => by simpa using hd) h
  | n :: ns, S, h => by
    show Safe P (fun d => S d ∨ d = n) (ns.map .rewrite ++ rest)
    refine safe_rewrites (Safe.mono (fun d hd => ?_) h)
    rcases hd with hd | hd
    · exact Or.inl (Or.inl hd)
    · rcases List.mem_cons.1 hd with hd | hd
      · exact Or.inl (Or.inr hd)
      · exact Or.inr hd

/-- The new chunks for the parts of `c` that are not covered yet. -/
def newChunks (c : Chunk) (covered : List Range) (level : Nat) : List Chunk := (difference c.range covered).map fun r => .new r level

theorem openSteps_cons (file : Range) (level : Nat) (c : Chunk) (cs : List Chunk) (covered : List Range) :
    openSteps file level (c :: cs) covered =
      if disjointRanges c.range file then .delete c :: openSteps file level cs covered
      else if difference c.range covered = [c.range] then openSteps file level cs (c.range :: covered)
      else (newChunks c covered level).map .rewrite ++ .delete c :: openSteps file level cs (c.range :: covered) := by
  rw [openSteps]
  split
  · rfl
  · unfold newChunks
    by_cases h : difference c.range covered = [c.range]
    · rw [if_neg (by simp [h]), if_pos h]; rfl
    · rw [if_pos h, if_neg h, List.map_map, List.append_assoc]; rfl

theorem covers_new {r : Range} {level p : Nat} : Covers (.new r level) p ↔ InR r p := by
  unfold Covers Chunk.new InR
  dsimp only
  omega

theorem mem_newChunks {c d : Chunk} {covered : List Range} {level : Nat} (h : d ∈ newChunks c covered level) :
    d.level = level ∧ 0 < d.len ∧ ∀ p, Covers d p → Covers c p ∧ ∀ r ∈ covered, ¬ InR r p := by
  obtain ⟨r, hr, rfl⟩ := List.mem_map.1 h
  obtain ⟨h1, h2⟩ := difference_spec c.range covered
  refine ⟨rfl, ?_, fun p hp => ?_⟩
  · have := h1.full r hr
    unfold Chunk.new; dsimp only; omega
  · exact (h2 p).1 ⟨r, hr, covers_new.1 hp⟩

theorem newChunks_cover {c : Chunk} {covered : List Range} {level p : Nat} (h : Covers c p) (hn : ∀ r ∈ covered, ¬ InR r p) :
    ∃ d ∈ newChunks c covered level, Covers d p := by
  obtain ⟨r, hr, hrp⟩ := ((difference_spec c.range covered).2 p).2 ⟨h, hn⟩
  exact ⟨_, List.mem_map_of_mem hr, covers_new.2 hrp⟩

theorem openSteps_safe {P : Nat → Prop} {file : Range} {level : Nat} (hP : ∀ p, P p → InR file p) :
    ∀ {cs : List Chunk} {covered : List Range} {S : Chunk → Prop}, cs.Pairwise (fun a b => b.lt a = true) → (∀ c ∈ cs, c.level < level) →
    (∀ c ∈ cs, S c) → (∀ p, P p → (∃ r ∈ covered, InR r p) → ∃ d, S d ∧ (∀ c ∈ cs, c.lt d = true) ∧ Covers d p) →
    Safe P S (openSteps file level cs covered)
  | [], _, _, _, _, _, _ => trivial
  | c :: cs, covered, S, hs, hl, hS, hc => by
    obtain ⟨hs1, hs2⟩ := List.pairwise_cons.1 hs
    have hl' : ∀ x ∈ cs, x.level < level := fun x hx => hl x (by simp [hx])
    rw [openSteps_cons]
    have hne : ∀ x ∈ cs, x ≠ c := fun x hx he => lt_irrefl (a := c) (by have := hs1 x hx; rw [he] at this; exact this)
    split
    · rename_i hd
      refine ⟨fun p hp hcov => absurd ⟨hcov, hP p hp⟩ (disjoint_iff.1 hd p), ?_⟩
      refine openSteps_safe hP hs2 hl' (fun x hx => ⟨hS x (by simp [hx]), hne x hx⟩) fun p hp hr => ?_
      obtain ⟨d, h1, h2, h3⟩ := hc p hp hr
      exact ⟨d, ⟨h1, fun he => lt_irrefl (a := c) (by have := h2 c (by simp); rw [he] at this; exact this)⟩,
        fun x hx => h2 x (by simp [hx]), h3⟩
    · split
      · refine openSteps_safe hP hs2 hl' (fun x hx => hS x (by simp [hx])) fun p hp hr => ?_
        obtain ⟨r, hr, hrp⟩ := hr
        rcases List.mem_cons.1 hr with rfl | hr
        · exact ⟨c, hS c (by simp), fun x hx => hs1 x hx, hrp⟩
        · obtain ⟨d, h1, h2, h3⟩ := hc p hp ⟨r, hr, hrp⟩
          exact ⟨d, h1, fun x hx => h2 x (by simp [hx]), h3⟩
      · refine safe_rewrites ?_
        have key : ∀ p, P p → (Covers c p ∨ ∃ r ∈ covered, InR r p) →
            ∃ d, (S d ∨ d ∈ newChunks c covered level) ∧ (∀ x ∈ c :: cs, x.lt d = true) ∧ Covers d p := by
          intro p hp hcov
          by_cases hr : ∃ r ∈ covered, InR r p
          · obtain ⟨d, h1, h2, h3⟩ := hc p hp hr
            exact ⟨d, Or.inl h1, h2, h3⟩
          · obtain ⟨d, h1, h2⟩ := newChunks_cover (level := level) (hcov.resolve_right hr) (fun r hrm hrp => hr ⟨r, hrm, hrp⟩)
            exact ⟨d, Or.inr h1, fun x hx => lt_of_level (by rw [(mem_newChunks h1).1]; exact hl x hx), h2⟩
        refine ⟨fun p hp hcov => ?_, ?_⟩
        · obtain ⟨d, h1, h2, h3⟩ := key p hp (Or.inl hcov)
          exact ⟨d, h1, h2 c (by simp), h3⟩
        · refine openSteps_safe hP hs2 hl' (fun x hx => ⟨Or.inl (hS x (by simp [hx])), hne x hx⟩) fun p hp hr => ?_
          obtain ⟨r, hr, hrp⟩ := hr
          obtain ⟨d, h1, h2, h3⟩ := key p hp (by
            rcases List.mem_cons.1 hr with rfl | hr
            · exact Or.inl hrp
            · exact Or.inr ⟨r, hr, hrp⟩)
          exact ⟨d, ⟨h1, fun he => lt_irrefl (a := c) (by have := h2 c (by simp); rw [he] at this; exact this)⟩,
            fun x hx => h2 x (by simp [hx]), h3⟩

/-! ### The chunks at the end -/

/-- The chunks after a plan without writes. -/
def Fin' : (Chunk → Prop) → List Op → Chunk → Prop
  | S, [] => S
  | S, .delete c :: ops => Fin' (fun d => S d ∧ d ≠ c) ops
  | S, .rewrite c :: ops => Fin' (fun d => S d ∨ d = c) ops
  | S, .write c _ :: ops => Fin' (fun d => S d ∨ d = c) ops

theorem fin_congr : ∀ {ops : List Op} {S S' : Chunk → Prop}, (∀ d, S d ↔ S' d) → ∀ d, Fin' S ops d ↔ Fin' S' ops d
  | [], S, S', h, d => h d
  | .delete c :: ops, S, S', h, d => fin_congr (ops := ops) (fun x => and_congr_left' (h x)) d
  | .rewrite c :: ops, S, S', h, d => fin_congr (ops := ops) (fun x => or_congr_left (h x)) d
  | .write c _ :: ops, S, S', h, d => fin_congr (ops := ops) (fun x => or_congr_left (h x)) d

theorem fin_rewrites {rest : List Op} : ∀ {ns : List Chunk} {S : Chunk → Prop} (d : Chunk),
    Fin' S (ns.map .rewrite ++ rest) d ↔ Fin' (fun d => S d ∨ d ∈ ns) rest d
  | [], S, d => fin_congr (fun x => by simp) d
  | n :: ns, S, d => by
    show Fin' (fun d => S d ∨ d = n) (ns.map .rewrite ++ rest) d ↔ _
    rw [fin_rewrites d]
    exact fin_congr (fun x => by rw [List.mem_cons, or_assoc]) d

theorem mem_effects : ∀ {ops : List Op} {cache : Cache}, CInv name cache → (∀ op ∈ ops, OpOk op) →
    ∀ d, d ∈ chunksOf (effects name cache ops) name ↔ Fin' (· ∈ chunksOf cache name) ops d
  | [], cache, _, _, d => Iff.rfl
  | op :: ops, cache, h, ho, d => by
    have ho' := ho op (by simp)
    have ih := mem_effects (ops := ops) (CInv.effect h ho') (fun x hx => ho x (by simp [hx])) d
    show d ∈ chunksOf (effects name (effect name cache op) ops) name ↔ _
    rw [ih]
    match op, ho' with
    | .delete c, ho' =>
      refine fin_congr (fun x => ?_) d
      show x ∈ chunksOf (cache.del _) name ↔ _
      rw [chunksOf_del h ho', mem_remove]
    | .rewrite c, ho' =>
      refine fin_congr (fun x => ?_) d
      show x ∈ chunksOf (cache.set _ _) name ↔ _
      rw [chunksOf_set h ho', mem_insert, or_comm]
    | .write c _, ho' =>
      refine fin_congr (fun x => ?_) d
      show x ∈ chunksOf (cache.set _ _) name ↔ _
      rw [chunksOf_set h ho'.1, mem_insert, or_comm]

/-- Chunks that are not empty and do not overlap. -/
structure Tidy (T : Chunk → Prop) : Prop where
  full : ∀ d, T d → 0 < d.len
  apart : ∀ d e p, T d → T e → Covers d p → Covers e p → d = e

theorem openSteps_fin {file : Range} {level : Nat} : ∀ {cs : List Chunk} {covered : List Range} {S T : Chunk → Prop},
    cs.Pairwise (fun a b => b.lt a = true) → (∀ c ∈ cs, c.level < level) →
    (∀ d, S d ↔ T d ∨ d ∈ cs) → (∀ d, T d → ∀ c ∈ cs, c.lt d = true) → Tidy T →
    (∀ p, (∃ r ∈ covered, InR r p) ↔ ∃ d, T d ∧ Covers d p) →
    Tidy (Fin' S (openSteps file level cs covered)) ∧
    ∀ p, (∃ d, Fin' S (openSteps file level cs covered) d ∧ Covers d p) ↔
      (∃ r ∈ covered, InR r p) ∨ ∃ c ∈ cs, disjointRanges c.range file = false ∧ Covers c p
  | [], covered, S, T, _, _, hS, _, hT, hc => by
    have : ∀ d, S d ↔ T d := fun d => by rw [hS d]; simp
    refine ⟨⟨fun d hd => hT.full d ((this d).1 hd), fun d e p hd he => hT.apart d e p ((this d).1 hd) ((this e).1 he)⟩, fun p => ?_⟩
    rw [hc p]
    show (∃ d, S d ∧ _) ↔ _
    simp [this]
  | c :: cs, covered, S, T, hs, hl, hS, hlt, hT, hc => by
    obtain ⟨hs1, hs2⟩ := List.pairwise_cons.1 hs
    have hl' : ∀ x ∈ cs, x.level < level := fun x hx => hl x (by simp [hx])
    have hne : ∀ x ∈ cs, x ≠ c := fun x hx he => lt_irrefl (a := c) (by have := hs1 x hx; rw [he] at this; exact this)
    have hTc : ∀ d, T d → d ≠ c := fun d hd he => lt_irrefl (a := c) (by have := hlt d hd c (by simp); rw [he] at this; exact this)
    have hlt' : ∀ d, T d → ∀ x ∈ cs, x.lt d = true := fun d hd x hx => hlt d hd x (by simp [hx])
    rw [openSteps_cons]
    cases hd : disjointRanges c.range file with
    | true =>
      rw [if_pos rfl]
      have ih := openSteps_fin (file := file) (level := level) (covered := covered) (S := fun d => S d ∧ d ≠ c) (T := T) hs2 hl' (fun d => ?_) hlt' hT hc
      · refine ⟨ih.1, fun p => (ih.2 p).trans ?_⟩
        refine or_congr_right ?_
        simp [hd]
      · rw [hS d, List.mem_cons]
        constructor
        · rintro ⟨h1 | h1 | h1, h2⟩
          · exact Or.inl h1
          · exact absurd h1 h2
          · exact Or.inr h1
        · rintro (h1 | h1)
          · exact ⟨Or.inl h1, hTc d h1⟩
          · exact ⟨Or.inr (Or.inr h1), hne d h1⟩
    | false =>
      rw [if_neg (by simp)]
      have hfull : 0 < c.len := by
        unfold disjointRanges Chunk.range at hd
        have := of_decide_eq_false hd
        dsimp only at this
        omega
      have hset : ∀ {covered : List Range} {p : Nat}, ((∃ r ∈ c.range :: covered, InR r p) ∨ ∃ x ∈ cs, disjointRanges x.range file = false ∧ Covers x p) ↔
          (∃ r ∈ covered, InR r p) ∨ ∃ x ∈ c :: cs, disjointRanges x.range file = false ∧ Covers x p := by
        intro covered p
        constructor
        · rintro (⟨r, hr, hrp⟩ | ⟨x, hx, h1⟩)
          · rcases List.mem_cons.1 hr with rfl | hr
            · exact Or.inr ⟨c, by simp, hd, hrp⟩
            · exact Or.inl ⟨r, hr, hrp⟩
          · exact Or.inr ⟨x, by simp [hx], h1⟩
        · rintro (⟨r, hr, hrp⟩ | ⟨x, hx, h1, h2⟩)
          · exact Or.inl ⟨r, by simp [hr], hrp⟩
          · rcases List.mem_cons.1 hx with rfl | hx
            · exact Or.inl ⟨x.range, by simp, h2⟩
            · exact Or.inr ⟨x, hx, h1, h2⟩
      split
      · rename_i hdf
        have hout : ∀ p, Covers c p → ¬ ∃ r ∈ covered, InR r p := by
          intro p hp ⟨r, hr, hrp⟩
          have := (((difference_spec c.range covered).2 p).1 ⟨c.range, by rw [hdf]; simp, hp⟩).2
          exact this r hr hrp
        have ih := openSteps_fin (file := file) (level := level) (covered := c.range :: covered) (S := S) (T := fun d => T d ∨ d = c)
          hs2 hl' (fun d => by rw [hS d, List.mem_cons, or_assoc]) ?_ ⟨?_, ?_⟩ ?_
        · exact ⟨ih.1, fun p => (ih.2 p).trans hset⟩
        · rintro d (hd | rfl) x hx
          · exact hlt' d hd x hx
          · exact hs1 x hx
        · rintro d (hd | rfl)
          · exact hT.full d hd
          · exact hfull
        · rintro d e p (ht | rfl) (he | rfl) h1 h2
          · exact hT.apart d e p ht he h1 h2
          · exact absurd ((hc p).2 ⟨d, ht, h1⟩) (hout p h2)
          · exact absurd ((hc p).2 ⟨e, he, h2⟩) (hout p h1)
          · rfl
        · intro p
          constructor
          · rintro ⟨r, hr, hrp⟩
            rcases List.mem_cons.1 hr with rfl | hr
            · exact ⟨c, Or.inr rfl, hrp⟩
            · obtain ⟨d, h1, h2⟩ := (hc p).1 ⟨r, hr, hrp⟩
              exact ⟨d, Or.inl h1, h2⟩
          · rintro ⟨d, hd | rfl, h2⟩
            · obtain ⟨r, hr, hrp⟩ := (hc p).2 ⟨d, hd, h2⟩
              exact ⟨r, by simp [hr], hrp⟩
            · exact ⟨d.range, by simp, h2⟩
      · have hnew : ∀ d, d ∈ newChunks c covered level → d ≠ c := fun d hd he => by
          have := (mem_newChunks hd).1
          rw [he] at this
          have := hl c (by simp)
          omega
        have ih := openSteps_fin (file := file) (level := level) (covered := c.range :: covered)
          (S := fun d => (S d ∨ d ∈ newChunks c covered level) ∧ d ≠ c) (T := fun d => T d ∨ d ∈ newChunks c covered level)
          hs2 hl' (fun d => ?_) ?_ ⟨?_, ?_⟩ ?_
        · have hfin : ∀ d, Fin' S ((newChunks c covered level).map .rewrite ++ .delete c :: openSteps file level cs (c.range :: covered)) d ↔
              Fin' (fun d => (S d ∨ d ∈ newChunks c covered level) ∧ d ≠ c) (openSteps file level cs (c.range :: covered)) d :=
            fun d => fin_rewrites d
          refine ⟨⟨fun d hd => ih.1.full d ((hfin d).1 hd), fun d e p hd he => ih.1.apart d e p ((hfin d).1 hd) ((hfin e).1 he)⟩, fun p => ?_⟩
          refine Iff.trans ?_ ((ih.2 p).trans hset)
          exact exists_congr fun d => and_congr_left' (hfin d)
        · rw [hS d, List.mem_cons]
          constructor
          · rintro ⟨(h1 | h1 | h1) | h1, h2⟩
            · exact Or.inl (Or.inl h1)
            · exact absurd h1 h2
            · exact Or.inr h1
            · exact Or.inl (Or.inr h1)
          · rintro ((h1 | h1) | h1)
            · exact ⟨Or.inl (Or.inl h1), hTc d h1⟩
            · exact ⟨Or.inr h1, hnew d h1⟩
            · exact ⟨Or.inl (Or.inr (Or.inr h1)), hne d h1⟩
        · rintro d (hd | hd) x hx
          · exact hlt' d hd x hx
          · exact lt_of_level (by rw [(mem_newChunks hd).1]; exact hl' x hx)
        · rintro d (hd | hd)
          · exact hT.full d hd
          · exact (mem_newChunks hd).2.1
        · have hno : ∀ d e p, T d → e ∈ newChunks c covered level → Covers d p → Covers e p → False := by
            intro d e p hd he h1 h2
            obtain ⟨r, hr, hrp⟩ := (hc p).2 ⟨d, hd, h1⟩
            exact ((mem_newChunks he).2.2 p h2).2 r hr hrp
          rintro d e p (hd | hd) (he | he) h1 h2
          · exact hT.apart d e p hd he h1 h2
          · exact (hno d e p hd he h1 h2).elim
          · exact (hno e d p he hd h2 h1).elim
          · obtain ⟨r, hr, rfl⟩ := List.mem_map.1 hd
            obtain ⟨r', hr', rfl⟩ := List.mem_map.1 he
            rw [(difference_spec c.range covered).1.apart r hr r' hr' p (covers_new.1 h1) (covers_new.1 h2)]
        · intro p
          constructor
          · rintro ⟨r, hr, hrp⟩
            by_cases hcv : ∃ r ∈ covered, InR r p
            · obtain ⟨d, h1, h2⟩ := (hc p).1 hcv
              exact ⟨d, Or.inl h1, h2⟩
            · rcases List.mem_cons.1 hr with rfl | hr
              · obtain ⟨d, h1, h2⟩ := newChunks_cover (level := level) (covered := covered) hrp (fun r h1 h2 => hcv ⟨r, h1, h2⟩)
                exact ⟨d, Or.inr h1, h2⟩
              · exact absurd ⟨r, hr, hrp⟩ hcv
          · rintro ⟨d, hd | hd, h2⟩
            · obtain ⟨r, hr, hrp⟩ := (hc p).2 ⟨d, hd, h2⟩
              exact ⟨r, by simp [hr], hrp⟩
            · exact ⟨c.range, by simp, ((mem_newChunks hd).2.2 p h2).1⟩

/-! ### Doing it again -/

theorem openSteps_tidy {file : Range} {level : Nat} : ∀ {cs : List Chunk} {covered : List Range},
    (∀ c ∈ cs, 0 < c.len) → cs.Pairwise (fun c d => ∀ p, ¬ (Covers c p ∧ Covers d p)) →
    (∀ c ∈ cs, ∀ r ∈ covered, ∀ p, ¬ (InR c.range p ∧ InR r p)) → (∀ c ∈ cs, disjointRanges c.range file = false) →
    openSteps file level cs covered = []
  | [], _, _, _, _, _ => rfl
  | c :: cs, covered, hf, hp, hc, hd => by
    obtain ⟨hp1, hp2⟩ := List.pairwise_cons.1 hp
    rw [openSteps_cons, hd c (by simp), if_neg (by simp)]
    have hlen := hf c (by simp)
    rw [if_pos (difference_disjoint (by unfold Chunk.range; dsimp only; omega) (hc c (by simp)))]
    refine openSteps_tidy (fun x hx => hf x (by simp [hx])) hp2 (fun x hx r hr p hpp => ?_) (fun x hx => hd x (by simp [hx]))
    rcases List.mem_cons.1 hr with rfl | hr
    · exact hp1 x hx p ⟨hpp.2, hpp.1⟩
    · exact hc x (by simp [hx]) r hr p hpp

/-! ### The plan -/

theorem openSteps_ok {file : Range} {level : Nat} (hl : level < 2 ^ 64) : ∀ {cs : List Chunk} {covered : List Range}, (∀ c ∈ cs, c.Valid) →
    ∀ op ∈ openSteps file level cs covered, OpOk op ∧ ∀ c, op = .rewrite c → ∃ d ∈ cs, c.offset + c.len ≤ d.offset + d.len
  | [], _, _, op, h => absurd h (by simp [openSteps])
  | c :: cs, covered, hv, op, h => by
    have hv' : ∀ x ∈ cs, x.Valid := fun x hx => hv x (by simp [hx])
    have hrest : ∀ {cov : List Range}, op ∈ openSteps file level cs cov → OpOk op ∧ ∀ x, op = .rewrite x → ∃ d ∈ c :: cs, x.offset + x.len ≤ d.offset + d.len := by
      intro cov h
      obtain ⟨h1, h2⟩ := openSteps_ok hl hv' op h
      refine ⟨h1, fun x hx => ?_⟩
      obtain ⟨d, hd, hle⟩ := h2 x hx
      exact ⟨d, by simp [hd], hle⟩
    have hdel : OpOk (.delete c) ∧ ∀ x, Op.delete c = .rewrite x → ∃ d ∈ c :: cs, x.offset + x.len ≤ d.offset + d.len :=
      ⟨hv c (by simp), fun x hx => absurd hx (by simp)⟩
    rw [openSteps_cons] at h
    split at h
    · rcases List.mem_cons.1 h with rfl | h
      · exact hdel
      · exact hrest h
    · split at h
      · exact hrest h
      · rcases List.mem_append.1 h with h | h
        · obtain ⟨n, hn, rfl⟩ := List.mem_map.1 h
          obtain ⟨h1, h2, h3⟩ := mem_newChunks hn
          have hcov := (h3 (n.offset + n.len - 1) (by unfold Covers; omega)).1
          have hcv := hv c (by simp)
          unfold Covers at hcov
          unfold Chunk.Valid at hcv
          refine ⟨⟨by rw [h1]; exact hl, by omega⟩, fun x hx => ?_⟩
          rw [← Op.rewrite.inj hx]
          exact ⟨c, by simp, by omega⟩
        · rcases List.mem_cons.1 h with rfl | h
          · exact hdel
          · exact hrest h

/-- What opening and cleaning up does. -/
theorem recover_spec {w : File} (h : Inv w) : ∃ w' r, recover w = (r, w') ∧ Next w w' ∧ (r ≠ .crash → Inv w') ∧
    (∀ p, BeforeGap w.chunks p → byteAt w'.name w'.cache p = byteAt w.name w.cache p) ∧
    (r = .ok () → Tidy (· ∈ w'.chunks) ∧ ∀ p, (∃ d ∈ w'.chunks, Covers d p) ↔ BeforeGap w.chunks p) := by
  unfold recover
  rw [bind_ok (x := self) rfl]
  unfold openPlan
  obtain ⟨hf1, hf2⟩ := fileRange_spec w.chunks
  rcases levelAbove_spec w.chunks with ⟨l, e, hl, hlev, -⟩ | ⟨e, -⟩
  · rw [e, out_bind_ok, out_pure, bind_ok (x := lift _) rfl]
    have hrev : w.chunks.reverse.Pairwise (fun a b => b.lt a = true) := by
      rw [List.pairwise_reverse, h.2]; exact sorted_chunksOf _ _
    have hlev' : ∀ c ∈ w.chunks.reverse, c.level < l := fun c hc => hlev c (List.mem_reverse.1 hc)
    have hok : ∀ op ∈ openSteps (fileRange (w.chunks.map (·.range))) l w.chunks.reverse [], OpOk op := fun op hop =>
      (openSteps_ok hl (fun c hc => h.valid c (List.mem_reverse.1 hc)) op hop).1
    have hsafe := openSteps_safe (P := BeforeGap w.chunks) (file := fileRange (w.chunks.map (·.range))) (fun p hp => (hf1 p).2 hp)
      (covered := []) (S := (· ∈ w.chunks)) hrev hlev' (fun c hc => List.mem_reverse.1 hc) (by simp)
    have hfin := openSteps_fin (file := fileRange (w.chunks.map (·.range))) (covered := []) (S := (· ∈ w.chunks)) (T := fun _ => False)
      hrev hlev' (by simp) (by simp) ⟨by simp, by simp⟩ (by simp)
    generalize openSteps (fileRange (w.chunks.map (·.range))) l w.chunks.reverse [] = ops at *
    obtain ⟨cache', chunks', evs', r, k, hq, ex, hk, hc, hrk, hinv⟩ := exec_spec _ h hok
    have hci : CInv w.name cache' := by
      rw [hc]
      exact CInv.effects h.1 fun op hop => hok op (List.mem_of_mem_take hop)
    have hco : others w.name cache' = others w.name w.cache := by
      rw [hc]
      exact others_effects h.1.1 fun op hop => hok op (List.mem_of_mem_take hop)
    refine ⟨_, r, ex, ⟨rfl, hci, hq, hco⟩, hinv, fun p hp => ?_, fun hr => ?_⟩
    · dsimp only
      rw [hc]
      exact effects_safe h.1 hok (fun d hd => by rw [← h.2]; exact hd) hsafe k p hp
    · have hch : chunks' = chunksOf cache' w.name := (hinv (by rw [hr]; simp)).2
      have hmem : ∀ d, d ∈ chunks' ↔ Fin' (· ∈ w.chunks) ops d := by
        intro d
        rw [hch, hc, hrk hr, List.take_of_length_le (Nat.le_refl _), mem_effects h.1 hok d, ← h.2]
      refine ⟨⟨fun d hd => hfin.1.full d ((hmem d).1 hd), fun d e p hd he => hfin.1.apart d e p ((hmem d).1 hd) ((hmem e).1 he)⟩, fun p => ?_⟩
      refine Iff.trans (exists_congr fun d => and_congr_left' (hmem d)) ((hfin.2 p).trans ?_)
      constructor
      · rintro (⟨r, hr, -⟩ | ⟨c, hc, hd, hp⟩)
        · exact absurd hr (by simp)
        · exact hf2 c (List.mem_reverse.1 hc) hd p hp
      · intro hp
        obtain ⟨c, hcm, hcov⟩ := hp p (Nat.le_refl _)
        refine Or.inr ⟨c, List.mem_reverse.2 hcm, ?_, hcov⟩
        cases hd : disjointRanges c.range (fileRange (w.chunks.map (·.range))) with
        | false => rfl
        | true => exact absurd ⟨hcov, (hf1 p).2 hp⟩ (disjoint_iff.1 hd p)
  · rw [e, out_bind_panic]
    exact ⟨w, .panic, rfl, ⟨rfl, h.1, fun hq => hq, rfl⟩, fun _ => h, fun _ _ => rfl, fun hr => absurd hr (by simp)⟩

/-- Nothing is left to do. -/
theorem openPlan_tidy {cs : List Chunk} (hs : Sorted cs) (ht : Tidy (· ∈ cs)) (hc : ∀ p, (∃ d ∈ cs, Covers d p) → BeforeGap cs p) {ops : List Op}
    (ho : openPlan cs = .ok ops) : ops = [] := by
  unfold openPlan at ho
  obtain ⟨hf1, hf2⟩ := fileRange_spec cs
  rcases levelAbove_spec cs with ⟨l, e, hl, hlev, -⟩ | ⟨e, -⟩
  · rw [e, out_bind_ok, out_pure] at ho
    rw [← Out.ok.inj ho]
    have hne : ∀ c ∈ cs, ∃ p, Covers c p := fun c hc => ⟨c.offset, by have := ht.full c hc; unfold Covers; omega⟩
    refine openSteps_tidy (fun c hc => ht.full c (List.mem_reverse.1 hc)) ?_ (by simp) ?_
    · rw [List.pairwise_reverse]
      refine List.Pairwise.imp_of_mem (R := fun a b => a.lt b = true) (fun {a b} ha hb hab p hp => ?_) (by unfold Sorted at hs; exact hs)
      rw [ht.apart a b p ha hb hp.2 hp.1] at hab
      exact lt_irrefl hab
    · intro c hcm
      have hcm := List.mem_reverse.1 hcm
      obtain ⟨p, hp⟩ := hne c hcm
      cases hd : disjointRanges c.range (fileRange (cs.map (·.range))) with
      | false => rfl
      | true => exact absurd ⟨hp, (hf1 p).2 (hc p ⟨c, hcm, hp⟩)⟩ (disjoint_iff.1 hd p)
  · rw [e, out_bind_panic] at ho
    exact absurd ho (by simp)

theorem openSteps_no_write {file : Range} {level : Nat} {x : Chunk} {b : Bytes} : ∀ {cs : List Chunk} {covered : List Range},
    .write x b ∉ openSteps file level cs covered
  | [], _ => by simp [openSteps]
  | c :: cs, covered => by
    rw [openSteps_cons]
    intro h
    split at h
    · rcases List.mem_cons.1 h with h | h
      · exact absurd h (by simp)
      · exact openSteps_no_write h
    · split at h
      · exact openSteps_no_write h
      · rcases List.mem_append.1 h with h | h
        · obtain ⟨n, -, h⟩ := List.mem_map.1 h
          exact absurd h (by simp)
        · rcases List.mem_cons.1 h with h | h
          · exact absurd h (by simp)
          · exact openSteps_no_write h

/-- Without failures of the browser, below 2 GiB, cleaning up succeeds. -/
theorem recover_succeeds {w : File} (h : Inv w) (hq : Calm w.evs) (hs : SmallChunks w.chunks) (hl : ∀ c ∈ w.chunks, c.level + 1 < 2 ^ 64) :
    (recover w).1 = .ok () := by
  unfold recover
  rw [bind_ok (x := self) rfl]
  unfold openPlan
  rcases levelAbove_spec w.chunks with ⟨l, e, hlt, -, -⟩ | ⟨e, c, hc, hn⟩
  · rw [e, out_bind_ok, out_pure, bind_ok (x := lift _) rfl]
    have hok := openSteps_ok (file := fileRange (w.chunks.map (·.range))) hlt (covered := []) (fun c hc => h.valid c (List.mem_reverse.1 hc))
    have hsm : ∀ op ∈ openSteps (fileRange (w.chunks.map (·.range))) l w.chunks.reverse [],
        OpSmall op ∧ ∀ c d, op = .write c d → c.offset + c.len < 2 ^ 31 := by
      intro op hop
      match op, hop with
      | .rewrite c, hop =>
        obtain ⟨d, hd, hle⟩ := (hok _ hop).2 c rfl
        have := hs d (List.mem_reverse.1 hd)
        exact ⟨show c.offset + c.len < 2 ^ 31 by omega, fun x y he => absurd he (by simp)⟩
      | .delete c, _ => exact ⟨trivial, fun x y he => absurd he (by simp)⟩
      | .write c d, hop => exact absurd hop openSteps_no_write
    obtain ⟨w', e, -, -⟩ := exec_succeeds _ h (fun op hop => (hok op hop).1) hq hs hsm
    rw [e]
  · exact absurd (hl c hc) hn

/-! ### What is covered -/

theorem safe_covers {P : Nat → Prop} : ∀ {ops : List Op} {S : Chunk → Prop} {cache : Cache}, CInv name cache → (∀ op ∈ ops, OpOk op) →
    (∀ d, S d → d ∈ chunksOf cache name) → Safe P S ops → ∀ k p, P p → (∃ c ∈ chunksOf cache name, Covers c p) →
    ∃ c ∈ chunksOf (effects name cache (ops.take k)) name, Covers c p
  | [], _, _, _, _, _, _, k, p, hp, hc => by simpa [effects] using hc
  | op :: ops, S, cache, h, ho, hS, hsafe, 0, p, hp, hc => hc
  | .delete c :: ops, S, cache, h, ho, hS, hsafe, k + 1, p, hp, hc => by
    have hv : c.Valid := ho (.delete c) (by simp)
    have hmem : ∀ d, d ∈ chunksOf (effect name cache (.delete c)) name ↔ d ∈ chunksOf cache name ∧ d ≠ c := by
      intro d
      show d ∈ chunksOf (cache.del _) name ↔ _
      rw [chunksOf_del h hv, mem_remove]
    show ∃ c' ∈ chunksOf (effects name (effect name cache (.delete c)) (ops.take k)) name, Covers c' p
    refine safe_covers (CInv.effect h (ho (.delete c) (by simp))) (fun x hx => ho x (by simp [hx])) (fun d hd => (hmem d).2 ⟨hS d hd.1, hd.2⟩)
      hsafe.2 k p hp ?_
    obtain ⟨x, hx, hxp⟩ := hc
    by_cases he : x = c
    · subst he
      obtain ⟨d, h1, h2, h3⟩ := hsafe.1 p hp hxp
      exact ⟨d, (hmem d).2 ⟨hS d h1, fun e => lt_irrefl (a := x) (by rw [e] at h2; exact h2)⟩, h3⟩
    · exact ⟨x, (hmem x).2 ⟨hx, he⟩, hxp⟩
  | .rewrite c :: ops, S, cache, h, ho, hS, hsafe, k + 1, p, hp, hc => by
    have hv : c.Valid := ho (.rewrite c) (by simp)
    have hsafe : Safe P (fun d => S d ∨ d = c) ops := hsafe
    have hmem : ∀ d, d ∈ chunksOf (effect name cache (.rewrite c)) name ↔ d = c ∨ d ∈ chunksOf cache name := by
      intro d
      show d ∈ chunksOf (cache.set _ _) name ↔ _
      rw [chunksOf_set h hv, mem_insert]
    show ∃ c' ∈ chunksOf (effects name (effect name cache (.rewrite c)) (ops.take k)) name, Covers c' p
    refine safe_covers (CInv.effect h (ho (.rewrite c) (by simp))) (fun x hx => ho x (by simp [hx])) (fun d hd => (hmem d).2 (hd.symm.imp_right (hS d)))
      hsafe k p hp ?_
    obtain ⟨x, hx, hxp⟩ := hc
    exact ⟨x, (hmem x).2 (Or.inr hx), hxp⟩
  | .write _ _ :: _, _, _, _, _, _, h, _ + 1, _, _, _ => h.elim

/-- A write uncovers nothing, and covers its range if it returns `Ok`. -/
theorem write_covers {w : File} (h : Inv w) (offset : Nat) (data : Bytes) {p : Nat}
    (hp : (∃ c ∈ chunksOf w.cache w.name, Covers c p) ∨ (write offset data w).1 = .ok () ∧ offset ≤ p ∧ p < offset + data.length) :
    ∃ c ∈ chunksOf (write offset data w).2.cache w.name, Covers c p := by
  have hwr : write offset data w = (lift (add w.chunks offset data) >>= exec) w := rfl
  rw [hwr] at hp ⊢
  rcases add_spec w.chunks offset data h.valid with ⟨l, ops, e, hok, hsafe, -, -, -⟩ | ⟨e, -⟩
  · rw [e, bind_ok (x := lift _) rfl] at hp ⊢
    obtain ⟨cache', chunks', evs', r, k, hq, ex, hk, hc, hrk, hinv⟩ := exec_spec _ h hok
    rw [ex] at hp ⊢
    dsimp only at hp ⊢
    rw [hc]
    match k, hrk with
    | 0, hrk =>
      rcases hp with hp | ⟨hp, -⟩
      · exact hp
      · exact absurd (hrk hp) (by simp)
    | k + 1, _ =>
      have hw := hok (.write ⟨l, offset, data.length⟩ data) (by simp)
      have hmem : ∀ d, d ∈ chunksOf (effect w.name w.cache (.write ⟨l, offset, data.length⟩ data)) w.name ↔
          d = ⟨l, offset, data.length⟩ ∨ d ∈ chunksOf w.cache w.name := by
        intro d
        show d ∈ chunksOf (w.cache.set _ _) w.name ↔ _
        rw [chunksOf_set h.1 hw.1, mem_insert]
      show ∃ c ∈ chunksOf (effects w.name (effect w.name w.cache (.write ⟨l, offset, data.length⟩ data)) (ops.take k)) w.name, Covers c p
      refine safe_covers (CInv.effect h.1 hw) (fun x hx => hok x (by simp [hx])) (fun d hd => (hmem d).2 (Or.inl hd)) hsafe k p trivial ?_
      rcases hp with ⟨c, hc, hcp⟩ | ⟨-, hp⟩
      · exact ⟨c, (hmem c).2 (Or.inr hc), hcp⟩
      · exact ⟨_, (hmem _).2 (Or.inl rfl), hp⟩
  · rw [e, bind_panic (x := lift _) rfl] at hp ⊢
    rcases hp with hp | ⟨hp, -⟩
    · exact hp
    · exact absurd hp (by simp)

/-- Only truncating uncovers offsets. -/
theorem step_covers {w : World} (h : WInv w) {c : Call} (hc : ∀ n evs, c ≠ .truncate n evs) {p : Nat}
    (hp : (∃ x ∈ chunksOf w.cache w.name, Covers x p) ∨
      ∃ o d evs, c = .write o d evs ∧ (step w c).1 = .done (.ok ()) ∧ o ≤ p ∧ p < o + d.length) :
    ∃ x ∈ chunksOf (step w c).2.cache w.name, Covers x p := by
  have hstay : (∀ o d evs, c ≠ .write o d evs) → ∃ x ∈ chunksOf w.cache w.name, Covers x p := fun hn =>
    hp.resolve_right fun ⟨o, d, evs, he, _⟩ => hn o d evs he
  cases c with
  | truncate n evs => exact absurd rfl (hc n evs)
  | reopen => exact hstay (by simp)
  | length =>
    have := hstay (by simp)
    unfold step
    cases hh : w.handle <;> exact this
  | read a b evs =>
    have := hstay (by simp)
    unfold step
    cases hh : w.handle with
    | none => exact this
    | some ch =>
      dsimp only
      rw [cache_after, cache_reader (reader_read _)]
      exact this
  | get id evs =>
    have := hstay (by simp)
    unfold step
    cases hh : w.handle with
    | none => exact this
    | some ch =>
      dsimp only
      split
      · dsimp only
        rw [cache_after, cache_reader (reader_loadPrefixed _)]
        exact this
      · exact this
  | write o d evs =>
    unfold step at *
    cases hh : w.handle with
    | none =>
      rw [hh] at hp
      rcases hp with hp | ⟨_, _, _, _, hr, _⟩
      · exact hp
      · exact absurd hr (by simp)
    | some ch =>
      rw [hh] at hp
      dsimp only at *
      rw [cache_after]
      refine write_covers (h.file hh evs) o d ?_
      rcases hp with hp | ⟨_, _, _, he, hr, h2⟩
      · exact Or.inl hp
      · cases he
        exact Or.inr ⟨Seen.done.inj hr, h2⟩
  | put d evs =>
    have hst := hstay (by simp)
    unfold step
    cases hh : w.handle with
    | none => exact hst
    | some ch =>
      dsimp only
      rw [cache_after]
      unfold appendPrefixed
      split
      · rw [append_eq]
        exact write_covers (h.file hh evs) _ _ (Or.inl hst)
      · exact hst

/-- What was written stays covered. -/
theorem run_covers : ∀ (cs : List Call) {w : World}, WInv w → (∀ c ∈ cs, ∀ n evs, c ≠ .truncate n evs) → ∀ {p : Nat},
    ((∃ x ∈ chunksOf w.cache w.name, Covers x p) ∨
      ∃ o d evs, (Call.write o d evs, Seen.done (.ok ())) ∈ log w cs ∧ o ≤ p ∧ p < o + d.length) →
    ∃ x ∈ chunksOf (run w cs).cache w.name, Covers x p
  | [], w, h, hc, p, hp => by
    rcases hp with hp | ⟨_, _, _, hm, _⟩
    · exact hp
    · exact absurd hm (by simp [log])
  | c :: cs, w, h, hc, p, hp => by
    obtain ⟨-, h2, h3, -⟩ := step_spec h c
    have ih := run_covers cs h2 (fun x hx => hc x (by simp [hx])) (p := p)
    rw [h3] at ih
    refine ih ?_
    rcases hp with hp | ⟨o, d, evs, hm, hp⟩
    · exact Or.inl (step_covers h (hc c (by simp)) (Or.inl hp))
    · rcases List.mem_cons.1 hm with hm | hm
      · refine Or.inl (step_covers h (hc c (by simp)) (Or.inr ⟨o, d, evs, (Prod.mk.inj hm).1.symm, (Prod.mk.inj hm).2.symm, hp⟩))
      · exact Or.inr ⟨o, d, evs, hm, hp⟩

/-! ### `retain_relevant` -/

theorem insertChunk_perm {c : Chunk} : ∀ {cs : List Chunk}, (insertChunk c cs).Perm (c :: cs)
  | [] => List.Perm.refl _
  | d :: ds => by
    unfold insertChunk
    split
    · exact List.Perm.refl _
    · exact (insertChunk_perm.cons d).trans (List.Perm.swap c d ds)

theorem sortChunks_perm : ∀ {cs : List Chunk}, (cs.foldr insertChunk []).Perm cs
  | [] => List.Perm.refl _
  | c :: cs => insertChunk_perm.trans (sortChunks_perm.cons c)

theorem retainLoop_perm : ∀ {cs : List Chunk} {prev : Chunk}, ((retainLoop prev cs).1 ++ (retainLoop prev cs).2).Perm cs
  | [], _ => List.Perm.refl _
  | c :: cs, prev => by
    unfold retainLoop
    split
    · exact retainLoop_perm.cons c
    · exact List.perm_middle.trans (retainLoop_perm.cons c)

theorem retains_start {prev c : Chunk} (h : retains prev c = true) : c.offset ≤ prev.offset + prev.len := by
  unfold retains at h
  split at h
  · have h := of_decide_eq_true h
    unfold Chunk.range at h; dsimp only at h; omega
  · split at h
    · have h := of_decide_eq_true h
      unfold Chunk.range at h; dsimp only at h; exact h
    · exact absurd h (by simp)

theorem retainLoop_covers : ∀ {cs : List Chunk} {prev : Chunk} {C : Nat → Prop}, (∀ q, q < prev.offset + prev.len → C q) →
    ∀ c ∈ (retainLoop prev cs).1, ∀ q, q < c.offset + c.len → C q ∨ ∃ d ∈ (retainLoop prev cs).1, Covers d q
  | [], _, _, _, c, hc, _, _ => absurd hc (by simp [retainLoop])
  | x :: xs, prev, C, hC, c, hc, q, hq => by
    unfold retainLoop at hc ⊢
    split at hc
    · rename_i hr
      rw [if_pos hr]
      have hx : ∀ q, q < x.offset + x.len → C q ∨ Covers x q := by
        intro q hq
        have := retains_start hr
        by_cases hlt : q < prev.offset + prev.len
        · exact Or.inl (hC q hlt)
        · exact Or.inr (by unfold Covers; omega)
      rcases List.mem_cons.1 hc with rfl | hc
      · exact (hx q hq).imp_right fun h => ⟨c, by simp, h⟩
      · rcases retainLoop_covers (prev := x) (C := fun q => C q ∨ Covers x q) hx c hc q hq with (h | h) | ⟨d, hd, h⟩
        · exact Or.inl h
        · exact Or.inr ⟨x, by simp, h⟩
        · exact Or.inr ⟨d, by simp [hd], h⟩
    · rename_i hr
      rw [if_neg hr]
      exact retainLoop_covers hC c hc q hq

end Radix.Browser
