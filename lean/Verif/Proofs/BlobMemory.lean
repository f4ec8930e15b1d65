import Verif.Spec.Blobs

/-
The memory of blobs: counts, and the client on top of any store that keeps to the rules.
-/

set_option linter.unusedVariables false

namespace Radix.Blobs
open Radix.Paged (View)

/-- The strong count of an object, 0 if it is not there. -/
def Mem.cnt (m : Mem) (a : Nat) : Nat :=
  match m[a]? with
  | some (some (c, _)) => c
  | _ => 0

/-- The counts are those of the references. -/
structure Inv (m : Mem) (R : List Nat) : Prop where
  cnt : ∀ a, m.cnt a = R.count a
  pos : ∀ (a : Nat) (x : Obj), m[a]? = some (some (0, x)) → False

theorem Inv.of {m : Mem} {R R' : List Nat} (h : Inv m R) (e : ∀ a, R'.count a = R.count a) : Inv m R' :=
  ⟨fun a => by rw [h.cnt, e], h.pos⟩

theorem Inv.cell {m : Mem} {R : List Nat} (h : Inv m R) {a : Nat} (ha : a ∈ R) :
    ∃ c x, m[a]? = some (some (c, x)) ∧ c = R.count a := by
  have hc := h.cnt a
  have : 0 < R.count a := List.count_pos_iff.2 ha
  unfold Mem.cnt at hc
  split at hc
  · rename_i c x e; exact ⟨c, x, e, hc⟩
  · omega

theorem Inv.alive {m : Mem} {R : List Nat} (h : Inv m R) {a : Nat} (ha : a ∈ R) : ∃ x, m.get a = some x := by
  obtain ⟨c, x, e, -⟩ := h.cell ha
  exact ⟨x, by unfold Mem.get; rw [e]⟩

theorem lt_of_get {m : Mem} {a : Nat} {c : Option (Nat × Obj)} (h : m[a]? = some c) : a < m.length := by
  rcases Nat.lt_or_ge a m.length with h' | h'
  · exact h'
  · rw [List.getElem?_eq_none h'] at h; cases h

/-- What `set` does. -/
theorem set_get {m : Mem} {a : Nat} {c : Option (Nat × Obj)} (ha : a < m.length) (v : Option (Nat × Obj)) (b : Nat) :
    (m.set a v)[b]? = if b = a then some v else m[b]? := by
  rw [List.getElem?_set]
  split
  · rename_i e; subst e; simp
  · rename_i e; rw [if_neg (fun h => e h.symm)]

theorem inc_ok {m : Mem} {R : List Nat} (h : Inv m R) {a : Nat} (ha : a ∈ R) :
    ∃ m', m.inc a = some m' ∧ Inv m' (a :: R) ∧ ∀ b, m'.get b = m.get b := by
  obtain ⟨c, x, e, hc⟩ := h.cell ha
  have hl := lt_of_get e
  refine ⟨m.set a (some (c + 1, x)), by unfold Mem.inc; rw [e], ⟨fun b => ?_, fun b y hb => ?_⟩, fun b => ?_⟩
  · have hb := h.cnt b
    unfold Mem.cnt at hb ⊢
    rw [set_get (c := none) hl]
    by_cases hba : b = a
    · subst hba; rw [if_pos rfl]; simp [hc]
    · rw [if_neg hba, hb, List.count_cons_of_ne (fun h => hba h.symm)]
  · rw [set_get (c := none) hl] at hb
    split at hb
    · simp at hb
    · exact h.pos _ _ hb
  · unfold Mem.get
    rw [set_get (c := none) hl]
    by_cases hba : b = a
    · subst hba; rw [if_pos rfl, e]
    · rw [if_neg hba]

theorem dec_ok {m : Mem} {R : List Nat} {a : Nat} (h : Inv m (a :: R)) :
    ∃ m', m.dec a = some m' ∧ Inv m' R ∧ ∀ b ∈ R, m'.get b = m.get b := by
  obtain ⟨c, x, e, hc⟩ := h.cell (List.mem_cons_self)
  have hl := lt_of_get e
  rw [List.count_cons_self] at hc
  refine ⟨m.set a (if c = 1 then none else some (c - 1, x)), by unfold Mem.dec; rw [e], ⟨fun b => ?_, fun b y hb => ?_⟩, fun b hb => ?_⟩
  · have hb := h.cnt b
    unfold Mem.cnt at hb ⊢
    rw [set_get (c := none) hl]
    by_cases hba : b = a
    · subst hba; rw [if_pos rfl]
      by_cases h1 : c = 1
      · rw [if_pos h1]; dsimp only; omega
      · rw [if_neg h1]; dsimp only; omega
    · rw [if_neg hba, hb, List.count_cons_of_ne (fun h => hba h.symm)]
  · rw [set_get (c := none) hl] at hb
    split at hb
    · split at hb
      · simp at hb
      · simp only [Option.some.injEq, Prod.mk.injEq] at hb; omega
    · exact h.pos _ _ hb
  · unfold Mem.get
    rw [set_get (c := none) hl]
    by_cases hba : b = a
    · subst hba
      have : 0 < R.count b := List.count_pos_iff.2 hb
      rw [if_pos rfl, if_neg (by omega), e]
    · rw [if_neg hba]

theorem decs_ok : ∀ (as : List Nat) {m : Mem} {R : List Nat}, Inv m (as ++ R) →
    ∃ m', m.decs as = some m' ∧ Inv m' R ∧ ∀ b ∈ R, m'.get b = m.get b
  | [], m, R, h => ⟨m, rfl, h, fun _ _ => rfl⟩
  | a :: as, m, R, h => by
    obtain ⟨m1, e1, i1, g1⟩ := dec_ok (R := as ++ R) h
    obtain ⟨m2, e2, i2, g2⟩ := decs_ok as i1
    exact ⟨m2, by show (m.dec a).bind _ = _; rw [e1]; exact e2, i2,
      fun b hb => by rw [g2 b hb, g1 b (List.mem_append_right _ hb)]⟩

theorem alloc_ok {m : Mem} {R : List Nat} (h : Inv m R) (x : Obj) :
    Inv (m.alloc x).2 ((m.alloc x).1 :: R) ∧ (m.alloc x).2.get (m.alloc x).1 = some x ∧ (m.alloc x).1 ∉ R ∧
      ∀ b ∈ R, (m.alloc x).2.get b = m.get b := by
  have hn : m.length ∉ R := by
    intro hm
    obtain ⟨c, y, e, -⟩ := h.cell hm
    exact Nat.lt_irrefl _ (lt_of_get e)
  have hg : ∀ b, (m ++ [some (1, x)])[b]? = if b = m.length then some (some (1, x)) else m[b]? := by
    intro b
    by_cases hb : b = m.length
    · subst hb; rw [if_pos rfl, List.getElem?_append_right (Nat.le_refl _)]; simp
    · rw [if_neg hb]
      rcases Nat.lt_or_ge b m.length with hl | hl
      · exact List.getElem?_append_left hl
      · rw [List.getElem?_eq_none hl, List.getElem?_eq_none (by simp; omega)]
  refine ⟨⟨fun b => ?_, fun b y hb => ?_⟩, ?_, hn, fun b hb => ?_⟩
  · have hb := h.cnt b
    unfold Mem.cnt at hb ⊢
    show (match (m ++ [some (1, x)])[b]? with | some (some (c, _)) => c | _ => 0) = (m.length :: R).count b
    rw [hg]
    by_cases hba : b = m.length
    · subst hba; rw [if_pos rfl]; simp [List.count_eq_zero.2 hn]
    · rw [if_neg hba, hb, List.count_cons_of_ne (fun h => hba h.symm)]
  · have hb' : (m ++ [some (1, x)])[b]? = some (some (0, y)) := hb
    rw [hg] at hb'
    split at hb'
    · simp at hb'
    · exact h.pos _ _ hb'
  · show (match (m ++ [some (1, x)])[m.length]? with | some (some (_, x)) => some x | _ => none) = some x
    rw [hg, if_pos rfl]
  · show (match (m ++ [some (1, x)])[b]? with | some (some (_, x)) => some x | _ => none) = _
    rw [hg, if_neg (fun (e : b = m.length) => hn (e ▸ hb))]
    rfl

theorem makeMut_ok {m : Mem} {R : List Nat} {a : Nat} (h : Inv m (a :: R)) :
    ∃ a' m', m.makeMut a = some (a', m') ∧ Inv m' (a' :: R) ∧ a' ∉ R ∧ m'.get a' = m.get a ∧ ∀ b ∈ R, m'.get b = m.get b := by
  obtain ⟨c, x, e, hc⟩ := h.cell (List.mem_cons_self)
  rw [List.count_cons_self] at hc
  by_cases h1 : c = 1
  · refine ⟨a, m, by unfold Mem.makeMut; rw [e]; dsimp only; rw [if_pos h1], h, ?_, rfl, fun _ _ => rfl⟩
    exact List.count_eq_zero.1 (by omega)
  · obtain ⟨i1, g1, n1, k1⟩ := alloc_ok h x
    obtain ⟨m2, e2, i2, k2⟩ := dec_ok (a := a) (R := (m.alloc x).1 :: R) (i1.of (fun b => by simp only [List.count_cons]; omega))
    refine ⟨(m.alloc x).1, m2, by unfold Mem.makeMut; rw [e]; dsimp only; rw [if_neg h1, e2]; rfl, i2,
      fun hh => n1 (List.mem_cons_of_mem _ hh), ?_, fun b hb => ?_⟩
    · rw [k2 _ List.mem_cons_self, g1]; unfold Mem.get; rw [e]
    · rw [k2 _ (List.mem_cons_of_mem _ hb), k1 _ (List.mem_cons_of_mem _ hb)]

theorem put_ok {m : Mem} {R : List Nat} {a : Nat} (h : Inv m (a :: R)) (hn : a ∉ R) (y : Obj) :
    ∃ m', m.put a y = some m' ∧ Inv m' (a :: R) ∧ m'.get a = some y ∧ ∀ b ∈ R, m'.get b = m.get b := by
  obtain ⟨c, x, e, hc⟩ := h.cell (List.mem_cons_self)
  have hl := lt_of_get e
  rw [List.count_cons_self, List.count_eq_zero.2 hn] at hc
  have hc : c = 1 := hc
  subst hc
  refine ⟨m.set a (some (1, y)), by unfold Mem.put; rw [e]; rfl, ⟨fun b => ?_, fun b z hb => ?_⟩, ?_, fun b hb => ?_⟩
  · have hb := h.cnt b
    unfold Mem.cnt at hb ⊢
    rw [set_get (c := none) hl]
    by_cases hba : b = a
    · subst hba; rw [if_pos rfl]; rw [e] at hb; exact hb
    · rw [if_neg hba, hb]
  · rw [set_get (c := none) hl] at hb
    split at hb
    · simp at hb
    · exact h.pos _ _ hb
  · unfold Mem.get; rw [set_get (c := none) hl, if_pos rfl]
  · unfold Mem.get
    rw [set_get (c := none) hl, if_neg (fun (e : b = a) => hn (e ▸ hb))]

/-! ### Blobs -/

/-- The blob shows this value. -/
def Shows (m : Mem) (b : Blob) (v : View) : Prop := b.view m = some v ∧ b.len = Spec.Blobs.size v

theorem view_congr {m m' : Mem} {b : Blob} (h : ∀ a ∈ b.refs, m'.get a = m.get a) : b.view m' = b.view m := by
  cases b with
  | lit bs => rfl
  | part a s l => unfold Blob.view; dsimp only; rw [h a (by simp [Blob.refs])]

theorem Shows.mono {m m' : Mem} {b : Blob} {v : View} (h : Shows m b v) (hg : ∀ a ∈ b.refs, m'.get a = m.get a) : Shows m' b v :=
  ⟨by rw [view_congr hg]; exact h.1, h.2⟩

theorem clone_ok {m : Mem} {R : List Nat} {b : Blob} (h : Inv m R) (hb : ∀ a ∈ b.refs, a ∈ R) :
    ∃ m', b.clone m = some m' ∧ Inv m' (b.refs ++ R) ∧ ∀ a, m'.get a = m.get a := by
  cases b with
  | lit bs => exact ⟨m, rfl, h, fun _ => rfl⟩
  | part a s l => exact inc_ok h (hb a (by simp [Blob.refs]))

theorem drop_ok {m : Mem} {R : List Nat} {b : Blob} (h : Inv m (b.refs ++ R)) :
    ∃ m', b.drop m = some m' ∧ Inv m' R ∧ ∀ a ∈ R, m'.get a = m.get a := by
  cases b with
  | lit bs => exact ⟨m, rfl, h, fun _ _ => rfl⟩
  | part a s l => exact dec_ok h

theorem copy_ok {m : Mem} {R : List Nat} (h : Inv m R) (bs : Bytes) :
    Inv (Blob.copy m bs).2 ((Blob.copy m bs).1.refs ++ R) ∧ Shows (Blob.copy m bs).2 (Blob.copy m bs).1 (.own bs) ∧
      ∀ a ∈ R, (Blob.copy m bs).2.get a = m.get a := by
  obtain ⟨i, g, n, k⟩ := alloc_ok h (.vec bs)
  refine ⟨i, ⟨?_, rfl⟩, k⟩
  show (match (m.alloc (.vec bs)).2.get (m.alloc (.vec bs)).1 with
    | some (.vec bs') => some (View.own ((bs'.drop 0).take bs.length))
    | some (.page s _) => some (View.map (s + 0) bs.length)
    | none => none) = _
  rw [g]; simp

theorem ofArc_shows {m : Mem} {a : Nat} {bs : Bytes} (h : m.get a = some (.vec bs)) : Shows m (Blob.ofArc a bs) (.own bs) := by
  refine ⟨?_, rfl⟩
  unfold Blob.ofArc Blob.view
  dsimp only
  rw [h]; simp

theorem sub_ok {m : Mem} {R : List Nat} {b : Blob} {v : View} (h : Inv m R) (hb : ∀ a ∈ b.refs, a ∈ R) (hs : Shows m b v)
    {i j : Nat} (hij : i ≤ j) (hj : j ≤ b.len) :
    ∃ b' m', b.sub m i j = some (b', m') ∧ Inv m' (b'.refs ++ R) ∧ Shows m' b' (Spec.Blobs.part i j v) ∧ ∀ a, m'.get a = m.get a := by
  cases b with
  | lit bs =>
    obtain ⟨h1, h2⟩ := hs
    cases h1
    refine ⟨.lit ((bs.drop i).take (j - i)), m, rfl, h, ⟨rfl, rfl⟩, fun _ => rfl⟩
  | part a s l =>
    obtain ⟨h1, h2⟩ := hs
    have hj : j ≤ l := hj
    have h2 : l = Spec.Blobs.size v := h2
    by_cases e : j = i
    · refine ⟨.lit [], m, by unfold Blob.sub; dsimp only; rw [if_pos e], h, ⟨?_, ?_⟩, fun _ => rfl⟩
      · subst e
        cases v with
        | own bs => simp [Blob.view, Spec.Blobs.part]
        | map st n => simp [Blob.view, Spec.Blobs.part]
      · subst e
        cases v with
        | own bs => simp [Blob.len, Spec.Blobs.part, Spec.Blobs.size]
        | map st n => simp [Blob.len, Spec.Blobs.part, Spec.Blobs.size]
    · obtain ⟨m', e', i', g'⟩ := inc_ok h (hb a (by simp [Blob.refs]))
      refine ⟨.part a (s + i) (j - i), m', by unfold Blob.sub; dsimp only; rw [if_neg e, e']; rfl, i', ⟨?_, ?_⟩, g'⟩
      · unfold Blob.view at h1 ⊢
        dsimp only at h1 ⊢
        rw [g' a]
        split at h1
        · rename_i bs eq
          cases h1
          simp only [Spec.Blobs.part, Option.some.injEq, View.own.injEq]
          rw [List.drop_take, List.drop_drop, List.take_take, Nat.min_eq_left (by omega)]
        · rename_i st sz eq
          cases h1
          simp only [Spec.Blobs.part]
          rw [if_neg e]
          congr 2; omega
        · cases h1
      · cases v with
        | own bs =>
          have : l = bs.length := h2
          show j - i = ((bs.drop i).take (j - i)).length
          simp; omega
        | map st n =>
          simp only [Spec.Blobs.part, Spec.Blobs.size]
          rw [if_neg e]
          rfl

theorem sliceRange_ok {w len : Nat} {s e : RBound} {r : Nat × Nat} (h : sliceRange w len s e = some r) : r.1 ≤ r.2 ∧ r.2 ≤ len := by
  unfold sliceRange at h
  dsimp only at h
  split at h
  · split at h
    · rename_i hh; cases h; exact hh
    · cases h
  · cases h

/-- On bytes, slicing is `blobSlice`. -/
theorem slice_bytes (w : Nat) (bs : Bytes) (s e : RBound) :
    ((sliceRange w bs.length s e).map fun r => Spec.Blobs.part r.1 r.2 (.own bs)) = (blobSlice w bs s e).map View.own := by
  have key : ∀ B E : Option Nat,
      ((match B, E with
        | some b, some e => if b ≤ e ∧ e ≤ bs.length then some (b, e) else none
        | _, _ => none : Option (Nat × Nat)).map fun r => Spec.Blobs.part r.1 r.2 (.own bs)) =
      (match B, E with
        | some b, some e =>
          if ¬ b ≤ e then none
          else if ¬ e ≤ bs.length then none
          else if e = b then some []
          else some ((bs.drop b).take (e - b))
        | _, _ => none : Option Bytes).map View.own := by
    intro B E
    cases B with
    | none => rfl
    | some b =>
      cases E with
      | none => rfl
      | some e' =>
        dsimp only
        by_cases h1 : b ≤ e'
        · by_cases h2 : e' ≤ bs.length
          · rw [if_pos ⟨h1, h2⟩, if_neg (by simpa using h1), if_neg (by simpa using h2)]
            by_cases h3 : e' = b
            · rw [if_pos h3]; subst h3; simp [Spec.Blobs.part]
            · rw [if_neg h3]; simp [Spec.Blobs.part]
          · rw [if_neg (fun h => h2 h.2), if_neg (by simpa using h1), if_pos h2]; rfl
        · rw [if_neg (fun h => h1 h.1), if_pos h1]; rfl
  exact key _ _

end Radix.Blobs
