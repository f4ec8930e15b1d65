import Verif.Proofs.BlobLogic

/-
`MemStore` and `PagedFileStore` keep to the rules of memory.
-/

set_option linter.unusedVariables false

namespace Radix.Blobs
open Radix.Paged (View)

/-! ### `MemStore` -/

/-- The table has the values. -/
def AllIn (m : Mem) : List (Nat × Nat) → List (Nat × Bytes) → Prop
  | [], [] => True
  | e :: t, f :: s => e.1 = f.1 ∧ m.get e.2 = some (.vec f.2) ∧ AllIn m t s
  | _, _ => False

theorem allIn_mono {m m' : Mem} : ∀ {t : List (Nat × Nat)} {s : List (Nat × Bytes)}, AllIn m t s → (∀ a ∈ t.map (·.2), m'.get a = m.get a) → AllIn m' t s
  | [], [], _, _ => trivial
  | [], _ :: _, h, _ => h.elim
  | _ :: _, [], h, _ => h.elim
  | e :: t, f :: s, h, hg => ⟨h.1, by rw [hg e.2 (by simp)]; exact h.2.1, allIn_mono h.2.2 (fun a ha => hg a (by simp only [List.map_cons, List.mem_cons]; exact Or.inr ha))⟩

theorem allIn_max {m : Mem} {t : MemTable} {s : MemState} (h : AllIn m t s) : t.max = s.max := by
  have key : ∀ (t : List (Nat × Nat)) (s : List (Nat × Bytes)) (x : Nat), AllIn m t s →
      t.foldl (fun m e => Nat.max m e.1) x = s.foldl (fun m e => Nat.max m e.1) x := by
    intro t
    induction t with
    | nil => intro s x h; cases s with
      | nil => rfl
      | cons => exact h.elim
    | cons e t ih => intro s x h; cases s with
      | nil => exact h.elim
      | cons f s => simp only [List.foldl_cons]; rw [h.1]; exact ih s _ h.2.2
  exact key t s 0 h

theorem allIn_find {m : Mem} (id : Nat) : ∀ {t : List (Nat × Nat)} {s : List (Nat × Bytes)}, AllIn m t s →
    match find t id, (s.find? fun e => e.1 == id).map (·.2) with
    | some a, some d => m.get a = some (.vec d)
    | none, none => True
    | _, _ => False
  | [], [], _ => trivial
  | [], _ :: _, h => h.elim
  | _ :: _, [], h => h.elim
  | e :: t, f :: s, h => by
    have ih := allIn_find id h.2.2
    unfold find at ih ⊢
    simp only [List.find?_cons]
    rw [h.1]
    cases hf : f.1 == id with
    | true => exact h.2.1
    | false => exact ih

theorem allIn_length {m : Mem} : ∀ {t : List (Nat × Nat)} {s : List (Nat × Bytes)}, AllIn m t s → t.length = s.length
  | [], [], _ => rfl
  | [], _ :: _, h => h.elim
  | _ :: _, [], h => h.elim
  | e :: t, f :: s, h => by simp [allIn_length h.2.2]

theorem find_mem {t : List (Nat × Nat)} {id a : Nat} (h : find t id = some a) : a ∈ t.map (·.2) := by
  unfold find at h
  rcases e : t.find? (fun e => e.1 == id) with _ | x
  · rw [e] at h; cases h
  · rw [e] at h
    have : x.2 = a := by simpa using h
    exact List.mem_map.2 ⟨x, List.mem_of_find?_eq_some e, this⟩

theorem memWrite_eq (d : Bytes) (t : MemTable) (m : Mem) : memWrite d t m =
    if t.max + 1 < 2 ^ 64 then some (.ok (toBE 8 (t.max + 1)), (t.max + 1, (m.alloc (.vec d)).1) :: t, (m.alloc (.vec d)).2)
    else some (.panic, t, m) := by
  show (if t.max + 1 < 2 ^ 64 then _ else _ : Act MemTable Bytes) t m = _
  split <;> rfl

theorem keeps_mem : Keeps memImpl Spec.Blobs.memPlain AllIn where
  frame m m' t s hg h := allIn_mono h hg
  step m t s c rest hi hr := by
    cases c with
    | write d =>
      have em : Spec.Blobs.memPlain s (.write d) =
          (if s.max + 1 < 2 ^ 64 then (.id (toBE 8 (s.max + 1)), some ((s.max + 1, d) :: s)) else (.panic, some s)) := by
        simp only [Spec.Blobs.memPlain, memStore]
        split
        · rename_i e
          split at e
          · rename_i hlt; cases e; rw [if_pos hlt]
          · cases e
        · rename_i e; split at e <;> cases e
        · rename_i x st h1 h2 e
          split at e
          · cases e; exact (h1 _ rfl).elim
          · rename_i hlt; cases e; rw [if_neg hlt]
      rw [em]
      show ∃ a t' m', (memWrite d t m).map (answer .id true) = some (a, t', m') ∧ _
      rw [memWrite_eq, allIn_max hr]
      by_cases hlt : s.max + 1 < 2 ^ 64
      · rw [if_pos hlt, if_pos hlt]
        obtain ⟨i', g', n', k'⟩ := alloc_ok hi (.vec d)
        refine ⟨_, _, _, rfl, rfl, trivial, i'.of (fun a => ?_), ⟨rfl, g', allIn_mono hr (fun a ha => k' a (List.mem_append_left _ ha))⟩,
          fun b hb => k' b (List.mem_append_right _ hb)⟩
        simp [memImpl, Ans.blob?, List.count_cons]
      · rw [if_neg hlt, if_neg hlt]
        exact ⟨_, _, _, rfl, rfl, trivial, hi.of (fun a => by simp [Ans.blob?]), hr, fun _ _ => rfl⟩
    | count =>
      refine ⟨_, _, _, rfl, ?_, trivial, hi.of (fun a => by simp [Ans.blob?]), hr, fun _ _ => rfl⟩
      show Ans.num t.length = Ans.num s.length
      rw [allIn_length hr]
    | read id =>
      show ∃ a t' m', (memRead id t m).map (answer .blob true) = some (a, t', m') ∧ _
      by_cases hl : id.length = 8
      · have hf := allIn_find (ofBE id) hr
        have er : memRead id t m = (match find t (ofBE id) with
            | some a => (do
              let bs ← Act.vec a
              Act.inc a
              return Blob.ofArc a bs : Act MemTable Blob)
            | none => Act.fail) t m := by
          unfold memRead
          rw [if_pos hl]
          rfl
        have ep : Spec.Blobs.memPlain s (.read id) = (match (s.find? fun e => e.1 == ofBE id).map (·.2) with
            | some d => (.blob (.own d), some s)
            | none => (.err, some s)) := by
          simp only [Spec.Blobs.memPlain, memStore, if_pos hl]
          show (match (match (s.find? fun e => e.1 == ofBE id).map (·.2) with | some d => Res.ok d | none => Res.err () : Res Unit Bytes) with
            | .ok d => ((.blob (.own d), some s) : Ans View × Option MemState)
            | .err _ => (.err, some s)
            | _ => (.panic, some s)) = _
          cases (s.find? fun e => e.1 == ofBE id).map (·.2) <;> rfl
        rw [er, ep]
        cases e1 : find t (ofBE id) with
        | none =>
          cases e2 : (s.find? fun e => e.1 == ofBE id).map (·.2) with
          | none => exact ⟨.err, some t, m, rfl, rfl, trivial, hi.of (fun a => by simp [Ans.blob?]), hr, fun _ _ => rfl⟩
          | some d => rw [e1, e2] at hf; exact hf.elim
        | some a =>
          cases e2 : (s.find? fun e => e.1 == ofBE id).map (·.2) with
          | none => rw [e1, e2] at hf; exact hf.elim
          | some d =>
            rw [e1, e2] at hf
            dsimp only at hf
            have ha : a ∈ memImpl.refs t ++ rest := List.mem_append_left _ (find_mem e1)
            obtain ⟨m', e', i', g'⟩ := inc_ok hi ha
            have ev : (do
              let bs ← Act.vec a
              Act.inc a
              return Blob.ofArc a bs : Act MemTable Blob) t m = some (.ok (Blob.ofArc a d), t, m') := by
              have h1 : (Act.vec a : Act MemTable Bytes) t m = some (.ok d, t, m) := by
                show (match m.get a with | some (.vec bs) => some (bs, m) | _ => none : Option (Bytes × Mem)).map _ = _
                rw [hf]; rfl
              have h2 : (Act.inc a : Act MemTable Unit) t m = some (.ok (), t, m') := by
                show ((m.inc a).map fun m => ((), m)).map _ = _
                rw [e']; rfl
              show Act.bind (Act.vec a) (fun bs => Act.bind (Act.inc a) (fun _ => Act.pure (Blob.ofArc a bs))) t m = _
              simp only [Act.bind, h1, h2]; rfl
            refine ⟨.blob (Blob.ofArc a d), some t, m', by dsimp only; rw [ev]; rfl, rfl, ⟨ofArc_shows (by rw [g' a]; exact hf), trivial⟩, i'.of (fun x => ?_),
              allIn_mono hr (fun x _ => g' x), fun x _ => g' x⟩
            simp only [Ans.blob?, List.flatMap_cons, List.flatMap_nil, List.append_nil, List.count_append, Blob.ofArc, Blob.refs, List.count_cons, List.count_nil]
            omega
      · have er : memRead id t m = some (.err, t, m) := by unfold memRead; rw [if_neg hl]; rfl
        have ep : Spec.Blobs.memPlain s (.read id) = (.err, some s) := by
          simp only [Spec.Blobs.memPlain, memStore, if_neg hl]
        rw [er, ep]
        exact ⟨.err, some t, m, rfl, rfl, trivial, hi.of (fun a => by simp [Ans.blob?]), hr, fun _ _ => rfl⟩

end Radix.Blobs
