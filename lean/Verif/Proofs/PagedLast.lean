import Verif.Proofs.PagedHistory

/-
Proof-internal: what calls of a paged file store do to the remembered last id.
-/

set_option linter.unusedVariables false

namespace Radix.Paged

variable {dbg : Bool} {ps : Nat} {l : List (Op × Seen)} {α β : Type}

/-- The call leaves the last id as it is. -/
def Keeps (x : M α) : Prop := ∀ w, (x w).2.lastId = w.lastId

/-- The call leaves the last id as it is if it returns an error or is interrupted. -/
def KeepsErr (x : M α) : Prop := ∀ w, ((x w).1 = .err ∨ (x w).1 = .crash) → (x w).2.lastId = w.lastId

theorem Keeps.bind {x : M α} {f : α → M β} (hx : Keeps x) (hf : ∀ a, Keeps (f a)) : Keeps (x >>= f) := by
  intro w
  show (M.bind x f w).2.lastId = _
  have h := hx w
  unfold M.bind
  rcases e : x w with ⟨_ | _ | _ | _, w'⟩ <;> rw [e] at h
  · exact (hf _ w').trans h
  all_goals exact h

theorem Keeps.bindErr {x : M α} {f : α → M β} (hx : Keeps x) (hf : ∀ a, KeepsErr (f a)) : KeepsErr (x >>= f) := by
  intro w hn
  change (M.bind x f w).1 = _ ∨ (M.bind x f w).1 = _ at hn
  show (M.bind x f w).2.lastId = _
  have h := hx w
  unfold M.bind at hn ⊢
  rcases e : x w with ⟨_ | _ | _ | _, w'⟩ <;> rw [e] at h hn
  · exact (hf _ w' hn).trans h
  all_goals exact h

theorem keeps_pure (a : α) : Keeps (pure a : M α) := fun w => rfl
theorem keeps_fail : Keeps (fail : M α) := fun w => rfl
theorem keeps_panic : Keeps (panic : M α) := fun w => rfl
theorem keeps_die : Keeps (die : M α) := fun w => rfl
theorem keeps_self : Keeps self := fun w => rfl
theorem keeps_update {f : Inner → Inner} (h : ∀ w, (f w).lastId = w.lastId) : Keeps (update f) := h
theorem keeps_ensure (b : Bool) : Keeps (ensure b) := by
  unfold ensure; split
  · exact keeps_pure _
  · exact keeps_fail
theorem keeps_ite {c : Prop} [Decidable c] {x y : M α} (hx : Keeps x) (hy : Keeps y) : Keeps (if c then x else y) := by
  split
  · exact hx
  · exact hy
theorem keeps_nextEv : Keeps nextEv := by intro w; unfold nextEv; split <;> rfl
theorem keeps_put (bs : Bytes) : Keeps (put bs) := keeps_update fun _ => rfl
theorem keeps_seekEnd : Keeps seekEnd := Keeps.bind (keeps_update (by intro _; rfl)) fun _ => keeps_self.bind fun _ => keeps_pure _
theorem keeps_seekStart (n : Nat) : Keeps (seekStart n) := (keeps_ensure _).bind fun _ => keeps_update fun _ => rfl
theorem keeps_add64 (a b : Nat) : Keeps (add64 dbg a b) := keeps_ite (keeps_pure _) (keeps_ite keeps_panic (keeps_pure _))
theorem keeps_sub64 (a b : Nat) : Keeps (sub64 dbg a b) := keeps_ite (keeps_pure _) (keeps_ite keeps_panic (keeps_pure _))

theorem keeps_writeAll (bs : Bytes) : Keeps (writeAll bs) := by
  refine keeps_self.bind fun w => keeps_nextEv.bind fun e => ?_
  cases e with
  | ok => exact keeps_ite (keeps_put _) keeps_fail
  | fail n => exact (keeps_put _).bind fun _ => keeps_fail
  | crash n => exact (keeps_put _).bind fun _ => keeps_die

theorem keeps_readExact (n : Nat) : Keeps (readExact n) := by
  refine keeps_self.bind fun w => keeps_nextEv.bind fun e => ?_
  cases e with
  | ok => exact keeps_ite (Keeps.bind (keeps_update (by intro _; rfl)) fun _ => keeps_pure _) keeps_fail
  | fail n => exact keeps_fail
  | crash n => exact keeps_die

theorem keeps_writeSize (n : Nat) : Keeps (writeSize n) :=
  (keeps_seekStart _).bind fun _ => (keeps_writeAll _).bind fun _ => keeps_seekEnd.bind fun _ => keeps_pure _

theorem keeps_commit : Keeps commit := keeps_seekEnd.bind fun _ => (keeps_writeSize _).bind fun _ => keeps_pure _

theorem keeps_loadPage (n : Nat) : Keeps (loadPage n) := by
  refine keeps_nextEv.bind fun e => ?_
  cases e with
  | ok => exact keeps_update fun _ => rfl
  | fail n => exact keeps_fail
  | crash n => exact keeps_die

theorem keeps_padLoop (n : Nat) : ∀ o, Keeps (padLoop n o) := by
  induction n with
  | zero => exact fun o => keeps_pure _
  | succ n ih => exact fun o => keeps_self.bind fun w => keeps_ite ((keeps_writeAll _).bind fun _ => ih o) (keeps_pure _)

theorem keeps_closePage (n : Nat) : Keeps (closePage n) :=
  keeps_self.bind fun _ => (keeps_self.bind fun _ => keeps_padLoop _ _).bind fun _ => keeps_commit.bind fun _ =>
    (keeps_loadPage _).bind fun _ => keeps_update fun _ => rfl

theorem keeps_append (d : Bytes) : KeepsErr (append dbg d) := by
  refine keeps_self.bindErr fun w => (keeps_sub64 _ _).bindErr fun m => (keeps_ensure _).bindErr fun _ =>
    keeps_seekEnd.bindErr fun p => ?_
  dsimp only
  have rest : KeepsErr (do
      writeAll d
      writeAll (toBE 4 d.length)
      let id ← commit
      update fun w => { w with lastId := id }
      insertRecent id d
      if id % w.pageSize < 4 then
        unless id % 1024 > 4 do panic
      return id) := by
    refine (keeps_writeAll _).bindErr fun _ => (keeps_writeAll _).bindErr fun _ => keeps_commit.bindErr fun id => ?_
    intro w' hn
    have hn : (if id % w.pageSize < 4 then if id % 1024 > 4 then (Out.ok id) else .panic else .ok id) = .err ∨
        (if id % w.pageSize < 4 then if id % 1024 > 4 then (Out.ok id) else .panic else .ok id) = .crash := by
      by_cases h1 : id % w.pageSize < 4
      · by_cases h2 : id % 1024 > 4
        · simp [bind, M.bind, update, insertRecent, h1, h2, pure, M.pure] at hn
        · simp [bind, M.bind, update, insertRecent, h1, h2, pure, M.pure, panic] at hn
      · simp [bind, M.bind, update, insertRecent, h1, pure, M.pure] at hn
    split at hn
    · split at hn <;> simp at hn
    · simp at hn
  split
  · exact fun w _ => rfl
  · split
    · exact (keeps_closePage _).bindErr fun _ => rest
    · exact rest

theorem keeps_write (d : Bytes) : KeepsErr (write dbg d) := by
  intro w hn
  have h := keeps_append (dbg := dbg) d w
  change (M.bind _ _ w).1 = _ ∨ (M.bind _ _ w).1 = _ at hn
  show (M.bind _ _ w).2.lastId = _
  unfold M.bind at hn ⊢
  rcases e : append dbg d w with ⟨_ | _ | _ | _, w'⟩ <;> rw [e] at h hn
  · rcases hn with hn | hn <;> cases hn
  · exact h (Or.inl rfl)
  · rcases hn with hn | hn <;> cases hn
  · exact h (Or.inr rfl)

theorem keeps_sliceBefore (b : Bytes) (hi n : Nat) : Keeps (sliceBefore b hi n) := keeps_ite (keeps_pure _) keeps_panic

theorem keeps_loadRecent (n : Nat) : Keeps (loadRecent dbg n) :=
  (keeps_ensure _).bind fun _ => (keeps_add64 _ _).bind fun _ => (keeps_sub64 _ _).bind fun _ =>
  (keeps_seekStart _).bind fun _ => (keeps_readExact _).bind fun _ => (keeps_ensure _).bind fun _ =>
  (keeps_add64 _ _).bind fun _ => (keeps_sub64 _ _).bind fun _ => (keeps_sub64 _ _).bind fun _ =>
  (keeps_seekStart _).bind fun _ => (keeps_readExact _).bind fun _ => keeps_seekEnd.bind fun _ => keeps_update fun _ => rfl

theorem keeps_pageBytes (p o : Nat) : Keeps (pageBytes p o) :=
  keeps_self.bind fun _ => (keeps_ensure _).bind fun _ => (keeps_sliceBefore _ _ _).bind fun _ => (keeps_ensure _).bind fun _ =>
  keeps_sliceBefore _ _ _

theorem keeps_bytes (n : Nat) : Keeps (bytes dbg n) := by
  refine keeps_self.bind fun w => (keeps_sub64 _ _).bind fun m => keeps_ite ?_ ?_
  · exact keeps_ite (keeps_pageBytes _ _) ((keeps_loadPage _).bind fun _ => keeps_pageBytes _ _)
  · have h : ∀ w : Inner, Keeps (match findRecent w n with | some blob => pure blob | none => (panic : M Bytes)) := by
      intro w
      split
      · exact keeps_pure _
      · exact keeps_panic
    exact keeps_ite (keeps_self.bind h) ((keeps_loadRecent _).bind fun _ => keeps_self.bind h)

theorem keeps_read (id : Bytes) : Keeps (read dbg id) := keeps_ite (keeps_bytes _) keeps_panic

/-- All ids of writes are at most the last id of the open store. -/
def Low (W : World) (l : List (Op × Seen)) : Prop := ∀ s, W.store = some s → ∀ e ∈ l, ∀ d id, Wrote e d id → ofBE id ≤ s.lastId

theorem low_end {W : World} (h : Inv ps W l) (hl : ∀ s, W.store = some s → s.lastId + 4096 = s.data.length) : Low W l := by
  intro s hs e he d id hw
  rcases h with ⟨rfl, hn⟩ | ⟨c, H, B, w, hat, hsafe, hf, hst⟩
  · exact absurd hw (hn e he d id)
  · have h1 := (hsafe e he d id hw).2.1
    have h2 := hat.ok.1
    have h3 := hl s hs
    have h4 := hat.len
    rcases hst with hst | hst <;> rw [hs] at hst
    · cases hst
    · cases hst; omega

theorem low_step {W : World} (h8 : 8 ≤ ps) (h : Inv ps W l) (hlow : Low W l) (op : Op) (h32 : Small ps op) :
    Low (step dbg ps W op).2 (l ++ [(op, (step dbg ps W op).1)]) := by
  obtain ⟨hfine, hinv⟩ := fine_step (dbg := dbg) h8 h op h32
  have snoc : ∀ {W' : World} {e}, (∀ s', W'.store = some s' → ∃ s, W.store = some s ∧ s'.lastId = s.lastId) →
      (∀ d id, ¬ Wrote e d id) → Low W' (l ++ [e]) := by
    intro W' e h1 h2 s' hs' e' he' d id hw
    obtain ⟨s, hs, hl⟩ := h1 s' hs'
    rcases List.mem_append.1 he' with he' | he'
    · rw [hl]; exact hlow s hs e' he' d id hw
    · cases List.mem_singleton.1 he'; exact absurd hw (h2 d id)
  cases op with
  | «open» evs =>
    refine low_end hinv ?_
    simp only [step]
    rcases h with ⟨rfl, hl⟩ | ⟨c, H, B, w, hat, hs, hf, hst⟩
    · have hh := hoare_new_empty (dbg := dbg) (w := ⟨[], 0, ps, [], [], 0, evs⟩) (q := NoFault evs) (ps := ps) rfl rfl rfl rfl
        (fun hh => hh)
      simp only [fresh]
      rcases hoare_cases hh with ⟨a, w', e, H', B', g1, g2, g3⟩ | ⟨w', e, hwhy, g⟩
      · rw [e]
        intro s hs
        cases hs
        have := g1.len
        dsimp only
        omega
      · rcases e with e | e <;> rw [e] <;> intro s hs <;> cases hs
    · have hat' : At (NoFault evs) ps c H B ⟨W.file, 0, ps, [], [], 0, evs⟩ :=
        ⟨by rw [hf, hat.data], hat.hlen, hat.ok, hat.max, rfl, Nat.zero_le _, by simp, fun hh => hh⟩
      rcases hoare_cases (hoare_new (dbg := dbg) hat') with ⟨a, w', e, H', B', g1, g2, g3, g4⟩ | ⟨w', e, hwhy, g1⟩
      · rw [e]
        intro s hs
        cases hs
        have := g1.len
        dsimp only
        omega
      · rcases e with e | e <;> rw [e] <;> intro s hs <;> cases hs
  | write d evs =>
    cases hst : W.store with
    | none =>
      refine snoc ?_ ?_
      · simp [step, hst]
      · rintro d' id ⟨_, hw⟩; simp [step, hst] at hw
    | some s =>
      rcases h with ⟨rfl, hl⟩ | ⟨c, H, B, w, hat, hs, hf, hst'⟩
      · cases hst
      obtain rfl : s = w := by
        rcases hst' with hh | hh <;> rw [hst] at hh
        · cases hh
        · exact Option.some.inj hh
      rcases hoare_cases (hoare_write (dbg := dbg) (d := d) (at_call hat evs) h8 (h32 _ _ rfl)) with
        ⟨i, w', e, k, H', tl, rfl, g1, g2, g3, g4, g5, g6, g7⟩ | ⟨w', e, hwhy, H', tl, g⟩
      · refine low_end hinv ?_
        simp only [step, hst, e, after]
        intro s' hs'
        cases hs'
        have := g1.len
        omega
      · have hk := keeps_write (dbg := dbg) d { s with evs := evs }
        refine snoc ?_ ?_
        · intro s' hs'
          refine ⟨s, hst, ?_⟩
          simp only [step, hst] at hs'
          rcases e with e | e <;> rw [e] at hs' hk
          · cases hs'; exact hk (Or.inl rfl)
          · cases hs'
        · rintro d' id ⟨_, hw⟩
          simp only [step, hst] at hw
          rcases e with e | e <;> rw [e] at hw <;> cases hw
  | read id evs =>
    refine snoc ?_ (by rintro d' id ⟨_, hw⟩; cases hw)
    intro s' hs'
    simp only [step] at hs'
    cases hst : W.store with
    | none => rw [hst] at hs'; simp only [hst] at hs'; cases hs'
    | some s =>
      rw [hst] at hs'
      refine ⟨s, rfl, ?_⟩
      have hk := keeps_read (dbg := dbg) id { s with evs := evs }
      dsimp only at hs'
      rcases e : read dbg id { s with evs := evs } with ⟨_ | _ | _ | _, w'⟩ <;> rw [e] at hs' hk <;> cases hs' <;> exact hk
  | lastId =>
    refine snoc ?_ (by rintro d' id ⟨_, hw⟩; cases hw)
    intro s' hs'
    simp only [step] at hs'
    cases hst : W.store with
    | none => rw [hst] at hs'; simp only [hst] at hs'; cases hs'
    | some s => rw [hst] at hs'; simp only [hst] at hs'; exact ⟨s, rfl, by cases hs'; rfl⟩

theorem low_run (h8 : 8 ≤ ps) (ops : List Op) : ∀ {W : World} {l : List (Op × Seen)}, (∀ op ∈ ops, Small ps op) → Inv ps W l →
    Low W l → Low (run dbg ps W ops) (l ++ log dbg ps W ops) := by
  induction ops with
  | nil => intro W l _ _ h; simpa [run, log] using h
  | cons op ops ih =>
    intro W l hs h hl
    have := ih (fun op' ho => hs op' (List.mem_cons_of_mem _ ho))
      (fine_step (dbg := dbg) h8 h op (hs op List.mem_cons_self)).2 (low_step (dbg := dbg) h8 h hl op (hs op List.mem_cons_self))
    simpa [run, log] using this

end Radix.Paged
