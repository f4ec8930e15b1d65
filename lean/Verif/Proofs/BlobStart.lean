import Verif.Proofs.BlobStable

/-
Stores at the start: their tables are empty.
-/

set_option linter.unusedVariables false

namespace Radix.Blobs
open Radix.Paged (View)

theorem inv_nil : Inv [] [] := ⟨fun a => rfl, fun a x h => by rw [List.getElem?_nil] at h; cases h⟩

theorem mem_start : WRel memImpl AllIn memStart ⟨some [], []⟩ := ⟨inv_nil, trivial, trivial⟩

theorem paged_start (dbg : Bool) {s : Paged.Inner} (h1 : s.pages = []) (h2 : s.recent = []) :
    WRel (pagedImpl dbg) PRel (pagedStart s) ⟨some s, []⟩ := by
  refine ⟨inv_nil, trivial, ⟨?_, fun p => ?_, ?_⟩⟩
  · show s = _
    rw [← h1, ← h2]
  · show s.pages.contains p = false
    rw [h1]; rfl
  · show RecRel [] [] s.recent
    rw [h2]; trivial

theorem paging_start {s : Browser.Paging.Inner} (h1 : s.fullPages = []) : WRel pagingImpl Pg.BRel (pagingStart s) ⟨some s, []⟩ := by
  refine ⟨⟨fun a => ?_, fun a x h => ?_⟩, trivial, ⟨?_, rfl, fun p => ?_⟩⟩
  · cases a with
    | zero => rfl
    | succ a => simp [pagingStart, World.refs, pagingImpl, Mem.cnt]
  · cases a with
    | zero => simp [pagingStart] at h
    | succ a => simp [pagingStart] at h
  · show ({ s with lastPage := [] } : Browser.Paging.Inner) = _
    rw [← h1]
  · show s.get p = none
    unfold Browser.Paging.Inner.get
    rw [h1]; rfl

/-- The call leaves empty tables, if it succeeds. -/
def Empties {α : Type} (x : Paged.M α) : Prop := ∀ w a s, x w = (.ok a, s) → s.pages = [] ∧ s.recent = []

theorem empties_bind {α β : Type} {x : Paged.M α} {f : α → Paged.M β} (h : ∀ a, Empties (f a)) : Empties (x >>= f) := by
  intro w a s e
  have e : Paged.M.bind x f w = (.ok a, s) := e
  unfold Paged.M.bind at e
  rcases ex : x w with ⟨o, w'⟩
  rw [ex] at e
  cases o with
  | ok b => exact h b w' a s e
  | err => cases e
  | panic => cases e
  | crash => cases e

theorem empties_new (dbg : Bool) : Empties (Paged.new dbg) := by
  have key : Empties (do
      let size ← Paged.readSize
      let len ← Paged.add64 dbg size Paged.headerSize
      Paged.setLen len
      let _ ← Paged.seekEnd
      Paged.update fun w => { w with pages := [], recent := [], lastId := size }) :=
    empties_bind fun _ => empties_bind fun _ => empties_bind fun _ => empties_bind fun _ => fun w a s e => by cases e; exact ⟨rfl, rfl⟩
  unfold Paged.new
  refine empties_bind fun _ => empties_bind fun _ => empties_bind fun fin => ?_
  by_cases h1 : fin = 0
  · simp only [h1, if_true]
    exact empties_bind fun _ => empties_bind fun _ => key
  · simp only [h1, if_false]
    by_cases h2 : fin < Paged.headerSize
    · simp only [h2, if_true]
      exact empties_bind fun _ => key
    · simp only [h2, if_false]
      exact key

theorem opened_tables {dbg : Bool} {ps : Nat} {W : Paged.World} {evs : List Paged.Ev} {s : Paged.Inner}
    (h : (Paged.step dbg ps W (.open evs)).2.store = some s) : s.pages = [] ∧ s.recent = [] := by
  simp only [Paged.step] at h
  rcases e : Paged.new dbg ⟨W.file, 0, ps, [], [], 0, evs⟩ with ⟨o, s'⟩
  rw [e] at h
  cases o with
  | ok a => cases h; exact empties_new dbg _ _ _ e
  | err => cases h
  | panic => cases h
  | crash => cases h

theorem opening_pages {file : Browser.World} {coming : List (List Browser.Ev)} {ps : Nat} {s : Browser.Paging.Inner}
    (h : Browser.Paging.openPaging file coming ps = some s) : s.fullPages = [] := by
  unfold Browser.Paging.openPaging at h
  rcases e : Browser.Paging.new ⟨file, coming, [], [], ps, 0⟩ with ⟨o, s'⟩
  rw [e] at h
  cases o with
  | ok a =>
    have h : some s' = some s := h
    injection h with h
    subst h
    clear h
    have key : ∀ {α : Type} {x : Browser.Paging.P α} {f : α → Browser.Paging.P Unit} {w s : Browser.Paging.Inner},
        (∀ a w s, f a w = (.ok (), s) → s.fullPages = []) → (x >>= f) w = (.ok (), s) → s.fullPages = [] := by
      intro α x f w s hf e
      have e : Browser.Paging.P.bind x f w = (.ok (), s) := e
      unfold Browser.Paging.P.bind at e
      rcases ex : x w with ⟨o, w'⟩
      rw [ex] at e
      cases o with
      | ok b => exact hf b w' s e
      | err => cases e
      | panic => cases e
      | crash => cases e
    unfold Browser.Paging.new at e
    refine key (fun w1 _ _ e => key (fun l _ _ e => key (fun r _ _ e => key (fun last w s e => ?_) e) e) e) e
    by_cases hc : last.length + (r.2 - l) < 2 ^ 31
    · rw [if_pos hc] at e; cases e; rfl
    · rw [if_neg hc] at e; cases e
  | err => cases h
  | panic => cases h
  | crash => cases h

/-- From the relation at the start. -/
theorem good_run {τ σ κ : Type} {I : Impl τ κ} {P : Spec.Blobs.Plain σ κ} {R : Mem → τ → σ → Prop} (K : Keeps I P R) (W : Nat) {w : World τ}
    {v : Spec.Blobs.World σ} (h : WRel I R w v) (ops : List (Op κ)) :
    ∃ w', run I W w ops = some (Spec.Blobs.run P W v ops, w') ∧
      ∀ x, w' = some x → Spec.Blobs.Tidy I x ∧ (x.store = none → (∀ b ∈ x.slots, b = none) → Spec.Blobs.AllFreed x.mem) := by
  obtain ⟨w', e, hh⟩ := run_ok K W ops h
  exact ⟨w', e, fun x hx => ⟨tidy_of (hh x hx), fun h1 h2 => freed_of (tidy_of (hh x hx)) h1 h2⟩⟩

end Radix.Blobs
