import Verif.Proofs.Lives
import Verif.Proofs.FitsStores

/-
Proof-internal: paged files and browser files stay usable as long as nothing bad happens.
-/

set_option linter.unusedVariables false

namespace Radix.Paged
open Radix.Spec.Kept (Grown)

variable {dbg : Bool} {ps : Nat} {α β : Type}

/-- Without failures of the file operations, the call does not end in a crash. -/
def Alive (x : M α) : Prop := ∀ w, NoFault w.evs → (x w).1 ≠ .crash ∧ NoFault (x w).2.evs

theorem Alive.bind {x : M α} {f : α → M β} (hx : Alive x) (hf : ∀ a, Alive (f a)) : Alive (x >>= f) := by
  intro w hw
  show (M.bind x f w).1 ≠ _ ∧ NoFault (M.bind x f w).2.evs
  have h := hx w hw
  unfold M.bind
  rcases e : x w with ⟨_ | _ | _ | _, w'⟩ <;> rw [e] at h
  · exact hf _ w' h.2
  · exact ⟨by simp, h.2⟩
  · exact ⟨by simp, h.2⟩
  · exact absurd rfl h.1

theorem alive_pure (a : α) : Alive (pure a : M α) := fun w hw => ⟨(fun h => by cases h), hw⟩
theorem alive_fail : Alive (fail : M α) := fun w hw => ⟨(fun h => by cases h), hw⟩
theorem alive_panic : Alive (panic : M α) := fun w hw => ⟨(fun h => by cases h), hw⟩
theorem alive_self : Alive self := fun w hw => ⟨(fun h => by cases h), hw⟩
theorem alive_update {f : Inner → Inner} (h : ∀ w, (f w).evs = w.evs) : Alive (update f) := fun w hw => ⟨(fun h => by cases h), by show NoFault (f w).evs; rw [h]; exact hw⟩
theorem alive_ensure (b : Bool) : Alive (ensure b) := by
  unfold ensure; split
  · exact alive_pure _
  · exact alive_fail
theorem alive_ite {c : Prop} [Decidable c] {x y : M α} (hx : Alive x) (hy : Alive y) : Alive (if c then x else y) := by
  split
  · exact hx
  · exact hy

/-- The next file operation succeeds. -/
theorem nextEv_bind {f : Ev → M β} (hf : Alive (f .ok)) : Alive (nextEv >>= f) := by
  intro w hw
  show (M.bind nextEv f w).1 ≠ _ ∧ NoFault (M.bind nextEv f w).2.evs
  unfold M.bind nextEv
  cases he : w.evs with
  | nil => exact hf w hw
  | cons e evs =>
    have h1 : e = .ok := hw e (by rw [he]; exact List.mem_cons_self)
    subst h1
    exact hf { w with evs := evs } fun e h => hw e (by rw [he]; exact List.mem_cons_of_mem _ h)

theorem alive_put (bs : Bytes) : Alive (put bs) := alive_update fun _ => rfl
theorem alive_seekEnd : Alive seekEnd := Alive.bind (alive_update (by intro _; rfl)) fun _ => alive_self.bind fun _ => alive_pure _
theorem alive_seekStart (n : Nat) : Alive (seekStart n) := (alive_ensure _).bind fun _ => alive_update fun _ => rfl
theorem alive_sub64 (a b : Nat) : Alive (sub64 dbg a b) := alive_ite (alive_pure _) (alive_ite alive_panic (alive_pure _))
theorem alive_writeAll (bs : Bytes) : Alive (writeAll bs) := alive_self.bind fun w => nextEv_bind (alive_ite (alive_put _) alive_fail)
theorem alive_writeSize (n : Nat) : Alive (writeSize n) := (alive_seekStart _).bind fun _ => (alive_writeAll _).bind fun _ => alive_seekEnd.bind fun _ => alive_pure _
theorem alive_commit : Alive commit := alive_seekEnd.bind fun _ => (alive_writeSize _).bind fun _ => alive_pure _
theorem alive_loadPage (n : Nat) : Alive (loadPage n) := nextEv_bind (alive_update fun _ => rfl)
theorem alive_padLoop (n : Nat) : ∀ o, Alive (padLoop n o) := by
  induction n with
  | zero => exact fun o => alive_pure _
  | succ n ih => exact fun o => alive_self.bind fun w => alive_ite ((alive_writeAll _).bind fun _ => ih o) (alive_pure _)
theorem alive_closePage (n : Nat) : Alive (closePage n) :=
  alive_self.bind fun _ => (alive_self.bind fun _ => alive_padLoop _ _).bind fun _ => alive_commit.bind fun _ =>
    (alive_loadPage _).bind fun _ => alive_update fun _ => rfl

theorem alive_append (d : Bytes) : Alive (append dbg d) := by
  refine alive_self.bind fun w => (alive_sub64 _ _).bind fun m => (alive_ensure _).bind fun _ => alive_seekEnd.bind fun p => ?_
  dsimp only
  have rest : Alive (do
      writeAll d
      writeAll (toBE 4 d.length)
      let id ← commit
      update fun w => { w with lastId := id }
      insertRecent id d
      if id % w.pageSize < 4 then
        unless id % 1024 > 4 do panic
      return id) := by
    refine (alive_writeAll _).bind fun _ => (alive_writeAll _).bind fun _ => alive_commit.bind fun id =>
      Alive.bind (alive_update fun _ => rfl) fun _ => Alive.bind (alive_update fun _ => rfl) fun _ => ?_
    dsimp only
    split
    · split
      · exact alive_pure _
      · exact alive_panic.bind fun _ => alive_pure _
    · exact alive_pure _
  split
  · exact alive_panic.bind fun _ => by
      split
      · exact (alive_closePage _).bind fun _ => rest
      · exact rest
  · split
    · exact (alive_closePage _).bind fun _ => rest
    · exact rest

theorem alive_write (d : Bytes) : Alive (write dbg d) := (alive_append d).bind fun _ => alive_pure _

/-- The store is open, and nothing bad will happen to it. -/
def Usable (dbg : Bool) (ps : Nat) (h : Hist) : Prop := (h.world dbg ps).store ≠ none ∧ ∀ evs ∈ h.coming, NoFault evs

theorem Usable.head {h : Hist} (hu : Usable dbg ps h) : NoFault (h.coming.headD []) := by
  cases he : h.coming with
  | nil => intro e he; cases he
  | cons x l => exact hu.2 x (by rw [he]; exact List.mem_cons_self)

theorem usable_write {h : Hist} (hu : Usable dbg ps h) (d : Bytes) : Usable dbg ps ((pagedStore dbg ps).write h d).2 := by
  refine ⟨?_, fun evs he => hu.2 evs (List.mem_of_mem_tail he)⟩
  show (run dbg ps fresh (h.ops ++ [.write d (h.coming.headD [])])).store ≠ none
  rw [run_append]
  show (step dbg ps (h.world dbg ps) (.write d (h.coming.headD []))).2.store ≠ none
  obtain ⟨s, hs⟩ := Option.ne_none_iff_exists'.1 hu.1
  simp only [step, hs]
  have ha := (alive_write (dbg := dbg) d { s with evs := h.coming.headD [] } hu.head).1
  unfold after
  split
  · exact absurd ‹_› ha
  · simp

theorem usable_grown {h h' : Hist} (hu : Usable dbg ps h) (hg : Grown (pagedStore dbg ps) h h') : Usable dbg ps h' := by
  induction hg with
  | same => exact hu
  | write d _ ih => exact usable_write ih d

theorem write_never {h : Hist} {d : Bytes} {evs : List Ev} (h8 : 8 ≤ ps) (h32 : ps < 2 ^ 32 + 8) (ho : (h.world dbg ps).store ≠ none) :
    ∃ x, (step dbg ps (h.world dbg ps) (.write d evs)).1 = .bytes x ∧ x ≠ .panic := by
  have hinv := inv_run (dbg := dbg) h8 h.ops (fun op _ => small_of_page h32 op) inv_fresh
  obtain ⟨hf, _⟩ := fine_step (dbg := dbg) h8 hinv (.write d evs) (small_of_page h32 _)
  rcases hf with ⟨hf, _⟩ | ⟨x, _, hx, hp, _, hok⟩
  · exact absurd hf ho
  · exact ⟨x, hx, hp⟩

theorem paged_noPanic (h8 : 8 ≤ ps) (h32 : ps < 2 ^ 32 + 8) (n : Nat) : ∀ h : Hist, NoPanic (pagedStore dbg ps) n h := by
  induction n with
  | zero => intro h; trivial
  | succ n ih =>
    intro h d
    rcases he : (pagedStore dbg ps).write h d with ⟨r, h'⟩
    cases r with
    | ok i => exact Or.inl ⟨i, h', rfl, ih h'⟩
    | err e => exact Or.inr ⟨e, h', rfl⟩
    | panic =>
      exfalso
      have he1 : ((step dbg ps (h.world dbg ps) (.write d (h.coming.headD []))).1).toRes = .panic := congrArg Prod.fst he
      by_cases ho : (h.world dbg ps).store = none
      · simp only [step, ho] at he1; cases he1
      · obtain ⟨x, hx, hp⟩ := write_never (dbg := dbg) (evs := h.coming.headD []) (d := d) h8 h32 ho
        rw [hx] at he1
        cases x with
        | panic => exact hp rfl
        | _ => cases he1
    | deep =>
      have he1 : ((step dbg ps (h.world dbg ps) (.write d (h.coming.headD []))).1).toRes = .deep := congrArg Prod.fst he
      revert he1
      generalize (step dbg ps (h.world dbg ps) (.write d (h.coming.headD []))).1 = x
      intro he1
      match x, he1 with
      | .bytes (.ok b), he1 => cases he1
      | .bytes .panic, he1 => cases he1
      | .bytes .err, he1 => cases he1
      | .bytes .crash, he1 => cases he1
      | .opened _, he1 => cases he1
      | .lastId _, he1 => cases he1
      | .closed, he1 => cases he1

end Radix.Paged

namespace Radix.Browser
open Radix.Spec
open Radix.Spec.Kept (Grown)

variable {cache : Cache} {name : Name} {hp : Plain name} {hu : Unused cache name}

/-- The file is open, and nothing bad will happen to it. -/
def Usable (cache : Cache) (name : Name) (h : FileHist) : Prop := (run (fresh cache name) h.calls).handle.isSome ∧ ∀ evs ∈ h.coming, Calm evs

/-- The file is small. -/
def SmallFile (h : FileHist) : Prop := reach 0 h.calls < 2 ^ 31 ∧ h.calls.length < 2 ^ 64

theorem Usable.head {h : FileHist} (hu : Usable cache name h) : Calm (h.coming.headD []) := by
  cases he : h.coming with
  | nil => intro e he; cases he
  | cons x l => exact hu.2 x (by rw [he]; exact List.mem_cons_self)

theorem small_grown {h h' : FileHist} (hg : Grown (fileStore cache name) h h') (hs : SmallFile h') : SmallFile h := by
  induction hg with
  | same => exact hs
  | write d hg ih =>
    refine ih ⟨?_, ?_⟩
    · have := hs.1
      simp only [fileStore, FileHist.more] at this
      rw [reach_snoc] at this
      omega
    · have := hs.2
      simp only [fileStore, FileHist.more, List.length_append, List.length_cons, List.length_nil] at this
      omega

theorem usable_grown (hp : Plain name) (hu : Unused cache name) {h h' : FileHist} (hU : Usable cache name h) (hg : Grown (fileStore cache name) h h') (hs : SmallFile h') : Usable cache name h' := by
  induction hg with
  | same => exact hU
  | @write st' d hg ih =>
    have hs' : SmallFile st' := small_grown (.write d .same) hs
    have h1 := ih hs'
    refine ⟨?_, fun evs he => h1.2 evs (List.mem_of_mem_tail he)⟩
    obtain ⟨id, hx⟩ := (C44_succeeds_partial hp hu h1.head h1.1).2.2.1 d hs'.2 hs.1
    simp only [fileStore, FileHist.more]
    rw [run_snoc]; exact put_handle hx

theorem file_noPanic (n : Nat) : ∀ h : FileHist, NoPanic (fileStore cache name) n h := by
  induction n with
  | zero => intro h; trivial
  | succ n ih =>
    intro h d
    rcases he : (fileStore cache name).write h d with ⟨r, h'⟩
    have he1 : ((step (run (fresh cache name) h.calls) (.put d (h.coming.headD []))).1).toRes = r := congrArg Prod.fst he
    cases r with
    | ok i => exact Or.inl ⟨i, h', rfl, ih h'⟩
    | err e => exact Or.inr ⟨e, h', rfl⟩
    | panic => exfalso; revert he1; unfold Seen.toRes; split <;> simp
    | deep => exfalso; revert he1; unfold Seen.toRes; split <;> simp

end Radix.Browser
