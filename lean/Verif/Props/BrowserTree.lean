import Verif.Props.Browser
import Verif.Props.Persist

/-
C59: trees that are stored in a file of the browser file system survive closing the page.
-/

set_option linter.unusedVariables false

namespace Radix.Browser
open Node
open Radix.Spec (Unused reach)

variable {cache : Cache} {name : Name}

/-- A file of the browser that is only appended to conforms to the interface of stores: `Has h i d` says that a `put` of `d` in the history `h` returned `i`. -/
def fileLawful (hp : Plain name) (hu : Unused cache name) : Lawful (fileStore cache name) where
  Has h i d := ∃ e ∈ log (fresh cache name) h.calls, PutOk e d i
  read_has {h i d} := by
    rintro ⟨e, he, hput⟩
    obtain ⟨h1, -⟩ := C58_get_after_put hp hu h.only he hput (h.coming.headD [])
    simp only [fileStore]
    rcases h1 with h1 | h1
    · rw [h1]; exact Or.inl rfl
    · right
      revert h1
      generalize (step (run (fresh cache name) h.calls) (.get i (h.coming.headD []))).1 = s
      intro h1
      match s, h1 with
      | .bytes (.ok bs), h1 => exact absurd rfl (h1 bs)
      | .bytes .err, _ => exact ⟨(), rfl⟩
      | .bytes .panic, _ => exact ⟨(), rfl⟩
      | .bytes .crash, _ => exact ⟨(), rfl⟩
      | .opened, _ => exact ⟨(), rfl⟩
      | .done _, _ => exact ⟨(), rfl⟩
      | .num _, _ => exact ⟨(), rfl⟩
      | .closed, _ => exact ⟨(), rfl⟩
  write_ok {h d i h'} he := by
    simp only [fileStore, Prod.mk.injEq] at he
    obtain ⟨h1, rfl⟩ := he
    have hr : (step (run (fresh cache name) h.calls) (.put d (h.coming.headD []))).1 = .bytes (.ok i) := by
      revert h1
      generalize (step (run (fresh cache name) h.calls) (.put d (h.coming.headD []))).1 = s
      intro h1
      match s with
      | .bytes (.ok b) => cases h1; rfl
      | .bytes .panic => cases h1
      | .bytes .err => cases h1
      | .bytes .crash => cases h1
      | .opened => cases h1
      | .done _ => cases h1
      | .num _ => cases h1
      | .closed => cases h1
    have hlen : i.length = 8 := by
      obtain ⟨h1, h2⟩ := winv_fresh hp.ne hu
      obtain ⟨-, h4, -⟩ := log_possible h.calls h1
      have h5 := (step_spec h4 (.put d (h.coming.headD []))).1
      rw [hr] at h5
      exact h5.1
    refine ⟨⟨(.put d (h.coming.headD []), .bytes (.ok i)), ?_, ⟨h.coming.headD [], rfl⟩, rfl⟩, by omega, by omega⟩
    show _ ∈ log (fresh cache name) (h.calls ++ [.put d (h.coming.headD [])])
    rw [log_append, log, log]
    exact List.mem_append_right _ (by rw [← hr]; exact List.mem_cons_self)
  write_mono {h d r h' i e} he := by
    simp only [fileStore, Prod.mk.injEq] at he
    obtain ⟨_, rfl⟩ := he
    rintro ⟨x, hx, hw⟩
    refine ⟨x, ?_, hw⟩
    show _ ∈ log (fresh cache name) (h.calls ++ [.put d (h.coming.headD [])])
    rw [log_append]; exact List.mem_append_left _ hx

variable {hp : Plain name} {hu : Unused cache name}

/-- Whatever is called later, also opening the file again after a crash, the store keeps what it has. -/
theorem file_mono (h : FileHist) (cs : List Call) (hc : ∀ c ∈ cs, AppendOnly c) (coming : List (List Ev)) :
    Mono (fileLawful hp hu) h (h.more cs hc coming) := by
  rintro i d ⟨e, he, hw⟩
  refine ⟨e, ?_, hw⟩
  show _ ∈ log (fresh cache name) (h.calls ++ cs)
  rw [log_append]; exact List.mem_append_left _ he

/-- Everything can be read from an open file if the browser does not fail. -/
theorem file_reads (h : FileHist) (ho : (run (fresh cache name) h.calls).handle.isSome) (hq : Calm (h.coming.headD []))
    (hs : reach 0 h.calls < 2 ^ 31) : ReadsSucceed (fileLawful hp hu) h := by
  rintro i d ⟨e, he, hput⟩
  obtain ⟨-, h1⟩ := C58_get_after_put hp hu h.only he hput (h.coming.headD [])
  simp only [fileStore]
  rw [h1 ho hq hs]
  rfl

/-- Opening the file. -/
theorem only_reopen : ∀ c ∈ [Call.reopen], AppendOnly c := fun c hc => by rw [List.mem_singleton.1 hc]; exact ⟨by simp, by simp⟩

/-- **C59**. Let `try_reattach` have returned `i` on a tree with contents `m` that is attached to a file of the browser (of any history of tree operations and other appending calls). Then,
whatever happens afterwards (`st2`: later tree operations, see `C59_tree_operations`; `more`: any calls that read or append, with failures of the browser and the page closed at any point), after opening the file
again `try_load` of `i` succeeds and gives a tree with contents `m`, as long as the file is smaller than 2 GiB. -/
theorem C59_saved_tree_survives {long : Bool} {st st' st2 : FileHist} {a a' : SNode} {m : Spec.Map} {i : Bytes}
    (h : Att (fileStore cache name) (fileLawful hp hu) long st a m)
    (he : tryReattach (fileStore cache name) a st = (.ok (a', i), st')) (hl : Mono (fileLawful hp hu) st' st2)
    (more : List Call) (hc : ∀ c ∈ more, AppendOnly c) (hs : reach 0 (st2.calls ++ more) < 2 ^ 31) :
    ∃ a'', tryLoad (fileStore cache name) ((st2.more more hc []).more [.reopen] only_reopen []) i = .ok a'' ∧
      Snapshot (fileLawful hp hu) ((st2.more more hc []).more [.reopen] only_reopen []) a'' m ∧
      ReadsSucceed (fileLawful hp hu) ((st2.more more hc []).more [.reopen] only_reopen []) := by
  obtain ⟨_, _, hsnap⟩ := C29_snapshot h he
  have hreach : ∀ (cs : List Call) n, reach n (cs ++ [.reopen]) = reach n cs := by
    intro cs
    induction cs with
    | nil => intro n; rfl
    | cons c cs ih => intro n; rw [List.cons_append, reach_cons, ih, ← reach_cons]
  have hr := file_reads (hp := hp) (hu := hu) ((st2.more more hc []).more [.reopen] only_reopen [])
    (by show (run (fresh cache name) (st2.calls ++ more ++ [.reopen])).handle.isSome = true
        rw [run_append]; rfl)
    (by intro e he; exact absurd he (by simp [FileHist.more]))
    (by show reach 0 (st2.calls ++ more ++ [.reopen]) < _
        rw [hreach]; exact hs)
  have hmono : Mono (fileLawful hp hu) st' ((st2.more more hc []).more [.reopen] only_reopen []) := fun i d hh =>
    file_mono _ _ _ _ i d (file_mono _ _ _ _ i d (hl i d hh))
  rcases hsnap _ hmono with ⟨a'', h1, h2⟩ | ⟨_, hn⟩
  · exact ⟨a'', h1, h2, hr⟩
  · exact absurd hr hn

/-- **C59**: storing a tree, and re-attaching an attached tree (with contents of any history), keep what the store has, whatever their outcome is:
also if they return an error, or if the page is closed in the middle of them. -/
theorem C59_tree_operations {st : FileHist} :
    (∀ (t : Node), Mono (fileLawful hp hu) st (tryAttached (fileStore cache name) t st).2) ∧
    (∀ {long : Bool} {a : SNode} {m : Spec.Map}, Att (fileStore cache name) (fileLawful hp hu) long st a m →
      Mono (fileLawful hp hu) st (tryReattach (fileStore cache name) a st).2) := by
  refine ⟨fun t => ?_, fun h => ?_⟩
  · exact (tryAttached_rep (L := fileLawful hp hu) (g := true) t st (Or.inl rfl)).1
  · obtain ⟨t, ho, hs, hr, hd⟩ := att_stands h
    exact (tryReattach_rep (L := fileLawful hp hu) (g' := true) hr (Or.inl rfl)).1

/-! An example: a tree is stored in an open file and re-attached, then the page is closed in the middle of a `put`. -/

/-- Before storing the tree. -/
def exOpen : FileHist := ⟨[.reopen], only_reopen, []⟩

/-- Storing the tree. -/
def exAttached : Res Unit SNode × FileHist := tryAttached (fileStore exCache exName) sampleA exOpen

/-- Re-attaching it. -/
def exReattached : Res Unit (SNode × Bytes) × FileHist :=
  match exAttached with
  | (.ok a, st) => tryReattach (fileStore exCache exName) a st
  | (_, st) => (.panic, st)

/-- The id that `try_reattach` returned. -/
def exRoot : Bytes := match exReattached.1 with | .ok x => x.2 | _ => []

/-- A `put` during which the page is closed. -/
def exMore : List Call := [.put (List.replicate 40 1) [.crash true]]

theorem exMore_only : ∀ c ∈ exMore, AppendOnly c := fun c hc => by rw [List.mem_singleton.1 hc]; exact ⟨by simp, by simp⟩

theorem ex_attached : ∃ a, exAttached = (.ok a, exAttached.2) := by
  have h : (exAttached.1.toOption).isSome := by decide +kernel
  rcases e : exAttached with ⟨_ | _ | _ | _, st⟩ <;> rw [e] at h
  · exact ⟨_, rfl⟩
  all_goals cases h

theorem ex_reattached : ∃ a, exReattached = (.ok (a, exRoot), exReattached.2) := by
  have h : (exReattached.1.toOption).isSome := by decide +kernel
  unfold exRoot
  rcases e : exReattached with ⟨_ | _ | _ | _, st⟩ <;> rw [e] at h
  · exact ⟨_, rfl⟩
  all_goals cases h

/-- The hypotheses of `C59_saved_tree_survives` are met. -/
example : ∃ a a' m, Att (fileStore exCache exName) (fileLawful exPlain exUnused) false exAttached.2 a m ∧
    m [97, 98] = some [2] ∧ tryReattach (fileStore exCache exName) a exAttached.2 = (.ok (a', exRoot), exReattached.2) ∧
    reach 0 (exReattached.2.calls ++ exMore) < 2 ^ 31 := by
  obtain ⟨a, ha⟩ := ex_attached
  obtain ⟨a', ha'⟩ := ex_reattached
  refine ⟨a, a', get sampleA, .attach (st := exOpen) sampleA_proper (fun _ => short_of_iter sampleA_reachable (by decide +kernel)) ha, by decide +kernel, ?_, by decide +kernel⟩
  rw [← ha']
  unfold exReattached
  rw [ha]

/-- And what is loaded after opening the file again is what was stored. -/
example : (match tryLoad (fileStore exCache exName) ((exReattached.2.more exMore exMore_only []).more [.reopen] only_reopen []) exRoot with
    | .ok a => ([[], [97], [97, 98], [97, 98, 99], [98]].map
        (fun k => getLoadS (fileStore exCache exName) 10 ((exReattached.2.more exMore exMore_only []).more [.reopen] only_reopen []) a k))
    | _ => []) = [.ok (some [9]), .ok (some [1]), .ok (some [2]), .ok (some [3]), .ok (some [])] := by
  decide +kernel

end Radix.Browser
