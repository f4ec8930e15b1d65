import Verif.Props.Paged
import Verif.Props.Persist
import Verif.Paged.Store

/-
C57: trees that are stored in a paged file survive crashes.
-/

set_option linter.unusedVariables false

namespace Radix.Paged
open Node

variable {dbg : Bool} {ps : Nat}

theorem log_append (ops ops' : List Op) : ∀ {W : World},
    log dbg ps W (ops ++ ops') = log dbg ps W ops ++ log dbg ps (run dbg ps W ops) ops' := by
  induction ops with
  | nil => intro W; rfl
  | cons op ops ih => intro W; simp only [List.cons_append, log, run, ih]

/-- The paged file store conforms to the interface of stores: `Has h i d` says that a write of `d` in the history `h` returned `i`. -/
def pagedLawful (dbg : Bool) (ps : Nat) (h8 : 8 ≤ ps) (h32 : ps < 2 ^ 32 + 8) : Lawful (pagedStore dbg ps) where
  Has h i d := ∃ e ∈ log dbg ps fresh h.ops, Wrote e d i
  read_has {h i d} := by
    rintro ⟨e, he, hw⟩
    obtain ⟨pre, mid, hl⟩ := List.append_of_mem he
    have := C38_read_back_partial (dbg := dbg) h8 (ops := h.ops ++ [.read i (h.coming.headD [])])
      (fun op _ => small_of_page h32 op) (pre := pre) (mid := mid) (post := []) (ew := e) (d := d)
      (evs := h.coming.headD [])
      (r := (step dbg ps (h.world dbg ps) (.read i (h.coming.headD []))).1)
      (by rw [log_append, hl]; simp [log, Hist.world]) hw
    simp only [pagedStore]
    rcases this with h | h | ⟨_, h | h⟩ <;> rw [h] <;> simp [Seen.toRes]
  write_ok {h d i h'} he := by
    simp only [pagedStore, Prod.mk.injEq] at he
    obtain ⟨h1, rfl⟩ := he
    have hr : (step dbg ps (h.world dbg ps) (.write d (h.coming.headD []))).1 = .bytes (.ok i) := by
      revert h1
      generalize (step dbg ps (h.world dbg ps) (.write d (h.coming.headD []))).1 = r
      intro h1
      match r with
      | .bytes (.ok b) => cases h1; rfl
      | .bytes .panic => cases h1
      | .bytes .err => cases h1
      | .bytes .crash => cases h1
      | .opened _ => cases h1
      | .lastId _ => cases h1
      | .closed => cases h1
    refine ⟨⟨_, ?_, h.coming.headD [], rfl⟩, ?_⟩
    · rw [log_append, log, log]
      exact List.mem_append_right _ (by rw [← hr]; exact List.mem_cons_self)
    · have hinv := inv_run (dbg := dbg) h8 h.ops (fun op _ => small_of_page h32 op) inv_fresh
      obtain ⟨hf, _⟩ := fine_step (dbg := dbg) h8 hinv (.write d (h.coming.headD [])) (small_of_page h32 _)
      change Fine _ _ _ _ (_, (step dbg ps (h.world dbg ps) (.write d (h.coming.headD []))).1) at hf
      rw [hr] at hf
      rcases hf with ⟨_, hf⟩ | ⟨x, _, hx, _, hid, _⟩
      · cases hf
      · cases hx
        have := (hid i rfl).1
        omega
  write_mono {h d r h' i e} he := by
    simp only [pagedStore, Prod.mk.injEq] at he
    obtain ⟨_, rfl⟩ := he
    rintro ⟨x, hx, hw⟩
    exact ⟨x, by rw [log_append]; exact List.mem_append_left _ hx, hw⟩

/-- Whatever is called later, also opening the file again after a crash, the store keeps what it has. -/
theorem paged_mono {h8 : 8 ≤ ps} {h32 : ps < 2 ^ 32 + 8} (h : Hist) (more : List Op) (coming : List (List Ev)) :
    Mono (pagedLawful dbg ps h8 h32) h ⟨h.ops ++ more, coming⟩ := by
  rintro i d ⟨e, he, hw⟩
  exact ⟨e, by rw [log_append]; exact List.mem_append_left _ he, hw⟩

/-- An open store reads back everything if nothing bad happens to the coming file operations. -/
theorem paged_reads {h8 : 8 ≤ ps} {h32 : ps < 2 ^ 32 + 8} (h : Hist) (ho : (h.world dbg ps).store ≠ none)
    (hc : NoFault (h.coming.headD [])) : ReadsSucceed (pagedLawful dbg ps h8 h32) h := by
  rintro i d ⟨e, he, hw⟩
  have hinv := inv_run (dbg := dbg) h8 h.ops (fun op _ => small_of_page h32 op) inv_fresh
  rw [List.nil_append] at hinv
  obtain ⟨hf, _⟩ := fine_step (dbg := dbg) h8 hinv (.read i (h.coming.headD [])) (small_of_page h32 _)
  simp only [pagedStore, Hist.world]
  rcases hf with ⟨hf, _⟩ | ⟨x, _, hx, _, hall⟩
  · exact absurd hf ho
  · rw [hx]
    rcases hall e he d hw with rfl | ⟨hn, _⟩
    · rfl
    · exact absurd hc hn

/-- **C57**.  Let `try_reattach` have returned `i` on a tree with contents `m` that is attached to a paged file store (of any history of tree
operations and of other calls of the store).  Then, whatever happens afterwards (`st2`: later tree operations, see `C57_tree_operations`; `more`: any calls of
the store, writes, reads, reopenings, with I/O errors and crashes at any byte of any file operation), after opening the file again `try_load` of `i` succeeds and gives a tree with
contents `m`. -/
theorem C57_saved_tree_survives {h8 : 8 ≤ ps} {h32 : ps < 2 ^ 32 + 8} (hm : ps % 8 = 0) {long : Bool} {st st' st2 : Hist} {a a' : SNode}
    {m : Spec.Map} {i : Bytes} (h : Att (pagedStore dbg ps) (pagedLawful dbg ps h8 h32) long st a m)
    (he : tryReattach (pagedStore dbg ps) a st = (.ok (a', i), st')) (hl : Mono (pagedLawful dbg ps h8 h32) st' st2)
    (more : List Op)     (hf : (run dbg ps fresh (st2.ops ++ more)).file.length < 2 ^ 62) :
    ∃ a'', tryLoad (pagedStore dbg ps) ⟨st2.ops ++ more ++ [.open []], []⟩ i = .ok a'' ∧
      Snapshot (pagedLawful dbg ps h8 h32) ⟨st2.ops ++ more ++ [.open []], []⟩ a'' m ∧
      ReadsSucceed (pagedLawful dbg ps h8 h32) ⟨st2.ops ++ more ++ [.open []], []⟩ := by
  obtain ⟨_, _, hsnap⟩ := C29_snapshot h he
  have hopen : ((⟨st2.ops ++ more ++ [.open []], []⟩ : Hist).world dbg ps).store ≠ none := by
    simp only [Hist.world]
    rw [run_append]
    exact open_store (C39_recovery_partial (dbg := dbg) h8 hm (fun op _ => small_of_page h32 op) hf).1
  have hr := paged_reads (h8 := h8) (h32 := h32) (dbg := dbg) ⟨st2.ops ++ more ++ [.open []], []⟩ hopen (by intro e he; cases he)
  have hmono : Mono (pagedLawful dbg ps h8 h32) st' ⟨st2.ops ++ more ++ [.open []], []⟩ := by
    rw [List.append_assoc]; exact fun i d hh => paged_mono st2 _ _ i d (hl i d hh)
  rcases hsnap _ hmono with ⟨a'', h1, h2⟩ | ⟨_, hn⟩
  · exact ⟨a'', h1, h2, hr⟩
  · exact absurd hr hn

/-- **C57**: storing a tree, and re-attaching an attached tree (with contents of any history), keep what the store has, whatever their outcome is:
also if they return an error, or if the process dies in the middle of them. -/
theorem C57_tree_operations {h8 : 8 ≤ ps} {h32 : ps < 2 ^ 32 + 8} {st : Hist} :
    (∀ (t : Node), Mono (pagedLawful dbg ps h8 h32) st (tryAttached (pagedStore dbg ps) t st).2) ∧
    (∀ {long : Bool} {a : SNode} {m : Spec.Map}, Att (pagedStore dbg ps) (pagedLawful dbg ps h8 h32) long st a m →
      Mono (pagedLawful dbg ps h8 h32) st (tryReattach (pagedStore dbg ps) a st).2) := by
  refine ⟨fun t => ?_, fun h => ?_⟩
  · exact (tryAttached_rep (L := pagedLawful dbg ps h8 h32) (g := true) t st (Or.inl rfl)).1
  · obtain ⟨t, ho, hs, hr, hd⟩ := att_stands h
    exact (tryReattach_rep (L := pagedLawful dbg ps h8 h32) (g' := true) hr (Or.inl rfl)).1

/-! An example: a tree is stored in an open store with pages of 64 bytes and re-attached, then the process dies in the middle of a write. -/

/-- Before storing the tree. -/
def exOpen : Hist := ⟨[.open []], []⟩

/-- Storing the tree. -/
def exAttached : Res Unit SNode × Hist := tryAttached (pagedStore true 64) sampleA exOpen

/-- Re-attaching it. -/
def exReattached : Res Unit (SNode × Bytes) × Hist :=
  match exAttached with
  | (.ok a, st) => tryReattach (pagedStore true 64) a st
  | (_, st) => (.panic, st)

/-- The id that `try_reattach` returned. -/
def exRoot : Bytes := match exReattached.1 with | .ok x => x.2 | _ => []

/-- A write that is interrupted by a crash. -/
def exMore : List Op := [.write (List.replicate 40 1) [.ok, .crash 2]]

theorem ex_attached : ∃ a, exAttached = (.ok a, exAttached.2) := by
  have h : (exAttached.1.toOption).isSome := by decide +kernel
  rcases e : exAttached with ⟨_ | _ | _ | _, st⟩ <;> rw [e] at h
  · exact ⟨_, rfl⟩
  all_goals cases h

theorem ex_reattached : ∃ a, exReattached = (.ok (a, exRoot), exReattached.2) := by
  have h : (exReattached.1.toOption).isSome := by decide +kernel
  unfold exRoot
  rcases e : exReattached with ⟨_ | _ | _ | _, st⟩ <;> rw [e] at h
  · exact ⟨_, rfl⟩
  all_goals cases h

/-- The hypotheses of `C57_saved_tree_survives` are met. -/
example : ∃ a a' m, Att (pagedStore true 64) (pagedLawful true 64 (by decide) (by decide)) false exAttached.2 a m ∧
    m [97, 98] = some [2] ∧ tryReattach (pagedStore true 64) a exAttached.2 = (.ok (a', exRoot), exReattached.2) ∧
    (run true 64 fresh (exReattached.2.ops ++ exMore)).file.length < 2 ^ 62 := by
  obtain ⟨a, ha⟩ := ex_attached
  obtain ⟨a', ha'⟩ := ex_reattached
  refine ⟨a, a', get sampleA, .attach (st := exOpen) sampleA_proper (fun _ => short_of_iter sampleA_reachable (by decide +kernel)) ha, by decide +kernel, ?_, by decide +kernel⟩
  rw [← ha']
  unfold exReattached
  rw [ha]

/-- And what is loaded after opening the file again is what was stored. -/
example : (match tryLoad (pagedStore true 64) ⟨exReattached.2.ops ++ exMore ++ [.open []], []⟩ exRoot with
    | .ok a => ([[], [97], [97, 98], [97, 98, 99], [98]].map
        (fun k => getLoadS (pagedStore true 64) 10 ⟨exReattached.2.ops ++ exMore ++ [.open []], []⟩ a k))
    | _ => []) = [.ok (some [9]), .ok (some [1]), .ok (some [2]), .ok (some [3]), .ok (some [])] ∧
    (run true 64 fresh (exReattached.2.ops ++ exMore)).store.isNone := by
  decide +kernel

end Radix.Paged
