import Verif.Proofs.FitsStores

/-
C74: every tree whose keys and values fit can be saved.

`Accepts S B n st` (Verif/Stored/Cost.lean): the store in state `st` takes `n` blobs of at most `B` bytes, one after the other.
-/

set_option linter.unusedVariables false

namespace Radix
open Node

section
variable {σ ε : Type} {S : BlobStore σ ε} {L : Lawful S}

/-- **C74** for any store with ids of at most `N` bytes.  Let a tree (of any history) have `n` entries with keys and values of at most `B` bytes each, where
`B` is at least `256 * (258 + N)`. If the store takes `6 * n + 4` blobs of at most `B` bytes, `try_reattach` succeeds: no other blob is written. -/
theorem C74_reattach_partial {N B : Nat} {long : Bool} {st : σ} {a : SNode} {m : Spec.Map} (h : Att S L long st a m)
    (hid : ∀ st i d, L.Has st i d → i.length ≤ N) (hB : 256 * (258 + N) ≤ B) {u : Node} (hu : Proper u) (hm : ∀ k, get u k = m k)
    (hk : ∀ k v, m k = some v → k.length ≤ B ∧ v.length ≤ B) (hw : Accepts S B (6 * (iter u).length + 4) st) :
    ∃ a' i st', tryReattach S a st = (.ok (a', i), st') := by
  obtain ⟨t, hst⟩ := att_stands h
  have hi := iter_of_twin (hst.twin hu hm)
  have hn := shape_nodes hst.2.1
  rw [hi] at hn
  exact tryReattach_can hid hB hst.2.2.1 (shape_fit hst.1 hst.2.1 fun k v e => hk k v (by rw [← hst.2.2.2]; exact e)) (hw.le (by omega))

/-- **C74**, the same for `try_attached`: a tree in memory can be stored. -/
theorem C74_attach_partial {N B : Nat} {st : σ} (L : Lawful S) {u : Node} (hu : Proper u)
    (hid : ∀ st i d, L.Has st i d → i.length ≤ N) (hB : 256 * (258 + N) ≤ B)
    (hk : ∀ k v, get u k = some v → k.length ≤ B ∧ v.length ≤ B) (hw : Accepts S B (6 * (iter u).length + 3) st) :
    ∃ a st', tryAttached S u st = (.ok a, st') := by
  have ho := reach_ord hu
  have hn := shape_nodes (proper_shape hu)
  exact tryAttached_can (L := L) hid hB (shape_fit ho (proper_shape hu) fun k v e => hk k v (by rw [get_eq_den _ _ ho]; exact e)) (hw.le (by omega))

end

end Radix

namespace Radix.Paged
open Node

variable {dbg : Bool} {ps : Nat}

/-- **C74** for paged files with pages of at least 68104 bytes. Let a tree in an open paged file have `n` entries with keys and values that fit a page
each (at most the page size minus 8 bytes).  If the operating system reports no errors and the file does not become too long, `try_reattach`
succeeds. -/
theorem C74_paged_partial {h8 : 8 ≤ ps} {h32 : ps < 2 ^ 32 + 8} (hps : 68104 ≤ ps) {long : Bool} {st : Hist} {a : SNode} {m : Spec.Map}
    (h : Att (pagedStore dbg ps) (pagedLawful dbg ps h8 h32) long st a m) {u : Node} (hu : Proper u) (hm : ∀ k, get u k = m k)
    (hk : ∀ k v, m k = some v → k.length ≤ ps - 8 ∧ v.length ≤ ps - 8)
    (ho : (st.world dbg ps).store ≠ none) (hc : ∀ evs ∈ st.coming, NoFault evs)
    (hl : (st.world dbg ps).file.length + (6 * (iter u).length + 4) * (2 * ps) ≤ maxFile) :
    ∃ a' i st', tryReattach (pagedStore dbg ps) a st = (.ok (a', i), st') :=
  C74_reattach_partial h paged_ids (by omega) hu hm hk (paged_accepts h8 h32 _ ho hc hl)

/-- **C74** for paged files: a tree in memory can be stored, under the same conditions. -/
theorem C74_paged_attach_partial (hps : 68104 ≤ ps) (h32 : ps < 2 ^ 32 + 8) {st : Hist} {u : Node} (hu : Proper u)
    (hk : ∀ k v, get u k = some v → k.length ≤ ps - 8 ∧ v.length ≤ ps - 8)
    (ho : (st.world dbg ps).store ≠ none) (hc : ∀ evs ∈ st.coming, NoFault evs)
    (hl : (st.world dbg ps).file.length + (6 * (iter u).length + 3) * (2 * ps) ≤ maxFile) :
    ∃ a st', tryAttached (pagedStore dbg ps) u st = (.ok a, st') :=
  C74_attach_partial (pagedLawful dbg ps (by omega) h32) hu paged_ids (by omega) hk (paged_accepts (by omega) h32 _ ho hc hl)

/-- Ten entries with keys of one byte and values of 100 bytes. -/
def exTen : Node := fromIter ((List.range 10).map fun i => ([UInt8.ofNat i], List.replicate 100 7))

/-- **C74** is false for small pages.  With pages of 1024 bytes a tree of ten entries with keys of one byte and values of 100 bytes cannot be stored, although
the operating system reports no error: the children of a node are stored in one blob, here of 1040 bytes. -/
theorem C74_false : ∃ u st, Proper u ∧ (∀ e ∈ iter u, e.1.length ≤ 1 ∧ e.2.length ≤ 100) ∧ (st.world true 1024).store ≠ none ∧ st.coming = [] ∧
    (st.world true 1024).file.length < 10000 ∧ (tryAttached (pagedStore true 1024) u st).1 = .err () := by
  refine ⟨exTen, exOpen, .fromIter _, by decide +kernel, ?_, rfl, by decide +kernel, ?_⟩
  rotate_left
  · have h : (match (tryAttached (pagedStore true 1024) exTen exOpen).1 with | .err () => true | _ => false) = true := by decide +kernel
    rcases e : (tryAttached (pagedStore true 1024) exTen exOpen).1 with _ | _ | _ | _ <;> rw [e] at h <;> first | rfl | cases h
  have h : ((exOpen.world true 1024).store).isSome := by decide +kernel
  intro e
  rw [e] at h
  cases h

/-- Storing the same tree in pages of 68104 bytes. -/
def exStored : Res Unit SNode × Hist := tryAttached (pagedStore true 68104) exTen exOpen

theorem exTen_fits : ∀ k v, get exTen k = some v → k.length ≤ 68104 - 8 ∧ v.length ≤ 68104 - 8 := fun k v h => by
  have hu : Proper exTen := .fromIter _
  have := (mem_iter (reach_ord hu) k v).2 h
  have hh : ∀ e ∈ iter exTen, e.1.length ≤ 68104 - 8 ∧ e.2.length ≤ 68104 - 8 := by decide +kernel
  exact hh _ this

/-- The hypotheses of `C74_paged_attach_partial` and `C74_paged_partial` are met. -/
example : Proper exTen ∧ (iter exTen).length = 10 ∧ (exOpen.world true 68104).store.isSome ∧ exOpen.coming = [] ∧
    (exOpen.world true 68104).file.length + (6 * (iter exTen).length + 3) * (2 * 68104) ≤ maxFile ∧
    ∃ a, Att (pagedStore true 68104) (pagedLawful true 68104 (by decide) (by decide)) true exStored.2 a (get exTen) ∧
      (exStored.2.world true 68104).store.isSome ∧ exStored.2.coming = [] ∧
      (exStored.2.world true 68104).file.length + (6 * (iter exTen).length + 4) * (2 * 68104) ≤ maxFile := by
  refine ⟨.fromIter _, by decide +kernel, by decide +kernel, rfl, by decide +kernel, ?_⟩
  have h : (exStored.1.toOption).isSome := by decide +kernel
  rcases e : exStored with ⟨a | _ | _ | _, st⟩
  · refine ⟨a, .attach (st := exOpen) (.fromIter _) (fun h => by cases h) e, ?_⟩
    show _ ∧ _ ∧ _
    obtain rfl : st = exStored.2 := by rw [e]
    dsimp only
    decide +kernel
  all_goals rw [e] at h; cases h

end Radix.Paged

namespace Radix.Browser
open Node Radix.Spec

variable {cache : Cache} {name : Name} {hp : Plain name} {hu : Unused cache name}

/-- **C74** for files in a browser. Let a tree in an open file have `n` entries with keys and values of at most `B` bytes each, where `B` is at least
68096. If the browser reports no errors and the file stays shorter than 2 GiB when `6 * n + 4` blobs of `B` bytes are added, `try_reattach` succeeds. -/
theorem C74_browser_partial {B : Nat} (hB : 68096 ≤ B) {long : Bool} {st : FileHist} {a : SNode} {m : Spec.Map}
    (h : Att (fileStore cache name) (fileLawful hp hu) long st a m) {u : Node} (hu' : Proper u) (hm : ∀ k, get u k = m k)
    (hk : ∀ k v, m k = some v → k.length ≤ B ∧ v.length ≤ B) (ho : (run (fresh cache name) st.calls).handle.isSome)
    (hc : ∀ evs ∈ st.coming, Calm evs) (hn : st.calls.length + (6 * (iter u).length + 4) ≤ 2 ^ 64)
    (hl : reach 0 st.calls + (6 * (iter u).length + 4) * (B + 4) < 2 ^ 31) :
    ∃ a' i st', tryReattach (fileStore cache name) a st = (.ok (a', i), st') :=
  C74_reattach_partial h file_ids (by omega) hu' hm hk (file_accepts hp hu _ _ ho hc hn hl)

/-- **C74** for files in a browser: a tree in memory can be stored, under the same conditions. -/
theorem C74_browser_attach_partial {B : Nat} (hB : 68096 ≤ B) (hp : Plain name) (hu : Unused cache name) {st : FileHist} {u : Node} (hu' : Proper u)
    (hk : ∀ k v, get u k = some v → k.length ≤ B ∧ v.length ≤ B) (ho : (run (fresh cache name) st.calls).handle.isSome)
    (hc : ∀ evs ∈ st.coming, Calm evs) (hn : st.calls.length + (6 * (iter u).length + 3) ≤ 2 ^ 64)
    (hl : reach 0 st.calls + (6 * (iter u).length + 3) * (B + 4) < 2 ^ 31) :
    ∃ a st', tryAttached (fileStore cache name) u st = (.ok a, st') :=
  C74_attach_partial (fileLawful hp hu) hu' file_ids (by omega) hk (file_accepts hp hu _ _ ho hc hn hl)

/-- Storing the ten entries in a file. -/
def exStored : Res Unit SNode × FileHist := tryAttached (fileStore exCache exName) Paged.exTen exOpen

/-- The hypotheses of `C74_browser_attach_partial` and `C74_browser_partial` are met, with `B = 68096`. -/
example : (run (fresh exCache exName) exOpen.calls).handle.isSome ∧ exOpen.coming = [] ∧
    reach 0 exOpen.calls + (6 * (iter Paged.exTen).length + 3) * (68096 + 4) < 2 ^ 31 ∧
    ∃ a, Att (fileStore exCache exName) (fileLawful exPlain exUnused) true exStored.2 a (get Paged.exTen) ∧
      (run (fresh exCache exName) exStored.2.calls).handle.isSome ∧ exStored.2.coming = [] ∧
      reach 0 exStored.2.calls + (6 * (iter Paged.exTen).length + 4) * (68096 + 4) < 2 ^ 31 := by
  refine ⟨by decide +kernel, rfl, by decide +kernel, ?_⟩
  have h : (exStored.1.toOption).isSome := by decide +kernel
  rcases e : exStored with ⟨a | _ | _ | _, st⟩
  · refine ⟨a, .attach (st := exOpen) (.fromIter _) (fun h => by cases h) e, ?_⟩
    show _ ∧ _ ∧ _
    obtain rfl : st = exStored.2 := by rw [e]
    dsimp only
    decide +kernel
  all_goals rw [e] at h; cases h

end Radix.Browser
