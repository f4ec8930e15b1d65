import Verif.Proofs.PagedView
import Verif.Props.Paged

/-
C76: bytes that were read from a paged file stay as they are.

The blob that a read of a paged file returns may be a view of the file itself (`View.map`), through a memory map that the store shares with all other users of the page.
`View.bytes file v` are the bytes that the owner of the blob `v` sees when the file has the bytes `file`; `View.Valid file v` says that it may look at all.
-/

set_option linter.unusedVariables false

namespace Radix.Paged

variable {dbg : Bool} {ps : Nat}

/-- **C76**. After any history, if a read returns bytes, then the blob shows these bytes now and after everything that happens later: writes that succeed, fail or are
interrupted, reads, closing the store and opening the file again, any number of times. The file never becomes so short that the blob is not in it. There is no condition on the sizes
of blobs or pages, apart from page size 0. -/
theorem C76_paged (h8 : 8 ≤ ps) (ops : List Op) {id bs : Bytes} {evs : List Ev}
    (hr : (step dbg ps (run dbg ps fresh ops) (.read id evs)).1 = .bytes (.ok bs)) :
    ∃ s v s', (run dbg ps fresh ops).store = some s ∧ readView dbg id { s with evs := evs } = (.ok v, s') ∧
      ∀ later, v.Valid (run dbg ps fresh (ops ++ .read id evs :: later)).file ∧
        v.bytes (run dbg ps fresh (ops ++ .read id evs :: later)).file = bs := by
  have hre := st_reach (dbg := dbg) h8 ops (Or.inl rfl)
  simp only [run_append, run]
  generalize run dbg ps fresh ops = W at hre hr
  cases hs : W.store with
  | none => simp only [step, hs] at hr; cases hr
  | some s =>
    rcases hre with rfl | ⟨c, B, hst⟩
    · cases hs
    have hr' : (read dbg id { s with evs := evs }).1 = .ok bs := by
      simp only [step, hs] at hr
      injection hr
    have hsh := shown_readView (dbg := dbg) id { s with evs := evs }
    have hcalm := calm_readView (dbg := dbg) id { s with evs := evs }
    have hstep : (step dbg ps W (.read id evs)).2 = after (read dbg id { s with evs := evs }) := by simp only [step, hs]
    rcases e : readView dbg id { s with evs := evs } with ⟨o, s'⟩
    rw [e] at hsh hcalm
    rw [hsh] at hr'
    cases o with
    | ok v =>
      have hbs : v.bytes s'.data = bs := by simpa [Out.show] using hr'
      refine ⟨s, v, s', rfl, e, fun later => ?_⟩
      cases v with
      | own x => exact ⟨trivial, hbs⟩
      | map start len =>
        obtain ⟨c1, B1, h1, h2, h3⟩ := st_step (dbg := dbg) h8 hst (.read id evs)
        obtain ⟨c2, B2, g1, g2, g3⟩ := st_run (dbg := dbg) h8 later h1
        have hplace : 4096 ≤ start ∧ start + len ≤ 4096 + s.lastId := by
          obtain ⟨H, w, hat, hf, hst⟩ := hst
          rw [hs] at hst
          rcases hst with hst | ⟨hst, hl⟩
          · cases hst
          cases hst
          have hp : 0 < s.pageSize := by have := hat.psz; dsimp only at this; omega
          unfold readView at e
          split at e
          · exact bytesView_place (w := { s with evs := evs }) hp e
          · cases e
        have hlow : s.lastId ≤ c := by
          obtain ⟨H, w, hat, hf, hst⟩ := hst
          rw [hs] at hst
          rcases hst with hst | ⟨hst, hl⟩
          · cases hst
          · cases hst; exact hl
        have hfile : W.file = s'.data := by
          obtain ⟨H, w, hat, hf, hst⟩ := hst
          rw [hs] at hst
          rcases hst with hst | ⟨hst, hl⟩
          · cases hst
          · cases hst; rw [hf]; exact hcalm.1.symm
        have hall : B2.take c = B.take c := by
          have := congrArg (List.take c) g3
          rw [List.take_take, List.take_take, Nat.min_eq_left h2] at this
          rw [this, h3]
        obtain ⟨a, b⟩ := view_stays hst g1 (Nat.le_trans h2 g2) hall hplace.1 (Nat.le_trans hplace.2 (by omega))
        exact ⟨a, b.trans (by rw [hfile]; exact hbs)⟩
    | err => cases hr'
    | panic => cases hr'
    | crash => cases hr'

/-- A history in which a blob is read from a page that is full, and then more is written, in part unsuccessfully, and the file is opened again. -/
def viewOps : List Op :=
  [.open [], .write [1, 2, 3] [], .write (List.replicate 14 4) [], .write [5] []]

/-- See `viewOps`. -/
def viewLater : List Op :=
  [.write [10, 11, 12, 13] [.fail 2], .open [.crash 0], .open [], .write [6, 7] [], .write (List.replicate 15 8) [.ok, .ok, .crash 1], .open [], .write [9] []]

/-- The hypotheses are met; the blob is a view of the file, which is changed afterwards. -/
example : (step true 24 (run true 24 fresh viewOps) (.read [0, 0, 0, 0, 0, 0, 0, 7] [])).1 = .bytes (.ok [1, 2, 3]) ∧
    (run true 24 fresh viewOps).store.map (fun s => (readView true [0, 0, 0, 0, 0, 0, 0, 7] s).1) = some (.ok (.map 4096 3)) ∧
    (run true 24 fresh viewOps).file ≠ (run true 24 fresh (viewOps ++ viewLater)).file := by decide +kernel

end Radix.Paged
