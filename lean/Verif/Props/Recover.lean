import Verif.Props.Browser
import Verif.Proofs.BrowserRecover

/-
C92 and C93: the functions that clean up the chunks of a browser file.
-/

set_option linter.unusedVariables false

namespace Radix.Browser

open Radix.Spec

variable {cache : Cache} {name : Name}

theorem recoverWorld_spec {w : World} (h : WInv w) (evs : List Ev) : WInv (recoverWorld w evs).2 ∧ (recoverWorld w evs).2.name = w.name ∧
    (∀ p, BeforeGap (chunksOf w.cache w.name) p → (recoverWorld w evs).2.bytes p = w.bytes p) ∧
    ((recoverWorld w evs).1 = .ok () → Tidy (· ∈ chunksOf (recoverWorld w evs).2.cache w.name) ∧
      ∀ p, (∃ d ∈ chunksOf (recoverWorld w evs).2.cache w.name, Covers d p) ↔ BeforeGap (chunksOf w.cache w.name) p) := by
  have hi : Inv { openFile w.cache w.name with evs := evs } := ⟨h.1, rfl⟩
  obtain ⟨w', r, e, hnx, hinv, hb, ht⟩ := recover_spec hi
  obtain ⟨h1, h2, h3, h4⟩ := winv_after (r := r) hnx.inv hinv
  have hw : recoverWorld w evs = (r, after (r, w')) := by unfold recoverWorld; rw [e]
  have hn : w'.name = w.name := hnx.name
  rw [hw]
  dsimp only
  refine ⟨h1, h3.trans hn, fun p hp => ?_, fun hr => ?_⟩
  · rw [h2]; exact hb p hp
  · have hch : w'.chunks = chunksOf (after (r, w')).cache w.name := by rw [h4, ← hn]; exact (hinv (by rw [hr]; simp)).2
    rw [← hch]
    exact ht hr

/-- **C92**. Let a file have any history of calls (with failures of the browser, and the page closed at any point). Then it is opened and cleaned up, with anything happening
to the cache operations of that, and anything is called afterwards. What is seen afterwards is explained by contents that have the same bytes as before as far as there is
no gap between the chunks. If cleaning up returned `Ok`, all bytes behind that are 0. -/
theorem C92_bytes (hp : Plain name) (hu : Unused cache name) (cs : List Call) (evs : List Ev) (more : List Call) :
    ∃ u u' v, Possible nothing (log (fresh cache name) cs) u ∧
      Possible u' (log (recoverWorld (run (fresh cache name) cs) evs).2 more) v ∧
      (∀ p, BeforeGap (chunksOf (run (fresh cache name) cs).cache name) p → u' p = u p) ∧
      ((recoverWorld (run (fresh cache name) cs) evs).1 = .ok () →
        ∀ p, ¬ BeforeGap (chunksOf (run (fresh cache name) cs).cache name) p → u' p = 0) := by
  obtain ⟨h1, h2⟩ := winv_fresh hp.ne hu
  obtain ⟨h3, h4, h5, -⟩ := log_possible cs h1
  have h5 : (run (fresh cache name) cs).name = name := h5
  rw [h2] at h3
  obtain ⟨h6, h7, h8, h9⟩ := recoverWorld_spec h4 evs
  have h10 := (log_possible more h6).1
  rw [h5] at h7 h8 h9
  refine ⟨_, _, _, h3, h10, h8, fun hr p hn => ?_⟩
  unfold World.bytes byteAt
  rw [h7]
  exact view_none fun c hc hcov => hn (((h9 hr).2 p).1 ⟨c, hc, hcov⟩)

/-- **C92**, in terms of calls only: if nothing was ever cut off, then the bytes as far as they were written without a gap by writes that returned `Ok` are the same after
cleaning up, also if that fails or the page is closed in the middle of it. -/
theorem C92_written (hp : Plain name) (hu : Unused cache name) (cs : List Call) (hc : ∀ c ∈ cs, ∀ n evs, c ≠ .truncate n evs) (evs : List Ev) (more : List Call) :
    ∃ u u' v, Possible nothing (log (fresh cache name) cs) u ∧
      Possible u' (log (recoverWorld (run (fresh cache name) cs) evs).2 more) v ∧
      ∀ p, WrittenUpTo (log (fresh cache name) cs) p → u' p = u p := by
  obtain ⟨u, u', v, h1, h2, h3, -⟩ := C92_bytes hp hu cs evs more
  refine ⟨u, u', v, h1, h2, fun p hw => h3 p fun q hq => ?_⟩
  exact run_covers cs (winv_fresh hp.ne hu).1 hc (Or.inr (hw q hq))

/-- **C92**: after cleaning up has returned `Ok`, no two chunks overlap, none is empty, they are exactly what was before the first gap, and cleaning up again does nothing. -/
theorem C92_tidy (hp : Plain name) (hu : Unused cache name) (cs : List Call) (evs : List Ev)
    (hr : (recoverWorld (run (fresh cache name) cs) evs).1 = .ok ()) :
    (∀ c ∈ chunksOf (recoverWorld (run (fresh cache name) cs) evs).2.cache name, 0 < c.len) ∧
    (chunksOf (recoverWorld (run (fresh cache name) cs) evs).2.cache name).Pairwise (fun c d => overlap c.range d.range = false) ∧
    (∀ p, (∃ c ∈ chunksOf (recoverWorld (run (fresh cache name) cs) evs).2.cache name, c.offset ≤ p ∧ p < c.offset + c.len) ↔
      BeforeGap (chunksOf (run (fresh cache name) cs).cache name) p) ∧
    ∀ ops, openPlan (chunksOf (recoverWorld (run (fresh cache name) cs) evs).2.cache name) = .ok ops → ops = [] := by
  obtain ⟨h1, h2⟩ := winv_fresh hp.ne hu
  obtain ⟨-, h4, h5, -⟩ := log_possible cs h1
  have h5 : (run (fresh cache name) cs).name = name := h5
  obtain ⟨-, -, -, h9⟩ := recoverWorld_spec h4 evs
  rw [h5] at h9
  obtain ⟨h10, h11⟩ := h9 hr
  refine ⟨h10.full, ?_, h11, fun ops ho => ?_⟩
  · refine List.Pairwise.imp_of_mem (R := fun a b => a.lt b = true) (fun {a b} ha hb hab => ?_)
      (by have := sorted_chunksOf (recoverWorld (run (fresh cache name) cs) evs).2.cache name; unfold Sorted at this; exact this)
    cases ho : overlap a.range b.range with
    | false => rfl
    | true =>
      have ho := overlap_iff.1 ho
      have hla := h10.full a ha
      have hlb := h10.full b hb
      have he := h10.apart a b (max a.offset b.offset) ha hb (by unfold Covers; unfold Chunk.range at ho; dsimp only at ho; omega)
        (by unfold Covers; unfold Chunk.range at ho; dsimp only at ho; omega)
      rw [he] at hab
      exact absurd hab lt_irrefl
  · refine openPlan_tidy (sorted_chunksOf _ _) h10 (fun p hcov q hq => ?_) ho
    have := (h11 p).1 hcov
    exact (h11 q).2 fun x hx => this x (by omega)

/-- **C92**: if the browser does not fail and all offsets are below 2 GiB, cleaning up returns `Ok`. -/
theorem C92_succeeds (hp : Plain name) (hu : Unused cache name) (cs : List Call) {evs : List Ev} (he : Calm evs) (hr : reach 0 cs < 2 ^ 31)
    (hl : cs.length + 1 < 2 ^ 64) : (recoverWorld (run (fresh cache name) cs) evs).1 = .ok () := by
  obtain ⟨h1, h2⟩ := winv_fresh hp.ne hu
  obtain ⟨-, h4, h5, -⟩ := log_possible cs h1
  have hb := run_within cs (E := 0) (L := 0) h1 (by
    intro c hc
    obtain ⟨e, hem, hpe⟩ := mem_chunksOf.1 hc
    have hpe : parseRequest e.1 name = some c := hpe
    rw [hu e hem] at hpe
    exact absurd hpe (by simp))
  rw [Nat.zero_add, ← h5] at hb
  refine recover_succeeds (w := { openFile (run (fresh cache name) cs).cache (run (fresh cache name) cs).name with evs := evs }) ⟨h4.1, rfl⟩ he (hb.small hr) ?_
  intro c hc
  have := (hb c hc).2
  omega

/-- A history with overlapping writes, where the page is closed in the middle of one. -/
def exTorn : List Call := [.reopen, .write 0 [1, 2, 3, 4] [], .write 2 [5, 6, 7] [], .write 1 [9] [.ok, .crash false]]

/-- The hypotheses of C92 are met: the chunks of the history overlap; before cleaning up most of the file cannot be read, afterwards all of it can. -/
example : chunksOf (run (fresh [] exName) exTorn).cache exName = [⟨1, 0, 2⟩, ⟨1, 2, 3⟩, ⟨2, 1, 1⟩] ∧
    (log (run (fresh [] exName) exTorn) [.reopen, .read 0 5 []]).map (·.2) = [.opened, .bytes .err] ∧
    openPlan (chunksOf (run (fresh [] exName) exTorn).cache exName) = .ok [.rewrite ⟨3, 0, 1⟩, .delete ⟨1, 0, 2⟩] ∧
    (recoverWorld (run (fresh [] exName) exTorn) []).1 = .ok () ∧
    (recoverWorld (run (fresh [] exName) exTorn) [.ok, .ok, .crash true]).1 = .crash := by
  decide +kernel

example : WrittenUpTo (log (fresh [] exName) exTorn) 4 := by
  have hl : log (fresh [] exName) exTorn = [(.reopen, .opened), (.write 0 [1, 2, 3, 4] [], .done (.ok ())), (.write 2 [5, 6, 7] [], .done (.ok ())),
      (.write 1 [9] [.ok, .crash false], .done .crash)] := by decide +kernel
  rw [hl]
  intro q hq
  by_cases h : q < 4
  · exact ⟨0, [1, 2, 3, 4], [], by simp, by omega, by simp; omega⟩
  · exact ⟨2, [5, 6, 7], [], by simp, by omega, by simp; omega⟩

/-- Cleaning up does not repair everything. The length of the file can be wrong although no two chunks overlap (`C45_false`), and then it stays wrong. -/
theorem C92_length_stays : (log (fresh [] exName) [.reopen, .write 0 [1] [], .write 0 [2] [], .write 1 [3] [], .length]).map (·.2) =
      [.opened, .done (.ok ()), .done (.ok ()), .done (.ok ()), .num 1] ∧
    openPlan (chunksOf (run (fresh [] exName) [.reopen, .write 0 [1] [], .write 0 [2] [], .write 1 [3] []]).cache exName) = .ok [] := by
  decide +kernel

/-- What was written behind a gap is gone after cleaning up, although its write returned `Ok` and it could be read. -/
theorem C92_gap_lost : (log (fresh [] exName) [.reopen, .write 0 [1] [], .write 3 [4] [], .read 0 4 []]).map (·.2) =
      [.opened, .done (.ok ()), .done (.ok ()), .bytes (.ok [1, 0, 0, 4])] ∧
    (log (recoverWorld (run (fresh [] exName) [.reopen, .write 0 [1] [], .write 3 [4] []]) []).2 [.length, .read 0 4 [], .read 0 1 []]).map (·.2) =
      [.num 1, .bytes .err, .bytes (.ok [1])] := by
  decide +kernel

/-- Behind a gap, an older byte can show up if the page is closed in the middle of cleaning up: the newest chunk is deleted first. -/
theorem C92_stale : (log (fresh [] exName) [.reopen, .write 5 [1] [], .write 5 [2] [.ok, .crash false], .reopen, .read 5 6 []]).map (·.2) =
      [.opened, .done (.ok ()), .done .crash, .opened, .bytes (.ok [2])] ∧
    (log (recoverWorld (run (fresh [] exName) [.reopen, .write 5 [1] [], .write 5 [2] [.ok, .crash false]]) [.ok, .crash false]).2 [.reopen, .read 5 6 []]).map (·.2) =
      [.opened, .bytes (.ok [1])] := by
  decide +kernel

/-! ### C93: discarding chunks -/

/-- **C93** (partial: that no byte is lost is false, see below). `retain_relevant` sorts out: every chunk is kept or returned for deletion, no more and no less often than it was there. -/
theorem C93_sorts_out_partial (cs : List Chunk) : ((retainRelevant cs).1 ++ (retainRelevant cs).2).Perm cs :=
  retainLoop_perm.trans sortChunks_perm

/-- **C93** (partial). What is kept has no gap: all offsets below the end of any chunk that is kept are covered by chunks that are kept. -/
theorem C93_no_gap_partial (cs : List Chunk) : ∀ c ∈ (retainRelevant cs).1, ∀ p, p < c.offset + c.len →
    ∃ d ∈ (retainRelevant cs).1, d.offset ≤ p ∧ p < d.offset + d.len := by
  intro c hc p hp
  rcases retainLoop_covers (prev := ⟨0, 0, 0⟩) (C := fun _ => False) (by simp) c hc p hp with h | h
  · exact h.elim
  · exact h

/-- **C93** (partial). In a file where blobs were only appended (with failures and the page closed at any point), nothing is discarded. -/
theorem C93_appends_partial (hp : Plain name) (hu : Unused cache name) (cs : List Call) (hc : ∀ c ∈ cs, AppendOnly c) :
    retainRelevant (chunksOf (run (fresh cache name) cs).cache name) = (chunksOf (run (fresh cache name) cs).cache name, []) := by
  obtain ⟨h1, -⟩ := winv_fresh hp.ne hu
  obtain ⟨more, hm, -⟩ := run_holds cs h1 (holds_fresh hu) hc
  have hch : chunksOf (run (fresh cache name) cs).cache name = layout 0 more := hm.1
  rw [hch]
  have hsort : ∀ {cs : List Chunk}, Sorted cs → cs.foldr insertChunk [] = cs := by
    intro cs
    induction cs with
    | nil => intro _; rfl
    | cons c cs ih =>
      intro hs
      obtain ⟨hs1, hs2⟩ := List.pairwise_cons.1 hs
      rw [List.foldr_cons, ih hs2]
      cases cs with
      | nil => rfl
      | cons d ds => unfold insertChunk; rw [if_pos (hs1 d (by simp))]
  have hall : ∀ (ds : List Bytes) (prev : Chunk), prev.level = 0 → retainLoop prev (layout (prev.offset + prev.len) ds) = (layout (prev.offset + prev.len) ds, []) := by
    intro ds
    induction ds with
    | nil => intro prev _; rfl
    | cons d ds ih =>
      intro prev hl
      unfold layout retainLoop
      have hr : retains prev ⟨0, prev.offset + prev.len, (record d).length⟩ = true := by
        unfold retains; rw [if_pos hl]; simp [Chunk.range]
      rw [if_pos hr]
      have := ih ⟨0, prev.offset + prev.len, (record d).length⟩ rfl
      dsimp only at this ⊢
      rw [this]
  unfold retainRelevant
  rw [hsort (by rw [← hch]; exact sorted_chunksOf _ _)]
  exact hall more ⟨0, 0, 0⟩ rfl

/-- **C93** is false as it stands: a file that was written three times at the same place has one chunk, and this one is discarded. -/
theorem C93_false : (log (fresh [] exName) [.reopen, .write 0 [1] [], .write 0 [2] [], .write 0 [3] [], .read 0 1 []]).map (·.2) =
      [.opened, .done (.ok ()), .done (.ok ()), .done (.ok ()), .bytes (.ok [3])] ∧
    retainRelevant (chunksOf (run (fresh [] exName) [.reopen, .write 0 [1] [], .write 0 [2] [], .write 0 [3] []]).cache exName) = ([], [⟨2, 0, 1⟩]) := by
  decide +kernel

/-- Some chunks are kept and others are not. -/
example : retainRelevant [⟨1, 2, 3⟩, ⟨0, 0, 4⟩, ⟨0, 9, 1⟩, ⟨3, 0, 1⟩] = ([⟨0, 0, 4⟩, ⟨1, 2, 3⟩], [⟨0, 9, 1⟩, ⟨3, 0, 1⟩]) := by decide +kernel

/-- The hypothesis of `C93_appends_partial` is met. -/
example : (∀ c ∈ [Call.reopen, .put [1, 2] [], .put [] [.fail], .put [3] []], AppendOnly c) ∧
    chunksOf (run (fresh [] exName) [.reopen, .put [1, 2] [], .put [] [.fail], .put [3] []]).cache exName = [⟨0, 0, 6⟩, ⟨0, 6, 5⟩] := by
  refine ⟨?_, by decide +kernel⟩
  intro c hc
  simp only [List.mem_cons, List.not_mem_nil, or_false] at hc
  rcases hc with rfl | rfl | rfl | rfl <;> simp [AppendOnly]

end Radix.Browser
