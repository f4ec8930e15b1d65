import Verif.Proofs.ThreadMaps
import Verif.Props.AttThreads
import Verif.Props.AttSafe
import Verif.Proofs.Mem
import Verif.Props.Shared

/-
Property C87: threads that use trees in one store, which keeps what is written, see maps. Schedules (`TEvent`, `TWorld.run`) are defined in `Verif/Heap/AttThreads.lean`, `TRuns` in `Verif/Props/AttThreads.lean`, what may be seen
(`MSees`, `Lasting`, `OneOrder`) in `Verif/Spec/ThreadMaps.lean`.
-/

set_option linter.unusedVariables false

namespace Radix.Kept
open Radix
open Radix.Heap.Att
open Radix.Spec (Map)
open Radix.Spec.Kept

section
variable {σ ε : Type} {S : BlobStore σ ε} {mask : Nat → Nat → List Bool} {n : Nat} (L : Lawful S)

theorem runs_seen {c : Nat} {es : List (TEvent σ ε)} {Q : List (TSeen σ ε) → Prop} (h : ∀ es1 seen ws, THappensAll S mask n (tworkers c) es1 seen ws → Q seen) : TRuns S mask n c es fun _ seen => Q seen :=
  .of fun es1 w seen P owns _ _ p => h es1 seen P p

/-! ### C87 -/

/-- In every schedule, what the threads see is what the maps say, call for call, if the store has, at the start of each call, everything that it had when earlier calls returned. A map that a thread has saved can be loaded
by every thread, and a tree that was handed over has the same contents for the other thread. -/
theorem C87_like_maps (c : Nat) (es : List (TEvent σ ε)) : TRuns S mask n c es fun _ seen => Lasting L [] seen → ∃ w, MSees L (MWorld.start c) seen w := by
  refine runs_seen fun es1 seen ws p hk => ?_
  obtain ⟨w, h1, _⟩ := msees_ok p (WRel.start c) hk
  exact ⟨w, h1⟩

/-- In particular this holds if the threads write to one store at the same time, and the store makes the writes one after the other: each call sees the writes of the others while it runs (`shared`). -/
theorem C87_one_store (st : σ) (mask : Nat → Nat → List Bool) (n c : Nat) (es : List (TEvent Sharing ε)) :
    TRuns (shared S st) mask n c es fun _ seen => ∀ G, OneOrder G 0 seen → ∃ w, MSees (sharedLawful L st) (MWorld.start c) seen w := by
  refine runs_seen fun es1 seen ws p G hk => ?_
  obtain ⟨w, h1, _⟩ := msees_ok p (WRel.start c) (lasting_of_order L st seen 0 [] (fun s h => by cases h) hk)
  exact ⟨w, h1⟩

/-- Whatever the threads have seen so far, a call about things that are known does not panic, if the stack is deep enough. What is missing: of calls that combine trees and read an attached one, only those are
covered for which the keys of the two maps fit (`Safe`); others can panic (`C81_false`). -/
theorem C87_next_call_partial {c : Nat} {es : List (TEvent σ ε)} {seen : List (TSeen σ ε)} {ws : List (TWorker σ ε)} (h : THappensAll S mask n (tworkers c) es seen ws) (hk : Lasting L [] seen) :
    ∃ w, MSees L (MWorld.start c) seen w ∧ ∀ i l op st, w.threads[i]? = some ⟨l, none⟩ → (∀ st0 ∈ returned seen, Mono L st0 st) → Safe L st ⟨l, w.saved⟩ op →
      ∃ N, ∀ n', N ≤ n' → ¬ TStuck S mask n' ws (.call i (.op op) st) := by
  obtain ⟨w, h1, h2⟩ := msees_ok h (WRel.start c) hk
  exact ⟨w, h1, fun i l op st hi hm hs => safe_call h2 hi (fun st0 h0 => hm st0 (by simpa using h0)) hs⟩

end

/-! ### Two threads save their trees at the same time -/

/-- A call and enough steps for it to return. -/
def swhole (i : Nat) (c : Op Sharing Unit) (s : Sharing) : List (TEvent Sharing Unit) := .call i (.op c) s :: tturns 60 [.tick i]

/-- This has been written so far; nobody else writes during the call. -/
def quiet (l : List Bytes) : Sharing := ⟨l.map fun d => (false, d), [], fun _ => []⟩

/-- Both threads make a tree with a long value. -/
def exTrees : List (TEvent Sharing Unit) :=
  swhole 0 (.single [1, 2] (List.replicate 200 4)) (quiet []) ++ swhole 0 (.insert 0 [1, 3] [3]) (quiet []) ++ swhole 1 (.single [5] (List.replicate 150 6)) (quiet []) ++ swhole 1 (.insert 0 [5, 5] [7]) (quiet [])

/-- What a call that saves the tree writes itself, if the others do this. -/
def writesOf (ops : List (Op Sharing Unit)) (before : List (List Bytes)) : List Bytes :=
  match prun (shared memStore []) exMask 20 (Sharing.start before fun _ => [], []) ops with
  | some (_, s, _) => ownWrites s
  | none => []

/-- The first thing that thread 0 writes. -/
def exFirst : List Bytes := (writesOf [.single [1, 2] (List.replicate 200 4), .insert 0 [1, 3] [3], .attached 0] []).take 1

/-- What thread 1 writes: thread 0 has written once when it begins. -/
def exSecond : List Bytes := writesOf [.single [5] (List.replicate 150 6), .insert 0 [5, 5] [7], .attached 0] [exFirst]

/-- All that is written: thread 1 makes its writes between the first and the second one of thread 0. -/
def exAll : List Bytes :=
  match prun (shared memStore []) exMask 20 (Sharing.start [[], exSecond] fun _ => [], []) [.single [1, 2] (List.replicate 200 4), .insert 0 [1, 3] [3], .attached 0, .reattach 1] with
  | some (_, s, _) => s.log.map fun e => e.2
  | none => []

/-- Both trees are attached at the same time, by calls whose steps alternate; then thread 0 saves its tree, and thread 1 loads it and looks, while thread 0 does. -/
def exSaving : List (TEvent Sharing Unit) :=
  exTrees ++ [.call 0 (.op (.attached 0)) (Sharing.start [[], exSecond] fun _ => []), .call 1 (.op (.attached 0)) (Sharing.start [exFirst] fun _ => [])] ++ tturns 80 [.tick 0, .tick 1] ++
  swhole 0 (.reattach 1) (quiet exAll.dropLast) ++ swhole 1 (.load [0, 0, 0, 0, 0, 0, 0, 5]) (quiet exAll) ++
  [.call 0 (.op (.get 1 [1, 3])) (quiet exAll), .call 1 (.op (.get 2 [1, 3])) (quiet exAll)] ++ tturns 80 [.tick 0, .tick 1] ++ swhole 1 (.get 1 [5]) (quiet exAll) ++ swhole 1 (.loadValue 4) (quiet exAll)

/-- What they see. The id is that of the fifth blob, in one order of all writes; both threads read the same. -/
example : ((TWorld.init 2).run (shared memStore []) exMask 20 exSaving).map (fun r => (tretsOf 0 r.2, tretsOf 1 r.2)) =
    some ([.unit, .unit, .unit, .bytes [0, 0, 0, 0, 0, 0, 0, 5], .value (some (.data [3]))],
      [.unit, .unit, .unit, .unit, .value (some (.data [3])), .value (some (.id [0, 0, 0, 0, 0, 0, 0, 2])), .bytes (List.replicate 150 6)]) := by decide +kernel

/-- `OneOrder`, computed. -/
def orderB (G : List Bytes) : Nat → List (TSeen Sharing Unit) → Bool
  | _, [] => true
  | m, .call _ c s :: seen => (s.log.map fun e => e.2).isPrefixOf G && decide (m ≤ s.log.length) && (match c with | .op (.outside _) => false | _ => true) && orderB G m seen
  | m, .ret _ _ s :: seen => (s.log.map fun e => e.2).isPrefixOf G && orderB G (max m s.log.length) seen
  | m, .send _ _ _ :: seen => orderB G m seen

theorem order_of {G : List Bytes} : ∀ (m : Nat) (seen : List (TSeen Sharing Unit)), orderB G m seen = true → OneOrder G m seen
  | _, [], _ => trivial
  | m, .call _ c s :: seen, h => by
    simp only [orderB, Bool.and_eq_true, List.isPrefixOf_iff_prefix, decide_eq_true_eq] at h
    exact ⟨h.1.1.1, h.1.1.2, fun g e => by rw [e] at h; simp at h, order_of m seen h.2⟩
  | m, .ret _ _ s :: seen, h => by
    simp only [orderB, Bool.and_eq_true, List.isPrefixOf_iff_prefix] at h
    exact ⟨h.1, order_of _ seen h.2⟩
  | m, .send _ _ _ :: seen, h => order_of m seen h

theorem lasting_last {σ ε : Type} {S : BlobStore σ ε} {L : Lawful S} {i : Nat} {c : Call σ ε} {st : σ} : ∀ (seen : List (TSeen σ ε)) (past : List σ), Lasting L past (seen ++ [.call i c st]) →
    Lasting L past seen ∧ ∀ st0, st0 ∈ returned seen ∨ st0 ∈ past → Mono L st0 st
  | [], past, h => ⟨trivial, fun st0 h0 => h.1 st0 (by simpa [returned] using h0)⟩
  | .call _ _ _ :: seen, past, ⟨h1, h2, h3⟩ => ⟨⟨h1, h2, (lasting_last seen past h3).1⟩, (lasting_last seen past h3).2⟩
  | .ret _ _ st1 :: seen, past, h => ⟨(lasting_last seen (st1 :: past) h).1, fun st0 h0 => (lasting_last seen (st1 :: past) h).2 st0 (by
      rcases h0 with h0 | h0
      · rcases List.mem_cons.1 (show st0 ∈ st1 :: returned seen from h0) with rfl | h0
        · exact .inr List.mem_cons_self
        · exact .inl h0
      · exact .inr (.tail _ h0))⟩
  | .send _ _ _ :: seen, past, h => lasting_last seen past h

/-- The schedule runs to its end, the writes come in one order, and so the threads see what the maps say. -/
example : ∃ w seen ws m, (TWorld.init 2).run (shared memStore []) exMask 20 exSaving = some (w, seen) ∧ THappensAll (shared memStore []) exMask 20 (tworkers 2) exSaving seen ws ∧ OneOrder exAll 0 seen ∧
    MSees (sharedLawful memLawful []) (MWorld.start 2) seen m := by
  obtain ⟨w, seen, ws, h1, h2⟩ := both_run (S := shared memStore []) (mask := exMask) (n := 20) exSaving _ _ _ (WTell.init 2) (by decide +kernel)
  have h3 : ((TWorld.init 2).run (shared memStore []) exMask 20 exSaving).map (fun r => orderB exAll 0 r.2) = some true := by decide +kernel
  rw [h1] at h3
  have h4 : OneOrder exAll 0 seen := order_of 0 seen (by simpa using h3)
  obtain ⟨m, h5, _⟩ := msees_ok (L := sharedLawful memLawful []) h2 (WRel.start 2) (lasting_of_order memLawful [] seen 0 [] (fun s h => by cases h) h4)
  exact ⟨w, seen, ws, m, h1, h2, h4, h5⟩

/-- At the end, thread 0 may look something up: this call does not panic. -/
example : ∃ seen ws, THappensAll (shared memStore []) exMask 20 (tworkers 2) exSaving seen ws ∧ Lasting (sharedLawful memLawful []) [] seen ∧ ∀ st0 ∈ returned seen, Mono (sharedLawful memLawful []) st0 (quiet exAll) := by
  obtain ⟨w, seen, ws, h1, h2⟩ := both_run (S := shared memStore []) (mask := exMask) (n := 20) exSaving _ _ _ (WTell.init 2) (by decide +kernel)
  have h3 : ((TWorld.init 2).run (shared memStore []) exMask 20 exSaving).map (fun r => orderB exAll 0 (r.2 ++ [.call 0 (.next 0) (quiet exAll)])) = some true := by decide +kernel
  rw [h1] at h3
  have h4 : OneOrder exAll 0 (seen ++ [.call 0 (.next 0) (quiet exAll)]) := order_of 0 _ (by simpa using h3)
  have h5 := lasting_of_order memLawful [] _ 0 [] (fun s h => by cases h) h4
  obtain ⟨h6, h7⟩ := lasting_last seen [] h5
  exact ⟨seen, ws, h2, h6, fun st0 h0 => h7 st0 (.inl h0)⟩

end Radix.Kept
