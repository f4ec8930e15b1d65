import Verif.Proofs.AttMapsStep
import Verif.Props.Attached
import Verif.Proofs.Mem

/-
Property C80: what programs see that hold any number of trees attached to a store, detached trees, values, keys and iterators, told with maps.
Sessions (`Op`, `Obs`, `run`) are defined in `Verif/Heap/AttSession.lean`, what they may see (`World`, `Step`, `Run`, `Keeping`) in `Verif/Spec/AttMaps.lean`; `Sees` and `Fine` are defined in
`Verif/Props/Attached.lean`.
-/

set_option linter.unusedVariables false

namespace Radix.Kept
open Radix
open Radix.Heap.Att (Op Obs Sees Fine)
open Radix.Spec (Map)
open Radix.Spec.Kept

section
variable {σ ε : Type} {S : BlobStore σ ε} {mask : Nat → Nat → List Bool} {n : Nat} (L : Lawful S)

theorem run_sees {st st' : σ} {ops : List (Op σ ε)} {os : List (Obs ε)} {c : Nat} {w : World} (hr : Rel L st [] w) (hk : Keeping L ops) (hf : Fine S mask n st ops)
    (h : Sees S mask n st ops os st' c) : ∃ w', Run L st w ops os st' w' ∧ w'.items.length = c ∧ ∀ id m, w'.saved id = some m → Saved L st' id m := by
  obtain ⟨os1, st1, o1, e1⟩ := hf.run
  obtain ⟨rfl, rfl, rfl⟩ := h.eq e1
  obtain ⟨w', h1, h2⟩ := run_ok mask n ops hr hk e1
  exact ⟨w', h1, h2.1.1.symm, h2.2⟩

/-! ### C80 -/

/-- A program in memory, where things share memory, sees what the maps say, call for call: an answer is the answer of a plain map, or an error, and then there is a reason for it. -/
theorem C80_like_maps {st st' : σ} {ops : List (Op σ ε)} {os : List (Obs ε)} {c : Nat} (hk : Keeping L ops) (hf : Fine S mask n st ops) (h : Sees S mask n st ops os st' c) :
    ∃ w, Run L st World.empty ops os st' w ∧ w.items.length = c := by
  obtain ⟨w, h1, h2, -⟩ := run_sees L (rel_empty st) hk hf h
  exact ⟨w, h1, h2⟩

/-- The program ends, and another one starts with nothing in its hands, at a time when the store has everything that it had. It can load what the first one has saved: it sees what the maps
say, where the ids that `reattach` gave to the first program stand for the maps of then. -/
theorem C80_restart {st st1 st2 st3 : σ} {ops ops' : List (Op σ ε)} {os os' : List (Obs ε)} {c c' : Nat} (hk : Keeping L ops) (hf : Fine S mask n st ops) (h : Sees S mask n st ops os st1 c)
    (hm : Mono L st1 st2) (hk' : Keeping L ops') (hf' : Fine S mask n st2 ops') (h' : Sees S mask n st2 ops' os' st3 c') :
    ∃ w w', Run L st World.empty ops os st1 w ∧ w.items.length = c ∧ Run L st2 ⟨[], w.saved⟩ ops' os' st3 w' ∧ w'.items.length = c' := by
  obtain ⟨w, h1, h2, h3⟩ := run_sees L (rel_empty st) hk hf h
  have hr : Rel L st1 [] ⟨[], w.saved⟩ := ⟨⟨rfl, fun i ob x h => by cases h⟩, h3⟩
  obtain ⟨w', h4, h5, -⟩ := run_sees L (hr.mono hm) hk' hf' h'
  exact ⟨w, w', h1, h2, h4, h5⟩

end

/-! ### Concrete sessions -/

open Radix.Heap.Att (exBefore exMask seesB sees_of)

/-- A tree with a long value is attached to a `MemStore` (slot 1) and saved; others write to the store; the tree is cloned (slot 2) and changed, an iterator is made over the clone, and groups. -/
def exSession : List (Op MemState Unit) :=
  exBefore ++ [.reattach 1, .outside (fun st => (memStore.write st [7, 7]).2), .clone 1, .remove 1 [1, 2], .iter 2, .next 3, .groupBy 2, .nextGroup 6 (fun p => .ok (p.length < 2)), .get 1 [1, 2],
    .outerCombineWith 1 2 .identity (fun _ _ => .ok .take), .get 1 [1, 2]]

/-- What another program does with the saved tree. -/
def exLater : List (Op MemState Unit) := [.load [0, 0, 0, 0, 0, 0, 0, 5], .get 0 [1, 2], .loadValue 1, .get 0 [1, 3], .loadValue 2]

/-- The store after `exSession`. -/
def exEnd : MemState := match seesB exSession with | some (_, st, _) => st | none => []

theorem exSession_keeping : Keeping memLawful exSession := by
  intro op ho g hg st
  simp only [exSession, exBefore, List.cons_append, List.nil_append, List.mem_cons, List.not_mem_nil, or_false] at ho
  subst hg
  simp only [reduceCtorEq, false_or, or_false, Op.outside.injEq] at ho
  subst ho
  exact write_mono memLawful st [7, 7]

/-- What `exSession` sees. -/
def exSeen : List (Obs Unit) :=
  [.unit, .unit, .unit, .unit, .unit, .bytes [0, 0, 0, 0, 0, 0, 0, 5], .unit, .unit, .unit, .unit, .entry (some ([1], .data [2])), .unit, .bool true, .value none, .unit, .value (some (.data [3]))]

example : Sees memStore exMask 20 [] exSession exSeen exEnd 10 := sees_of (by decide +kernel)
example : Fine memStore exMask 20 [] exSession := by show Option.isSome _ = true; decide +kernel
example : Mono memLawful exEnd (memStore.write exEnd [1]).2 := write_mono memLawful _ _
example : Keeping memLawful exLater := by simp [Keeping, exLater]
example : Fine memStore exMask 20 (memStore.write exEnd [1]).2 exLater := by show Option.isSome _ = true; decide +kernel
example : Fine memStore exMask 20 exEnd exLater ∧
    (Radix.Heap.Att.prun memStore exMask 20 (exEnd, []) exLater).map (fun r => (r.1, r.2.2.length)) =
      some ([.unit, .value (some (.data [3])), .bytes [3], .value (some (.id [0, 0, 0, 0, 0, 0, 0, 1])), .bytes (List.replicate 200 4)], 3) :=
  ⟨by show Option.isSome _ = true; decide +kernel, by decide +kernel⟩

end Radix.Kept
