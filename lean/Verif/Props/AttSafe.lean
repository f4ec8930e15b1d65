import Verif.Proofs.AttMapsEnds
import Verif.Props.AttMaps
import Verif.Props.NoPanicWith
import Verif.Proofs.SessionMap

/-
Property C81: programs that hold trees attached to a store, detached trees, values, keys and iterators do not panic.
Sessions (`Op`, `Obs`, `run`) are defined in `Verif/Heap/AttSession.lean`, what they may see (`World`, `Step`, `Run`, `Keeping`) in `Verif/Spec/AttMaps.lean`, which calls must not panic
(`Safe`, `AllSafe`) in `Verif/Spec/AttSafe.lean`; `Sees` and `Fine` are defined in `Verif/Props/Attached.lean`.
-/

set_option linter.unusedVariables false

namespace Radix.Kept
open Radix
open Radix.Heap.Att (Op Obs Sees Fine prun pstep prun_append prun_split)
open Radix.Spec (Map IsEntries)
open Radix.Spec.Kept

section
variable {σ ε : Type} {S : BlobStore σ ε} {mask : Nat → Nat → List Bool} (L : Lawful S)

/-- The depth that is needed is not more for a larger bound, and what is seen does not depend on the bound. -/
theorem C81_depth {st st' : σ} {ops : List (Op σ ε)} {os : List (Obs ε)} {c n n' : Nat} (hf : Fine S mask n st ops) (h : Sees S mask n st ops os st' c) (hn : n ≤ n') :
    Fine S mask n' st ops ∧ Sees S mask n' st ops os st' c := by
  obtain ⟨os1, st1, o1, e1⟩ := hf.run
  obtain ⟨rfl, rfl, rfl⟩ := h.eq e1
  have e2 := prun_more mask hn ops e1
  exact ⟨by show Option.isSome _ = true; rw [e2]; rfl, .of e2⟩

/-- Whatever a program has done so far: a call about things that are known does not panic, in memory, where things are shared; there is an answer, if the stack is deep enough, and it is the
same for every depth that is enough. What is missing: of calls that combine trees and read an attached one, only those are covered for which the keys of the two maps
fit (`Safe`); others can panic (`C81_false`). -/
theorem C81_next_call_partial {st st' : σ} {ops : List (Op σ ε)} {os : List (Obs ε)} {c n : Nat} (hk : Keeping L ops) (hf : Fine S mask n st ops) (h : Sees S mask n st ops os st' c) :
    ∃ w, Run L st World.empty ops os st' w ∧ w.items.length = c ∧ ∀ op, Safe L st' w op →
      ∃ o st'' c' N, ∀ n', N ≤ n' → Fine S mask n' st (ops ++ [op]) ∧ Sees S mask n' st (ops ++ [op]) (os ++ [o]) st'' c' := by
  obtain ⟨os1, st1, o1, e1⟩ := hf.run
  obtain ⟨rfl, rfl, rfl⟩ := h.eq e1
  obtain ⟨w, h1, h2⟩ := run_ok mask n ops (rel_empty st) hk e1
  refine ⟨w, h1, h2.1.1.symm, fun op hs => ?_⟩
  obtain ⟨N, hN⟩ := step_ends h2 mask op hs
  obtain ⟨⟨ob, st2, o2⟩, e2⟩ := Option.isSome_iff_exists.1 hN
  refine ⟨ob, st2, o2.length, max n N, fun n' hn => ?_⟩
  have e3 : prun S mask n' (st', o1) [op] = some ([ob], st2, o2) := by rw [prun, pstep_more mask (by omega) e2]; rfl
  have e4 := prun_append S mask n' ops [op] _ (prun_more mask (by omega) ops e1) e3
  exact ⟨by show Option.isSome _ = true; rw [e4]; rfl, .of e4⟩

/-- A program that, whatever it sees, makes only calls about things that are known, runs to its end, if the stack is deep enough, and sees what the maps say. What is missing: as above. -/
theorem C81_runs_partial {st : σ} {ops : List (Op σ ε)} (hk : Keeping L ops) (hs : AllSafe L st World.empty ops) :
    ∃ os st' c w N, Run L st World.empty ops os st' w ∧ w.items.length = c ∧ ∀ n, N ≤ n → Fine S mask n st ops ∧ Sees S mask n st ops os st' c := by
  obtain ⟨N, hN⟩ := run_ends mask ops (rel_empty st) hk hs
  obtain ⟨⟨os, st1, o1⟩, e1⟩ := Option.isSome_iff_exists.1 hN
  obtain ⟨w, h1, h2⟩ := run_ok mask N ops (rel_empty st) hk e1
  refine ⟨os, st1, o1.length, w, N, h1, h2.1.1.symm, fun n hn => ?_⟩
  have e2 := prun_more mask hn ops e1
  exact ⟨by show Option.isSome _ = true; rw [e2]; rfl, .of e2⟩

end

/-! ### A call that panics -/

open Radix.Heap.Att (exMask seesB sees_of)

/-- A detached tree (slot 0), and another one (slot 1) that is attached (slot 2). -/
def exTwo : List (Op MemState Unit) :=
  [.single [1, 1] [9], .insert 0 [1, 2] [4], .single [1, 1, 1, 5] [5], .insert 1 [1, 1, 1, 6] [6], .insert 1 [1, 2, 1, 1] [7], .attached 1]

/-- What `exTwo` leaves, as plain values. -/
def exTwoEnd : MemState × List Radix.Heap.Att.Obj := match prun memStore exMask 20 ([], []) exTwo with | some r => r.2 | none => ([], [])

/-- `intersection_with` of the two trees panics. -/
def exTwoPanics : Bool :=
  match exTwoEnd.2[0]?, exTwoEnd.2[2]? with
  | some (Radix.Heap.Att.Obj.tree false y), some (Radix.Heap.Att.Obj.tree true z) =>
    panicB (innerCombineWithS (Radix.Heap.Att.penvOf memStore exTwoEnd.1 exMask false true) (Radix.Heap.Att.setFnS fun _ _ => .ok .keep) 20 y (.owned z)).1
  | _, _ => false

/-- A program in which nothing is unknown panics, however deep the stack may be: it combines a small tree with a small tree in a store, with a function that always succeeds. -/
theorem C81_false : Fine memStore exMask 20 [] exTwo ∧ ∀ n, ¬ Fine memStore exMask n [] (exTwo ++ [.innerCombineWith 0 2 fun _ _ => .ok .keep]) := by
  have hp : prun memStore exMask 20 ([], []) exTwo = some ((match prun memStore exMask 20 ([], []) exTwo with | some r => r.1 | none => []), exTwoEnd) := by
    have h : (prun memStore exMask 20 ([], []) exTwo).isSome = true := by decide +kernel
    unfold exTwoEnd
    generalize prun memStore exMask 20 ([], []) exTwo = r at h ⊢
    cases r with
    | none => cases h
    | some r => rfl
  refine ⟨by show Option.isSome _ = true; rw [hp]; rfl, fun n hf => ?_⟩
  obtain ⟨os, st', o, e⟩ := hf.run
  have e := prun_more exMask (Nat.le_max_left n 20) _ e
  obtain ⟨os1, w1, os2, e1, e2, -, -⟩ := prun_split memStore exMask (max n 20) exTwo _ _ e
  rw [prun_more exMask (Nat.le_max_right n 20) _ hp] at e1
  cases e1
  have hb : exTwoPanics = true := by decide +kernel
  unfold exTwoPanics at hb
  split at hb
  · rename_i y z h0 h2
    have : pstep memStore exMask (max n 20) exTwoEnd (.innerCombineWith 0 2 fun _ _ => .ok .keep) = none := by
      simp only [pstep, Radix.Heap.Att.pchangeWith, Radix.Heap.Att.ponTree, h0, h2]
      rw [if_neg (by decide), if_pos trivial]
      have hle := leP_le (f := fun n => innerCombineWithS (Radix.Heap.Att.penvOf memStore exTwoEnd.1 exMask false true) (Radix.Heap.Att.setFnS fun _ _ => .ok .keep) n y (.owned z))
        (fun n => innerCombineWithS_fuel _ n _ _) (Nat.le_max_right n 20)
      rcases hx : innerCombineWithS (Radix.Heap.Att.penvOf memStore exTwoEnd.1 exMask false true) (Radix.Heap.Att.setFnS fun _ _ => .ok .keep) 20 y (.owned z) with ⟨r, y'⟩
      rw [hx] at hb hle
      cases r with
      | panic =>
        rcases hle with hle | hle
        · cases hle
        · rw [← hle]; rfl
      | _ => cases hb
    rw [prun, this] at e2
    cases e2
  · cases hb

/-! ### The hypotheses are met -/

/-- A tree is made and attached (slot 1), and the attached one is changed. -/
def exMade : List (Op MemState Unit) := [.single [1] [2], .insert 0 [1, 2] [3], .attached 0, .insert 1 [1, 3] [4]]

/-- The attached tree is read. -/
def exCalm : List (Op MemState Unit) := exMade ++ [.get 1 [1, 2], .iter 1]

/-- The tree in memory is combined with the attached one: in place, and by making another tree. -/
def exJoin : List (Op MemState Unit) := exMade ++ [.innerCombineWith 0 1 fun _ _ => .ok .keep]
def exUnion : List (Op MemState Unit) := exMade ++ [.outerCombine 0 1 fun _ _ => .ok (.own [7])]

/-- The map that these programs attach. -/
def exCalmMap : Map := Map.insert (Map.insert .empty [1] [2]) [1, 2] [3]

theorem exMade_safe {ops : List (Op MemState Unit)} (h1 : ∀ st m, AllSafe memLawful st ⟨[.map false m], fun _ => none⟩ ops)
    (h2 : ∀ st, AllSafe memLawful st ⟨[.map false exCalmMap, .map true (exCalmMap.insert [1, 3] [4])], fun _ => none⟩ ops) :
    AllSafe memLawful [] World.empty (exMade ++ ops) := by
  have hF : ∀ (st : MemState) a, ¬ Fails memLawful st a := fun st a h => h.2 (mem_readsSucceed st)
  have hS : Short exCalmMap := by
    intro k v h
    simp only [exCalmMap, Map.insert] at h
    split at h
    · subst_vars; decide
    · split at h
      · subst_vars; decide
      · cases h
  refine ⟨trivial, ?_⟩
  rintro o st w ⟨rfl, -, rfl⟩
  refine ⟨by simp [Safe, World.knows, World.add, World.empty], ?_⟩
  rintro o st w ⟨rfl, h⟩
  simp only [onMap, World.add, World.empty, List.nil_append, List.getElem?_cons_zero] at h
  rcases h with ⟨-, rfl⟩ | ⟨-, h, -⟩
  rotate_left
  · exact absurd h (hF _ _)
  refine ⟨⟨by simp [World.knows, World.put], ?_⟩, ?_⟩
  · intro a m es hm he
    simp only [World.put, List.set_cons_zero, List.getElem?_cons_zero, Option.some.injEq, Item.map.injEq] at hm
    obtain ⟨-, rfl⟩ := hm
    have h2 : IsEntries exCalmMap [([1], [2]), ([1, 2], [3])] := by
      refine ⟨by decide, fun k v => ?_⟩
      simp only [exCalmMap, Map.insert, Map.empty, List.mem_cons, Prod.mk.injEq, List.not_mem_nil, or_false]
      by_cases h1 : k = [1, 2]
      · subst h1; simp [eq_comm]
      · by_cases h2 : k = [1]
        · subst h2; simp [eq_comm]
        · simp [h1, h2]
    rw [Radix.Heap.entries_unique he h2]
    exact (mem_canWrite (by decide)).noPanic
  rintro o st w ⟨-, h⟩
  simp only [onMap, World.put, List.set_cons_zero, List.getElem?_cons_zero, Bool.false_eq_true, if_false] at h
  have hne : ∀ (st : MemState) (m : Map), AllSafe memLawful st ⟨[.map false m], fun _ => none⟩ (.insert 1 [1, 3] [4] :: ops) := by
    intro st m
    refine ⟨by simp [Safe, World.knows], ?_⟩
    rintro o st w ⟨rfl, h⟩
    obtain ⟨-, rfl⟩ : o = .bad ∧ w = _ := h
    exact h1 _ _
  rcases h with ⟨-, -, -, rfl⟩ | ⟨h, -⟩ | ⟨-, ⟨-, rfl⟩ | ⟨h, -⟩⟩
  · exact hne _ _
  · exact absurd hS h
  rotate_left
  · exact absurd hS h
  refine ⟨by simp [Safe, World.knows, World.add], ?_⟩
  rintro o st w ⟨rfl, h⟩
  simp only [onMap, World.add, List.cons_append, List.nil_append, List.getElem?_cons_succ, List.getElem?_cons_zero] at h
  rcases h with ⟨-, rfl⟩ | ⟨-, h, -⟩
  rotate_left
  · exact absurd h (hF _ _)
  exact h2 _

theorem exCalm_safe : AllSafe memLawful [] World.empty exCalm :=
  exMade_safe (fun _ _ => ⟨by simp [Safe, World.knows], fun _ _ _ _ => ⟨trivial, fun _ _ _ _ => trivial⟩⟩)
    fun _ => ⟨by simp [Safe, World.knows], fun _ _ _ _ => ⟨trivial, fun _ _ _ _ => trivial⟩⟩

theorem exCalm_sub (k : Bytes) (h : exCalmMap k ≠ none) : exCalmMap.insert [1, 3] [4] k ≠ none := by
  simp only [Map.insert]
  split
  · simp
  · exact h

/-- The keys of the tree in memory are among those of the attached one. -/
theorem exJoin_safe : AllSafe memLawful [] World.empty exJoin := by
  refine exMade_safe (fun _ _ => ⟨⟨by simp [World.knows], by simp [World.knows], ?_⟩, fun _ _ _ _ => trivial⟩)
    fun _ => ⟨⟨by simp [World.knows], by simp [World.knows], ?_⟩, fun _ _ _ _ => trivial⟩
  · intro a b m m' h1 h2; cases h2
  · intro a b m m' h1 h2
    cases h1; cases h2
    exact ⟨fun _ => fits_of_subset exCalm_sub, fun x _ => some x, fun _ _ _ _ _ _ => rfl⟩

/-- The union of the two: the key 1 is a key of both, and after it both go on. -/
theorem exUnion_safe : AllSafe memLawful [] World.empty exUnion := by
  refine exMade_safe (fun _ _ => ⟨⟨by simp [World.knows], by simp [World.knows], ?_⟩, fun _ _ _ _ => trivial⟩)
    fun _ => ⟨⟨by simp [World.knows], by simp [World.knows], ?_⟩, fun _ _ _ _ => trivial⟩
  · intro a b m m' h1 h2; cases h2
  · intro a b m m' h1 h2
    cases h1; cases h2
    have hk : ∀ k, exCalmMap.insert [1, 3] [4] k ≠ none → k = [1] ∨ k = [1, 2] ∨ k = [1, 3] := by
      intro k h
      simp only [exCalmMap, Map.insert, Map.empty] at h
      by_cases h1 : k = [1, 3]
      · exact Or.inr (Or.inr h1)
      · by_cases h2 : k = [1, 2]
        · exact Or.inr (Or.inl h2)
        · by_cases h3 : k = [1]
          · exact Or.inl h3
          · simp [h1, h2, h3] at h
    refine ⟨(fun h => Bool.noConfusion h), (fun _ => ⟨fits_both_of_subset exCalm_sub, ?_, ?_⟩), ?_, fun _ _ => some [7], fun _ _ _ _ _ _ => rfl⟩
    · rintro p hp hq
      rcases hk p hp with rfl | rfl | rfl
      · simp [exCalmMap, Map.insert]
      · simp [exCalmMap, Map.insert]
      · rcases hq with hq | ⟨k, hq⟩
        · cases hq
        · rcases hk _ (exCalm_sub _ hq) with h | h | h <;> simp at h
          subst h
          simp [exCalmMap, Map.insert, Map.empty] at hq
    · rintro p x k hp hq
      have h2 : exCalmMap [1, 2] ≠ none := by simp [exCalmMap, Map.insert]
      rcases hq with rfl | hq
      · exact ⟨1, [2], h2⟩
      · rcases hk _ (exCalm_sub _ hq) with rfl | rfl | rfl
        · exact ⟨2, [], h2⟩
        · rcases hk _ hp with h | h | h <;> simp at h
        · rcases hk _ hp with h | h | h <;> simp at h
    · intro av bv x y _ _
      constructor <;> intro _ h <;> cases h

-- what these programs see:
example : (prun memStore exMask 20 ([], []) exJoin).map (fun r => r.1) = some [.unit, .unit, .unit, .unit, .unit] := by decide +kernel
example : (prun memStore exMask 20 ([], []) (exUnion ++ [.get 2 [1, 3]])).map (fun r => r.1) = some [.unit, .unit, .unit, .unit, .unit, .value (some (.data [4]))] := by decide +kernel

example : Keeping memLawful exCalm ∧ Keeping memLawful exJoin ∧ Keeping memLawful exUnion := by simp [Keeping, exCalm, exJoin, exUnion, exMade]
example : (prun memStore exMask 20 ([], []) exCalm).map (fun r => r.1) = some [.unit, .unit, .unit, .unit, .value (some (.data [3])), .unit] := by decide +kernel

-- for `C81_next_call_partial` and `C81_depth`; a call that is safe whatever is held:
example : Keeping memLawful exSession ∧ Fine memStore exMask 20 [] exSession ∧ Sees memStore exMask 20 [] exSession exSeen exEnd 10 :=
  ⟨exSession_keeping, by show Option.isSome _ = true; decide +kernel, sees_of (by decide +kernel)⟩
example (st : MemState) (w : World) : Safe memLawful st w (.clone 0 : Op MemState Unit) := trivial
-- the tree `exTwo` ends with is known, so reading it is safe, whatever the calls have been seen to do:
example : ∀ os st w, Run memLawful [] World.empty exTwo os st w → w.knows 0 := by
  have hF : ∀ (st : MemState) a, ¬ Fails memLawful st a := fun st a h => h.2 (mem_readsSucceed st)
  rintro os st w ⟨_, _, _, _, -, ⟨rfl, -, rfl⟩, _, _, _, _, -, ⟨rfl, h2⟩, _, _, _, _, -, ⟨rfl, -, rfl⟩, _, _, _, _, -, ⟨rfl, h4⟩, _, _, _, _, -, ⟨rfl, h5⟩, _, _, _, _, -, ⟨-, h6⟩, -, -, rfl⟩
  simp only [onMap, World.add, World.empty, List.nil_append, List.getElem?_cons_zero] at h2
  rcases h2 with ⟨-, rfl⟩ | ⟨-, h, -⟩
  rotate_left
  · exact absurd h (hF _ _)
  simp only [onMap, World.put, List.set_cons_zero, List.cons_append, List.nil_append, List.getElem?_cons_succ, List.getElem?_cons_zero] at h4
  rcases h4 with ⟨-, rfl⟩ | ⟨-, h, -⟩
  rotate_left
  · exact absurd h (hF _ _)
  simp only [onMap, World.put, List.set_cons_succ, List.set_cons_zero, List.getElem?_cons_succ, List.getElem?_cons_zero] at h5
  rcases h5 with ⟨-, rfl⟩ | ⟨-, h, -⟩
  rotate_left
  · exact absurd h (hF _ _)
  simp only [onMap, World.put, List.set_cons_succ, List.set_cons_zero, List.getElem?_cons_succ, List.getElem?_cons_zero, Bool.false_eq_true, if_false] at h6
  rcases h6 with ⟨-, -, -, rfl⟩ | ⟨-, -, rfl⟩ | ⟨-, ⟨-, rfl⟩ | ⟨-, rfl⟩⟩ <;> simp [World.knows, World.add]

end Radix.Kept
