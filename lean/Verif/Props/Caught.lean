import Verif.Props.Attached
import Verif.Props.Persist
import Verif.Proofs.Caught
import Verif.Proofs.CaughtIter

/-
Property C85: programs that catch panics of the store and of the functions they pass, and go on.
Sessions with panics (`Call`, `runC`, `prunC`) are defined in `Verif/Heap/Caught.lean`, `changesC` and `SkipLog` in `Verif/Spec/Caught.lean`, steps of iterators in `Verif/Stored/Caught.lean`.

The theorems are partial: panics of the code itself (unimplemented branches, assertions, wrong data) are not covered, and for groups the property is false (`C85_group_false`).
-/

set_option linter.unusedVariables false

namespace Radix.Heap.Att

section
variable {σ ε : Type}

/-- No call of the session ends in a panic of the code itself, recurses deeper than `n` levels or takes more than `n` steps, when it is executed on plain values. -/
def FineC (S : BlobStore σ ε) (mask : Nat → Nat → List Bool) (n : Nat) (st : σ) (cs : List (Call σ ε)) : Prop := (prunC S mask n (st, []) cs).isSome

/-- The program that makes these calls in memory, and catches the panics, runs to its end, sees `os`, leaves the store in the state `st'`, and then has `c` slots. Memory that was freed is never used. -/
def SeesC (S : BlobStore σ ε) (mask : Nat → Nat → List Bool) (n : Nat) (st : σ) (cs : List (Call σ ε)) (os : List (Obs ε)) (st' : σ) (c : Nat) : Prop :=
  ∃ l h, (runC S mask n (st, []) cs).exec [] = some ((os, st', l), h) ∧ l.length = c

variable {S : BlobStore σ ε} {mask : Nat → Nat → List Bool} {n : Nat}

theorem SeesC.of {st : σ} {cs : List (Call σ ε)} {os st' o} (e : prunC S mask n (st, []) cs = some (os, st', o)) : SeesC S mask n st cs os st' o.length := by
  obtain ⟨l, h, e', _, hl⟩ := execC_ok cs st e
  exact ⟨l, h, e', hl⟩

theorem SeesC.eq {st : σ} {cs : List (Call σ ε)} {os os' st' st'' c o} (h : SeesC S mask n st cs os st' c) (e : prunC S mask n (st, []) cs = some (os', st'', o)) :
    os = os' ∧ st' = st'' ∧ c = o.length := by
  obtain ⟨l, h, e1, rfl⟩ := h
  obtain ⟨l', h', e2, _, hl⟩ := execC_ok cs st e
  rw [e1] at e2
  cases e2
  exact ⟨rfl, rfl, hl⟩

theorem FineC.run {st : σ} {cs : List (Call σ ε)} (h : FineC S mask n st cs) : ∃ os st' o, prunC S mask n (st, []) cs = some (os, st', o) := by
  obtain ⟨⟨os, st', o⟩, e⟩ := Option.isSome_iff_exists.1 h
  exact ⟨os, st', o, e⟩

theorem question_againC {st st0 : σ} {before middle : List (Call σ ε)} {q : Nat → Op σ ε} {i j : Nat} {a : Obs ε} {os0 os1 o0 o1 st1} (hq : Question q)
    (e0 : prunC S mask n (st, []) before = some (os0, st0, o0)) (e1 : prunC S mask n (st, []) middle = some (os1, st1, o1)) (hs : o1[j]? = o0[i]?)
    {os d st' } (hf : FineC S mask n st (before ++ [.op (q i)])) (h : SeesC S mask n st (before ++ [.op (q i)]) (os ++ [a]) st' d) :
    ∃ st'' d', SeesC S mask n st (middle ++ [.op (.outside fun _ => st0), .op (q j)]) (os1 ++ [.unit, a]) st'' d' := by
  obtain ⟨os2, st2, o2, e2⟩ := hf.run
  obtain ⟨h1, -, -⟩ := h.eq e2
  obtain ⟨os3, w3, os4, e3, e4, h4, -⟩ := prunC_split S mask n before [.op (q i)] (st, []) e2
  rw [e0] at e3
  cases e3
  rw [prunC_one] at e4
  obtain ⟨⟨b, st4, o4⟩, e5, e6⟩ := Option.map_eq_some_iff.1 e4
  cases e6
  rw [h4] at h1
  obtain ⟨-, h6⟩ := List.append_inj' h1 rfl
  simp only [List.cons.injEq, and_true] at h6
  subst h6
  have h7 := question_slot S mask n st0 hq hs
  rw [show pstep S mask n (st0, o0) (q i) = _ from e5] at h7
  obtain ⟨⟨b', st7, o7⟩, e7, e8⟩ := Option.map_eq_some_iff.1 (show seen (pstep S mask n (st0, o1) (q j)) = some a from h7)
  dsimp only at e8
  subst e8
  have e9 : prunC S mask n (st1, o1) [.op (.outside fun _ => st0), .op (q j)] = some ([.unit, b'], st7, o7) := by
    rw [prunC]
    show (match prunC S mask n (st0, o1) [.op (q j)] with
      | none => none
      | some (os, w2) => some (Obs.unit :: os, w2)) = _
    rw [prunC_one, show pstepC S mask n (st0, o1) (.op (q j)) = _ from e7]; rfl
  exact ⟨_, _, SeesC.of (prunC_append S mask n _ _ _ e1 e9)⟩

/-! ### C85 -/

/-- A session in memory, in which any calls of the store and of functions of the user may panic and the program goes on, sees what the same session sees on plain values, where nothing is shared. -/
theorem C85_like_values_partial {st st' : σ} {cs : List (Call σ ε)} {os : List (Obs ε)} {o : List Obj} (e : prunC S mask n (st, []) cs = some (os, st', o)) :
    SeesC S mask n st cs os st' o.length := .of e

/-- A tree, value, key or iterator that no call changes gives the same answers as before, although calls on other slots panicked in the middle, also if they share memory with it. The store is put back into
the state it was in. -/
theorem C85_frame_partial {st st0 st' : σ} {before after : List (Call σ ε)} {q : Nat → Op σ ε} {i c d : Nat} {os os0 : List (Obs ε)} {a : Obs ε} (hq : Question q)
    (hb : SeesC S mask n st before os0 st0 c) (hi : i < c) (ha : ∀ x ∈ after, changesC x ≠ some i) (hf : FineC S mask n st (before ++ after))
    (hf' : FineC S mask n st (before ++ [.op (q i)])) (h : SeesC S mask n st (before ++ [.op (q i)]) (os ++ [a]) st' d) :
    ∃ os' st'' d', SeesC S mask n st (before ++ after ++ [.op (.outside fun _ => st0), .op (q i)]) (os' ++ [.unit, a]) st'' d' := by
  obtain ⟨os1, st1, o1, e1⟩ := hf.run
  obtain ⟨os2, ⟨st2, o2⟩, os3, e2, e3, -, -⟩ := prunC_split S mask n _ _ _ e1
  obtain ⟨rfl, rfl, rfl⟩ := hb.eq e2
  exact ⟨_, question_againC hq e2 e1 ((prunC_same S mask n after _ _ e3).2 i hi ha) hf' h⟩

/-- After any session with panics, nothing that is in use was freed, reference counts are exact (or larger, for empty arrays of children), and panics lose no memory but empty arrays of children. -/
theorem C85_memory_partial {st : σ} {cs : List (Call σ ε)} (hf : FineC S mask n st cs) : ∃ os st' l h, (runC S mask n (st, []) cs).exec [] = some ((os, st', l), h) ∧
    (∀ r, (slotsRefs l).count r + (heapRefs h).count r ≤ cnt h r) ∧
    (∀ r, Cells.content h r ≠ some (.inr []) → (slotsRefs l).count r + (heapRefs h).count r = cnt h r) ∧
    (∀ r, r ∈ slotsRefs l ∨ r ∈ heapRefs h → (Cells.content h r).isSome) ∧
    (∀ (a : Nat) (c : Cell), h[a]? = some (some c) → (∃ m, c = .kids m []) ∨ Cells.Reach h (slotsRefs l) (c.ref a)) ∧
    ((∀ s ∈ l, s = .free) → ∀ (a : Nat) (c : Cell), h[a]? = some (some c) → ∃ m, c = .kids m []) := by
  obtain ⟨os, st', o, e⟩ := hf.run
  obtain ⟨l, h, e, g, _⟩ := execC_ok cs st e
  exact ⟨os, st', l, h, e, memory_facts g⟩

end

end Radix.Heap.Att

namespace Radix
open Node

section
variable {σ ε : Type} {S : BlobStore σ ε} {L : Lawful S} {long : Bool} {st : σ} {a : SNode} {m : Spec.Map}

/-- `try_iter`, where the store may panic or fail in any step (`true`: panics) and the program goes on: the entries come in order, with the right keys and values, and each at most once. Entries are left out only at
steps in which a read failed: with an error all the rest, with a panic all those whose keys begin with some prefix. -/
theorem C85_iter_partial (h : Att S L long st a m) {u : Node} (hu : Proper u) (hm : ∀ k, get u k = m k) (ps : List (Bool × σ)) (hl : Later L st (ps.map (·.2))) :
    ∃ log, log.map (·.1) = ps ∧ IterLog (SIter.nextOr S) (iterS a) log ∧ SkipLog L (SameEntry L) Branch (iter u) log := by
  obtain ⟨t, hst⟩ := att_stands h
  have hw := hst.twin hu hm
  rw [← iter_of_twin hw, ← iter_stack]
  exact skip_log ps (iterS_rep hst.2.2.1) ⟨⟨hst.1, by simp [entsL], trivial⟩, by simp [stackEnts], trivial⟩ hl

/-- `try_values`, likewise: the values are those of the entries, in the order of the keys, and the values that are left out after a panic are those of all remaining keys that begin with some prefix. -/
theorem C85_values_partial (h : Att S L long st a m) {u : Node} (hu : Proper u) (hm : ∀ k, get u k = m k) (ps : List (Bool × σ)) (hl : Later L st (ps.map (·.2))) :
    ∃ log, log.map (·.1) = ps ∧ IterLog (valNextOr S) (valuesS a) log ∧ SkipLog L (fun st v e => Holds L st v e.2) Branch (iter u) log := by
  obtain ⟨t, hst⟩ := att_stands h
  have hw := hst.twin hu hm
  rw [← iter_of_twin hw, ← show gents [([], [t])] = iter t by rw [iter_eq]; simp [gents, entsL]]
  exact vskip_log (g := long) ps (by simpa [valuesS, VStackRep, IterRep, RepL] using hst.2.2.1) ⟨⟨hst.1, by simp [entsL], trivial⟩, by simp [gents], trivial⟩ hl

/-- The theorem applies to a tree attached to a `MemStore`, with steps of both kinds. -/
example : ∃ a st, Att memStore memLawful false st a (get sampleA) ∧ ∀ d, ∃ log, log.map (·.1) = [(true, st), (false, (memStore.write st d).2)] ∧
    IterLog (SIter.nextOr memStore) (iterS a) log ∧ SkipLog memLawful (SameEntry memLawful) Branch (iter sampleA) log := by
  obtain ⟨a, st, h, hw⟩ := mem_att
  exact ⟨a, st, h, fun d => C85_iter_partial h sampleA_proper (fun _ => rfl) _ ⟨Mono.refl _ _, mono_write rfl, trivial⟩⟩

/-- The same for values. -/
example : ∃ a st, Att memStore memLawful false st a (get sampleA) ∧ ∀ d, ∃ log, log.map (·.1) = [(true, st), (false, (memStore.write st d).2)] ∧
    IterLog (valNextOr memStore) (valuesS a) log ∧ SkipLog memLawful (fun st v e => Holds memLawful st v e.2) Branch (iter sampleA) log := by
  obtain ⟨a, st, h, hw⟩ := mem_att
  exact ⟨a, st, h, fun d => C85_values_partial h sampleA_proper (fun _ => rfl) _ ⟨Mono.refl _ _, mono_write rfl, trivial⟩⟩

end

end Radix

namespace Radix.Heap.Att

/-- A tree with the keys `[1, 2]`, `[1, 3]` and `[4]`, and an iterator over its groups (slot 1). The function panics for the prefix `[1]`; the program catches this and asks for the next group (slot 2). -/
def exGroup : List (Call MemState Unit) :=
  [.op (.single [1, 2] [7]), .op (.insert 0 [1, 3] [8]), .op (.insert 0 [4] [9]), .op (.groupBy 0),
    .nextGroup 1 (fun p => if p = [1] then .error () else .ok p.isEmpty), .nextGroup 1 (fun p => .ok p.isEmpty),
    .op (.containsKey 0 [1, 4]), .op (.containsKey 0 [4]), .op (.containsKey 2 [1, 4]), .op (.containsKey 2 [4])]

/-- What a session with panics sees on plain values. -/
def seesCB (cs : List (Call MemState Unit)) : Option (List (Obs Unit) × MemState × Nat) :=
  match prunC memStore exMask 20 ([], []) cs with
  | some (os, st, o) => some (os, st, o.length)
  | none => none

theorem seesC_of {cs os st c} (h : seesCB cs = some (os, st, c)) : SeesC memStore exMask 20 [] cs os st c := by
  unfold seesCB at h
  split at h
  · rename_i e; cases h; exact .of e
  · cases h

/-- **C85 is false for groups.** After a panic of the function was caught, the next group has a key (`[1, 4]`) that the tree does not have, instead of the key of the tree (`[4]`). -/
theorem C85_group_false : SeesC memStore exMask 20 [] exGroup
    [.unit, .unit, .unit, .unit, .err (), .bool true, .bool false, .bool true, .bool true, .bool false] [] 3 := seesC_of (by decide +kernel)

/-- Without the panic the group is right. -/
example : (seesCB ([.op (.single [1, 2] [7]), .op (.insert 0 [1, 3] [8]), .op (.insert 0 [4] [9]), .op (.groupBy 0),
    .nextGroup 1 (fun p => .ok p.isEmpty), .nextGroup 1 (fun p => .ok p.isEmpty), .op (.containsKey 3 [1, 4]), .op (.containsKey 3 [4])])).map (·.1.drop 4) =
    some [.bool true, .bool true, .bool false, .bool true] := by decide +kernel

/-- A tree with the keys `[]`, `[1]`, `[1, 2]` and `[4]` (slot 0) is attached to a `MemStore` (slot 1), and there is an iterator over it (slot 2), which has yielded the first entry (slots 3 and 4). -/
def exPanicBefore : List (Call MemState Unit) :=
  [.op (.single [] [5]), .op (.insert 0 [1] [6]), .op (.insert 0 [1, 2] [7]), .op (.insert 0 [4] [8]), .op (.attached 0), .op (.iter 1), .next 2]

/-- The store after `exPanicBefore`. -/
def exPanicStore : MemState := match seesCB exPanicBefore with | some (_, st, _) => st | none => []

/-- The store panics in a step of the iterator and in an insertion; then it is as before, and the iterator goes on. -/
def exPanicAfter : List (Call MemState Unit) := [.op (.outside fun _ => []), .next 2, .op (.insert 1 [1, 2, 7] [8]), .op (.outside fun _ => exPanicStore), .next 2, .next 2]

example : FineC memStore exMask 20 [] (exPanicBefore ++ exPanicAfter) := by show Option.isSome _ = true; decide +kernel
example : FineC memStore exMask 20 [] (exPanicBefore ++ [.op (.get 0 [1, 2])]) := by show Option.isSome _ = true; decide +kernel
example : ∀ x ∈ exPanicAfter, changesC x ≠ some 0 := by simp [exPanicAfter, changesC, changes]
example : SeesC memStore exMask 20 [] exPanicBefore [.unit, .unit, .unit, .unit, .unit, .unit, .entry (some ([], .data [5]))] exPanicStore 5 := seesC_of (by decide +kernel)
example : SeesC memStore exMask 20 [] (exPanicBefore ++ [.op (.get 0 [1, 2])])
    ([.unit, .unit, .unit, .unit, .unit, .unit, .entry (some ([], .data [5]))] ++ [.value (some (.data [7]))]) exPanicStore 6 := seesC_of (by decide +kernel)

/-- The entries below `[1]` are left out, the entry of `[4]` comes, and the iterator ends. -/
example : (seesCB (exPanicBefore ++ exPanicAfter)).map (·.1.drop 7) = some [.unit, .err (), .err (), .unit, .entry (some ([4], .data [8])), .entry none] := by decide +kernel

/-- The same session in memory; in the end everything is dropped, and no memory is in use. -/
example : (exFree ((runC memStore (fun d s => List.replicate (d + s) true) 20 ([], [])
    (exPanicBefore ++ exPanicAfter ++ (List.range 7).map fun i => .op (.drop i))).exec [])).map (·.2) = some (true, false) := by decide +kernel

end Radix.Heap.Att
