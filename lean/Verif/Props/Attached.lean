import Verif.Proofs.AttachedFrame
import Verif.Stored.Mem

/-
Property C79: programs that hold any number of trees attached to a store, detached trees, values, keys and iterators, which share memory.
Sessions (`Op`, `Obs`, `run`, `prun`) are defined in `Verif/Heap/AttSession.lean`, `changes`, `Question` and `Step` in `Verif/Spec/AttSession.lean`.
-/

set_option linter.unusedVariables false

namespace Radix.Heap.Att

section
variable {σ ε : Type}

/-- No call of the session panics, recurses deeper than `n` levels or (`Iterator::next`) takes more than `n` steps, when it is executed on plain values, where nothing is shared. The session starts with the
store in the state `st` and with nothing in hands. -/
def Fine (S : BlobStore σ ε) (mask : Nat → Nat → List Bool) (n : Nat) (st : σ) (ops : List (Op σ ε)) : Prop := (prun S mask n (st, []) ops).isSome

/-- The program that makes these calls in memory, starting with no memory in use, with nothing in its hands and the store in the state `st`, runs to its end, sees `os`,
leaves the store in the state `st'`, and then has `c` slots. Memory that was freed is never used: in the model such a call has no result. -/
def Sees (S : BlobStore σ ε) (mask : Nat → Nat → List Bool) (n : Nat) (st : σ) (ops : List (Op σ ε)) (os : List (Obs ε)) (st' : σ) (c : Nat) : Prop :=
  ∃ l h, (run S mask n (st, []) ops).exec [] = some ((os, st', l), h) ∧ l.length = c

variable {S : BlobStore σ ε} {mask : Nat → Nat → List Bool} {n : Nat}

theorem Sees.of {st : σ} {ops : List (Op σ ε)} {os st' o} (e : prun S mask n (st, []) ops = some (os, st', o)) : Sees S mask n st ops os st' o.length := by
  obtain ⟨l, h, e', _, hl⟩ := exec_ok ops st e
  exact ⟨l, h, e', hl⟩

theorem Sees.eq {st : σ} {ops : List (Op σ ε)} {os os' st' st'' c o} (h : Sees S mask n st ops os st' c) (e : prun S mask n (st, []) ops = some (os', st'', o)) :
    os = os' ∧ st' = st'' ∧ c = o.length := by
  obtain ⟨l, h, e1, rfl⟩ := h
  obtain ⟨l', h', e2, _, hl⟩ := exec_ok ops st e
  rw [e1] at e2
  cases e2
  exact ⟨rfl, rfl, hl⟩

theorem Fine.run {st : σ} {ops : List (Op σ ε)} (h : Fine S mask n st ops) : ∃ os st' o, prun S mask n (st, []) ops = some (os, st', o) := by
  obtain ⟨⟨os, st', o⟩, e⟩ := Option.isSome_iff_exists.1 h
  exact ⟨os, st', o, e⟩

theorem question_again {st st0 : σ} {before middle : List (Op σ ε)} {q : Nat → Op σ ε} {i j : Nat} {a : Obs ε} {os0 os1 o0 o1 st1} (hq : Question q)
    (e0 : prun S mask n (st, []) before = some (os0, st0, o0)) (e1 : prun S mask n (st, []) middle = some (os1, st1, o1)) (hs : o1[j]? = o0[i]?)
    {os d st' } (hf : Fine S mask n st (before ++ [q i])) (h : Sees S mask n st (before ++ [q i]) (os ++ [a]) st' d) :
    ∃ st'' d', Sees S mask n st (middle ++ [.outside fun _ => st0, q j]) (os1 ++ [.unit, a]) st'' d' := by
  obtain ⟨os2, st2, o2, e2⟩ := hf.run
  obtain ⟨h1, -, -⟩ := h.eq e2
  obtain ⟨os3, w3, os4, e3, e4, h4, -⟩ := prun_split S mask n before [q i] (st, []) e2
  rw [e0] at e3
  cases e3
  rw [prun_one] at e4
  obtain ⟨⟨b, st4, o4⟩, e5, e6⟩ := Option.map_eq_some_iff.1 e4
  cases e6
  rw [h4] at h1
  obtain ⟨-, h6⟩ := List.append_inj' h1 rfl
  simp only [List.cons.injEq, and_true] at h6
  subst h6
  have h7 := question_slot S mask n st0 hq hs
  rw [e5] at h7
  obtain ⟨⟨b', st7, o7⟩, e7, e8⟩ := Option.map_eq_some_iff.1 (show seen (pstep S mask n (st0, o1) (q j)) = some a from h7)
  dsimp only at e8
  subst e8
  have e9 : prun S mask n (st1, o1) [.outside fun _ => st0, q j] = some ([.unit, b'], st7, o7) := by
    rw [prun]
    show (match prun S mask n (st0, o1) [q j] with
      | none => none
      | some (os, w2) => some (Obs.unit :: os, w2)) = _
    rw [prun_one, e7]; rfl
  exact ⟨_, _, Sees.of (prun_append S mask n _ _ _ e1 e9)⟩

/-! ### C79 -/

/-- A session in memory, where things share memory, runs to its end and sees what the same session sees on plain values, where every slot has a tree, a value or an iterator of its own, a
clone is a copy, and a call changes one slot. The store may do anything, in particular fail in the middle of a call. -/
theorem C79_like_values {st st' : σ} {ops : List (Op σ ε)} {os : List (Obs ε)} {o : List Obj} (e : prun S mask n (st, []) ops = some (os, st', o)) :
    Sees S mask n st ops os st' o.length := .of e

/-- A slot that no call changes gives the same answers as before, whatever is done to other slots, also if they share memory with it, and also if these calls
fail. The store is put back into the state it was in, so that it answers the same; calls of the program and anything else can have changed it in between. -/
theorem C79_frame {st st0 st' : σ} {before after : List (Op σ ε)} {q : Nat → Op σ ε} {i c d : Nat} {os os0 : List (Obs ε)} {a : Obs ε} (hq : Question q)
    (hb : Sees S mask n st before os0 st0 c) (hi : i < c) (ha : ∀ op ∈ after, changes op ≠ some i) (hf : Fine S mask n st (before ++ after))
    (hf' : Fine S mask n st (before ++ [q i])) (h : Sees S mask n st (before ++ [q i]) (os ++ [a]) st' d) :
    ∃ os' st'' d', Sees S mask n st (before ++ after ++ [.outside fun _ => st0, q i]) (os' ++ [.unit, a]) st'' d' := by
  obtain ⟨os1, st1, o1, e1⟩ := hf.run
  obtain ⟨os2, ⟨st2, o2⟩, os3, e2, e3, -, -⟩ := prun_split S mask n _ _ _ e1
  obtain ⟨rfl, rfl, rfl⟩ := hb.eq e2
  exact ⟨_, question_again hq e2 e1 ((prun_same S mask n after _ _ e3).2 i hi ha) hf' h⟩

/-- A clone (in slot `c`) gives the answers that the tree or key (in slot `i`) gave when it was cloned, whatever is done to the tree and to all other slots, whether these calls
succeed or fail. The store is put back into the state it was in. -/
theorem C79_clone {st st0 st' st3 : σ} {before after : List (Op σ ε)} {q : Nat → Op σ ε} {i c d d3 : Nat} {os os0 : List (Obs ε)} {a : Obs ε} (hq : Question q)
    (hb : Sees S mask n st before os0 st0 c) (hc : Sees S mask n st (before ++ [.clone i]) (os0 ++ [.unit]) st3 d3) (ha : ∀ op ∈ after, changes op ≠ some c)
    (hf : Fine S mask n st (before ++ [.clone i] ++ after))
    (hf' : Fine S mask n st (before ++ [q i])) (h : Sees S mask n st (before ++ [q i]) (os ++ [a]) st' d) :
    ∃ os' st'' d', Sees S mask n st (before ++ [.clone i] ++ after ++ [.outside fun _ => st0, q c]) (os' ++ [.unit, a]) st'' d' := by
  obtain ⟨os1, st1, o1, e1⟩ := hf.run
  obtain ⟨os2, ⟨st2, o2⟩, os4, e2, e3, -, -⟩ := prun_split S mask n _ _ _ e1
  obtain ⟨os5, ⟨st5, o5⟩, os6, e5, e6, h6, -⟩ := prun_split S mask n _ _ _ e2
  obtain ⟨rfl, rfl, rfl⟩ := hb.eq e5
  obtain ⟨h7, -, -⟩ := hc.eq e2
  rw [h6] at h7
  have h8 := List.append_cancel_left h7
  subst h8
  have hs : o2[o5.length]? = o5[i]? ∧ o5.length < o2.length := by
    rw [prun_one] at e6
    simp only [pstep, pcloneOf] at e6
    split at e6
    · rename_i a' m hm
      simp only [Option.map_some, Option.some.injEq, Prod.mk.injEq] at e6
      obtain ⟨-, -, rfl⟩ := e6
      simp [hm]
    · rename_i d hm
      simp only [Option.map_some, Option.some.injEq, Prod.mk.injEq] at e6
      obtain ⟨-, -, rfl⟩ := e6
      simp [hm]
    · simp at e6
  refine ⟨_, question_again hq e5 e1 ?_ hf' h⟩
  rw [(prun_same S mask n after _ _ e3).2 _ hs.2 ha, hs.1]

/-- An iterator (in slot `i`) goes on to yield what it would have yielded before, whatever is done to other slots in between: also if the tree it was made from is changed or dropped,
and also if these calls fail. The store is put back into the state it was in. -/
theorem C79_iter {st st0 st' : σ} {before after : List (Op σ ε)} {qs : List (Nat → Op σ ε)} {i c d : Nat} {os0 as : List (Obs ε)} (hq : ∀ q ∈ qs, Step q)
    (hb : Sees S mask n st before os0 st0 c) (hi : i < c) (ha : ∀ op ∈ after, changes op ≠ some i) (hf : Fine S mask n st (before ++ after))
    (hf' : Fine S mask n st (before ++ qs.map (· i))) (h : Sees S mask n st (before ++ qs.map (· i)) (os0 ++ as) st' d) :
    ∃ os' st'' d', Sees S mask n st (before ++ after ++ ((.outside fun _ => st0) :: qs.map (· i))) (os' ++ (.unit :: as)) st'' d' := by
  obtain ⟨os1, st1, o1, e1⟩ := hf.run
  obtain ⟨os2, ⟨st2, o2⟩, os3, e2, e3, -, -⟩ := prun_split S mask n _ _ _ e1
  obtain ⟨rfl, rfl, rfl⟩ := hb.eq e2
  obtain ⟨os4, st4, o4, e4⟩ := hf'.run
  obtain ⟨os5, ⟨st5, o5⟩, os6, e5, e6, h6, -⟩ := prun_split S mask n _ _ _ e4
  rw [e2] at e5
  cases e5
  obtain ⟨h7, -, -⟩ := h.eq e4
  rw [h6] at h7
  have h8 := List.append_cancel_left h7
  subst h8
  obtain ⟨hl, hs⟩ := prun_same S mask n after _ _ e3
  obtain ⟨⟨st8, o8⟩, e8⟩ := steps_slot S mask n qs st0 o2 o1 i i hq hi (Nat.lt_of_lt_of_le hi hl) (hs i hi ha).symm e6
  refine ⟨os1, st8, o8.length, Sees.of (prun_append S mask n _ _ _ e1 ?_)⟩
  rw [prun]
  show (match prun S mask n (st0, o1) (qs.map (· i)) with
    | none => none
    | some (os, w2) => some (Obs.unit :: os, w2)) = _
  rw [e8]

theorem memory_facts {h : Heap} {l : List Slot} (g : Cells.Inv h (slotsRefs l)) : (∀ r, (slotsRefs l).count r + (heapRefs h).count r ≤ cnt h r) ∧
    (∀ r, Cells.content h r ≠ some (.inr []) → (slotsRefs l).count r + (heapRefs h).count r = cnt h r) ∧
    (∀ r, r ∈ slotsRefs l ∨ r ∈ heapRefs h → (Cells.content h r).isSome) ∧
    (∀ (a : Nat) (c : Cell), h[a]? = some (some c) → (∃ m, c = .kids m []) ∨ Cells.Reach h (slotsRefs l) (c.ref a)) ∧
    ((∀ s ∈ l, s = .free) → ∀ (a : Nat) (c : Cell), h[a]? = some (some c) → ∃ m, c = .kids m []) := by
  have key : ∀ (a : Nat) (c : Cell), h[a]? = some (some c) → (∃ m, c = .kids m []) ∨ Cells.Reach h (slotsRefs l) (c.ref a) := by
    intro a c ha
    cases c with
    | blob m d => exact .inr (g.reach h.length _ (by omega) (by simp [Cell.ref, Cells.content, Cells.cB, ha]) (by simp [Cell.ref, Cells.content, Cells.cB, ha]))
    | kids m ns =>
      cases ns with
      | nil => exact .inl ⟨m, rfl⟩
      | cons x ns => exact .inr (g.reach h.length _ (by omega) (by simp [Cell.ref, Cells.content, Cells.cK, ha]) (by simp [Cell.ref, Cells.content, Cells.cK, ha]))
  refine ⟨g.le, g.eq, fun r hr => ?_, key, fun hf a c ha => ?_⟩
  · have h1 := g.le r
    have h2 : 0 < cnt h r := by
      rcases hr with hr | hr <;> have := List.count_pos_iff.2 hr <;> omega
    unfold cnt at h2
    cases r with
    | blob a =>
      simp only [Cells.content, Cells.cB]
      cases e : h[a]? with
      | none => simp [Ref.addr, e, ocnt] at h2
      | some c => rcases c with _ | ⟨_ | _⟩ <;> simp_all [Ref.addr, ocnt]
    | kids a =>
      simp only [Cells.content, Cells.cK]
      cases e : h[a]? with
      | none => simp [Ref.addr, e, ocnt] at h2
      | some c => rcases c with _ | ⟨_ | _⟩ <;> simp_all [Ref.addr, ocnt]
  · rcases key a c ha with h1 | h1
    · exact h1
    · exfalso
      have h2 : slotsRefs l = [] := by
        unfold slotsRefs
        rw [List.flatMap_eq_nil_iff]
        intro s hs; rw [hf s hs]; rfl
      rw [h2] at h1
      have h3 : ∀ {r}, Cells.Reach h [] r → False := by
        intro r hr
        induction hr with
        | root h4 => cases h4
        | step _ _ _ ih => exact ih
      exact h3 h1

/-- At every moment of a session, whatever the program holds and whatever any node in memory refers to is still in memory, and its reference count is the number of references
to it (or larger, for an empty array of children). Everything in memory, other than empty arrays of children, can be reached from what the program holds: calls that fail lose
nothing. In particular, once the program has dropped everything, only empty arrays of children are left. -/
theorem C79_memory {st : σ} {ops : List (Op σ ε)} (hf : Fine S mask n st ops) : ∃ os st' l h, (run S mask n (st, []) ops).exec [] = some ((os, st', l), h) ∧
    (∀ r, (slotsRefs l).count r + (heapRefs h).count r ≤ cnt h r) ∧
    (∀ r, Cells.content h r ≠ some (.inr []) → (slotsRefs l).count r + (heapRefs h).count r = cnt h r) ∧
    (∀ r, r ∈ slotsRefs l ∨ r ∈ heapRefs h → (Cells.content h r).isSome) ∧
    (∀ (a : Nat) (c : Cell), h[a]? = some (some c) → (∃ m, c = .kids m []) ∨ Cells.Reach h (slotsRefs l) (c.ref a)) ∧
    ((∀ s ∈ l, s = .free) → ∀ (a : Nat) (c : Cell), h[a]? = some (some c) → ∃ m, c = .kids m []) := by
  obtain ⟨os, st', o, e⟩ := hf.run
  obtain ⟨l, h, e, g, _⟩ := exec_ok ops st e
  exact ⟨os, st', l, h, e, memory_facts g⟩

end

/-! ### Concrete sessions -/

/-- A tree with three entries, two of them below a common node, one with a long value, is attached to a `MemStore` (slot 1) and cloned (slot 2). -/
def exBefore : List (Op MemState Unit) :=
  [.single [1] [2], .insert 0 [1, 2] [3], .insert 0 [1, 3] (List.replicate 200 4), .attached 0, .insert 1 [1, 2, 5] [6]]

/-- The tree is changed; then the store loses everything, and the tree is changed again, without success, and dropped. -/
def exAfter : List (Op MemState Unit) :=
  [.remove 1 [1, 2], .insert 1 [1, 3, 3] [7], .get 1 [1, 2], .reattach 1, .outside (fun _ => []), .insert 1 [1, 2, 7] [8], .drop 1, .drop 0]

/-- What a mask keeps does not matter here: nothing. -/
def exMask : Nat → Nat → List Bool := fun _ _ => []

/-- What a session sees on plain values. -/
def seesB (ops : List (Op MemState Unit)) : Option (List (Obs Unit) × MemState × Nat) :=
  match prun memStore exMask 20 ([], []) ops with
  | some (os, st, o) => some (os, st, o.length)
  | none => none

theorem sees_of {ops os st c} (h : seesB ops = some (os, st, c)) : Sees memStore exMask 20 [] ops os st c := by
  unfold seesB at h
  split at h
  · rename_i e; cases h; exact .of e
  · cases h

/-- The store after `exBefore`. -/
def exStore : MemState := match seesB exBefore with | some (_, st, _) => st | none => []

example : Sees memStore exMask 20 [] exBefore [.unit, .unit, .unit, .unit, .unit] exStore 2 := sees_of (by decide +kernel)
example : Fine memStore exMask 20 [] (exBefore ++ [.clone 1] ++ exAfter) := by show Option.isSome _ = true; decide +kernel
example : Fine memStore exMask 20 [] (exBefore ++ [.get 1 [1, 2]]) := by show Option.isSome _ = true; decide +kernel
example : ∀ op ∈ exAfter, changes op ≠ some 2 := by simp [exAfter, changes]
example : ∃ st, Sees memStore exMask 20 [] (exBefore ++ [.clone 1]) ([.unit, .unit, .unit, .unit, .unit] ++ [.unit]) st 3 := ⟨exStore, sees_of (by decide +kernel)⟩
example : ∃ st, Sees memStore exMask 20 [] (exBefore ++ [.get 1 [1, 2]]) ([.unit, .unit, .unit, .unit, .unit] ++ [.value (some (.data [3]))]) st 3 :=
  ⟨exStore, sees_of (by decide +kernel)⟩

/-- The tree does not find the removed key, the store fails, and the clone still has the key. -/
example : ∃ st, Sees memStore exMask 20 [] (exBefore ++ [.clone 1] ++ exAfter ++ [.outside fun _ => exStore, .get 2 [1, 2]])
    ([.unit, .unit, .unit, .unit, .unit] ++ [.unit] ++ [.unit, .unit, .value none, .bytes [0, 0, 0, 0, 0, 0, 0, 5], .unit, .err (), .unit, .unit] ++ [.unit, .value (some (.data [3]))]) st 5 :=
  ⟨exStore, sees_of (by decide +kernel)⟩

/-- An iterator over the attached tree (slot 2) that has yielded one entry (slots 3 and 4). -/
def exIter : List (Op MemState Unit) := exBefore ++ [.iter 1, .next 2]

/-- What the iterator still has to yield, if the store is as it was. -/
def exRest : List (Obs Unit) := [.entry (some ([1, 2], .data [3])), .entry (some ([1, 2, 5], .data [6])), .entry (some ([1, 3], .id [0, 0, 0, 0, 0, 0, 0, 1])), .entry none]

example : seesB (exIter ++ [.next 2, .next 2, .next 2, .next 2]) =
    (seesB exIter).map fun r => (r.1 ++ exRest, r.2.1, 11) := by decide +kernel
example : Sees memStore exMask 20 [] exIter [.unit, .unit, .unit, .unit, .unit, .unit, .entry (some ([1], .data [2]))] exStore 5 := sees_of (by decide +kernel)
example : Fine memStore exMask 20 [] (exIter ++ [.next 2, .next 2, .next 2, .next 2]) := by show Option.isSome _ = true; decide +kernel
example : Fine memStore exMask 20 [] (exIter ++ exAfter) := by show Option.isSome _ = true; decide +kernel

/-- The tree is changed and dropped, and the store loses everything; an iterator that needs the store then fails, and ends. -/
example : (seesB (exBefore ++ [.reattach 1, .iter 1] ++ exAfter ++ [.next 2, .next 2])).map (fun r => r.1.drop 15) = some [.err (), .entry none] := by decide +kernel

/-- A function that takes the value of the other tree, and fails for the value `[9]`. -/
def exFn : BlobV → BlobV → Except Unit Choice := fun _ b => if b = .data [9] then .error () else .ok .take

/-- Two clones of one attached tree; the first is combined with a tree, where the function fails in the middle; in the end everything is dropped. -/
def exFail : List (Op MemState Unit) :=
  exBefore ++ [.clone 1, .single [1, 2] [8], .insert 3 [1, 3] [9], .insert 3 [1, 1] [5], .outerCombineWith 1 3 .downcast exFn, .get 1 [1, 1], .get 2 [1, 1], .get 2 [1, 2], .drop 0, .drop 1, .drop 2, .drop 3,
    .drop 4, .drop 5, .drop 6]

/-- A function that makes a value of its own from two values, and fails for the value `[9]`. -/
def exNew : BlobV → BlobV → Except Unit NewChoice := fun a b => if b = .data [9] then .error () else if a = b then .ok .left else .ok (.own [7, 7])

/-- An attached tree (slot 1) is combined with a detached one (slot 2): with success (slot 3), then the store loses everything, and it fails. It is also combined with itself. -/
def exCombine : List (Op MemState Unit) :=
  exBefore ++ [.single [1, 2] [8], .outerCombine 1 2 exNew, .get 3 [1, 2], .get 3 [1, 3], .get 1 [1, 2], .leftCombine 1 2 exNew, .get 7 [1, 2], .innerCombine 1 2 exNew, .get 9 [1, 2], .get 9 [1],
    .innerCombinePred 1 2 (fun a b => .ok (b = .data [8])), .leftCombinePred 2 1 (fun _ _ => .ok false), .outerCombine 1 1 (fun _ _ => .ok .clear), .isEmpty 12, .insert 2 [1, 2] [9],
    .outerCombine 1 2 exNew, .outerCombine 2 1 (fun _ _ => .ok .clear), .get 13 [1, 2], .reattach 1, .outside (fun _ => []), .leftCombine 1 2 exNew, .leftCombinePred 1 2 (fun _ _ => .ok false)]

/-- All slots are free at the end. -/
def exFree (r : Option ((List (Obs Unit) × World MemState) × Heap)) : Option (List (Obs Unit) × Bool × Bool) :=
  r.map fun r => (r.1.1, r.1.2.2.all (fun s => match s with | .free => true | _ => false), r.2.any Option.isSome)

/-- The session in memory: the clone is as before, and no memory is in use at the end. -/
example : exFree ((run memStore (fun d s => List.replicate (d + s) true) 20 ([], []) exFail).exec []) =
    some ([.unit, .unit, .unit, .unit, .unit, .unit, .unit, .unit, .unit, .err (), .value (some (.data [5])), .value none, .value (some (.data [3])), .unit, .unit, .unit, .unit, .unit, .unit, .unit],
      true, false) := by decide +kernel

example : Fine memStore (fun d s => List.replicate (d + s) true) 20 [] exFail := by show Option.isSome _ = true; decide +kernel

example : (seesB exCombine).map (fun r => r.1.drop 5) =
    some [.unit, .unit, .value (some (.data [7, 7])), .value (some (.data (List.replicate 200 4))), .value (some (.data [3])), .unit, .value (some (.data [7, 7])), .unit, .value (some (.data [7, 7])),
      .value none, .bool true, .bool false, .unit, .bool true, .unit, .err (), .unit, .value none, .bytes [0, 0, 0, 0, 0, 0, 0, 5], .unit, .err (), .bool true] := by decide +kernel

/-- The same session in memory; in the end everything is dropped, and no memory is in use. -/
example : (exFree ((run memStore (fun d s => List.replicate (d + s) true) 20 ([], []) (exCombine ++ (List.range 15).map .drop)).exec [])).map (·.2) = some (true, false) := by decide +kernel

end Radix.Heap.Att
