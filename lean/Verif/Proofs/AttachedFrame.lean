import Verif.Spec.AttSession
import Verif.Proofs.AttachedSession

/-
Sessions on plain values: a call changes one slot at most, and a question is about one slot.
-/

set_option linter.unusedVariables false

namespace Radix.Heap.Att

variable {σ ε : Type}

/-- The slots are as before, except `i`, and there may be more of them. -/
def SameBut (c : Option Nat) (o : List Obj) (r : Option (Obs ε × PWorld σ)) : Prop :=
  ∀ a st o', r = some (a, st, o') → o.length ≤ o'.length ∧ ∀ j, j < o.length → c ≠ some j → o'[j]? = o[j]?

theorem SameBut.none {c o} : SameBut (σ := σ) (ε := ε) c o none := fun _ _ _ e => by cases e

theorem SameBut.same {c o a st} : SameBut (σ := σ) (ε := ε) c o (some (a, st, o)) := by
  intro a st o' e; cases e; exact ⟨Nat.le_refl _, fun j _ _ => rfl⟩

theorem SameBut.app {c o a st x} : SameBut (σ := σ) (ε := ε) c o (some (a, st, o ++ [x])) := by
  intro a st o' e; cases e
  exact ⟨by simp, fun j hj _ => List.getElem?_append_left hj⟩

theorem SameBut.set {i o a st x} : SameBut (σ := σ) (ε := ε) (some i) o (some (a, st, o.set i x)) := by
  intro a st o' e; cases e
  exact ⟨by simp, fun j hj hc => List.getElem?_set_ne (fun e => hc (by rw [e]))⟩

theorem SameBut.set1 {i o a st x y} : SameBut (σ := σ) (ε := ε) (some i) o (some (a, st, o.set i x ++ [y])) := by
  intro a st o' e; cases e
  exact ⟨by simp, fun j hj hc => by rw [List.getElem?_append_left (by simpa using hj)]; exact List.getElem?_set_ne (fun e => hc (by rw [e]))⟩

theorem SameBut.set2 {i o a st x y z} : SameBut (σ := σ) (ε := ε) (some i) o (some (a, st, o.set i x ++ [y] ++ [z])) := by
  intro a st o' e; cases e
  exact ⟨by simp, fun j hj hc => by
    rw [List.append_assoc, List.getElem?_append_left (by simpa using hj)]; exact List.getElem?_set_ne (fun e => hc (by rw [e]))⟩

theorem SameBut.onTree {c st o i} {f : Bool → SNode → Option (Obs ε × PWorld σ)} (hf : ∀ a m, SameBut c o (f a m)) : SameBut c o (ponTree (st, o) i f) := by
  unfold ponTree; split
  · exact hf _ _
  · exact .same

theorem SameBut.changed {st o i a} {p : Res ε Unit × SNode} : SameBut (some i) o (pchanged (σ := σ) (st, o) i a p) := by
  obtain ⟨v, m⟩ := p
  cases v <;> first | exact .set | exact .none

theorem SameBut.change {st o i} {f : Bool → SNode → Res ε Unit × SNode} : SameBut (some i) o (pchange (σ := σ) (st, o) i f) := .onTree fun _ _ => .changed

theorem SameBut.changeWith {st o i j ok} {f : Bool → Bool → SNode → Radix.Ref → Res ε Unit × SNode} : SameBut (some i) o (pchangeWith (σ := σ) (st, o) i j ok f) := by
  unfold pchangeWith; split
  · exact .same
  · refine .onTree fun _ _ => .onTree fun _ _ => ?_
    split
    · exact .changed
    · exact .same

theorem SameBut.newTree {c st o a} {v : Res ε SNode} : SameBut c o (pnewTree (σ := σ) (st, o) a v) := by
  cases v <;> first | exact .app | exact .same | exact .none

theorem SameBut.newValue {c st o a} {v : Res ε (Option BlobV)} : SameBut c o (pnewValue (σ := σ) (st, o) a v) := by
  cases v with
  | ok b => cases b <;> exact .app
  | err e => exact .same
  | panic => exact .none
  | deep => exact .none

theorem SameBut.newEntry {c st o a} {v : Res ε (Option (Bytes × BlobV))} : SameBut c o (pnewEntry (σ := σ) (st, o) a v) := by
  cases v with
  | ok b => cases b <;> exact .app
  | err e => exact .same
  | panic => exact .none
  | deep => exact .none

theorem SameBut.newIter {c st o a} {v : Res ε SIter} : SameBut c o (pnewIter (σ := σ) (st, o) a v) := by
  cases v <;> first | exact .app | exact .same | exact .none

theorem SameBut.answer {α : Type} {c st o} {g : α → Obs ε} {v : Res ε α} : SameBut c o (panswer (σ := σ) (st, o) g v) := by
  cases v <;> first | exact .same | exact .none

/-- A call changes the slot it is said to change, and no other. -/
theorem pstep_same (S : BlobStore σ ε) (mask n st o) (op : Op σ ε) : SameBut (changes op) o (pstep S mask n (st, o) op) := by
  cases op
  case empty => exact .app
  case single => exact .app
  case load => exact .newTree
  case clone => simp only [pstep, pcloneOf, changes]; split <;> first | exact .app | exact .same
  case drop i => simp only [pstep, changes]; split <;> first | exact .set | exact .same
  case insert => exact .change
  case remove => exact .change
  case removePrefix => exact .change
  case outerCombineWith => exact .changeWith
  case innerCombineWith => exact .changeWith
  case leftCombineWith => exact .changeWith
  case retainPrefixWith => exact .changeWith
  case removePrefixWith => exact .changeWith
  case outerCombine => exact .onTree fun _ _ => .onTree fun _ _ => .newTree
  case innerCombine => exact .onTree fun _ _ => .onTree fun _ _ => .newTree
  case leftCombine => exact .onTree fun _ _ => .onTree fun _ _ => .newTree
  case innerCombinePred => exact .onTree fun _ _ => .onTree fun _ _ => .answer
  case leftCombinePred => exact .onTree fun _ _ => .onTree fun _ _ => .answer
  case filterPrefix => exact .onTree fun _ _ => .newTree
  case detached => exact .onTree fun _ _ => .newTree
  case attached i =>
    refine .onTree fun a m => ?_
    split
    · exact .same
    · split
      · dsimp only
        generalize attachS S m st = q
        obtain ⟨v, st'⟩ := q
        cases v <;> first | exact .app | exact .same | exact .none
      · exact .none
  case reattach i =>
    refine .onTree fun a m => ?_
    split
    · split
      · dsimp only
        generalize reattachS S m st = q
        obtain ⟨⟨v, m'⟩, st'⟩ := q
        cases v <;> first | exact .set | exact .none
      · exact .none
    · exact .same
  case get => exact .onTree fun _ _ => .newValue
  case containsKey => exact .onTree fun _ _ => .answer
  case hasPrefix => exact .onTree fun _ _ => .answer
  case firstValue => exact .onTree fun _ _ => .newValue
  case lastValue => exact .onTree fun _ _ => .newValue
  case firstEntry => exact .onTree fun _ _ => .newEntry
  case lastEntry => exact .onTree fun _ _ => .newEntry
  case rootValue => exact .onTree fun _ _ => .newValue
  case isEmpty => exact .onTree fun _ _ => .same
  case loadValue => simp only [pstep, ploadOf, changes]; split <;> first | exact .answer | exact .same
  case iter => exact .onTree fun _ _ => .newIter
  case scanPrefix => exact .onTree fun _ _ => .newIter
  case values => exact .onTree fun _ _ => .app
  case groupBy => exact .onTree fun _ _ => .app
  case next i =>
    simp only [pstep, pnextOf, changes]
    split
    · split <;> first | exact .set2 | exact .set1 | exact .set | exact .none
    · split <;> first | exact .set1 | exact .set | exact .none
    · exact .same
  case nextGroup i d =>
    simp only [pstep, pnextGroupOf, changes]
    split
    · split <;> first | exact .set1 | exact .set | exact .none
    · exact .same
  case readKey => simp only [pstep, preadKeyOf, changes]; split <;> exact .same
  case outside => exact .same

theorem prun_same (S : BlobStore σ ε) (mask n) : ∀ (ops : List (Op σ ε)) (st : σ) (o : List Obj) {os st' o'}, prun S mask n (st, o) ops = some (os, st', o') →
    o.length ≤ o'.length ∧ ∀ j, j < o.length → (∀ op ∈ ops, changes op ≠ some j) → o'[j]? = o[j]?
  | [], st, o, os, st', o', e => by
    simp only [prun, Option.some.injEq, Prod.mk.injEq] at e
    obtain ⟨rfl, rfl, rfl⟩ := e
    exact ⟨Nat.le_refl _, fun j _ _ => rfl⟩
  | op :: ops, st, o, os, st', o', e => by
    rw [prun] at e
    have h1 := pstep_same S mask n st o op
    generalize pstep S mask n (st, o) op = q at e h1
    cases q with
    | none => cases e
    | some q =>
      obtain ⟨o1, st1, ob1⟩ := q
      obtain ⟨hl, hj⟩ := h1 _ _ _ rfl
      dsimp only at e
      cases e2 : prun S mask n (st1, ob1) ops with
      | none => rw [e2] at e; cases e
      | some q =>
        obtain ⟨os2, st2, ob2⟩ := q
        rw [e2] at e
        simp only [Option.some.injEq, Prod.mk.injEq] at e
        obtain ⟨rfl, rfl, rfl⟩ := e
        obtain ⟨hl', hj'⟩ := prun_same S mask n ops st1 ob1 e2
        exact ⟨Nat.le_trans hl hl', fun j h1 h2 => by rw [hj' j (by omega) (fun x hx => h2 x (by simp [hx])), hj j h1 (h2 op (by simp))]⟩

/-- One session after another. -/
theorem prun_append (S : BlobStore σ ε) (mask n) : ∀ (a b : List (Op σ ε)) (w : PWorld σ) {os w1 os' w2}, prun S mask n w a = some (os, w1) →
    prun S mask n w1 b = some (os', w2) → prun S mask n w (a ++ b) = some (os ++ os', w2)
  | [], b, w, os, w1, os', w2, e1, e2 => by
    simp only [prun, Option.some.injEq, Prod.mk.injEq] at e1
    obtain ⟨rfl, rfl⟩ := e1
    exact e2
  | op :: a, b, w, os, w1, os', w2, e1, e2 => by
    rw [List.cons_append, prun]
    rw [prun] at e1
    cases h : pstep S mask n w op with
    | none => rw [h] at e1; cases e1
    | some q =>
      obtain ⟨o, w3⟩ := q
      rw [h] at e1
      dsimp only at e1 ⊢
      cases h3 : prun S mask n w3 a with
      | none => rw [h3] at e1; cases e1
      | some q =>
        obtain ⟨os3, w4⟩ := q
        rw [h3] at e1
        simp only [Option.some.injEq, Prod.mk.injEq] at e1
        obtain ⟨rfl, rfl⟩ := e1
        rw [prun_append S mask n a b w3 h3 e2]; rfl

/-- A session that runs to its end runs up to any point. -/
theorem prun_split (S : BlobStore σ ε) (mask n) : ∀ (a b : List (Op σ ε)) (w : PWorld σ) {os w2}, prun S mask n w (a ++ b) = some (os, w2) →
    ∃ os1 w1 os2, prun S mask n w a = some (os1, w1) ∧ prun S mask n w1 b = some (os2, w2) ∧ os = os1 ++ os2 ∧ os1.length = a.length
  | [], b, w, os, w2, e => ⟨[], w, os, rfl, e, rfl, rfl⟩
  | op :: a, b, w, os, w2, e => by
    rw [List.cons_append, prun] at e
    cases h : pstep S mask n w op with
    | none => rw [h] at e; cases e
    | some q =>
      obtain ⟨o, w3⟩ := q
      rw [h] at e
      dsimp only at e
      cases h3 : prun S mask n w3 (a ++ b) with
      | none => rw [h3] at e; cases e
      | some q =>
        obtain ⟨os3, w4⟩ := q
        rw [h3] at e
        simp only [Option.some.injEq, Prod.mk.injEq] at e
        obtain ⟨rfl, rfl⟩ := e
        obtain ⟨os1, w1, os2, e1, e2, rfl, hl⟩ := prun_split S mask n a b w3 h3
        exact ⟨o :: os1, w1, os2, by rw [prun, h]; dsimp only; rw [e1], e2, rfl, by simp [hl]⟩

theorem prun_one (S : BlobStore σ ε) (mask n) (w : PWorld σ) (op : Op σ ε) : prun S mask n w [op] = (pstep S mask n w op).map fun r => ([r.1], r.2) := by
  simp only [prun]
  cases pstep S mask n w op <;> rfl

/-- What is seen of a call. -/
def seen (r : Option (Obs ε × PWorld σ)) : Option (Obs ε) := r.map (·.1)

theorem seen_onTree {st o o' i j} {f g : Bool → SNode → Option (Obs ε × PWorld σ)} (h : o[i]? = o'[j]?) (hf : ∀ a m, seen (f a m) = seen (g a m)) :
    seen (ponTree (st, o) i f) = seen (ponTree (st, o') j g) := by
  unfold ponTree
  dsimp only
  rw [h]
  split
  · exact hf _ _
  · rfl

theorem seen_newValue {st o o' a} {v : Res ε (Option BlobV)} : seen (pnewValue (σ := σ) (st, o) a v) = seen (pnewValue (st, o') a v) := by
  cases v with
  | ok b => cases b <;> rfl
  | _ => rfl

theorem seen_newEntry {st o o' a} {v : Res ε (Option (Bytes × BlobV))} : seen (pnewEntry (σ := σ) (st, o) a v) = seen (pnewEntry (st, o') a v) := by
  cases v with
  | ok b => cases b <;> rfl
  | _ => rfl

theorem seen_answer {α : Type} {st o o'} {g : α → Obs ε} {v : Res ε α} : seen (panswer (σ := σ) (st, o) g v) = seen (panswer (st, o') g v) := by
  cases v <;> rfl

/-- The answer to a question depends on the store and on what is in the slot, and on nothing else. -/
theorem question_slot (S : BlobStore σ ε) (mask n st) {q : Nat → Op σ ε} (hq : Question q) {o o' : List Obj} {i j : Nat} (h : o[i]? = o'[j]?) :
    seen (pstep S mask n (st, o) (q i)) = seen (pstep S mask n (st, o') (q j)) := by
  cases hq
  case get => exact seen_onTree h fun _ _ => seen_newValue
  case containsKey => exact seen_onTree h fun _ _ => seen_answer
  case hasPrefix => exact seen_onTree h fun _ _ => seen_answer
  case firstValue => exact seen_onTree h fun _ _ => seen_newValue
  case lastValue => exact seen_onTree h fun _ _ => seen_newValue
  case firstEntry => exact seen_onTree h fun _ _ => seen_newEntry
  case lastEntry => exact seen_onTree h fun _ _ => seen_newEntry
  case rootValue => exact seen_onTree h fun _ _ => seen_newValue
  case isEmpty => exact seen_onTree h fun _ _ => rfl
  case loadValue =>
    simp only [pstep, ploadOf]
    rw [h]
    split
    · exact seen_answer
    · rfl
  case readKey => simp only [pstep, preadKeyOf]; rw [h]; split <;> rfl
  case next =>
    simp only [pstep, pnextOf]
    rw [h]
    split
    · split <;> rfl
    · split <;> rfl
    · rfl
  case nextGroup d =>
    simp only [pstep, pnextGroupOf]
    rw [h]
    split
    · split <;> rfl
    · rfl

/-- What a step of an iterator makes of the store and of the slot it is in. -/
def slotOf (i : Nat) (r : Option (Obs ε × PWorld σ)) : Option (Obs ε × σ × Option Obj) := r.map fun r => (r.1, r.2.1, r.2.2[i]?)

theorem slotOf_set {i j : Nat} {o o' : List Obj} {a} {st : σ} {x : Obj} (hi : i < o.length) (hj : j < o'.length) :
    slotOf (ε := ε) i (some (a, st, o.set i x)) = slotOf j (some (a, st, o'.set j x)) := by simp [slotOf, hi, hj]

theorem slotOf_set1 {i j : Nat} {o o' : List Obj} {a} {st : σ} {x y z : Obj} (hi : i < o.length) (hj : j < o'.length) :
    slotOf (ε := ε) i (some (a, st, o.set i x ++ [y])) = slotOf j (some (a, st, o'.set j x ++ [z])) := by
  simp only [slotOf, Option.map_some]
  rw [List.getElem?_append_left (by simpa using hi), List.getElem?_append_left (by simpa using hj)]
  simp [hi, hj]

theorem slotOf_set2 {i j : Nat} {o o' : List Obj} {a} {st : σ} {x y z y' z' : Obj} (hi : i < o.length) (hj : j < o'.length) :
    slotOf (ε := ε) i (some (a, st, o.set i x ++ [y] ++ [z])) = slotOf j (some (a, st, o'.set j x ++ [y'] ++ [z'])) := by
  simp only [slotOf, Option.map_some, List.append_assoc]
  rw [List.getElem?_append_left (by simpa using hi), List.getElem?_append_left (by simpa using hj)]
  simp [hi, hj]

/-- A step of an iterator depends on the store and on what is in the slot, and so does what is in the slot afterwards. -/
theorem step_slot (S : BlobStore σ ε) (mask n st) {q : Nat → Op σ ε} (hq : Step q) {o o' : List Obj} {i j : Nat} (hi : i < o.length) (hj : j < o'.length) (h : o[i]? = o'[j]?) :
    slotOf i (pstep S mask n (st, o) (q i)) = slotOf j (pstep S mask n (st, o') (q j)) := by
  cases hq
  case next =>
    simp only [pstep, pnextOf]
    rw [h]
    split
    · split <;> first | rfl | exact slotOf_set hi hj | exact slotOf_set1 hi hj | exact slotOf_set2 hi hj
    · split <;> first | rfl | exact slotOf_set hi hj | exact slotOf_set1 hi hj
    · simp [slotOf, h]
  case nextGroup d =>
    simp only [pstep, pnextGroupOf]
    rw [h]
    split
    · split <;> first | rfl | exact slotOf_set hi hj | exact slotOf_set1 hi hj
    · simp [slotOf, h]

/-- Any number of steps of an iterator depend on the store and on what is in the slot, and on nothing else. -/
theorem steps_slot (S : BlobStore σ ε) (mask n) : ∀ (qs : List (Nat → Op σ ε)) (st : σ) (o o' : List Obj) (i j : Nat), (∀ q ∈ qs, Step q) → i < o.length → j < o'.length →
    o[i]? = o'[j]? → ∀ {as w}, prun S mask n (st, o) (qs.map (· i)) = some (as, w) → ∃ w', prun S mask n (st, o') (qs.map (· j)) = some (as, w')
  | [], st, o, o', i, j, hq, hi, hj, h, as, w, e => by
    simp only [List.map_nil, prun, Option.some.injEq, Prod.mk.injEq] at e ⊢
    exact ⟨_, e.1, rfl⟩
  | q :: qs, st, o, o', i, j, hq, hi, hj, h, as, w, e => by
    rw [List.map_cons, prun] at e
    have h1 := step_slot S mask n st (hq q (by simp)) hi hj h
    have l1 := pstep_same S mask n st o (q i)
    have l2 := pstep_same S mask n st o' (q j)
    cases e1 : pstep S mask n (st, o) (q i) with
    | none => rw [e1] at e; cases e
    | some r =>
      obtain ⟨a, st1, o1⟩ := r
      rw [e1] at e h1
      obtain ⟨⟨a', st2, o2⟩, e2, e3⟩ := Option.map_eq_some_iff.1 h1.symm
      simp only [Prod.mk.injEq] at e3
      obtain ⟨rfl, rfl, h2⟩ := e3
      dsimp only at e
      cases e4 : prun S mask n (st2, o1) (qs.map (· i)) with
      | none => rw [e4] at e; cases e
      | some r =>
        obtain ⟨as1, w1⟩ := r
        rw [e4] at e
        simp only [Option.some.injEq, Prod.mk.injEq] at e
        obtain ⟨rfl, rfl⟩ := e
        obtain ⟨w2, e5⟩ := steps_slot S mask n qs st2 o1 o2 i j (fun q h => hq q (by simp [h])) (Nat.lt_of_lt_of_le hi (l1 _ _ _ e1).1) (Nat.lt_of_lt_of_le hj (l2 _ _ _ e2).1)
          h2.symm e4
        exact ⟨w2, by rw [List.map_cons, prun, e2]; dsimp only; rw [e5]⟩

end Radix.Heap.Att
