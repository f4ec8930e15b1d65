import Verif.Spec.Caught
import Verif.Proofs.AttachedFrame

/- Sessions in which the store and the functions of the user may panic, and the program goes on. -/

set_option linter.unusedVariables false

namespace Radix.Heap.Att

variable {σ ε : Type}

theorem caught_ok {S : BlobStore σ ε} {h st l o} (g : Good h l o) (n i : Nat) : StepOK (caughtOf S n (st, l) i) h (pcaughtOf S n (st, o) i) := by
  unfold caughtOf pcaughtOf
  dsimp only
  rcases slot_cases g i with ⟨e1, e2⟩ | ⟨s, ob, e1, e2, hr⟩
  · rw [e1, e2]; exact ok_bad g
  · rw [e1, e2]
    obtain ⟨i1, r1⟩ := g.take e1
    cases s <;> cases ob <;> simp only [RepSlot] at hr <;> try exact ok_bad g
    · rename_i a s b m
      obtain ⟨rfl, hr⟩ := hr
      have h1 := step_spec (S := (storeOf S st a).S) (st := (storeOf S st a).st) n m s _ h i1 hr
      dsimp only
      generalize SIter.step (storeOf S st a).S (storeOf S st a).st n m = q at h1 ⊢
      cases q with
      | ok q =>
        obtain ⟨x, m'⟩ := q
        rcases x with _ | _ | ⟨k, v⟩
        · obtain ⟨s', h', e, p, r3⟩ := h1
          exact .intro (by rw [run_bind e]; rfl) (Good.put (s := .kv a s') (ob := .kv a m') e1 r1 p ⟨rfl, r3⟩)
        · obtain ⟨ov, s', h', e, p, r2, r3⟩ := h1
          rcases ov with _ | _
          · exact .intro (by rw [run_bind e]; rfl) (Good.put (s := .kv a s') (ob := .kv a m') e1 r1 p ⟨rfl, r3⟩)
          · exact r2.elim
        · obtain ⟨ov, s', h', e, p, r2, r3⟩ := h1
          rcases ov with _ | ⟨k', v'⟩
          · exact r2.elim
          · obtain ⟨r4, r5⟩ := r2
            exact .intro (by rw [run_bind e]; dsimp only; rw [run_bind (readBlob_spec r4), run_bind (blobV_spec r5)]; rfl)
              (Good.put3 (s := .kv a s') (ob := .kv a m') (t := .key k') (tb := .key k) (u := .value a v') (ub := .value a v) e1 r1 p ⟨rfl, r3⟩ r4 ⟨rfl, r5⟩)
      | err e => exact e.elim
      | panic => exact .none
      | deep => exact .none
    · rename_i a s b m
      obtain ⟨rfl, hr⟩ := hr
      have h1 := valStep_spec (S := (storeOf S st a).S) (st := (storeOf S st a).st) n m s _ h i1 hr
      dsimp only
      generalize valStep (storeOf S st a).S (storeOf S st a).st n m = q at h1 ⊢
      cases q with
      | ok q =>
        obtain ⟨x, m'⟩ := q
        rcases x with _ | _ | v
        · obtain ⟨s', h', e, p, r3⟩ := h1
          exact .intro (by rw [run_bind e]; rfl) (Good.put (s := .vals a s') (ob := .vals a m') e1 r1 p ⟨rfl, r3⟩)
        · obtain ⟨ov, s', h', e, p, r2, r3⟩ := h1
          rcases ov with _ | _
          · exact .intro (by rw [run_bind e]; rfl) (Good.put (s := .vals a s') (ob := .vals a m') e1 r1 p ⟨rfl, r3⟩)
          · exact r2.elim
        · obtain ⟨ov, s', h', e, p, r2, r3⟩ := h1
          rcases ov with _ | v'
          · exact r2.elim
          · exact .intro (by rw [run_bind e]; dsimp only; rw [run_bind (blobV_spec r2)]; rfl)
              (Good.put2 (s := .vals a s') (ob := .vals a m') (t := .value a v') (tb := .value a v) e1 r1 p ⟨rfl, r3⟩ ⟨rfl, r2⟩)
      | err e => exact e.elim
      | panic => exact .none
      | deep => exact .none

theorem caughtGroup_ok {S : BlobStore σ ε} {h st l o} (g : Good h l o) (n i : Nat) (d : Bytes → Except ε Bool) :
    StepOK (caughtGroupOf S n (st, l) i d) h (pcaughtGroupOf S n (st, o) i d) := by
  unfold caughtGroupOf pcaughtGroupOf
  dsimp only
  rcases slot_cases g i with ⟨e1, e2⟩ | ⟨s, ob, e1, e2, hr⟩
  · rw [e1, e2]; exact ok_bad g
  · rw [e1, e2]
    obtain ⟨i1, r1⟩ := g.take e1
    cases s <;> cases ob <;> simp only [RepSlot] at hr <;> try exact ok_bad g
    rename_i a s b m
    obtain ⟨rfl, hr⟩ := hr
    have h1 := groupStep_spec (S := (storeOf S st a).S) (st := (storeOf S st a).st) d n m s _ h i1 hr
    dsimp only
    generalize groupStep (storeOf S st a).S d (storeOf S st a).st n m = q at h1 ⊢
    cases q with
    | ok q =>
      obtain ⟨x, m'⟩ := q
      rcases x with _ | _ | k
      · obtain ⟨s', h', e, p, r3⟩ := h1
        exact .intro (by rw [run_bind e]; rfl) (Good.put (s := .group a s') (ob := .group a m') e1 r1 p ⟨rfl, r3⟩)
      · obtain ⟨ov, s', h', e, p, r2, r3⟩ := h1
        rcases ov with _ | _
        · exact .intro (by rw [run_bind e]; rfl) (Good.put (s := .group a s') (ob := .group a m') e1 r1 p ⟨rfl, r3⟩)
        · exact r2.elim
      · obtain ⟨ov, s', h', e, p, r2, r3⟩ := h1
        rcases ov with _ | x'
        · exact r2.elim
        · exact .intro (by rw [run_bind e]; rfl)
            (Good.put2 (s := .group a s') (ob := .group a m') (t := .tree a x') (tb := .tree a k) e1 r1 p ⟨rfl, r3⟩ ⟨rfl, r2⟩)
    | err e => exact e.elim
    | panic => exact .none
    | deep => exact .none

theorem stepC_ok {S : BlobStore σ ε} {mask n h st l o} (c : Call σ ε) (g : Good h l o) : StepOK (stepC S mask n (st, l) c) h (pstepC S mask n (st, o) c) := by
  cases c with
  | op o => exact step_ok o g
  | next i => exact caught_ok g n i
  | nextGroup i d => exact caughtGroup_ok g n i d

/-- A session in memory gives what the session on plain values gives. -/
theorem runC_ok {S : BlobStore σ ε} {mask n} : ∀ (cs : List (Call σ ε)) (h : Mem) (st : σ) (l : List Slot) (o : List Obj), Good h l o →
    ∀ os st' ob, prunC S mask n (st, o) cs = some (os, st', ob) → ∃ l' h', runC S mask n (st, l) cs h = some ((os, st', l'), h') ∧ Good h' l' ob
  | [], h, st, l, o, g, os, st', ob, e => by
    simp only [prunC, Option.some.injEq, Prod.mk.injEq] at e
    obtain ⟨rfl, rfl, rfl⟩ := e
    exact ⟨l, h, rfl, g⟩
  | c :: cs, h, st, l, o, g, os, st', ob, e => by
    rw [prunC] at e
    have h1 := stepC_ok (S := S) (mask := mask) (n := n) (st := st) c g
    generalize pstepC S mask n (st, o) c = q at e h1
    cases q with
    | none => cases e
    | some q =>
      obtain ⟨o1, st1, ob1⟩ := q
      obtain ⟨l1, m1, e1, g1⟩ := h1 o1 st1 ob1 rfl
      dsimp only at e
      cases e2 : prunC S mask n (st1, ob1) cs with
      | none => rw [e2] at e; cases e
      | some q =>
        obtain ⟨os2, st2, ob2⟩ := q
        rw [e2] at e
        simp only [Option.some.injEq, Prod.mk.injEq] at e
        obtain ⟨rfl, rfl, rfl⟩ := e
        obtain ⟨l2, m2, e3, g2⟩ := runC_ok cs m1 st1 l1 ob1 g1 os2 st2 ob2 e2
        exact ⟨l2, m2, by rw [runC, run_bind e1]; dsimp only; rw [run_bind e3]; rfl, g2⟩

theorem execC_ok {S : BlobStore σ ε} {mask n} (cs : List (Call σ ε)) (st : σ) {os st' ob} (e : prunC S mask n (st, []) cs = some (os, st', ob)) :
    ∃ l h, (runC S mask n (st, []) cs).exec [] = some ((os, st', l), h) ∧ Cells.Inv h (slotsRefs l) ∧ l.length = ob.length := by
  obtain ⟨l, m, e, g⟩ := runC_ok cs Mem.init st [] [] good_init os st' ob e
  obtain ⟨h1, h2⟩ := run_alone ⟨rfl, rfl, fun _ => rfl⟩ e
  exact ⟨l, m.cells, h1, g.1.alone h2.1 h2.2.1, g.2.1⟩

theorem pstepC_same (S : BlobStore σ ε) (mask n st o) (c : Call σ ε) : SameBut (changesC c) o (pstepC S mask n (st, o) c) := by
  cases c with
  | op p => exact pstep_same S mask n st o p
  | next i =>
    simp only [pstepC, pcaughtOf, changesC]
    split
    · split <;> first | exact .set2 | exact .set1 | exact .set | exact .none
    · split <;> first | exact .set1 | exact .set | exact .none
    · exact .same
  | nextGroup i d =>
    simp only [pstepC, pcaughtGroupOf, changesC]
    split
    · split <;> first | exact .set1 | exact .set | exact .none
    · exact .same

theorem prunC_same (S : BlobStore σ ε) (mask n) : ∀ (cs : List (Call σ ε)) (st : σ) (o : List Obj) {os st' o'}, prunC S mask n (st, o) cs = some (os, st', o') →
    o.length ≤ o'.length ∧ ∀ j, j < o.length → (∀ c ∈ cs, changesC c ≠ some j) → o'[j]? = o[j]?
  | [], st, o, os, st', o', e => by
    simp only [prunC, Option.some.injEq, Prod.mk.injEq] at e
    obtain ⟨rfl, rfl, rfl⟩ := e
    exact ⟨Nat.le_refl _, fun j _ _ => rfl⟩
  | c :: cs, st, o, os, st', o', e => by
    rw [prunC] at e
    have h1 := pstepC_same S mask n st o c
    generalize pstepC S mask n (st, o) c = q at e h1
    cases q with
    | none => cases e
    | some q =>
      obtain ⟨o1, st1, ob1⟩ := q
      obtain ⟨hl, hj⟩ := h1 _ _ _ rfl
      dsimp only at e
      cases e2 : prunC S mask n (st1, ob1) cs with
      | none => rw [e2] at e; cases e
      | some q =>
        obtain ⟨os2, st2, ob2⟩ := q
        rw [e2] at e
        simp only [Option.some.injEq, Prod.mk.injEq] at e
        obtain ⟨rfl, rfl, rfl⟩ := e
        obtain ⟨hl', hj'⟩ := prunC_same S mask n cs st1 ob1 e2
        exact ⟨Nat.le_trans hl hl', fun j h1 h2 => by rw [hj' j (by omega) (fun x hx => h2 x (by simp [hx])), hj j h1 (h2 c (by simp))]⟩

/-- One session after another. -/
theorem prunC_append (S : BlobStore σ ε) (mask n) : ∀ (a b : List (Call σ ε)) (w : PWorld σ) {os w1 os' w2}, prunC S mask n w a = some (os, w1) →
    prunC S mask n w1 b = some (os', w2) → prunC S mask n w (a ++ b) = some (os ++ os', w2)
  | [], b, w, os, w1, os', w2, e1, e2 => by
    simp only [prunC, Option.some.injEq, Prod.mk.injEq] at e1
    obtain ⟨rfl, rfl⟩ := e1
    exact e2
  | op :: a, b, w, os, w1, os', w2, e1, e2 => by
    rw [List.cons_append, prunC]
    rw [prunC] at e1
    cases h : pstepC S mask n w op with
    | none => rw [h] at e1; cases e1
    | some q =>
      obtain ⟨o, w3⟩ := q
      rw [h] at e1
      dsimp only at e1 ⊢
      cases h3 : prunC S mask n w3 a with
      | none => rw [h3] at e1; cases e1
      | some q =>
        obtain ⟨os3, w4⟩ := q
        rw [h3] at e1
        simp only [Option.some.injEq, Prod.mk.injEq] at e1
        obtain ⟨rfl, rfl⟩ := e1
        rw [prunC_append S mask n a b w3 h3 e2]; rfl

/-- A session that runs to its end runs up to any point. -/
theorem prunC_split (S : BlobStore σ ε) (mask n) : ∀ (a b : List (Call σ ε)) (w : PWorld σ) {os w2}, prunC S mask n w (a ++ b) = some (os, w2) →
    ∃ os1 w1 os2, prunC S mask n w a = some (os1, w1) ∧ prunC S mask n w1 b = some (os2, w2) ∧ os = os1 ++ os2 ∧ os1.length = a.length
  | [], b, w, os, w2, e => ⟨[], w, os, rfl, e, rfl, rfl⟩
  | op :: a, b, w, os, w2, e => by
    rw [List.cons_append, prunC] at e
    cases h : pstepC S mask n w op with
    | none => rw [h] at e; cases e
    | some q =>
      obtain ⟨o, w3⟩ := q
      rw [h] at e
      dsimp only at e
      cases h3 : prunC S mask n w3 (a ++ b) with
      | none => rw [h3] at e; cases e
      | some q =>
        obtain ⟨os3, w4⟩ := q
        rw [h3] at e
        simp only [Option.some.injEq, Prod.mk.injEq] at e
        obtain ⟨rfl, rfl⟩ := e
        obtain ⟨os1, w1, os2, e1, e2, rfl, hl⟩ := prunC_split S mask n a b w3 h3
        exact ⟨o :: os1, w1, os2, by rw [prunC, h]; dsimp only; rw [e1], e2, rfl, by simp [hl]⟩

theorem prunC_one (S : BlobStore σ ε) (mask n) (w : PWorld σ) (op : Call σ ε) : prunC S mask n w [op] = (pstepC S mask n w op).map fun r => ([r.1], r.2) := by
  simp only [prunC]
  cases pstepC S mask n w op <;> rfl

end Radix.Heap.Att
