import Verif.Proofs.AttThreads
import Verif.Props.Caught

/-
Property C86: any number of threads that hold trees, values, keys and iterators that share memory, some of them attached to a store, call the API in any order, catch panics of the store and of functions they pass,
and hand things to each other. Schedules (`TEvent`, `TWorld.run`) are defined in `Verif/Heap/AttThreads.lean`, what may be seen in `Verif/Spec/AttThreads.lean`.
-/

set_option linter.unusedVariables false

namespace Radix.Heap.Att

section
variable {σ ε : Type} {S : BlobStore σ ε} {mask : Nat → Nat → List Bool} {n : Nat}

/-- The schedule runs to its end on `c` threads that start with nothing, or up to a call that has no result even if only plain values are used (`TStuck`). At this point the threads and memory are `w`, and `seen` could
be seen. What was seen up to there is what threads may see that share nothing. Memory that was freed is never used: in the model such a step has no result. -/
def TRuns (S : BlobStore σ ε) (mask : Nat → Nat → List Bool) (n c : Nat) (es : List (TEvent σ ε)) (Q : TWorld σ ε → List (TSeen σ ε) → Prop) : Prop :=
  ∃ es1 es2 w seen ws, es = es1 ++ es2 ∧ (TWorld.init c).run S mask n es1 = some (w, seen) ∧ THappensAll S mask n (tworkers c) es1 seen ws ∧ Q w seen ∧
    (es2 = [] ∨ ∃ e es3, es2 = e :: es3 ∧ TStuck S mask n ws e)

theorem TRuns.of {c : Nat} {es : List (TEvent σ ε)} {Q : TWorld σ ε → List (TSeen σ ε) → Prop}
    (h : ∀ es1 w seen P owns, (∃ es2, es = es1 ++ es2) → WTell S mask n w P owns → THappensAll S mask n (tworkers c) es1 seen P → Q w seen) : TRuns S mask n c es Q := by
  rcases trun_events (S := S) (mask := mask) (n := n) es (TWorld.init c) _ _ (WTell.init c) with ⟨w, s, P, owns, e, hw, p⟩ | ⟨es1, e, es2, w, s, P, owns, rfl, e1, hw, p, hs⟩
  · exact ⟨es, [], w, s, P, by simp, e, p, h es w s P owns ⟨[], by simp⟩ hw p, .inl rfl⟩
  · exact ⟨es1, e :: es2, w, s, P, rfl, e1, p, h es1 w s P owns ⟨_, rfl⟩ hw p, .inr ⟨e, es2, rfl, hs⟩⟩

/-! ### C86 -/

/-- In every schedule, and whatever the store says in each call, what the threads see is what they could see if nothing were shared and each call did all of its work at the moment when it returns. -/
theorem C86_like_values (c : Nat) (es : List (TEvent σ ε)) : TRuns S mask n c es fun _ _ => True := .of fun _ _ _ _ _ _ _ _ => trivial

/-- A thread that nothing is handed to or from sees what it would see if it were alone: the answers to its calls are those of a program with one thread that makes the same calls, with the same states of the store,
whatever the other threads do (its last call may not have returned yet). -/
theorem C86_alone (c : Nat) (es : List (TEvent σ ε)) (i : Nat) (hi : i < c) (he : ∀ e ∈ es, e.apart i) (st0 : σ) :
    TRuns S mask n c es fun w seen => ∃ cs last st' d, tcallsOf i seen = cs ++ last ∧ last.length ≤ 1 ∧ SeesC S mask n st0 (oneByOne cs) (withUnits (tretsOf i seen)) st' d := by
  refine .of fun es1 w seen P owns ⟨es2, h2⟩ hw p => ?_
  obtain ⟨q', cs, st', h1, h2, h3⟩ := p.alone (i := i) (fun e h => he e (by rw [h2]; simp [h])) (q := ⟨[], none⟩) (by rw [tworkers, List.getElem?_replicate, if_pos hi]) st0
  exact ⟨cs, q'.call.toList, st', q'.things.length, h2, by cases q'.call <;> simp, .of h3⟩

/-- After any schedule, if every thread gets its turn again and again (`f` says whose turn it is), all calls return. -/
theorem C86_returns (c : Nat) (es : List (TEvent σ ε)) (f : Nat → Nat) (hf : ∀ i, i < c → ∀ m, ∃ m', m ≤ m' ∧ f m' = i) :
    TRuns S mask n c es fun w _ => ∃ m w' s, w.run S mask n (tticks f m) = some (w', s) ∧ ∀ t ∈ w'.threads, ∃ l, t = .idle l := by
  refine .of fun es1 w seen P owns _ hw p => ?_
  have hl : w.threads.length = c := by rw [← hw.lenP, p.length]; simp [tworkers]
  obtain ⟨m, hm⟩ := treturns_all (S := S) (mask := mask) (n := n) f hw (by rw [hl]; exact hf) c (by omega)
  obtain ⟨w', s', e', hi⟩ := hm m (Nat.le_refl _)
  refine ⟨m, w', s', e', fun t ht => ?_⟩
  obtain ⟨i, hi'⟩ := List.getElem?_of_mem ht
  have hlt := (List.getElem?_eq_some_iff.1 hi').1
  rw [trun_length _ _ e'] at hlt
  obtain ⟨l, hl'⟩ := hi i (by omega)
  rw [hi'] at hl'; cases hl'
  exact ⟨l, rfl⟩

/-- There is no data race: when the next step of thread `j` uses a cell, then the cell is in memory, and a step of another thread `i` neither frees it nor changes what is in it (other than
its reference count). So the two steps can be made in any order, or at the same time. -/
theorem C86_no_race (c : Nat) (es : List (TEvent σ ε)) : TRuns S mask n c es fun w _ =>
    ∀ i j y k r, i ≠ j → w.threads[j]? = some (.busy (.act y k)) → y.uses = some r →
      ∃ w' s, w.step S mask n (.tick i) = some (w', s) ∧ Cells.content w.cells r ≠ none ∧ Cells.content w'.cells r = Cells.content w.cells r := by
  refine .of fun es1 w seen P owns _ hw p i j y k r hij hj hr => ?_
  obtain ⟨w', s', _, _, e', _⟩ := ttick_event (i := i) hw
  exact ⟨w', s', e', t_no_race hw hij hj hr e'⟩

/-- Whenever no thread is in the middle of a call, everything in memory, other than empty arrays of children, can be reached from what the threads hold. In particular, once the threads have
dropped everything, only empty arrays of children are left. -/
theorem C86_memory (c : Nat) (es : List (TEvent σ ε)) : TRuns S mask n c es fun w _ => (∀ t ∈ w.threads, ∃ l, t = .idle l) →
    (∀ (a : Nat) (x : Cell), w.cells[a]? = some (some x) → (∃ m, x = .kids m []) ∨ Cells.Reach w.cells w.refs (x.ref a)) ∧
    ((∀ t ∈ w.threads, ∀ l, t = .idle l → ∀ s ∈ l, s = .free) → ∀ (a : Nat) (x : Cell), w.cells[a]? = some (some x) → ∃ m, x = .kids m []) := by
  refine .of fun es1 w seen P owns _ h p hi => ?_
  have key : ∀ (a : Nat) (x : Cell), w.cells[a]? = some (some x) → (∃ m, x = .kids m []) ∨ Cells.Reach w.cells w.refs (x.ref a) := by
    intro a x ha
    cases x with
    | blob m d => exact .inr (h.reach hi (by simp [Cell.ref, Cells.content, Cells.cB, ha]) (by simp [Cell.ref, Cells.content, Cells.cB, ha]))
    | kids m ns =>
      cases ns with
      | nil => exact .inl ⟨m, rfl⟩
      | cons x ns => exact .inr (h.reach hi (by simp [Cell.ref, Cells.content, Cells.cK, ha]) (by simp [Cell.ref, Cells.content, Cells.cK, ha]))
  refine ⟨key, fun hf a x ha => ?_⟩
  rcases key a x ha with h1 | h1
  · exact h1
  · exfalso
    have h2 : w.refs = [] := by
      unfold TWorld.refs
      rw [List.flatMap_eq_nil_iff]
      intro t ht
      obtain ⟨l, rfl⟩ := hi t ht
      show l.flatMap Slot.refs = []
      rw [List.flatMap_eq_nil_iff]
      intro s hs; rw [hf _ ht l rfl s hs]; rfl
    rw [h2] at h1
    have h3 : ∀ {r}, Cells.Reach w.cells [] r → False := by
      intro r hr
      induction hr with
      | root h4 => cases h4
      | step _ _ _ ih => exact ih
    exact h3 h1

end

/-! ### Concrete schedules -/

/-- The same events again and again. -/
def tturns {σ ε : Type} : Nat → List (TEvent σ ε) → List (TEvent σ ε)
  | 0, _ => []
  | n + 1, es => es ++ tturns n es

/-- A call and enough steps for it to return. -/
def twhole (i : Nat) (c : Call MemState Unit) (st : MemState) : List (TEvent MemState Unit) := .call i c st :: tturns 60 [.tick i]

/-- What the store contains after thread 0 has saved its tree. -/
def exSaved : MemState :=
  match prunC memStore exMask 20 ([], []) [.op (.single [1] [2]), .op (.insert 0 [1, 2] [3]), .op (.attached 0)] with
  | some (_, st, _) => st
  | none => []

/-- Thread 0 makes a tree with two entries, attaches it to the store, clones the attached tree and hands the clone to thread 1. -/
def exHand : List (TEvent MemState Unit) := twhole 0 (.op (.single [1] [2])) [] ++ twhole 0 (.op (.insert 0 [1, 2] [3])) [] ++ twhole 0 (.op (.attached 0)) [] ++ twhole 0 (.op (.clone 1)) exSaved ++ [.send 0 1 2]

/-- Both threads change their trees in turns; the store fails during a call of thread 1 (it has forgotten everything). Then both look. -/
def exBoth : List (TEvent MemState Unit) := exHand ++ [.call 0 (.op (.remove 1 [1, 2])) exSaved, .call 1 (.op (.insert 0 [1, 2] [7])) []] ++ tturns 80 [.tick 0, .tick 1, .tick 1] ++
  [.call 1 (.op (.insert 0 [1, 2] [7])) exSaved] ++ tturns 80 [.tick 1] ++
  [.call 0 (.op (.get 1 [1, 2])) exSaved, .call 1 (.op (.get 0 [1, 2])) exSaved] ++ tturns 80 [.tick 0, .tick 1]

/-- Thread 1 gets an error from the store; later its change succeeds. Neither thread sees what the other one does. -/
example : ((TWorld.init 2).run memStore exMask 20 exBoth).map (fun r => (tretsOf 0 r.2, tretsOf 1 r.2)) =
    some ([.unit, .unit, .unit, .unit, .unit, .value none], [.err (), .unit, .value (some (.data [7]))]) := by decide +kernel

/-- In the middle of two calls both threads are about to use the same memory. -/
example : ((TWorld.init 2).run memStore exMask 20 (exHand ++ [.call 0 (.op (.remove 1 [1, 2])) exSaved, .call 1 (.op (.insert 0 [1, 2] [7])) exSaved])).map
    (fun r => r.1.threads.map fun t => match t with | .busy (.act y _) => y.uses.map Ref.addr | _ => none) = some [some 1, some 1] := by decide +kernel

/-- Both threads drop what they hold, while the other one does so too. -/
example : ((TWorld.init 2).run memStore exMask 20 (exHand ++ [.call 0 (.op (.drop 1)) [], .call 1 (.op (.drop 0)) []] ++ tturns 60 [.tick 0, .tick 1] ++ twhole 0 (.op (.drop 0)) [])).map
    (fun r => (r.1.cells.any Option.isSome, r.1.threads.all fun t => match t with | .idle l => l.all (fun s => match s with | .free => true | _ => false) | _ => false)) = some (false, true) := by decide +kernel

example : ∀ i, i < 2 → ∀ m, ∃ m', m ≤ m' ∧ (fun k => k % 2) m' = i := fun i hi m => ⟨2 * m + i, by omega, by simp; omega⟩

example : ∀ e ∈ twhole 0 (.op (.single [1] [2])) [] ++ twhole 1 (.next 0) [], e.apart 0 := by
  have ht : ∀ {i n} (e : TEvent MemState Unit), e ∈ tturns n [.tick i] → e.apart 0 := by
    intro i n
    induction n with
    | zero => intro e h; cases h
    | succ n ih =>
      intro e h
      rcases List.mem_append.1 h with h | h
      · rw [List.mem_singleton] at h; subst h; trivial
      · exact ih e h
  intro e he
  simp only [twhole, List.mem_append, List.mem_cons] at he
  rcases he with (rfl | he) | rfl | he
  · trivial
  · exact ht e he
  · trivial
  · exact ht e he

/-! ### No call of these schedules has no result on plain values -/

section
variable {σ ε : Type} {S : BlobStore σ ε} {mask : Nat → Nat → List Bool} {n : Nat}

/-- An event on plain values, when it is known what can be seen of it. No result: a call has no result. -/
def pone (S : BlobStore σ ε) (mask : Nat → Nat → List Bool) (n : Nat) (ws : List (TWorker σ ε)) : TEvent σ ε → List (TSeen σ ε) → Option (List (TWorker σ ε))
  | .call i c st, _ =>
    match ws[i]? with
    | some ⟨l, none⟩ => if (pstepC S mask n (st, l) c).isSome then some (ws.set i ⟨l, some (c, st)⟩) else none
    | _ => some ws
  | .tick i, [] => some ws
  | .tick i, _ =>
    match ws[i]? with
    | some ⟨l, some (c, st)⟩ => (pstepC S mask n (st, l) c).map fun r => ws.set i ⟨r.2.2, none⟩
    | _ => some ws
  | .send i j k, [] => some ws
  | .send i j k, _ =>
    match ws[i]?, ws[j]? with
    | some ⟨l, _⟩, some ⟨l', _⟩ =>
      match l[k]? with
      | some t => some ((ws.set i ⟨l.set k .free, none⟩).set j ⟨l' ++ [t], none⟩)
      | none => some ws
    | _, _ => some ws

theorem pone_eq {ws ws' ws1 : List (TWorker σ ε)} {e : TEvent σ ε} {s : List (TSeen σ ε)} (h : THappens S mask n ws e s ws') (h1 : pone S mask n ws e s = some ws1) : ws' = ws1 := by
  cases h with
  | call h => simp only [pone] at h1; rw [h] at h1; dsimp only at h1; split at h1 <;> cases h1; rfl
  | noCall h =>
    simp only [pone] at h1
    split at h1
    · rename_i e; exact absurd e (h _)
    · cases h1; rfl
  | tick => cases h1; rfl
  | ret h e => simp only [pone] at h1; rw [h] at h1; dsimp only at h1; rw [e] at h1; cases h1; rfl
  | send h a b c => simp only [pone] at h1; rw [a, b] at h1; dsimp only at h1; rw [c] at h1; cases h1; rfl
  | noSend h => cases h1; rfl

theorem pone_stuck {ws : List (TWorker σ ε)} {e : TEvent σ ε} {s : List (TSeen σ ε)} (h : TStuck S mask n ws e) : pone S mask n ws e s = none := by
  cases e with
  | call i c st =>
    obtain ⟨l, h1, h2⟩ := h
    simp only [pone]; rw [h1]; dsimp only; rw [h2]; rfl
  | tick i => exact h.elim
  | send i j k => exact h.elim

/-- A schedule in memory, and on plain values beside it. -/
def both (S : BlobStore σ ε) (mask : Nat → Nat → List Bool) (n : Nat) : TWorld σ ε → List (TWorker σ ε) → List (TEvent σ ε) → Bool
  | _, _, [] => true
  | w, ws, e :: es =>
    match w.step S mask n e with
    | none => false
    | some (w', s) =>
      match pone S mask n ws e s with
      | none => false
      | some ws' => both S mask n w' ws' es

theorem both_run : ∀ (es : List (TEvent σ ε)) (w : TWorld σ ε) (P : List (TWorker σ ε)) (owns : List (List Ref)), WTell S mask n w P owns → both S mask n w P es = true →
    ∃ w' s P', w.run S mask n es = some (w', s) ∧ THappensAll S mask n P es s P'
  | [], w, P, owns, h, _ => ⟨w, [], P, rfl, .nil⟩
  | e :: es, w, P, owns, h, hb => by
    simp only [both] at hb
    split at hb
    · cases hb
    rename_i w1 s1 e1
    split at hb
    · cases hb
    rename_i ws1 e2
    rcases tstep_event h e with hs | ⟨w2, s2, P2, owns2, e3, h2, p2⟩
    · rw [pone_stuck hs] at e2; cases e2
    · rw [e1] at e3; cases e3
      obtain rfl := pone_eq p2 e2
      obtain ⟨w3, s3, P3, e4, p3⟩ := both_run es w1 P2 owns2 h2 hb
      exact ⟨w3, s1 ++ s3, P3, by simp only [TWorld.run, e1, e4], .cons p2 p3⟩

end

/-- So `C86_like_values` says of `exBoth` that it runs to its end. -/
example : ∃ w seen ws, (TWorld.init 2).run memStore exMask 20 exBoth = some (w, seen) ∧ THappensAll memStore exMask 20 (tworkers 2) exBoth seen ws :=
  both_run exBoth _ _ _ (WTell.init 2) (by decide +kernel)

end Radix.Heap.Att
