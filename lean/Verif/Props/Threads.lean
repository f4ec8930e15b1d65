import Verif.Proofs.HeapThreads
import Verif.Props.Heap

/-
Properties C68 and C69, and C62 for threads: any number of threads that hold trees, values, keys and iterators that share memory, call the API in any order, hand things to
each other, and lend each other trees (`&RadixTree`). Schedules (`Event`, `World.run`) are defined in `Verif/Heap/Threads.lean`, what may be seen in `Verif/Spec/Threads.lean`.
-/

set_option linter.unusedVariables false

namespace Radix.Heap
open Radix.Spec (HappensAll workers TameEvent)

/-- The schedule runs to its end on `c` threads that start with nothing: the threads and memory are then `w`, and `seen` could be seen. The number `n` bounds the steps of each call; any
number that is large enough will do. Memory that was freed is never used: in the model such a step has no result. -/
def Runs (c : Nat) (es : List Event) (P : World → List Seen → Prop) : Prop :=
  ∃ n0, ∀ n, n0 ≤ n → ∃ w seen, (World.init c).run n es = some (w, seen) ∧ P w seen

theorem runs_ok (c : Nat) (es : List Event) {n : Nat} (hn : needEvents (List.replicate c (.idle [])) 0 es ≤ n) :
    ∃ w seen P owns loans, (World.init c).run n es = some (w, seen) ∧ WOK w P owns loans ∧ PHappensAll (List.replicate c (.idle [])) es seen P := by
  obtain ⟨w, s, P, owns, loans, e, h, p⟩ := run_events es (World.init c) _ _ _ n (WOK.init c) hn
  exact ⟨w, s, P, owns, loans, e, h, p⟩

/-! ### C68 -/

/-- In every schedule, what the threads see is what they could see if each slot of each thread held a map of its own, and each call did all of its work at the moment when it returns. -/
theorem C68_like_maps (c : Nat) (es : List Event) (ht : ∀ e ∈ es, TameEvent e) : Runs c es fun w seen => ∃ ws, HappensAll (workers c) es seen ws :=
  ⟨_, fun n hn => by
    obtain ⟨w, s, P, owns, loans, e, h, p⟩ := runs_ok c es hn
    refine ⟨w, s, e, P.map PThread.abs, ?_⟩
    rw [← workers_init]
    exact p.maps ht (ok_init c)⟩

/-- After any schedule, if every thread gets its turn again and again (`f` says whose turn it is), all calls return. -/
theorem C68_returns (c : Nat) (es : List Event) (ht : ∀ e ∈ es, TameEvent e) (f : Nat → Nat) (hf : ∀ i, i < c → ∀ m, ∃ m', m ≤ m' ∧ f m' = i) :
    ∃ n0, ∀ n, n0 ≤ n → ∃ m w seen ws, (World.init c).run n (es ++ ticks f m) = some (w, seen) ∧ HappensAll (workers c) (es ++ ticks f m) seen ws ∧ ∀ x ∈ ws, x.call = none :=
  ⟨needEvents (List.replicate c (.idle [])) 0 es, fun n hn => by
    obtain ⟨w, s, P, owns, loans, e, h, p⟩ := runs_ok c es hn
    have hl : w.threads.length = c := by
      have h1 := h.lenP
      have : ∀ {P es s P'}, PHappensAll P es s P' → P'.length = P.length := by
        intro P es s P' h
        induction h with
        | nil => rfl
        | cons h1 _ ih => rw [ih]; cases h1 <;> simp
      rw [this p] at h1; simp at h1; exact h1.symm
    obtain ⟨m, hm⟩ := returns_all (n := n) f h (by rw [hl]; exact hf) c (by omega)
    obtain ⟨w', s', e', hi⟩ := hm m (Nat.le_refl _)
    obtain ⟨w1, s1, P1, owns1, loans1, e1, h1, p1⟩ := runs_ok c (es ++ ticks f m) (n := n) (by rw [needEvents_append]; exact hn)
    have e2 := World.run_append n _ _ _ w w' _ _ e e'
    rw [e1] at e2
    simp only [Option.some.injEq, Prod.mk.injEq] at e2
    obtain ⟨rfl, rfl⟩ := e2
    refine ⟨m, w1, _, P1.map PThread.abs, e1, ?_, fun x hx => ?_⟩
    · rw [← workers_init]
      exact p1.maps (fun e he => (List.mem_append.1 he).elim (ht e) fun h => by obtain ⟨i, rfl⟩ := mem_ticks h; trivial) (ok_init c)
    · obtain ⟨q, hq, rfl⟩ := List.mem_map.1 hx
      obtain ⟨i, hi'⟩ := List.getElem?_of_mem hq
      have hlt : i < w1.threads.length := by rw [← h1.lenP]; exact (List.getElem?_eq_some_iff.1 hi').1
      have hw1 : w1.threads.length = c := by
        have h2 := h1.lenP
        have : ∀ {P es s P'}, PHappensAll P es s P' → P'.length = P.length := by
          intro P es s P' h
          induction h with
          | nil => rfl
          | cons h1 _ ih => rw [ih]; cases h1 <;> simp
        rw [this p1] at h2; simp at h2; exact h2.symm
      obtain ⟨l, hl'⟩ := hi i (by omega)
      obtain ⟨q', own, e3, _, ht'⟩ := h1.get hl'
      rw [hi'] at e3; cases e3
      cases q with
      | idle o => rfl
      | busy op o => exact ht'.elim⟩

/-- A thread that nothing is handed or lent to or from sees what it would see if it were alone: the answers to its calls are those of a session with the same calls, whatever the other threads do
(its last call may not have returned yet). -/
theorem C68_alone (c : Nat) (es : List Event) (i : Nat) (hi : i < c) (he : ∀ e ∈ es, e.apart i) :
    Runs c es fun w seen => ∃ ops last d, callsOf i seen = ops ++ last ∧ last.length ≤ 1 ∧ Sees ops (retsOf i seen) d :=
  ⟨_, fun n hn => by
    obtain ⟨w, s, P, owns, loans, e, h, p⟩ := runs_ok c es hn
    refine ⟨w, s, e, ?_⟩
    obtain ⟨q', ops, h1, h2, h3⟩ := p.alone he (q := .idle []) (by rw [List.getElem?_replicate, if_pos hi])
    refine ⟨ops, q'.pending.toList, q'.objs.length, h2, by cases q'.pending <;> simp, ?_⟩
    have := sees ops
    rw [show prun [] ops = _ from h3] at this
    exact this⟩

/-! ### C69 -/

/-- There is no data race: when the next step of thread `j` uses a cell, then the cell is in memory, and a step of another thread `i` neither frees it nor changes what is in it (other than
its reference count). So the two steps can be made in any order, or at the same time. -/
theorem C69_no_race (c : Nat) (es : List Event) : ∃ n0, ∀ n, n0 ≤ n → ∃ w seen, (World.init c).run n es = some (w, seen) ∧
    ∀ i j l y k r, i ≠ j → w.threads[j]? = some (.busy l (.act y k)) → y.uses = some r →
      ∃ w' s, w.step n (.tick i) = some (w', s) ∧ Cells.content w.cells r ≠ none ∧ Cells.content w'.cells r = Cells.content w.cells r :=
  ⟨_, fun n hn => by
    obtain ⟨w, s, P, owns, loans, e, h, p⟩ := runs_ok c es hn
    refine ⟨w, s, e, fun i j l y k r hij hj hr => ?_⟩
    obtain ⟨w', s', _, _, _, e', _⟩ := step_event h (.tick i) (n := n) (Nat.zero_le _)
    exact ⟨w', s', e', no_race h hij hj hr e'⟩⟩

/-! ### C62 for threads -/

/-- Whenever no thread is in the middle of a call, everything in memory, other than empty arrays of children, can be reached from what the threads hold. In particular, once the threads have
dropped everything, only empty arrays of children are left. -/
theorem C62_threads_partial (c : Nat) (es : List Event) : Runs c es fun w _ => (∀ t ∈ w.threads, ∃ l, t = .idle l) →
    (∀ (a : Nat) (x : Cell), w.cells[a]? = some (some x) → (∃ m, x = .kids m []) ∨ Cells.Reach w.cells w.refs (x.ref a)) ∧
    ((∀ t ∈ w.threads, ∀ l, t = .idle l → ∀ s ∈ l, s = .free) → ∀ (a : Nat) (x : Cell), w.cells[a]? = some (some x) → ∃ m, x = .kids m []) :=
  ⟨_, fun n hn => by
    obtain ⟨w, s, P, owns, loans, e, h, p⟩ := runs_ok c es hn
    refine ⟨w, s, e, fun hi => ?_⟩
    have key : ∀ (a : Nat) (x : Cell), w.cells[a]? = some (some x) → (∃ m, x = .kids m []) ∨ Cells.Reach w.cells w.refs (x.ref a) := by
      intro a x ha
      cases x with
      | blob m d => exact .inr (h.reach hi (by simp [Cell.ref, Cells.content, Cells.cB, ha]) (by simp [Cell.ref, Cells.content, Cells.cB, ha]))
      | kids m ns =>
        cases ns with
        | nil => exact .inl ⟨m, rfl⟩
        | cons x ns => exact .inr (h.reach hi (by simp [Cell.ref, Cells.content, Cells.cK, ha]) (by simp [Cell.ref, Cells.content, Cells.cK, ha]))
    refine ⟨key, fun hf a x ha => ?_⟩
    rcases key a x ha with h1 | h1
    · exact h1
    · exfalso
      have h2 : w.refs = [] := by
        unfold World.refs
        rw [List.flatMap_eq_nil_iff]
        intro t ht
        obtain ⟨l, rfl⟩ := hi t ht
        show l.flatMap Slot.keeps = []
        rw [List.flatMap_eq_nil_iff]
        intro s hs; rw [hf _ ht l rfl s hs]; rfl
      rw [h2] at h1
      have h3 : ∀ {r}, Cells.Reach w.cells [] r → False := by
        intro r hr
        induction hr with
        | root h4 => cases h4
        | step _ _ _ ih => exact ih
      exact h3 h1⟩

/-! ### Concrete schedules -/

/-- The same events again and again. -/
def turns : Nat → List Event → List Event
  | 0, _ => []
  | n + 1, es => es ++ turns n es

theorem mem_turns {n es e} (h : e ∈ turns n es) : e ∈ es := by
  induction n with
  | zero => cases h
  | succ n ih => exact (List.mem_append.1 h).elim id ih

/-- A call and enough steps for it to return. -/
def whole (i : Nat) (op : Op) : List Event := .call i op :: turns 40 [.tick i]

/-- Thread 0 makes a tree with three entries, clones it and hands the clone to thread 1. -/
def exShare : List Event := whole 0 (.single [1] [2]) ++ whole 0 (.insert 0 [1, 2] [3]) ++ whole 0 (.insert 0 [1, 3] [4]) ++ whole 0 (.clone 0) ++ [.send 0 1 1]

/-- Both threads then change their tree, in turns, thread 1 by one of its calls drops it, thread 0 looks. -/
def exRace : List Event := exShare ++ [.call 0 (.remove 0 [1, 2]), .call 1 (.insert 0 [1, 2] [7])] ++ turns 60 [.tick 0, .tick 1, .tick 1] ++
  [.call 0 (.get 0 [1, 2]), .call 1 (.get 0 [1, 2])] ++ turns 60 [.tick 0, .tick 1]

example : ((World.init 2).run 20 exRace).map (fun r => (retsOf 0 r.2, retsOf 1 r.2)) =
    some ([.unit, .unit, .unit, .unit, .unit, .bytes none], [.unit, .bytes (some [7])]) := by decide +kernel

example : ∀ e ∈ exRace, TameEvent e := by
  have ht : ∀ {n es}, (∀ e ∈ es, TameEvent e) → ∀ e ∈ turns n es, TameEvent e := fun h e he => h e (mem_turns he)
  have happ : ∀ {a b : List Event}, (∀ e ∈ a, TameEvent e) → (∀ e ∈ b, TameEvent e) → ∀ e ∈ a ++ b, TameEvent e := fun h h' e he => (List.mem_append.1 he).elim (h e) (h' e)
  have hw : ∀ {i op}, Spec.Tame op → ∀ e ∈ whole i op, TameEvent e := fun {i op} h => happ (a := [.call i op]) (b := turns 40 [.tick i]) (by simpa [TameEvent] using h) (ht (by simp [TameEvent]))
  unfold exRace exShare
  repeat' apply happ
  all_goals first | exact hw trivial | exact ht (by simp [TameEvent]) | simp [TameEvent, Spec.Tame]

/-- In the middle of the two calls both threads are about to use memory. -/
def exMiddle : List Event := exShare ++ [.call 0 (.remove 0 [1, 2]), .call 1 (.insert 0 [1, 2] [7]), .tick 0, .tick 1]

example : ((World.init 2).run 20 exMiddle).map (fun r => r.1.threads.map fun t => match t with | .busy _ (.act y _) => y.uses | _ => none) =
    some [some (.kids 1), some (.kids 1)] := by decide +kernel

example : ∀ i, i < 2 → ∀ m, ∃ m', m ≤ m' ∧ (fun k => k % 2) m' = i := fun i hi m => ⟨2 * m + i, by omega, by simp; omega⟩

example : ∀ e ∈ whole 0 .empty ++ whole 1 .empty, e.apart 0 := by
  have ht : ∀ {i n}, ∀ e ∈ turns n [.tick i], e.apart 0 := fun e he => by have := mem_turns he; simp at this; subst this; trivial
  intro e he
  simp only [whole, List.mem_append, List.mem_cons] at he
  rcases he with (rfl | he) | rfl | he
  · trivial
  · exact ht e he
  · trivial
  · exact ht e he

/-- Both threads drop what they hold while the other one does so too. -/
def exDrop : List Event := exShare ++ [.call 0 (.drop 0), .call 1 (.drop 0)] ++ turns 60 [.tick 0, .tick 1]

example : ((World.init 2).run 20 exDrop).map (fun r => (r.1.cells.any Option.isSome, r.1.threads.all fun t => match t with | .idle l => l.all Slot.isFree | _ => false)) =
    some (false, true) := by decide +kernel

/-- Thread 0 makes a tree with two entries and lends it to threads 1 and 2. -/
def exLend : List Event := whole 0 (.single [1] [2]) ++ whole 0 (.insert 0 [1, 2] [3]) ++ [.lend 0 0, .borrow 0 1 0, .borrow 1 2 0]

/-- All three look at the lent tree at the same time; thread 2 also clones it and changes the clone; then threads 1 and 2 give their references up, and thread 0 can change the tree. -/
def exLent : List Event := exLend ++ [.call 0 (.insert 0 [1, 2] [9]), .call 1 (.get 0 [1, 2]), .call 2 (.clone 0)] ++ turns 60 [.tick 0, .tick 1, .tick 2] ++
  [.call 0 (.get 0 [1]), .call 1 (.drop 0), .call 2 (.insert 1 [1, 2] [8])] ++ turns 60 [.tick 0, .tick 1, .tick 2] ++
  [.unlend 0 0] ++ whole 2 (.drop 0) ++ [.unlend 0 0, .call 0 (.insert 0 [1, 2] [9]), .call 2 (.get 1 [1, 2])] ++ turns 60 [.tick 0, .tick 2] ++ whole 0 (.get 0 [1, 2])

/-- The first change of the lent tree is refused (`bad`), and so is its end while thread 2 has a reference. -/
example : ((World.init 3).run 20 exLent).map (fun r => (retsOf 0 r.2, retsOf 1 r.2, retsOf 2 r.2, (r.2.filter fun s => match s with | .unlend _ _ => true | _ => false).length)) =
    some ([.unit, .unit, .bad, .bytes (some [2]), .unit, .bytes (some [9])], [.bytes (some [3]), .unit], [.unit, .unit, .unit, .bytes (some [8])], 1) := by decide +kernel

/-- During two calls on the lent tree, both threads are about to read the same memory. -/
example : ((World.init 3).run 20 (exLend ++ [.call 1 (.get 0 [1, 2]), .call 2 (.get 0 [1, 2])])).map
    (fun r => r.1.threads.map fun t => match t with | .busy _ (.act y _) => y.uses | _ => none) = some [none, some (.kids 0), some (.kids 0)] := by decide +kernel

end Radix.Heap
