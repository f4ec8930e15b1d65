import Verif.Proofs.BlobStart
import Verif.Props.BrowserPaging

/-
C88: blobs that a program holds stay as they are, and their memory is used as it must be.

A program (`List (Op κ)`) calls a store, gets blobs from it, makes blobs itself, slices, clones, owns, drops and reads them, and drops the store, in any order. `run` executes it
with the objects that keep the bytes alive and their reference counts, as the code does; it is `none` if the program or the store ever uses an object that was
freed, or writes to one that something else refers to. `Spec.Blobs.run` is the same program where blobs are plain values.
-/

set_option linter.unusedVariables false

namespace Radix.Blobs
open Radix.Paged (View)

/-- **C88** for `MemStore`. Every program sees what it would see if blobs were plain values, and uses no freed memory and changes none that others see. While it goes on, the
count of every object is the number of its users, at least one: nothing leaks. When the store and all blobs are dropped, nothing is left. -/
theorem C88_mem (W : Nat) (ops : List (Op MemOp)) :
    ∃ w', run memImpl W memStart ops = some (Spec.Blobs.run Spec.Blobs.memPlain W ⟨some [], []⟩ ops, w') ∧
      ∀ x, w' = some x → Spec.Blobs.Tidy memImpl x ∧ (x.store = none → (∀ b ∈ x.slots, b = none) → Spec.Blobs.AllFreed x.mem) :=
  good_run keeps_mem W mem_start ops

/-- **C88** for `PagedFileStore`, opened on any file, with failures, panics and crashes at any point. -/
theorem C88_paged (dbg : Bool) (W : Nat) {ps : Nat} {F : Paged.World} {evs : List Paged.Ev} {s : Paged.Inner}
    (hs : (Paged.step dbg ps F (.open evs)).2.store = some s) (ops : List (Op PagedOp)) :
    ∃ w', run (pagedImpl dbg) W (pagedStart s) ops = some (Spec.Blobs.run (Spec.Blobs.pagedPlain dbg) W ⟨some s, []⟩ ops, w') ∧
      ∀ x, w' = some x → Spec.Blobs.Tidy (pagedImpl dbg) x ∧ (x.store = none → (∀ b ∈ x.slots, b = none) → Spec.Blobs.AllFreed x.mem) :=
  good_run (keeps_paged dbg) W (paged_start dbg (opened_tables hs).1 (opened_tables hs).2) ops

/-- **C88** for `PagingFile` in the browser, on any file, with failures of the browser at any point. Its last page is written in place, but only while no blob shows it. -/
theorem C88_browser (W : Nat) {file : Browser.World} {coming : List (List Browser.Ev)} {ps : Nat} {s : Browser.Paging.Inner}
    (hs : Browser.Paging.openPaging file coming ps = some s) (ops : List (Op Browser.Paging.PCall)) :
    ∃ w', run pagingImpl W (pagingStart s) ops = some (Spec.Blobs.run Spec.Blobs.pagingPlain W ⟨some s, []⟩ ops, w') ∧
      ∀ x, w' = some x → Spec.Blobs.Tidy pagingImpl x ∧ (x.store = none → (∀ b ∈ x.slots, b = none) → Spec.Blobs.AllFreed x.mem) :=
  good_run Pg.keeps_paging W (paging_start (opening_pages hs)) ops

/-- **C88**, without the specification: what was seen of a blob is seen again, whatever else the program does than drop it. -/
theorem C88_mem_stays (W : Nat) (ops later : List (Op MemOp)) (i : Nat) (hl : ∀ op ∈ later, op ≠ .drop i) {xs : List Seen} {w' : World MemTable} {u : View}
    (e : run memImpl W memStart (ops ++ .look i :: later ++ [.look i]) = some (xs, some w')) (hx : xs[ops.length]? = some (.sees u)) :
    xs[ops.length + 1 + later.length]? = some (.sees u) :=
  stable keeps_mem mem_start ops later i hl e hx

/-- As `C88_mem_stays`. -/
theorem C88_paged_stays (dbg : Bool) (W : Nat) {ps : Nat} {F : Paged.World} {evs : List Paged.Ev} {s : Paged.Inner}
    (hs : (Paged.step dbg ps F (.open evs)).2.store = some s) (ops later : List (Op PagedOp)) (i : Nat) (hl : ∀ op ∈ later, op ≠ .drop i)
    {xs : List Seen} {w' : World PState} {u : View}
    (e : run (pagedImpl dbg) W (pagedStart s) (ops ++ .look i :: later ++ [.look i]) = some (xs, some w')) (hx : xs[ops.length]? = some (.sees u)) :
    xs[ops.length + 1 + later.length]? = some (.sees u) :=
  stable (keeps_paged dbg) (paged_start dbg (opened_tables hs).1 (opened_tables hs).2) ops later i hl e hx

/-- As `C88_mem_stays`. -/
theorem C88_browser_stays (W : Nat) {file : Browser.World} {coming : List (List Browser.Ev)} {ps : Nat} {s : Browser.Paging.Inner}
    (hs : Browser.Paging.openPaging file coming ps = some s) (ops later : List (Op Browser.Paging.PCall)) (i : Nat) (hl : ∀ op ∈ later, op ≠ .drop i)
    {xs : List Seen} {w' : World BState} {u : View}
    (e : run pagingImpl W (pagingStart s) (ops ++ .look i :: later ++ [.look i]) = some (xs, some w')) (hx : xs[ops.length]? = some (.sees u)) :
    xs[ops.length + 1 + later.length]? = some (.sees u) :=
  stable Pg.keeps_paging (paging_start (opening_pages hs)) ops later i hl e hx

/-- **C88**: what a program sees of a `PagedFileStore` may be a place in the file, also after slicing. The bytes there never change, whatever happens to the file after the
steps that the program has done: with this store, or with stores that are opened later. -/
theorem C88_paged_bytes (dbg : Bool) (W : Nat) {ps : Nat} (h8 : 8 ≤ ps) {hist : List Paged.Op} {evs : List Paged.Ev} {s : Paged.Inner}
    (hs : (Paged.run dbg ps Paged.fresh (hist ++ [.open evs])).store = some s) (ops : List (Op PagedOp)) (i : Nat) {xs : List Seen} {w' : World PState} {u : View}
    (e : run (pagedImpl dbg) W (pagedStart s) (ops ++ [.look i]) = some (xs, some w')) (hx : xs[ops.length]? = some (.sees u)) :
    ∃ bs, ∀ later, u.Valid (Paged.run dbg ps Paged.fresh (hist ++ [.open evs] ++ Spec.Blobs.calls ops ++ later)).file ∧
      u.bytes (Paged.run dbg ps Paged.fresh (hist ++ [.open evs] ++ Spec.Blobs.calls ops ++ later)).file = bs := by
  have hs' := hs
  rw [paged_run_snoc] at hs'
  obtain ⟨h1, h2⟩ := opened_tables hs'
  obtain ⟨w2, e2, hh⟩ := run_rel (W := W) (keeps_paged dbg) (ops ++ [.look i]) (paged_start dbg h1 h2)
  rw [e2] at e
  injection e with e
  injection e with ex ew
  subst ew
  rcases f1 : sfinal (Spec.Blobs.pagedPlain dbg) W ⟨some s, []⟩ ops with _ | v1
  · rw [sfinal_append, f1] at hh; exact hh.elim
  obtain ⟨r1, l1⟩ := srun_append ops [.look i] _ v1 f1
  obtain ⟨k1, _⟩ := srun_look (P := Spec.Blobs.pagedPlain dbg) (W := W) v1 i
  have hu : slot v1.slots i = some u := by
    rw [← ex, r1, k1, ← l1, List.getElem?_append_right (Nat.le_refl _), Nat.sub_self] at hx
    cases hc : slot v1.slots i with
    | none => rw [hc] at hx; cases hx
    | some x => rw [hc] at hx; cases hx; rfl
  exact (file_run h8 ops (hist := hist ++ [.open evs]) ⟨fun x hx => by cases hx; exact hs, fun j u hj => by simp [slot] at hj⟩ rfl f1).slots i u hu

/-! ### The hypotheses are met -/

set_option synthInstance.maxSize 1000

/-- A program with a `MemStore`: the blob is used after the store and all other blobs of the same object are dropped. -/
def exMem : List (Op MemOp) :=
  [.call (.write [1, 2, 3]), .call (.read [0, 0, 0, 0, 0, 0, 0, 1]), .clone 0, .slice 1 (.excluded 0) .unbounded, .drop 0, .close, .drop 1, .look 2, .lit [9], .toOwned 3,
    .slice 3 (.included 2) .unbounded, .drop 3]

example : ((run memImpl (2 ^ 64) memStart exMem).map fun r => (r.1.drop 7, r.2.map fun w => (w.slots, w.mem))) =
    some ([.sees (.own [2, 3]), .done, .done, .panic, .done], some ([none, none, some (.part 0 1 2), none], [some (1, .vec [1, 2, 3]), none])) := by decide +kernel

/-- As the example for C76: a blob is read from a page that is full, sliced, and used after the store is dropped. -/
def exPaged : List (Op PagedOp) :=
  [.call (.write [1, 2, 3] []), .call (.write (List.replicate 14 4) []), .call (.write [5] []), .call (.read [0, 0, 0, 0, 0, 0, 0, 7] []), .look 0,
    .slice 0 (.included 1) .unbounded, .call (.write [6, 7] [.fail 2]), .drop 0, .close]

example : ((Paged.run true 24 Paged.fresh ([] ++ [.open []])).store.bind fun s =>
      (run (pagedImpl true) (2 ^ 64) (pagedStart s) (exPaged ++ [.look 1])).map fun r => (r.1[exPaged.length]?, r.2.map fun w => (w.slots, w.mem))) =
    some (some (.sees (.map 4097 2)), some ([none, some (.part 1 1 2)], [none, some (1, .page 4096 24), none, none])) ∧
    (View.map 4097 2).bytes (Paged.run true 24 Paged.fresh ([] ++ [.open []] ++ Spec.Blobs.calls exPaged)).file = [2, 3] := by decide +kernel

/-- A blob of the last page of a `PagingFile` is held while the page is written. -/
def exPaging : List (Op Browser.Paging.PCall) := [.call (.put [1, 2, 3]), .call (.get [0, 0, 0, 0, 0, 0, 0, 4])]

/-- See `exPaging`. -/
def exPagingLater : List (Op Browser.Paging.PCall) := [.call (.put [4]), .slice 0 (.included 1) .unbounded, .call (.put (List.replicate 20 7)), .close]

/-- The page is copied before it is written: there are two, and the blob shows the old one. -/
example : ((Browser.Paging.openPaging Browser.Paging.exFile [] 32).bind fun s =>
      (run pagingImpl (2 ^ 64) (pagingStart s) (exPaging ++ .look 0 :: exPagingLater ++ [.look 0])).map fun r =>
        (r.1[exPaging.length]?, r.1[exPaging.length + 1 + exPagingLater.length]?, r.2.map fun w => (w.slots, w.mem))) =
    some (some (.sees (.own [1, 2, 3])), some (.sees (.own [1, 2, 3])),
      some ([some (.part 0 8 3), some (.part 0 9 2)], [some (2, .vec ([0, 0, 0, 0, 0, 0, 0, 3, 1, 2, 3] ++ List.replicate 21 0)), none, none])) := by decide +kernel

/-- Without a blob the page is written in place. -/
example : ((Browser.Paging.openPaging Browser.Paging.exFile [] 32).bind fun s =>
      (run pagingImpl (2 ^ 64) (pagingStart s) [.call (.put [1, 2, 3]), .call (.put [4])]).map fun r => r.2.map fun w => w.mem) =
    some (some [some (1, .vec ([0, 0, 0, 0, 0, 0, 0, 3, 1, 2, 3, 0, 0, 0, 0, 1, 4] ++ List.replicate 15 0))]) := by decide +kernel

end Radix.Blobs
