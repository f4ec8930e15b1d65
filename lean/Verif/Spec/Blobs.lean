import Verif.Blobs.Stores

/-
What blobs are to a program: values. There is no memory, no owner and no reference count here; a blob is the bytes it has (or the place in a file that it
shows), and no step changes a blob that is already there.
-/

namespace Radix.Spec.Blobs
open Radix Radix.Blobs
open Radix.Paged (View)

/-- The number of bytes. -/
def size : View → Nat
  | .own bs => bs.length
  | .map _ len => len

/-- The part from `b` to `e`. -/
def part (b e : Nat) : View → View
  | .own bs => .own ((bs.drop b).take (e - b))
  | .map start _ => if e = b then .own [] else .map (start + b) (e - b)

/-- A store whose calls give values. -/
abbrev Plain (σ κ : Type) := σ → κ → Ans View × Option σ

/-- The store until it is dropped, and the values that the program has. -/
structure World (σ : Type) where
  store : Option σ
  slots : List (Option View)

/-- One step of the program. -/
def step {σ κ : Type} (P : Plain σ κ) (wordSize : Nat) (w : World σ) : Op κ → Seen × Option (World σ)
  | .call c =>
    match w.store with
    | none => (.absent, some w)
    | some s =>
      let r := P s c
      (.ans r.1.seen, r.2.map fun s => ⟨some s, w.slots ++ r.1.blob?.map some⟩)
  | .lit d => (.done, some { w with slots := w.slots ++ [some (.own d)] })
  | .copy d => (.done, some { w with slots := w.slots ++ [some (.own d)] })
  | .slice i s e =>
    match slot w.slots i with
    | none => (.absent, some w)
    | some v =>
      match sliceRange wordSize (size v) s e with
      | none => (.panic, some w)
      | some r => (.done, some { w with slots := w.slots ++ [some (part r.1 r.2 v)] })
  | .clone i =>
    match slot w.slots i with
    | none => (.absent, some w)
    | some v => (.done, some { w with slots := w.slots ++ [some v] })
  | .toOwned i =>
    match slot w.slots i with
    | none => (.absent, some w)
    | some _ => (.done, some w)
  | .drop i =>
    match slot w.slots i with
    | none => (.absent, some w)
    | some _ => (.done, some { w with slots := w.slots.set i none })
  | .look i =>
    match slot w.slots i with
    | none => (.absent, some w)
    | some v => (.sees v, some w)
  | .close =>
    match w.store with
    | none => (.absent, some w)
    | some _ => (.done, some { w with store := none })

/-- What a program sees. -/
def run {σ κ : Type} (P : Plain σ κ) (wordSize : Nat) : World σ → List (Op κ) → List Seen
  | _, [] => []
  | w, op :: ops =>
    match step P wordSize w op with
    | (o, none) => [o]
    | (o, some w) => o :: run P wordSize w ops

/-! ### The stores, with values -/

/-- `MemStore`: the map from ids to values of `Verif.Stored.Mem`. -/
def memPlain : Plain MemState MemOp
  | st, .write d =>
    match memStore.write st d with
    | (.ok id, st) => (.id id, some st)
    | (.err _, st) => (.err, some st)
    | (_, st) => (.panic, some st)
  | st, .read id =>
    match memStore.read st id with
    | .ok d => (.blob (.own d), some st)
    | .err _ => (.err, some st)
    | _ => (.panic, some st)
  | st, .count => (.num st.length, some st)

/-- The answer of a call of `PagedFileStore`. -/
def pagedAns {α : Type} (f : α → Ans View) : Paged.Out α × Paged.Inner → Ans View × Option Paged.Inner
  | (.ok a, s) => (f a, some s)
  | (.err, s) => (.err, some s)
  | (.panic, s) => (.panic, some s)
  | (.crash, _) => (.crash, none)

/-- `PagedFileStore`: the calls of `Verif.Paged.Model` and `Verif.Paged.View`. -/
def pagedPlain (dbg : Bool) : Plain Paged.Inner PagedOp
  | s, .write d evs => pagedAns .id (Paged.write dbg d { s with evs := evs })
  | s, .read id evs => pagedAns .blob (Paged.readView dbg id { s with evs := evs })
  | s, .lastId => ((match Paged.lastIdOf s with | some id => .id id | none => .unit), some s)

/-- `PagingFile`: the calls of `Verif.Browser.Paging`. -/
def pagingPlain : Plain Browser.Paging.Inner Browser.Paging.PCall := fun s c =>
  let r := Browser.Paging.pstep s c
  ((match r.1, c with
    | .bytes (.ok d), .get _ => .blob (.own d)
    | .bytes (.ok d), _ => .id d
    | .bytes .err, _ => .err
    | .bytes .panic, _ => .panic
    | .done (.ok _), _ => .unit
    | .done .err, _ => .err
    | .done .panic, _ => .panic
    | _, _ => .crash), r.2)

/-- The calls that a program makes until it drops the store, as a history of `PagedFileStore`. -/
def calls : List (Op PagedOp) → List Paged.Op
  | [] => []
  | .call (.write d evs) :: ops => .write d evs :: calls ops
  | .call (.read id evs) :: ops => .read id evs :: calls ops
  | .call .lastId :: ops => .lastId :: calls ops
  | .close :: _ => []
  | _ :: ops => calls ops

/-! ### Memory -/

/-- Every object is referred to as often as its count says, at least once: by the store, if it is not yet dropped, or by a blob of the program. -/
def Tidy {τ κ : Type} (I : Impl τ κ) (w : Radix.Blobs.World τ) : Prop :=
  ∀ a c x, w.mem[a]? = some (some (c, x)) →
    0 < c ∧ c = (w.store.toList.flatMap I.refs ++ w.slots.flatMap fun b => (b.map Blob.refs).getD []).count a

/-- Nothing is left in memory. -/
def AllFreed (m : Mem) : Prop := ∀ a : Nat, m.get a = none

end Radix.Spec.Blobs
