import Verif.Stored.Read

/-
Steps of iterators in which the store or a function of the user panics, and the program goes on (`std::panic::catch_unwind`). `Iterator::next` (src/node/mod.rs 3056-3070, 3126-3140,
3203-3220) clears the stack of the iterator when it gets an error, but not when a panic goes through it: then the iterator stays as it is at that moment.

The model of a panic of the store or of the user is that it fails with some `e` that says what the panic was. These functions are `next0` of the iterators (3038-3053, 3099-3123, 3159-3201) again, with the state at
the moment of the failure, which `SIter.next0`, `valNext0S` and `groupNext0S` of `Verif/Stored/Read.lean` leave out because `next` does not use it.
-/

set_option linter.unusedVariables false

namespace Radix

section
variable {σ ε : Type} (S : BlobStore σ ε)

/-- `KeyValueIter::next0` (src/node/mod.rs 3099-3123) with the state at a failure: the node was taken from its iterator (3104), the path and the stack are as before. -/
def SIter.step (st : σ) : Nat → SIter → Res Empty (Except ε (Option (Bytes × BlobV)) × SIter)
  | 0, _ => .deep
  | fuel + 1, s =>
    match s.stack with
    | [] => .ok (.ok none, s)
    | (plen, some it) :: rest =>
      match it.next with
      | some (node, it) =>
        match loadPrefix S st node.pfx with
        | .err e => .ok (.error e, ⟨s.path, (plen, some it) :: rest⟩)
        | .panic => .panic
        | .deep => .deep
        | .ok p =>
          match node.loadChildrenOwned S st with
          | .err e => .ok (.error e, ⟨s.path, (plen, some it) :: rest⟩)
          | .panic => .panic
          | .deep => .deep
          | .ok cs =>
            let path := pathAppend s.path p
            let s' : SIter := ⟨path, (p.length, cs) :: (plen, some it) :: rest⟩
            match node.val.valueOpt with
            | some v => .ok (.ok (some (path, v)), s')
            | none => SIter.step st fuel s'
      | none => SIter.step st fuel ⟨s.path, (plen, none) :: rest⟩
    | (plen, none) :: rest => SIter.step st fuel ⟨pathPop s.path plen, rest⟩

/-- `ValueIter::next0` (src/node/mod.rs 3038-3053) with the state at a failure. -/
def valStep (st : σ) : Nat → List TIter → Res Empty (Except ε (Option BlobV) × List TIter)
  | 0, _ => .deep
  | fuel + 1, s =>
    match s with
    | [] => .ok (.ok none, [])
    | it :: rest =>
      match it.next with
      | some (node, it) =>
        match node.loadChildrenOwned S st with
        | .err e => .ok (.error e, it :: rest)
        | .panic => .panic
        | .deep => .deep
        | .ok cs =>
          let s' := pushOptS cs (it :: rest)
          match node.val.valueOpt with
          | some v => .ok (.ok (some v), s')
          | none => valStep st fuel s'
      | none => valStep st fuel rest

/-- `GroupBy::next0` (src/node/mod.rs 3159-3201) with the state at a failure: if it is a failure of `descend` or of the children, then the prefix of the node has already been appended to the path
(3172). -/
def groupStep (descend : Bytes → Except ε Bool) (st : σ) : Nat → SIter → Res Empty (Except ε (Option SNode) × SIter)
  | 0, _ => .deep
  | fuel + 1, s =>
    match s.stack with
    | [] => .ok (.ok none, s)
    | (plen, some it) :: rest =>
      match it.next with
      | some (node, it) =>
        match loadPrefix S st node.pfx with
        | .err e => .ok (.error e, ⟨s.path, (plen, some it) :: rest⟩)
        | .panic => .panic
        | .deep => .deep
        | .ok p =>
          let path := pathAppend s.path p
          match descend path with
          | .error e => .ok (.error e, ⟨path, (plen, some it) :: rest⟩)
          | .ok true =>
            match node.loadChildrenOwned S st with
            | .err e => .ok (.error e, ⟨path, (plen, some it) :: rest⟩)
            | .panic => .panic
            | .deep => .deep
            | .ok cs =>
              let s' : SIter := ⟨path, (p.length, cs) :: (plen, some it) :: rest⟩
              match node.val.valueOpt with
              | some _ =>
                match (Ref.toOwned node : Res Empty SNode) with
                | .ok a => .ok (.ok (some (.ref (.data path) a.val [])), s')
                | .panic => .panic
                | .deep => .deep
              | none => groupStep descend st fuel s'
          | .ok false =>
            match (Ref.toOwned node : Res Empty SNode) with
            | .ok a => .ok (.ok (some (a.setPrefix path)), ⟨pathPop path p.length, (plen, some it) :: rest⟩)
            | .panic => .panic
            | .deep => .deep
      | none => groupStep descend st fuel ⟨s.path, (plen, none) :: rest⟩
    | (plen, none) :: rest => groupStep descend st fuel ⟨pathPop s.path plen, rest⟩

/-- What the program sees of such a step (src/node/mod.rs 3058-3069, 3128-3139): the failure is the panic that it caught. -/
def caughtRes {ι α : Type} : Res Empty (Except ε (Option α) × ι) → Res Empty (Option (Except ε α) × ι)
  | .ok (.error e, s) => .ok (some (.error e), s)
  | .ok (.ok none, s) => .ok (none, s)
  | .ok (.ok (some a), s) => .ok (some (.ok a), s)
  | .panic => .panic
  | .deep => .deep

/-- `Iterator::next` of `KeyValueIter` (src/node/mod.rs 3126-3140) in a store state, where failures are panics (`true`) or errors (`false`). -/
def SIter.nextOr (p : Bool × σ) (fuel : Nat) (s : SIter) : Res Empty (Option (Except ε (Bytes × BlobV)) × SIter) :=
  if p.1 then caughtRes (SIter.step S p.2 fuel s) else SIter.next S p.2 fuel s

/-- `Iterator::next` of `ValueIter` (src/node/mod.rs 3056-3070), likewise. -/
def valNextOr (p : Bool × σ) (fuel : Nat) (s : List TIter) : Res Empty (Option (Except ε BlobV) × List TIter) :=
  if p.1 then caughtRes (valStep S p.2 fuel s) else valNextS S p.2 fuel s

end

end Radix
