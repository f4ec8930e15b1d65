import Verif.Props.Persist

/-
C75: saving is deterministic.
-/

set_option linter.unusedVariables false

namespace Radix
open Node

section
variable {σ ε : Type} {S : BlobStore σ ε}

theorem embedL_nil : ∀ {l : List Node}, (embedL l).isEmpty = l.isEmpty
  | [] => rfl
  | _ :: _ => rfl

mutual
theorem serialize_detached (n : Node) : ∀ st : σ, (embed n.detached).serialize S st = (embed n).serialize S st := by
  cases n with
  | mk p v c =>
    intro st
    cases c with
    | none => rfl
    | some l =>
      cases l with
      | nil =>
        simp only [detached, detachedO, embed, embedL, SNode.serialize, List.isEmpty_nil, if_true]
        rfl
      | cons a l =>
        simp only [detached, detachedO, embed, SNode.serialize, embedL_nil]
        simp only [serializeL_detached (a :: l)]
        simp [detachedL]
theorem serializeL_detached (l : List Node) : ∀ (data : Bytes) (rs : Nat) (st : σ),
    serializeL S (embedL (detachedL l)) data rs st = serializeL S (embedL l) data rs st := by
  cases l with
  | nil => intros; rfl
  | cons a l =>
    intro data rs st
    simp only [detachedL, embedL, serializeL]
    rw [serialize_detached a]
    congr 1
    funext b st
    exact serializeL_detached l _ _ _
end

/-- **C75** (partial: not for degenerate results of `filter_prefix`, see `C75_false`). If two trees have the same contents, however they came about, storing one does the same as storing the
other: the same blobs are written in the same order, with the same results. This holds for every store, whatever it does. -/
theorem C75_same_contents_partial {u v : Node} (hu : Proper u) (hv : Proper v) (h : ∀ k, get u k = get v k) (st : σ) :
    tryAttached S u st = tryAttached S v st := by
  have he : u.detached = v.detached := shape_unique (proper_shape hu) (proper_shape hv) (reach_ord hu) (reach_ord hv) fun k => by
    rw [← get_eq_den _ _ (reach_ord hu), ← get_eq_den _ _ (reach_ord hv)]; exact h k
  unfold tryAttached
  rw [← serialize_detached u, ← serialize_detached v, he]

theorem serialize_field {b : BlobV} (hb : b.Fits) (n : Nat) (st : σ) : b.serialize S n st = (.ok b.enc, st) := by
  cases b with
  | id i => rfl
  | data d =>
    have : d.length < 128 := hb
    simp only [BlobV.serialize, BlobV.enc, BlobV.slice]
    rw [if_pos (by omega)]

/-- **C75**. A tree that was loaded, and saved again without a change, is saved as one blob with the bytes that were loaded, and stays as it is.  This holds for every store and
everything that can be loaded from it. -/
theorem C75_save_again {st st' : σ} {i bs : Bytes} {a : SNode} (hr : S.read st i = .ok bs) (hl : tryLoad S st i = .ok a) :
    tryReattach S a st' = stBind (S.write st' bs) fun j st => (.ok (a, j), st) := by
  have hd : deserialize S bs = .ok a := by
    simp only [tryLoad, hr] at hl
    exact hl
  have hser : a.serialize S st' = (.ok bs, st') := by
    simp only [deserialize] at hd
    split at hd
    · rename_i r rest e
      obtain ⟨⟨f1, f2, f3⟩, rfl⟩ := readOne_fits e
      split at hd
      · rename_i hrest
        have : rest = [] := List.isEmpty_iff.1 hrest
        subst this
        unfold Rec.toOwned at hd
        split at hd
        · rename_i j hj
          cases hd
          simp only [SNode.serialize, serialize_field f1, serialize_field f2, stBind, Rec.enc, hj, List.append_nil]
          rfl
        · cases hd
      · cases hof : S.ofAnyhow with
        | ok x => exact x.elim
        | err x => rw [hof] at hd; cases hd
        | panic => rw [hof] at hd; cases hd
        | deep => rw [hof] at hd; cases hd
    · cases hof : S.ofAnyhow with
      | ok x => exact x.elim
      | err x => rw [hof] at hd; cases hd
      | panic => rw [hof] at hd; cases hd
      | deep => rw [hof] at hd; cases hd
  unfold tryReattach
  rw [hser]
  simp only [stBind, hd]
  rfl

end

/-- Two trees with the same three entries: one made by inserting them, one with more entries inserted and removed again. -/
def exTwice : Node × Node :=
  (insert (insert (insert Node.empty [97] [1]) [97, 98] [2]) [99] (List.replicate 200 7),
   remove (insert (insert (insert (insert Node.empty [99] (List.replicate 200 7)) [97, 98] [2]) [97, 98, 100] [5]) [97] [1]) [97, 98, 100])

/-- The hypotheses of `C75_same_contents_partial` are met; the trees are not equal in memory. -/
example : Proper exTwice.1 ∧ Proper exTwice.2 ∧ iter exTwice.1 = iter exTwice.2 ∧ nodeEq exTwice.1 exTwice.2 = false :=
  ⟨.insert _ _ (.insert _ _ (.insert _ _ .empty)), .remove _ (.insert _ _ (.insert _ _ (.insert _ _ (.insert _ _ .empty)))), by decide +kernel, by decide +kernel⟩

/-- The bytes of the root when a tree is stored in an empty `MemStore`. -/
def rootBytes (u : Node) : Option Bytes :=
  match (embed u).serialize memStore [] with
  | (.ok bs, _) => some bs
  | _ => none

/-- And they are stored as the same blobs: the bytes of the root, and the store with three blobs. -/
example : rootBytes exTwice.1 = rootBytes exTwice.2 ∧ (rootBytes exTwice.1).isSome ∧
    (tryAttached memStore exTwice.1 []).2 = (tryAttached memStore exTwice.2 []).2 ∧ (tryAttached memStore exTwice.1 []).2.length = 3 := by
  decide +kernel

/-- **C75** is false for degenerate results of `filter_prefix`: a tree without entries is stored with other bytes than the empty tree. -/
theorem C75_false : ∃ u v, Reachable u ∧ Reachable v ∧ (∀ k, get u k = get v k) ∧ rootBytes u ≠ rootBytes v ∧ (rootBytes u).isSome := by
  have hr : Reachable (filterPrefix Node.empty [] [120]) := .filterPrefix _ _ .empty (fun e => by cases e)
  refine ⟨filterPrefix Node.empty [] [120], Node.empty, hr, .empty, fun k => ?_, by decide +kernel, by decide +kernel⟩
  rw [get_eq_den _ _ (reach_ord hr), get_eq_den _ _ ord_empty, filterPrefix_den ord_empty, den_empty]
  split
  · rfl
  · exact den_empty _

/-- What a test of `C75_save_again` looks at: the bytes of blob `i`, and the bytes written and the number of blobs when the tree loaded from it is saved again. -/
def savedAgain (st : MemState) (i : Bytes) : Option (Bytes × Bytes × Nat) :=
  match memStore.read st i, tryLoad memStore st i with
  | .ok bs, .ok a =>
    match tryReattach memStore a st with
    | (.ok (_, j), st') =>
      match memStore.read st' j with
      | .ok bs' => some (bs, bs', st'.length - st.length)
      | _ => none
    | _ => none
  | _, _ => none

/-- The store after `exTwice.1` was stored and saved; its root is blob 4. -/
def exSaved : MemState := (stBind (tryAttached memStore exTwice.1 []) fun a st => tryReattach memStore a st).2

/-- The hypotheses of `C75_save_again` are met, and its conclusion is not void. -/
example : savedAgain exSaved (toBE 8 4) = some ([0, 0x80, 0x89, 0, 0, 0, 0, 0, 0, 0, 0, 3], [0, 0x80, 0x89, 0, 0, 0, 0, 0, 0, 0, 0, 3], 1) := by
  decide +kernel

end Radix
