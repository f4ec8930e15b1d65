import Verif.Spec.AttMaps
import Verif.Spec.Stops

/-
Which calls of a session with a store (`Op` of `Verif/Heap/AttSession.lean`) must not panic, told with plain maps.
-/

namespace Radix.Spec.Kept
open Radix.Heap (Choice)
open Radix.Heap.Att (Op Obs NewChoice fits)

section
variable {σ ε : Type} {S : BlobStore σ ε} (L : Lawful S)

/-- It is known what is in slot `i`, if there is anything. -/
def World.knows (w : World) (i : Nat) : Prop := w.items[i]? ≠ some .unknown

/-- It is known what is in the slots `i` and `j`; if both hold maps, then `P`. -/
def World.knows2 (w : World) (i j : Nat) (P : Bool → Bool → Map → Map → Prop) : Prop :=
  w.knows i ∧ w.knows j ∧ ∀ a b m m', w.items[i]? = some (.map a m) → w.items[j]? = some (.map b m') → P a b m m'

/-- If there is a map in slot `i`, none of the next `6 * n + 4` writes to the store panics, where `n` is the number of entries of the map. -/
def World.writes (S : BlobStore σ ε) (st : σ) (w : World) (i : Nat) : Prop :=
  ∀ a m es, w.items[i]? = some (.map a m) → IsEntries m es → NoPanic S (6 * es.length + 4) st

/-- If the function of the user returns a value of an attached tree as it is, it is one that has its bytes with it, not the id of a blob. -/
def Inline (st : σ) (a b : Bool) (f : BlobV → BlobV → Except ε NewChoice) : Prop :=
  ∀ av bv x y, Shows L st a av x → Shows L st b bv y → (a = true → f av bv = .ok .left → av = .data x) ∧ (b = true → f av bv = .ok .right → bv = .data y)

/-- The call is about things that are known. If a call combines two trees, the function of the user depends on the contents of the values only; and if an attached tree is read for it, its keys
end or part where those of the other map do (`Fits`, as in C90 and C91), with more conditions for unions. The function that `group_by` was given never fails, and the id of `load` came from `reattach`.
The store does not panic when `attached` and `reattach` write to it. -/
def Safe (st : σ) (w : World) : Op σ ε → Prop
  | .empty _ => True
  | .single _ _ => True
  | .load id => ∃ m, w.saved id = some m
  | .clone _ => True
  | .drop _ => True
  | .insert i _ _ => w.knows i
  | .remove i _ => w.knows i
  | .removePrefix i _ => w.knows i
  | .outerCombineWith i j c f => w.knows2 i j fun a b m m' => fits a b c = true → (b = true → Fits m' (m'.both m) ∧ (c = .identity ∨ Shared m' m)) ∧ ∃ g, Follows L st a b f g
  | .innerCombineWith i j f => w.knows2 i j fun a b m m' => (b = true → Fits m' m) ∧ ∃ g, Follows L st a b f g
  | .leftCombineWith i j f => w.knows2 i j fun a b m m' => (b = true → Fits m' m) ∧ ∃ g, Follows L st a b f g
  | .retainPrefixWith i j f => w.knows2 i j fun a b m m' => (b = true → Fits m' m) ∧ ∃ p, Tells L st b f p
  | .removePrefixWith i j f => w.knows2 i j fun a b m m' => (b = true → Fits m' m) ∧ ∃ p, Tells L st b f p
  | .outerCombine i j f => w.knows2 i j fun a b m m' => (a = true → Fits m (m.both m') ∧ Shared m m' ∧ Within m m') ∧ (b = true → Fits m' (m'.both m) ∧ Shared m' m ∧ Within m' m) ∧
      Inline L st a b f ∧ ∃ g, Makes L st a b f g
  | .innerCombine i j f => w.knows2 i j fun a b m m' => (a = true → Fits m m') ∧ (b = true → Fits m' m) ∧ Inline L st a b f ∧ ∃ g, Makes L st a b f g
  | .leftCombine i j f => w.knows2 i j fun a b m m' => (a = true → Fits m m' ∧ Shared m m' ∧ Within m m') ∧ (b = true → Fits m' m) ∧ Inline L st a b f ∧ ∃ g, Makes L st a b f g
  | .innerCombinePred i j f => w.knows2 i j fun a b m m' => (a = true → Fits m m') ∧ (b = true → Fits m' m) ∧ ∃ p, Compares L st a b f p
  | .leftCombinePred i j f => w.knows2 i j fun a b m m' => (a = true → Fits m m') ∧ (b = true → Fits m' m) ∧ ∃ p, Compares L st a b f p
  | .filterPrefix i _ _ => w.knows i
  | .detached i => w.knows i
  | .attached i => w.knows i ∧ w.writes S st i
  | .reattach i => w.knows i ∧ w.writes S st i
  | .get i _ => w.knows i
  | .containsKey i _ => w.knows i
  | .hasPrefix i _ => w.knows i
  | .firstValue i => w.knows i
  | .lastValue i => w.knows i
  | .firstEntry i _ => w.knows i
  | .lastEntry i _ => w.knows i
  | .rootValue _ => True
  | .isEmpty _ => True
  | .loadValue i => w.knows i
  | .iter _ => True
  | .scanPrefix i _ => w.knows i
  | .values _ => True
  | .groupBy _ => True
  | .next i => w.knows i
  | .nextGroup i d => w.knows i ∧ ∀ p, ∃ b, d p = .ok b
  | .readKey _ => True
  | .outside _ => True

/-- Whatever the program sees, it makes only such calls. -/
def AllSafe : σ → World → List (Op σ ε) → Prop
  | _, _, [] => True
  | st, w, op :: ops => Safe L st w op ∧ ∀ o st' w', Step L st w op o st' w' → AllSafe st' w' ops

end

end Radix.Spec.Kept
