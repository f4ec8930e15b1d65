import Verif.Spec.AttSafe

/-
A program that uses a store, ends (or is ended), and is started again, any number of times. What it may see in all its lives, told with plain maps; and for which reasons calls may fail as
long as everything can be read from the store.
-/

namespace Radix.Spec.Kept
open Radix.Heap (Choice)
open Radix.Heap.Att (Op Obs NewChoice fits)

/-- One life of a program: the calls it makes, starting with nothing in its hands, what it sees, and what happens to the store between its end and the next life. -/
structure Life (σ ε : Type) where
  ops : List (Op σ ε)
  seen : List (Obs ε)
  next : σ → σ

section
variable {σ ε : Type} {S : BlobStore σ ε} (L : Lawful S)

/-- The lives make sense with plain maps: `saved` are the maps for which `reattach` has given an id before the first of these lives, `saved'` those after the last. -/
def LikeMaps : σ → (Bytes → Option Map) → List (Life σ ε) → σ → (Bytes → Option Map) → Prop
  | st, saved, [], st', saved' => st' = st ∧ saved' = saved
  | st, saved, l :: ls, st', saved' => ∃ st1 w, Run L st ⟨[], saved⟩ l.ops l.seen st1 w ∧ LikeMaps (l.next st1) w.saved ls st' saved'

/-- Something is known about everything that the call is about: about what is in the slots, about the id of `load`, and about the function of the user. -/
def Known (st : σ) (w : World) : Op σ ε → Prop
  | .load id => ∃ m, w.saved id = some m
  | .outerCombineWith i j c f => w.knows2 i j fun a b _ _ => fits a b c = true → ∃ g, Follows L st a b f g
  | .innerCombineWith i j f => w.knows2 i j fun a b _ _ => ∃ g, Follows L st a b f g
  | .leftCombineWith i j f => w.knows2 i j fun a b _ _ => ∃ g, Follows L st a b f g
  | .retainPrefixWith i j f => w.knows2 i j fun _ b _ _ => ∃ p, Tells L st b f p
  | .removePrefixWith i j f => w.knows2 i j fun _ b _ _ => ∃ p, Tells L st b f p
  | .outerCombine i j f => w.knows2 i j fun a b _ _ => ∃ g, Makes L st a b f g
  | .innerCombine i j f => w.knows2 i j fun a b _ _ => ∃ g, Makes L st a b f g
  | .leftCombine i j f => w.knows2 i j fun a b _ _ => ∃ g, Makes L st a b f g
  | .innerCombinePred i j f => w.knows2 i j fun a b _ _ => ∃ p, Compares L st a b f p
  | .leftCombinePred i j f => w.knows2 i j fun a b _ _ => ∃ p, Compares L st a b f p
  | .filterPrefix i p s => w.knows i ∧ (s = [] ∨ p ≠ [] ∨ ∀ a m, w.items[i]? = some (.map a m) → ∃ k v, m k = some v)
  | .nextGroup i d => w.knows i ∧ ∀ p, ∃ b, d p = .ok b
  | .clone i | .drop i | .insert i _ _ | .remove i _ | .removePrefix i _ | .detached i | .attached i | .reattach i | .get i _ | .containsKey i _ | .hasPrefix i _ | .firstValue i
  | .lastValue i | .firstEntry i _ | .lastEntry i _ | .rootValue i | .isEmpty i | .loadValue i | .iter i | .scanPrefix i _ | .values i | .groupBy i | .next i | .readKey i => w.knows i
  | .empty _ | .single _ _ | .outside _ => True

/-- The reasons for which a call may fail although all reads succeed: the function of the user fails, or a map is to be stored that has a key of 128 or more bytes or that is too big (`full`). -/
def Excuse (full : σ → Map → Prop) (st : σ) (w : World) : Op σ ε → Prop
  | .outerCombineWith _ _ _ f => ∃ a b, Refuses L st a b f
  | .innerCombineWith _ _ f => ∃ a b, Refuses L st a b f
  | .leftCombineWith _ _ f => ∃ a b, Refuses L st a b f
  | .retainPrefixWith _ _ f => ∃ b, Refuses1 L st b f
  | .removePrefixWith _ _ f => ∃ b, Refuses1 L st b f
  | .outerCombine _ _ f => ∃ a b, Refuses L st a b f
  | .innerCombine _ _ f => ∃ a b, Refuses L st a b f
  | .leftCombine _ _ f => ∃ a b, Refuses L st a b f
  | .innerCombinePred _ _ f => ∃ a b, Refuses L st a b f
  | .leftCombinePred _ _ f => ∃ a b, Refuses L st a b f
  | .attached i => ∃ m, w.items[i]? = some (.map false m) ∧ (¬ Short m ∨ full st m)
  | .reattach i => ∃ m, w.items[i]? = some (.map true m) ∧ (¬ Short m ∨ full st m)
  | _ => False

/-- What the program may see of a sequence of calls, if a call about known things fails only with such an excuse. -/
def QuietRun (full : σ → Map → Prop) : σ → World → List (Op σ ε) → List (Obs ε) → σ → World → Prop
  | st, w, [], os, st', w' => os = [] ∧ st' = st ∧ w' = w
  | st, w, op :: ops, os, st', w' => ∃ o st1 w1 os', os = o :: os' ∧ Step L st w op o st1 w1 ∧ (Known L st w op → ∀ e, o = .err e → Excuse L full st w op) ∧
      QuietRun full st1 w1 ops os' st' w'

/-- Nobody else uses the store during these calls. -/
def Alone (ops : List (Op σ ε)) : Prop := ∀ op ∈ ops, ∀ g, op ≠ .outside g

end

end Radix.Spec.Kept
