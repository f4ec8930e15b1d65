import Verif.Spec.Map
import Verif.Heap.Session

/-
What a session of API calls (`Op`, `Obs` of `Verif/Heap/Session.lean`) may see, told with plain maps, byte strings and lists. Nothing here refers to trees or
to memory, and nothing is shared: a slot holds a map, and an iterator is the list of what it has still to give.
-/

namespace Radix.Spec
open Radix.Heap (Op Obs Choice)

/-- What a slot holds. `ref` is a map that is lent, `id` says which one: for the one it belongs to (`own`), or as a reference for somebody else. -/
inductive Thing where
  | map (m : Map)
  | ref (own : Bool) (id : Nat) (m : Map)
  | value (d : Bytes)
  | key (d : Bytes)
  | entries (es : List (Bytes × Bytes))
  | vals (vs : List Bytes)
  | groups (ms : List Map)
  | free

/-- The slot that a call changes, if any. All other slots stay as they are, except that new ones are added at the end. -/
def changes : Op → Option Nat
  | .drop i | .insert i _ _ | .remove i _ | .removePrefix i _ | .outerCombineWith i _ _ | .innerCombineWith i _ _ | .leftCombineWith i _ _
  | .retainPrefixWith i _ _ | .removePrefixWith i _ _ | .next i => some i
  | _ => none

/-- Questions about the tree in a slot. -/
inductive Question : (Nat → Op) → Prop where
  | get (k : Bytes) : Question fun i => .get i k
  | containsKey (k : Bytes) : Question fun i => .containsKey i k
  | hasPrefix (p : Bytes) : Question fun i => .hasPrefix i p
  | firstValue : Question .firstValue
  | lastValue : Question .lastValue
  | firstEntry (p : Bytes) : Question fun i => .firstEntry i p
  | lastEntry (p : Bytes) : Question fun i => .lastEntry i p
  | rootValue : Question .rootValue
  | isEmpty : Question .isEmpty
  | isLeaf : Question .isLeaf
  | read : Question .read

/-- The list of all entries, in the order of the keys. -/
def IsEntries (m : Map) (es : List (Bytes × Bytes)) : Prop := es.Pairwise (fun a b => a.1 < b.1) ∧ ∀ k v, (k, v) ∈ es ↔ m k = some v

/-- The call is about a map in slot `i`; otherwise it is `bad` and changes nothing. -/
def onMap (l : List Thing) (i : Nat) (o : Obs) (l' : List Thing) (P : Map → Prop) : Prop :=
  match l[i]? with
  | some (.map m) => P m
  | some (.ref _ _ m) => P m
  | _ => o = .bad ∧ l' = l

/-- The call changes the map in slot `i`: it cannot be lent. -/
def onOwn (l : List Thing) (i : Nat) (o : Obs) (l' : List Thing) (P : Map → Prop) : Prop :=
  match l[i]? with
  | some (.map m) => P m
  | _ => o = .bad ∧ l' = l

/-- The call is about maps in slots `i` and `j`. -/
def onMaps (l : List Thing) (i j : Nat) (o : Obs) (l' : List Thing) (P : Map → Map → Prop) : Prop :=
  onMap l i o l' fun m => onMap l j o l' fun m' => P m m'

/-- The call changes the map in slot `i` and is about another one in slot `j`. -/
def different (l : List Thing) (i j : Nat) (o : Obs) (l' : List Thing) (P : Map → Map → Prop) : Prop :=
  if i = j then o = .bad ∧ l' = l else onOwn l i o l' fun m => onMap l j o l' fun m' => P m m'

/-- What a user function gives. -/
def fn (f : Bytes → Bytes → Choice) (a b : Bytes) : Option Bytes :=
  match f a b with
  | .keep => some a
  | .clear => none
  | .take => some b

/-- A call that gives an optional value. -/
def isValue (l : List Thing) (v : Option Bytes) (o : Obs) (l' : List Thing) : Prop :=
  o = .bytes v ∧ l' = l ++ [match v with | some d => .value d | none => .free]

/-- A call that gives an optional entry. -/
def isEntry (l : List Thing) (v : Option (Bytes × Bytes)) (o : Obs) (l' : List Thing) : Prop :=
  o = .entry v ∧ l' = l ++ [match v with | some (_, d) => .value d | none => .free]

/-- What the program may see of a call (`o`), and what is in the slots after it (`l'`).
Where the code does not do what one expects, less is asked for here: `retain_prefix_with` keeps less (`retainPast`), `is_leaf` and `==` only mean something when they are
true, `has_prefix("")` is always true and the keys of `scan_prefix` may have something inserted after the prefix. -/
def Allowed (l : List Thing) (op : Op) (o : Obs) (l' : List Thing) : Prop :=
  match op with
  | .empty => o = .unit ∧ l' = l ++ [.map .empty]
  | .leaf v => o = .unit ∧ l' = l ++ [.map (Map.insert .empty [] v)]
  | .single k v => o = .unit ∧ l' = l ++ [.map (Map.insert .empty k v)]
  | .clone i =>
    match l[i]? with
    | some (.map m) => o = .unit ∧ l' = l ++ [.map m]
    | some (.ref _ _ m) => o = .unit ∧ l' = l ++ [.map m]
    | some (.key d) => o = .unit ∧ l' = l ++ [.key d]
    | _ => o = .bad ∧ l' = l
  | .drop i =>
    match l[i]? with
    | some (.ref true _ _) => o = .bad ∧ l' = l
    | some _ => o = .unit ∧ l' = l.set i .free
    | none => o = .bad ∧ l' = l
  | .insert i k v => onOwn l i o l' fun m => o = .unit ∧ l' = l.set i (.map (m.insert k v))
  | .remove i k => onOwn l i o l' fun m => o = .unit ∧ l' = l.set i (.map (m.erase k))
  | .removePrefix i p => onOwn l i o l' fun m => o = .unit ∧ l' = l.set i (.map (m.erasePrefix p))
  | .outerCombineWith i j f => different l i j o l' fun m m' => o = .unit ∧ l' = l.set i (.map (Map.combine (outer (fn f)) m m'))
  | .innerCombineWith i j f => different l i j o l' fun m m' => o = .unit ∧ l' = l.set i (.map (Map.combine (inner (fn f)) m m'))
  | .leftCombineWith i j f => different l i j o l' fun m m' => o = .unit ∧ l' = l.set i (.map (Map.combine (left (fn f)) m m'))
  | .retainPrefixWith i j f => different l i j o l' fun m m' =>
      o = .unit ∧ l' = l.set i (.map (m.retainPast f m'))
  | .removePrefixWith i j f => different l i j o l' fun m m' => o = .unit ∧ l' = l.set i (.map (m.removePrefix f m'))
  | .outerCombine i j f => onMaps l i j o l' fun m m' => o = .unit ∧ l' = l ++ [.map (Map.combine (outer (fn f)) m m')]
  | .innerCombine i j f => onMaps l i j o l' fun m m' => o = .unit ∧ l' = l ++ [.map (Map.combine (inner (fn f)) m m')]
  | .leftCombine i j f => onMaps l i j o l' fun m m' => o = .unit ∧ l' = l ++ [.map (Map.combine (left (fn f)) m m')]
  | .innerCombinePred i j f => onMaps l i j o l' fun m m' =>
      l' = l ∧ ∃ b, o = .bool b ∧ (b = true ↔ ∃ k x y, m k = some x ∧ m' k = some y ∧ f x y = true)
  | .leftCombinePred i j f => onMaps l i j o l' fun m m' =>
      l' = l ∧ ∃ b, o = .bool b ∧ (b = true ↔ ∃ k x, m k = some x ∧ (m' k = none ∨ ∃ y, m' k = some y ∧ f x y = true))
  | .filterPrefix i p s => onMap l i o l' fun m => o = .unit ∧ l' = l ++ [.map (m.filterPrefix p s)]
  | .detached i => onMap l i o l' fun m => o = .unit ∧ l' = l ++ [.map m]
  | .get i k => onMap l i o l' fun m => isValue l (m k) o l'
  | .containsKey i k => onMap l i o l' fun m => l' = l ∧ o = .bool (m k).isSome
  | .hasPrefix i p => onMap l i o l' fun m => l' = l ∧ ∃ b, o = .bool b ∧ (b = true ↔ p = [] ∨ ∃ k v, p <+: k ∧ m k = some v)
  | .firstValue i => onMap l i o l' fun m => ∃ es, IsEntries m es ∧ isValue l (es.head?.map (·.2)) o l'
  | .lastValue i => onMap l i o l' fun m => ∃ es, IsEntries m es ∧ isValue l (es.getLast?.map (·.2)) o l'
  | .firstEntry i p => onMap l i o l' fun m => ∃ es, IsEntries m es ∧ isEntry l (es.head?.map fun e => (p ++ e.1, e.2)) o l'
  | .lastEntry i p => onMap l i o l' fun m => ∃ es, IsEntries m es ∧ isEntry l (es.getLast?.map fun e => (p ++ e.1, e.2)) o l'
  | .rootValue i => onMap l i o l' fun m => ∃ v, isValue l v o l' ∧ ∀ d, v = some d → ∃ k, m k = some d
  | .isEmpty i => onMap l i o l' fun m => l' = l ∧ ∃ b, o = .bool b ∧ (b = true ↔ ∀ k, m k = none)
  | .isLeaf i => onMap l i o l' fun m => l' = l ∧ ∃ b, o = .bool b ∧ (b = true → ∀ k v k' v', m k = some v → m k' = some v' → k = k')
  | .eq i j => onMaps l i j o l' fun m m' =>
      l' = l ∧ ∃ b, o = .bool b ∧ (b = true → (∀ k, m k ≠ some []) → (∀ k, m' k ≠ some []) → ∀ k, m k = m' k)
  | .iter i => onMap l i o l' fun m => o = .unit ∧ ∃ es, IsEntries m es ∧ l' = l ++ [.entries es]
  | .scanPrefix i p => onMap l i o l' fun m => o = .unit ∧ ∃ es d, IsEntries m es ∧
      l' = l ++ [.entries ((es.filter fun e => p.isPrefixOf e.1).map fun e => (p ++ d ++ e.1.drop p.length, e.2))]
  | .values i => onMap l i o l' fun m => o = .unit ∧ ∃ es, IsEntries m es ∧ l' = l ++ [.vals (es.map (·.2))]
  | .groupBy i _ => onMap l i o l' fun m => o = .unit ∧ ∃ (gs : List Map) (ess : List (List (Bytes × Bytes))),
      gs.length = ess.length ∧ (∀ (j : Nat) (g : Map) (es : List (Bytes × Bytes)), gs[j]? = some g → ess[j]? = some es → IsEntries g es) ∧ IsEntries m ess.flatten ∧ l' = l ++ [.groups gs]
  | .next i =>
    match l[i]? with
    | some (.entries []) => o = .entry none ∧ l' = l
    | some (.entries (e :: es)) => o = .entry (some e) ∧ l' = l.set i (.entries es) ++ [.key e.1] ++ [.value e.2]
    | some (.vals []) => o = .bytes none ∧ l' = l
    | some (.vals (v :: vs)) => o = .bytes (some v) ∧ l' = l.set i (.vals vs) ++ [.value v]
    | some (.groups []) => o = .bool false ∧ l' = l
    | some (.groups (g :: gs)) => o = .bool true ∧ l' = l.set i (.groups gs) ++ [.map g]
    | _ => o = .bad ∧ l' = l
  | .read i =>
    match l[i]? with
    | some (.value d) => o = .bytes (some d) ∧ l' = l
    | some (.key d) => o = .bytes (some d) ∧ l' = l
    | _ => o = .bad ∧ l' = l

/-- What the program may see of a sequence of calls. -/
def AllowedAll : List Thing → List Op → List Obs → List Thing → Prop
  | l, [], os, l' => os = [] ∧ l' = l
  | l, op :: ops, os, l' => ∃ o l1 os', os = o :: os' ∧ Allowed l op o l1 ∧ AllowedAll l1 ops os' l'

/-- The calls without `t.filter_prefix("", s)` for a non-empty `s`, which on an empty tree gives a tree that other calls do not expect. -/
def Tame : Op → Prop
  | .filterPrefix _ p s => s = [] ∨ p ≠ []
  | _ => True

end Radix.Spec
