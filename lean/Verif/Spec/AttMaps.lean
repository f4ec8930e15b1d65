import Verif.Spec.Session
import Verif.Stored.Cost
import Verif.Heap.AttSession

/-
What a session with a store (`Op`, `Obs` of `Verif/Heap/AttSession.lean`) may see, told with plain maps, byte strings and lists. Nothing here refers to trees or
to memory. Of the store only this is used: which blobs it has (`L.Has`), and whether they can be read (`ReadsSucceed`).

What a program holds is a list of items. `att` says whether the tree that stands for the map is attached to the store. An item is `unknown` where nothing is said
about it: a tree after a call that changes it has failed, a tree that was made with a function that does not depend on the contents of the values only, a
tree with keys of 128 or more bytes that was written to the store, a tree that was loaded with an id that did not come from `reattach`, and everything that was made of such a tree.
-/

namespace Radix.Spec.Kept
open Radix.Heap (Choice)
open Radix.Heap.Att (Op Obs NewChoice fits)

/-- What a slot holds. `entries`, `vals` and `groups` are iterators: what they have still to give. -/
inductive Item where
  | map (att : Bool) (m : Map)
  | value (att : Bool) (d : Bytes)
  | key (d : Bytes)
  | entries (att : Bool) (es : List (Bytes × Bytes))
  | vals (att : Bool) (vs : List Bytes)
  | groups (att : Bool) (es : List (Bytes × Bytes))
  | unknown
  | free

/-- What a program holds, and the maps that are in the store: those for which `reattach` has given an id. -/
structure World where
  items : List Item
  saved : Bytes → Option Map

/-- Nothing. -/
def World.empty : World := ⟨[], fun _ => none⟩

/-- One item more. -/
def World.add (w : World) (x : Item) : World := { w with items := w.items ++ [x] }

/-- Another item in slot `i`. -/
def World.put (w : World) (i : Nat) (x : Item) : World := { w with items := w.items.set i x }

/-- Some more items about which nothing is known. -/
def World.more (w : World) (n : Nat) : World := { w with items := w.items ++ List.replicate n .unknown }

section
variable {σ ε : Type} {S : BlobStore σ ε} (L : Lawful S) (st : σ)

/-- What the program gets as a value, `b`, is the bytes `d`. -/
def Shows : Bool → BlobV → Bytes → Prop
  | true, b, d => IsValue L st b d
  | false, b, d => b = .data d

/-- Some read of a blob that the store has fails, and the call is about a tree that is attached to it. -/
def Fails (a : Bool) : Prop := a = true ∧ ¬ ReadsSucceed L st

/-- All keys are shorter than 128 bytes. -/
def Short (m : Map) : Prop := ∀ k v, m k = some v → k.length < 128

/-- The store may refuse one of the next `6 * n + 4` writes, where `n` is the number of entries of the map. This is so even for blobs of at most `B` bytes, if keys and values have at
most `B` bytes and all ids at most `N`, where `B` is at least `256 * (258 + N)`. -/
def NoRoom (m : Map) : Prop := ∃ es, IsEntries m es ∧ ¬ CanWrite S (6 * es.length + 4) st ∧
  ∀ N B, (∀ st i d, L.Has st i d → i.length ≤ N) → 256 * (258 + N) ≤ B → (∀ e ∈ es, e.1.length ≤ B ∧ e.2.length ≤ B) → ¬ Accepts S B (6 * es.length + 4) st

/-- What a store can become by writing to it. -/
inductive Grown (S : BlobStore σ ε) (st : σ) : σ → Prop where
  | same : Grown S st st
  | write {st' : σ} (d : Bytes) : Grown S st st' → Grown S st (S.write st' d).2

/-- The function of the user depends on the contents of the values only; the result is that of `g`. -/
def Follows (a b : Bool) (f : BlobV → BlobV → Except ε Choice) (g : Bytes → Bytes → Option Bytes) : Prop :=
  ∀ av bv x y, Shows L st a av x → Shows L st b bv y →
    match f av bv with
    | .ok .keep => g x y = some x
    | .ok .clear => g x y = none
    | .ok .take => g x y = some y ∧ Shows L st a bv y
    | .error _ => True

/-- The same for functions that make new values. -/
def Makes (a b : Bool) (f : BlobV → BlobV → Except ε NewChoice) (g : Bytes → Bytes → Option Bytes) : Prop :=
  ∀ av bv x y, Shows L st a av x → Shows L st b bv y →
    match f av bv with
    | .ok .clear => g x y = none
    | .ok .left => g x y = some x
    | .ok .right => g x y = some y
    | .ok (.own d) => g x y = some d
    | .error _ => True

/-- The same for predicates. -/
def Tells (b : Bool) (f : BlobV → Except ε Bool) (p : Bytes → Bool) : Prop :=
  ∀ bv y, Shows L st b bv y → ∀ r, f bv = .ok r → r = p y

/-- The same for predicates of two values. -/
def Compares (a b : Bool) (f : BlobV → BlobV → Except ε Bool) (p : Bytes → Bytes → Bool) : Prop :=
  ∀ av bv x y, Shows L st a av x → Shows L st b bv y → ∀ r, f av bv = .ok r → r = p x y

/-- The function of the user fails on some values of the two maps. -/
def Refuses {γ : Type} (a b : Bool) (f : BlobV → BlobV → Except ε γ) : Prop := ∃ av bv x y e, Shows L st a av x ∧ Shows L st b bv y ∧ f av bv = .error e

/-- The predicate fails on some value. -/
def Refuses1 (b : Bool) (f : BlobV → Except ε Bool) : Prop := ∃ bv y e, Shows L st b bv y ∧ f bv = .error e

/-- There is something that is as `A` says, and with it `X` holds; or there is no such thing, and `Y` holds. -/
def given {γ : Type} (A : γ → Prop) (X : γ → Prop) (Y : Prop) : Prop := (∃ g, A g ∧ X g) ∨ (¬ ∃ g, A g) ∧ Y

end

section
variable {ε : Type}

/-- The call is about a map in slot `i`; otherwise it is `bad` and changes nothing. -/
def onMap (w : World) (i : Nat) (o : Obs ε) (w' : World) (P : Bool → Map → Prop) : Prop :=
  match w.items[i]? with
  | some (.map a m) => P a m
  | some .unknown => ∃ n, w' = w.more n
  | _ => o = .bad ∧ w' = w

/-- The call is about maps in slots `i` and `j`. If nothing is known about one of them, `U` holds. -/
def onMaps (w : World) (i j : Nat) (o : Obs ε) (w' : World) (U : Prop) (P : Bool → Bool → Map → Map → Prop) : Prop :=
  match w.items[i]?, w.items[j]? with
  | some (.map a m), some (.map b m') => P a b m m'
  | some (.map _ _), some .unknown => U
  | some .unknown, some (.map _ _) => U
  | some .unknown, some .unknown => U
  | _, _ => o = .bad ∧ w' = w

/-- The call changes the map in slot `i` and reads another one, in slot `j`. -/
def different (w : World) (i j : Nat) (o : Obs ε) (w' : World) (P : Bool → Bool → Map → Map → Prop) : Prop :=
  if i = j then o = .bad ∧ w' = w else onMaps w i j o w' (w' = w.put i .unknown) P

/-- The call fails, for this reason, and changes nothing. -/
def failed (why : Prop) (w : World) (o : Obs ε) (w' : World) : Prop := (∃ e, o = .err e) ∧ why ∧ w' = w

/-- The call changes the map in slot `i`; if it fails, then for this reason, and nothing is known about the map any more. -/
def changed (why : Prop) (w : World) (i : Nat) (o : Obs ε) (w' : World) (a : Bool) (m : Map) : Prop :=
  o = .unit ∧ w' = w.put i (.map a m) ∨ (∃ e, o = .err e) ∧ why ∧ w' = w.put i .unknown

/-- The call makes a new map, or fails for this reason. -/
def made (why : Prop) (w : World) (o : Obs ε) (w' : World) (a : Bool) (m : Map) : Prop :=
  o = .unit ∧ w' = w.add (.map a m) ∨ failed why w o w'

end

section
variable {σ ε : Type} {S : BlobStore σ ε} (L : Lawful S)

/-- A call that gives an optional value, or fails because a read fails. -/
def isValue (st : σ) (a : Bool) (w : World) (v : Option Bytes) (o : Obs ε) (w' : World) : Prop :=
  failed (Fails L st a) w o w' ∨
  match v with
  | some d => ∃ b, o = .value (some b) ∧ Shows L st a b d ∧ w' = w.add (.value a d)
  | none => o = .value none ∧ w' = w.add .free

/-- A call that gives an optional entry, or fails because a read fails. -/
def isEntry (st : σ) (a : Bool) (w : World) (v : Option (Bytes × Bytes)) (o : Obs ε) (w' : World) : Prop :=
  failed (Fails L st a) w o w' ∨
  match v with
  | some (k, d) => ∃ b, o = .entry (some (k, b)) ∧ Shows L st a b d ∧ w' = w.add (.value a d)
  | none => o = .entry none ∧ w' = w.add .free

/-- A call that gives a truth value, or fails because a read fails. -/
def isBool (why : Prop) (w : World) (P : Prop) (o : Obs ε) (w' : World) : Prop :=
  failed why w o w' ∨ w' = w ∧ ∃ b, o = .bool b ∧ (b = true ↔ P)

/-- What the program may see of a call (`o`) when the store is in the state `st`, and what it holds after it (`w'`). `st'` is the state of the store after the call.
Where the code does not do what one expects, less is asked for here: `retain_prefix_with` keeps less (`retainPast`), `has_prefix("")` is always true, the keys of `scan_prefix` may have something
inserted after the prefix, and nothing is known about `t.filter_prefix("", s)` of an empty tree. -/
def Step (st : σ) (w : World) (op : Op σ ε) (o : Obs ε) (st' : σ) (w' : World) : Prop :=
  match op with
  | .empty a => st' = st ∧ o = .unit ∧ w' = w.add (.map a .empty)
  | .single k v => st' = st ∧ o = .unit ∧ w' = w.add (.map false (Map.insert .empty k v))
  | .load id => st' = st ∧
    match w.saved id with
    | some m => made (Fails L st true) w o w' true m
    | none => ∃ n, w' = w.more n
  | .clone i => st' = st ∧
    match w.items[i]? with
    | some (.map a m) => o = .unit ∧ w' = w.add (.map a m)
    | some (.key d) => o = .unit ∧ w' = w.add (.key d)
    | some .unknown => ∃ n, w' = w.more n
    | _ => o = .bad ∧ w' = w
  | .drop i => st' = st ∧
    match w.items[i]? with
    | some _ => o = .unit ∧ w' = w.put i .free
    | none => o = .bad ∧ w' = w
  | .insert i k v => st' = st ∧ onMap w i o w' fun a m => changed (Fails L st a) w i o w' a (m.insert k v)
  | .remove i k => st' = st ∧ onMap w i o w' fun a m => changed (Fails L st a) w i o w' a (m.erase k)
  | .removePrefix i p => st' = st ∧ onMap w i o w' fun a m => changed (Fails L st a) w i o w' a (m.erasePrefix p)
  | .outerCombineWith i j c f => st' = st ∧ different w i j o w' fun a b m m' =>
      if fits a b c then
        given (Follows L st a b f)
          (fun g => changed (Fails L st a ∨ Fails L st b ∨ Refuses L st a b f) w i o w' a (Map.combine (outer g) m m')) (w' = w.put i .unknown)
      else o = .bad ∧ w' = w
  | .innerCombineWith i j f => st' = st ∧ different w i j o w' fun a b m m' =>
      given (Follows L st a b f)
        (fun g => changed (Fails L st a ∨ Fails L st b ∨ Refuses L st a b f) w i o w' a (Map.combine (inner g) m m')) (w' = w.put i .unknown)
  | .leftCombineWith i j f => st' = st ∧ different w i j o w' fun a b m m' =>
      given (Follows L st a b f)
        (fun g => changed (Fails L st a ∨ Fails L st b ∨ Refuses L st a b f) w i o w' a (Map.combine (left g) m m')) (w' = w.put i .unknown)
  | .retainPrefixWith i j f => st' = st ∧ different w i j o w' fun a b m m' =>
      given (Tells L st b f)
        (fun p => changed (Fails L st a ∨ Fails L st b ∨ Refuses1 L st b f) w i o w' a (m.retainPast p m')) (w' = w.put i .unknown)
  | .removePrefixWith i j f => st' = st ∧ different w i j o w' fun a b m m' =>
      given (Tells L st b f)
        (fun p => changed (Fails L st a ∨ Fails L st b ∨ Refuses1 L st b f) w i o w' a (m.removePrefix p m')) (w' = w.put i .unknown)
  | .outerCombine i j f => st' = st ∧ onMaps w i j o w' (∃ n, w' = w.more n) fun a b m m' =>
      given (Makes L st a b f) (fun g => made (Fails L st a ∨ Fails L st b ∨ Refuses L st a b f) w o w' false (Map.combine (outer g) m m')) (∃ n, w' = w.more n)
  | .innerCombine i j f => st' = st ∧ onMaps w i j o w' (∃ n, w' = w.more n) fun a b m m' =>
      given (Makes L st a b f) (fun g => made (Fails L st a ∨ Fails L st b ∨ Refuses L st a b f) w o w' false (Map.combine (inner g) m m')) (∃ n, w' = w.more n)
  | .leftCombine i j f => st' = st ∧ onMaps w i j o w' (∃ n, w' = w.more n) fun a b m m' =>
      given (Makes L st a b f) (fun g => made (Fails L st a ∨ Fails L st b ∨ Refuses L st a b f) w o w' false (Map.combine (left g) m m')) (∃ n, w' = w.more n)
  | .innerCombinePred i j f => st' = st ∧ onMaps w i j o w' (w' = w) fun a b m m' =>
      given (Compares L st a b f) (fun p => isBool (Fails L st a ∨ Fails L st b ∨ Refuses L st a b f) w
        (∃ k x y, m k = some x ∧ m' k = some y ∧ p x y = true) o w') (w' = w)
  | .leftCombinePred i j f => st' = st ∧ onMaps w i j o w' (w' = w) fun a b m m' =>
      given (Compares L st a b f) (fun p => isBool (Fails L st a ∨ Fails L st b ∨ Refuses L st a b f) w
        (∃ k x, m k = some x ∧ (m' k = none ∨ ∃ y, m' k = some y ∧ p x y = true)) o w') (w' = w)
  | .filterPrefix i p s => st' = st ∧ onMap w i o w' fun a m =>
      (s = [] ∨ p ≠ [] ∨ ∃ k v, m k = some v) ∧ made (Fails L st a) w o w' a (m.filterPrefix p s) ∨
      ¬ (s = [] ∨ p ≠ [] ∨ ∃ k v, m k = some v) ∧ ∃ n, w' = w.more n
  | .detached i => st' = st ∧ onMap w i o w' fun a m => made (Fails L st a) w o w' false m
  | .attached i => Grown S st st' ∧ onMap w i o w' fun a m =>
      if a then o = .bad ∧ w' = w else
        Short m ∧ failed (NoRoom L st m) w o w' ∨ ¬ Short m ∧ (∃ e, o = .err e) ∧ w' = w ∨ o = .unit ∧ (Short m ∧ w' = w.add (.map true m) ∨ ¬ Short m ∧ w' = w.add .unknown)
  | .reattach i => Grown S st st' ∧ onMap w i o w' fun a m =>
      if a then
        Short m ∧ (failed (NoRoom L st m) w o w' ∨
          ∃ id, o = .bytes id ∧ w' = { w with saved := fun id' => if id' = id then some m else w.saved id' }) ∨
        ¬ Short m ∧ w' = w.put i .unknown
      else o = .bad ∧ w' = w
  | .get i k => st' = st ∧ onMap w i o w' fun a m => isValue L st a w (m k) o w'
  | .containsKey i k => st' = st ∧ onMap w i o w' fun a m => isBool (Fails L st a) w (∃ v, m k = some v) o w'
  | .hasPrefix i p => st' = st ∧ onMap w i o w' fun a m => isBool (Fails L st a) w (p = [] ∨ ∃ k v, p <+: k ∧ m k = some v) o w'
  | .firstValue i => st' = st ∧ onMap w i o w' fun a m => ∃ es, IsEntries m es ∧ isValue L st a w (es.head?.map (·.2)) o w'
  | .lastValue i => st' = st ∧ onMap w i o w' fun a m => ∃ es, IsEntries m es ∧ isValue L st a w (es.getLast?.map (·.2)) o w'
  | .firstEntry i p => st' = st ∧ onMap w i o w' fun a m => ∃ es, IsEntries m es ∧ isEntry L st a w (es.head?.map fun e => (p ++ e.1, e.2)) o w'
  | .lastEntry i p => st' = st ∧ onMap w i o w' fun a m => ∃ es, IsEntries m es ∧ isEntry L st a w (es.getLast?.map fun e => (p ++ e.1, e.2)) o w'
  | .rootValue i => st' = st ∧ onMap w i o w' fun a m => ∃ v, isValue L st a w v o w' ∧ ∀ d, v = some d → ∃ k, m k = some d
  | .isEmpty i => st' = st ∧ onMap w i o w' fun a m => isBool False w (∀ k, m k = none) o w'
  | .loadValue i => st' = st ∧
    match w.items[i]? with
    | some (.value a d) => failed (Fails L st a) w o w' ∨ o = .bytes d ∧ w' = w
    | some .unknown => w' = w
    | _ => o = .bad ∧ w' = w
  | .iter i => st' = st ∧ onMap w i o w' fun a m => o = .unit ∧ ∃ es, IsEntries m es ∧ w' = w.add (.entries a es)
  | .scanPrefix i p => st' = st ∧ onMap w i o w' fun a m => failed (Fails L st a) w o w' ∨ o = .unit ∧ ∃ es d, IsEntries m es ∧
      w' = w.add (.entries a ((es.filter fun e => p.isPrefixOf e.1).map fun e => (p ++ d ++ e.1.drop p.length, e.2)))
  | .values i => st' = st ∧ onMap w i o w' fun a m => o = .unit ∧ ∃ es, IsEntries m es ∧ w' = w.add (.vals a (es.map (·.2)))
  | .groupBy i => st' = st ∧ onMap w i o w' fun a m => o = .unit ∧ ∃ es, IsEntries m es ∧ w' = w.add (.groups a es)
  | .next i => st' = st ∧
    match w.items[i]? with
    | some (.entries a []) => failed (Fails L st a) w o w' ∨ o = .entry none ∧ w' = w
    | some (.entries a (e :: es)) =>
      (∃ er, o = .err er) ∧ Fails L st a ∧ w' = w.put i (.entries a []) ∨
      ∃ b, o = .entry (some (e.1, b)) ∧ Shows L st a b e.2 ∧ w' = ((w.put i (.entries a es)).add (.key e.1)).add (.value a e.2)
    | some (.vals a []) => failed (Fails L st a) w o w' ∨ o = .value none ∧ w' = w
    | some (.vals a (v :: vs)) =>
      (∃ er, o = .err er) ∧ Fails L st a ∧ w' = w.put i (.vals a []) ∨
      ∃ b, o = .value (some b) ∧ Shows L st a b v ∧ w' = (w.put i (.vals a vs)).add (.value a v)
    | some .unknown => ∃ n, w' = w.more n
    | _ => o = .bad ∧ w' = w
  | .nextGroup i d => st' = st ∧
    match w.items[i]? with
    | some (.groups a es) =>
      (∀ p, ∃ b, d p = .ok b) ∧
        ((∃ er, o = .err er) ∧ Fails L st a ∧ w' = w.put i (.groups a []) ∨
         es = [] ∧ o = .bool false ∧ w' = w ∨
         ∃ p es1 es2 m, es = es1 ++ es2 ∧ IsEntries m es1 ∧ (es1 = [] → es = []) ∧ (∀ e ∈ es1, p <+: e.1) ∧ (d p = .ok false ∨ d p = .ok true ∧ ∃ v, es1 = [(p, v)]) ∧ o = .bool true ∧ w' = (w.put i (.groups a es2)).add (.map a m)) ∨
      (¬ ∀ p, ∃ b, d p = .ok b) ∧ ∃ n, w' = (w.put i .unknown).more n
    | some .unknown => ∃ n, w' = w.more n
    | _ => o = .bad ∧ w' = w
  | .readKey i => st' = st ∧
    match w.items[i]? with
    | some (.key d) => o = .bytes d ∧ w' = w
    | some .unknown => w' = w
    | _ => o = .bad ∧ w' = w
  | .outside g => st' = g st ∧ o = .unit ∧ w' = w

/-- What the program may see of a sequence of calls. -/
def Run : σ → World → List (Op σ ε) → List (Obs ε) → σ → World → Prop
  | st, w, [], os, st', w' => os = [] ∧ st' = st ∧ w' = w
  | st, w, op :: ops, os, st', w' => ∃ o st1 w1 os', os = o :: os' ∧ Step L st w op o st1 w1 ∧ Run st1 w1 ops os' st' w'

/-- When others use the store between two calls, nothing is lost. -/
def Keeping (ops : List (Op σ ε)) : Prop := ∀ op ∈ ops, ∀ g, op = .outside g → ∀ st, Mono L st (g st)

end

end Radix.Spec.Kept
