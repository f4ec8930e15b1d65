import Verif.Spec.Session
import Verif.Proofs.Reach
import Verif.Props.Lookup
import Verif.Props.Prefix
import Verif.Props.Combine
import Verif.Props.Shape

/-
Sessions on plain values (trees without sharing) see only what `Verif/Spec/Session.lean` allows; and how slots that a call does not change stay as they are.
-/

set_option linter.unusedVariables false

namespace Radix.Heap
open Radix.Spec (Thing Map Allowed AllowedAll onMap onMaps different isValue isEntry IsEntries Tame changes Question)

/-! ### Slots that stay -/

theorem ponTree_len {o : List Obj} {i : Nat} {f : Node → Obs × List Obj} (hf : ∀ m, o.length ≤ (f m).2.length) : o.length ≤ (ponTree o i f).2.length := by
  unfold ponTree; split <;> simp_all

theorem pnewValue_get {o : List Obj} (v : Option Bytes) {j : Nat} (hj : j < o.length) : (pnewValue o v).2[j]? = o[j]? := by
  cases v <;> simp only [pnewValue] <;> rw [List.getElem?_append_left hj]

theorem pnewEntry_get {o : List Obj} (v : Option (Bytes × Bytes)) {j : Nat} (hj : j < o.length) : (pnewEntry o v).2[j]? = o[j]? := by
  cases v <;> simp only [pnewEntry] <;> rw [List.getElem?_append_left hj]

theorem append_get {o : List Obj} {k : List Obj} {j : Nat} (hj : j < o.length) : (o ++ k)[j]? = o[j]? := List.getElem?_append_left hj

theorem ponTree_get {o : List Obj} {i j : Nat} {f : Node → Obs × List Obj} (hf : ∀ m, (f m).2[j]? = o[j]?) : (ponTree o i f).2[j]? = o[j]? := by
  unfold ponTree; split <;> simp_all

theorem ponTrees_get {o : List Obj} {i i' j : Nat} {f : Node → Node → Obs × List Obj} (hf : ∀ m k, (f m k).2[j]? = o[j]?) : (ponTrees o i i' f).2[j]? = o[j]? := by
  exact ponTree_get fun m => ponTree_get fun k => hf m k

theorem ponOwn_get {o : List Obj} {i j : Nat} {f : Node → Obs × List Obj} (hf : ∀ m, (f m).2[j]? = o[j]?) : (ponOwn o i f).2[j]? = o[j]? := by
  unfold ponOwn; split <;> simp_all

theorem set_get {o : List Obj} {i j : Nat} {x : Obj} (h : i ≠ j) : (o.set i x)[j]? = o[j]? := List.getElem?_set_ne h

theorem pchangeWith_get {o : List Obj} {i i' j : Nat} {f : Node → Node → Node} (h : i ≠ j) : (pchangeWith o i i' f).2[j]? = o[j]? := by
  unfold pchangeWith
  split
  · rfl
  · exact ponOwn_get fun m => ponTree_get fun k => set_get h

/-- A call that does not change a slot leaves what is in it. -/
theorem pstep_get (o : List Obj) (op : Op) (j : Nat) (hj : j < o.length) (hc : changes op ≠ some j) : (pstep o op).2[j]? = o[j]? := by
  cases op <;> simp only [pstep, changes, ne_eq, Option.some.injEq] at hc ⊢
  case clone i => split <;> first | exact append_get hj | rfl
  case drop i => split <;> first | exact set_get hc | rfl
  case insert => exact ponOwn_get fun m => set_get hc
  case remove => exact ponOwn_get fun m => set_get hc
  case removePrefix => exact ponOwn_get fun m => set_get hc
  case outerCombineWith => exact pchangeWith_get hc
  case innerCombineWith => exact pchangeWith_get hc
  case leftCombineWith => exact pchangeWith_get hc
  case retainPrefixWith => exact pchangeWith_get hc
  case removePrefixWith => exact pchangeWith_get hc
  case next i =>
    unfold pnextOf
    split
    · split
      · rw [List.getElem?_append_left (by simp; omega), List.getElem?_append_left (by simpa using hj)]; exact set_get hc
      · exact set_get hc
    · split
      · rw [List.getElem?_append_left (by simpa using hj)]; exact set_get hc
      · exact set_get hc
    · split
      · rw [List.getElem?_append_left (by simpa using hj)]; exact set_get hc
      · exact set_get hc
    · rfl
  case read i => unfold preadOf; split <;> rfl
  all_goals
    first
      | exact append_get hj
      | exact ponTree_get fun m => append_get hj
      | exact ponTrees_get fun m k => append_get hj
      | exact ponTree_get fun m => pnewValue_get _ hj
      | exact ponTree_get fun m => pnewEntry_get _ hj
      | exact ponTree_get fun m => rfl
      | exact ponTrees_get fun m k => rfl

theorem ponTree_grow {o : List Obj} {i : Nat} {f : Node → Obs × List Obj} (hf : ∀ m, o.length ≤ (f m).2.length) : o.length ≤ (ponTree o i f).2.length := by
  unfold ponTree; split <;> simp_all

theorem ponTrees_grow {o : List Obj} {i j : Nat} {f : Node → Node → Obs × List Obj} (hf : ∀ m k, o.length ≤ (f m k).2.length) : o.length ≤ (ponTrees o i j f).2.length := by
  exact ponTree_grow fun m => ponTree_grow fun k => hf m k

theorem ponOwn_grow {o : List Obj} {i : Nat} {f : Node → Obs × List Obj} (hf : ∀ m, o.length ≤ (f m).2.length) : o.length ≤ (ponOwn o i f).2.length := by
  unfold ponOwn; split <;> simp_all

/-- Slots are only added. -/
theorem pstep_len (o : List Obj) (op : Op) : o.length ≤ (pstep o op).2.length := by
  cases op <;> simp only [pstep]
  case clone i => split <;> simp
  case drop i => split <;> simp
  case next i => unfold pnextOf; split <;> (try split) <;> simp <;> omega
  case read i => unfold preadOf; split <;> simp
  all_goals
    first
      | simp; done
      | exact ponTrees_grow fun m k => by simp
      | exact ponTree_grow fun m => by simp
      | exact ponTree_grow fun m => by unfold pnewValue; split <;> simp
      | exact ponTree_grow fun m => by unfold pnewEntry; split <;> simp
      | exact ponOwn_grow fun m => by simp
      | (unfold pchangeWith; split <;> first | exact Nat.le_refl _ | exact ponOwn_grow fun m => ponTree_grow fun k => by simp)

/-- A lent tree: whether this is the tree itself, and its number. -/
def Obj.loan : Obj → Option (Bool × Nat)
  | .ref own id _ => some (own, id)
  | _ => none

/-- What is new after a call is not a lent tree. -/
def NoLoans (o : List Obj) (p : Obs × List Obj) : Prop := ∀ ob ∈ p.2, ob ∈ o ∨ ob.loan = none

theorem NoLoans.same {o : List Obj} {x : Obs} : NoLoans o (x, o) := fun ob h => .inl h

theorem NoLoans.append {o : List Obj} {x : Obs} {ob : Obj} (h : ob.loan = none) : NoLoans o (x, o ++ [ob]) := fun b hb => by
  rcases List.mem_append.1 hb with h1 | h1
  · exact .inl h1
  · rw [List.mem_singleton.1 h1]; exact .inr h

theorem NoLoans.set {o : List Obj} {x : Obs} {i : Nat} {ob : Obj} (h : ob.loan = none) : NoLoans o (x, o.set i ob) := fun b hb => by
  rcases List.mem_or_eq_of_mem_set hb with h1 | rfl
  · exact .inl h1
  · exact .inr h

theorem ponTree_new {o : List Obj} {i : Nat} {f : Node → Obs × List Obj} (hf : ∀ m, NoLoans o (f m)) : NoLoans o (ponTree o i f) := by
  unfold ponTree; split <;> first | exact hf _ | exact .same

theorem ponOwn_new {o : List Obj} {i : Nat} {f : Node → Obs × List Obj} (hf : ∀ m, NoLoans o (f m)) : NoLoans o (ponOwn o i f) := by
  unfold ponOwn; split <;> first | exact hf _ | exact .same

theorem pstep_new (o : List Obj) (op : Op) : NoLoans o (pstep o op) := by
  cases op <;> simp only [pstep]
  case clone i => split <;> first | exact .same | exact .append rfl
  case drop i => split <;> first | exact .same | exact .set rfl
  case next i =>
    unfold pnextOf
    split
    · split
      · intro ob hb
        rcases List.mem_append.1 hb with hb | hb
        · rcases List.mem_append.1 hb with hb | hb
          · exact NoLoans.set (x := .unit) (ob := .kv _) rfl ob hb
          · rw [List.mem_singleton.1 hb]; exact .inr rfl
        · rw [List.mem_singleton.1 hb]; exact .inr rfl
      · exact .set rfl
    · split
      · intro ob hb
        rcases List.mem_append.1 hb with hb | hb
        · exact NoLoans.set (x := .unit) (ob := .group _ _) rfl ob hb
        · rw [List.mem_singleton.1 hb]; exact .inr rfl
      · exact .set rfl
    · split
      · intro ob hb
        rcases List.mem_append.1 hb with hb | hb
        · exact NoLoans.set (x := .unit) (ob := .vals _) rfl ob hb
        · rw [List.mem_singleton.1 hb]; exact .inr rfl
      · exact .set rfl
    · exact .same
  case read i => unfold preadOf; split <;> exact .same
  all_goals
    first
      | exact NoLoans.append rfl
      | exact ponTree_new fun m => .same
      | exact ponTree_new fun m => .append rfl
      | exact ponTree_new fun m => ponTree_new fun k => .same
      | exact ponTree_new fun m => ponTree_new fun k => .append rfl
      | exact ponTree_new fun m => by unfold pnewValue; split <;> exact .append rfl
      | exact ponTree_new fun m => by unfold pnewEntry; split <;> exact .append rfl
      | exact ponOwn_new fun m => .set rfl
      | (unfold pchangeWith; split <;> first | exact .same | exact ponOwn_new fun m => ponTree_new fun k => .set rfl)

theorem prun_new : ∀ (ops : List Op) (o : List Obj), (∀ ob ∈ o, ob.loan = none) → ∀ ob ∈ (prun o ops).2, ob.loan = none
  | [], o, h => h
  | op :: ops, o, h => prun_new ops _ fun ob hb => (pstep_new o op ob hb).elim (h ob) id

theorem prun_get : ∀ (ops : List Op) (o : List Obj) (j : Nat), j < o.length → (∀ op ∈ ops, changes op ≠ some j) → (prun o ops).2[j]? = o[j]?
  | [], o, j, _, _ => rfl
  | op :: ops, o, j, hj, hc => by
    rw [prun]
    rw [prun_get ops _ j (Nat.lt_of_lt_of_le hj (pstep_len o op)) (fun x hx => hc x (by simp [hx]))]
    exact pstep_get o op j hj (hc op (by simp))

theorem prun_append : ∀ (a b : List Op) (o : List Obj), prun o (a ++ b) = ((prun o a).1 ++ (prun (prun o a).2 b).1, (prun (prun o a).2 b).2)
  | [], b, o => by simp [prun]
  | op :: a, b, o => by rw [List.cons_append, prun, prun_append a b, prun]; simp

/-- The answer to a question depends on what is in the slot only. -/
theorem question_slot {q : Nat → Op} (hq : Question q) {o o' : List Obj} {i j : Nat} (h : o[i]? = o'[j]?) : (pstep o (q i)).1 = (pstep o' (q j)).1 := by
  have key : ∀ {f g : Node → Obs × List Obj}, (∀ m, (f m).1 = (g m).1) → (ponTree o i f).1 = (ponTree o' j g).1 := by
    intro f g hfg
    unfold ponTree
    rw [h]
    split <;> simp_all
  have kv : ∀ v, (pnewValue o v).1 = (pnewValue o' v).1 := by intro v; cases v <;> rfl
  have ke : ∀ v, (pnewEntry o v).1 = (pnewEntry o' v).1 := by intro v; rcases v with _ | ⟨_, _⟩ <;> rfl
  cases hq <;> simp only [pstep] <;> first
    | exact key fun m => kv _
    | exact key fun m => ke _
    | exact key fun m => rfl
    | (unfold preadOf; rw [h]; split <;> rfl)

/-! ### Maps -/

/-- What a plain value is for the specification. -/
def abs : Obj → Thing
  | .tree t => .map (Radix.get t)
  | .ref o id t => .ref o id (Radix.get t)
  | .value d => .value d
  | .key d => .key d
  | .kv m => .entries m.toList
  | .group d m => .groups ((groupToList (fun p _ => d p) m).map Radix.get)
  | .vals m => .vals (valToList m)
  | .free => .free

/-- The trees are those that calls give. -/
def OKObj : Obj → Prop
  | .tree t => Proper t
  | .ref _ _ t => Proper t
  | .group d m => ∀ u ∈ groupToList (fun p _ => d p) m, Proper u
  | _ => True

theorem next0_toList_none {m : KVIter} (h : m.next0.1 = none) : m.toList = [] ∧ m.next0.2.toList = [] := by
  constructor
  · rw [KVIter.toList]; split <;> rename_i e <;> rw [e] at h <;> simp_all
  · fun_induction KVIter.next0 m with
    | case1 s hs => rw [toList_eq, hs]; simp [stackEnts]
    | case2 s plen node rest st hs path s' v hv => simp at h
    | case3 s plen node rest st hs path s' hv ih => exact ih h
    | case4 s plen st hs ih => exact ih h
    | case5 s plen st hs ih => exact ih h

theorem next0_toList_some {m : KVIter} {e} (h : m.next0.1 = some e) : m.toList = e :: m.next0.2.toList := by
  conv => lhs; rw [KVIter.toList]
  split
  · rename_i e'; rw [e'] at h; cases h
  · rename_i x s' e'; rw [e'] at h; simp only [Option.some.injEq] at h; subst h; rw [e']

theorem valNext0_toList_none {m : List (List Node)} (h : (valNext0 m).1 = none) : valToList m = [] ∧ valToList (valNext0 m).2 = [] := by
  constructor
  · rw [valToList]; split <;> rename_i e <;> rw [e] at h <;> simp_all
  · fun_induction valNext0 m with
    | case1 => simp [valToList_eq, vstackVals]
    | case2 node rest st v hv => simp at h
    | case3 node rest st hv ih => exact ih h
    | case4 st ih => exact ih h

theorem valNext0_toList_some {m : List (List Node)} {e} (h : (valNext0 m).1 = some e) : valToList m = e :: valToList (valNext0 m).2 := by
  conv => lhs; rw [valToList]
  split
  · rename_i e'; rw [e'] at h; cases h
  · rename_i x s' e'; rw [e'] at h; simp only [Option.some.injEq] at h; subst h; rw [e']

theorem groupNext0_toList_none {d} {m : KVIter} (h : (groupNext0 d m).1 = none) : groupToList d m = [] ∧ groupToList d (groupNext0 d m).2 = [] := by
  constructor
  · rw [groupToList]; split <;> rename_i e <;> rw [e] at h <;> simp_all
  · fun_induction groupNext0 d m with
    | case1 s hs => rw [groupToList, groupNext0.eq_def, hs]
    | case2 s plen node rest st hs path hd s1 hv => simp at h
    | case3 s plen node rest st hs path hd s1 hv ih => exact ih h
    | case4 s plen node rest st hs path hd => simp at h
    | case5 s plen st hs ih => exact ih h
    | case6 s plen st hs ih => exact ih h

theorem groupNext0_toList_some {d} {m : KVIter} {e} (h : (groupNext0 d m).1 = some e) : groupToList d m = e :: groupToList d (groupNext0 d m).2 := by
  conv => lhs; rw [groupToList]
  split
  · rename_i e'; rw [e'] at h; cases h
  · rename_i x s' e'; rw [e'] at h; simp only [Option.some.injEq] at h; subst h; rw [e']

theorem get_den {t : Node} (h : Proper t) : Radix.get t = den t := funext fun k => get_eq_den _ _ (reach_ord h)

theorem abs_tree {o : List Obj} {i : Nat} : (o.map abs)[i]? = (o[i]?).map abs := by simp

/-- The call is fine. -/
def Fine (o : List Obj) (op : Op) (p : Obs × List Obj) : Prop := Allowed (o.map abs) op p.1 (p.2.map abs) ∧ ∀ ob ∈ p.2, OKObj ob

/-- The effect of a call, without the call. -/
def Fine' (o : List Obj) (P : Obs → List Thing → Prop) (p : Obs × List Obj) : Prop := P p.1 (p.2.map abs) ∧ ∀ ob ∈ p.2, OKObj ob

theorem on_own {o : List Obj} {i : Nat} {f : Node → Obs × List Obj} {P : Obs → List Thing → Map → Prop} (hk : ∀ ob ∈ o, OKObj ob)
    (hf : ∀ t, Proper t → Fine' o (fun x l' => P x l' (Radix.get t)) (f t)) :
    Fine' o (fun x l' => Spec.onOwn (o.map abs) i x l' (P x l')) (ponOwn o i f) := by
  unfold ponOwn Fine' Spec.onOwn
  rw [abs_tree]
  cases e : o[i]? with
  | none => exact ⟨⟨rfl, rfl⟩, hk⟩
  | some ob =>
    cases ob
    case tree t => exact hf _ (hk _ (List.mem_of_getElem? e))
    all_goals exact ⟨⟨rfl, rfl⟩, hk⟩

theorem on_tree {o : List Obj} {i : Nat} {f : Node → Obs × List Obj} {P : Obs → List Thing → Map → Prop} (hk : ∀ ob ∈ o, OKObj ob)
    (hf : ∀ t, Proper t → Fine' o (fun x l' => P x l' (Radix.get t)) (f t)) :
    Fine' o (fun x l' => onMap (o.map abs) i x l' (P x l')) (ponTree o i f) := by
  unfold ponTree Fine' onMap
  rw [abs_tree]
  cases e : o[i]? with
  | none => exact ⟨⟨rfl, rfl⟩, hk⟩
  | some ob =>
    cases ob
    case tree t => exact hf _ (hk _ (List.mem_of_getElem? e))
    case ref _ _ t => exact hf _ (hk _ (List.mem_of_getElem? e))
    all_goals exact ⟨⟨rfl, rfl⟩, hk⟩

theorem on_trees {o : List Obj} {i j : Nat} {f : Node → Node → Obs × List Obj} {P : Obs → List Thing → Map → Map → Prop} (hk : ∀ ob ∈ o, OKObj ob)
    (hf : ∀ t u, Proper t → Proper u → Fine' o (fun x l' => P x l' (Radix.get t) (Radix.get u)) (f t u)) :
    Fine' o (fun x l' => onMaps (o.map abs) i j x l' (P x l')) (ponTrees o i j f) := by
  exact on_tree (P := fun x l' m => onMap (o.map abs) j x l' fun m' => P x l' m m') hk fun t ht =>
    on_tree (P := fun x l' m' => P x l' (Radix.get t) m') hk fun u hu => hf t u ht hu

theorem ok_append {o : List Obj} {ob : Obj} (hk : ∀ x ∈ o, OKObj x) (h : OKObj ob) : ∀ x ∈ o ++ [ob], OKObj x := by
  intro x hx
  rcases List.mem_append.1 hx with h1 | h1
  · exact hk x h1
  · simp at h1; subst h1; exact h

theorem ok_set {o : List Obj} {ob : Obj} {i : Nat} (hk : ∀ x ∈ o, OKObj x) (h : OKObj ob) : ∀ x ∈ o.set i ob, OKObj x := by
  intro x hx
  rcases List.mem_or_eq_of_mem_set hx with h1 | h1
  · exact hk x h1
  · subst h1; exact h

theorem new_tree {o : List Obj} {t : Node} {m : Map} (hk : ∀ x ∈ o, OKObj x) (h : Proper t) (e : Radix.get t = m) :
    Fine' o (fun x l' => x = .unit ∧ l' = o.map abs ++ [.map m]) (.unit, o ++ [.tree t]) :=
  ⟨⟨rfl, by simp [abs, e]⟩, ok_append hk h⟩

theorem set_tree {o : List Obj} {i : Nat} {t : Node} {m : Map} (hk : ∀ x ∈ o, OKObj x) (h : Proper t) (e : Radix.get t = m) :
    Fine' o (fun x l' => x = .unit ∧ l' = (o.map abs).set i (.map m)) (.unit, o.set i (.tree t)) :=
  ⟨⟨rfl, by rw [List.map_set]; simp [abs, e]⟩, ok_set hk h⟩

theorem new_value {o : List Obj} {v v' : Option Bytes} (hk : ∀ x ∈ o, OKObj x) (e : v = v') :
    Fine' o (fun x l' => isValue (o.map abs) v' x l') (pnewValue o v) := by
  subst e
  cases v <;> exact ⟨⟨rfl, by simp [pnewValue, abs]⟩, ok_append hk trivial⟩

theorem new_entry {o : List Obj} {v v' : Option (Bytes × Bytes)} (hk : ∀ x ∈ o, OKObj x) (e : v = v') :
    Fine' o (fun x l' => isEntry (o.map abs) v' x l') (pnewEntry o v) := by
  subst e
  rcases v with _ | ⟨k, v⟩ <;> exact ⟨⟨rfl, by simp [pnewEntry, abs]⟩, ok_append hk trivial⟩

theorem fine_mono {o : List Obj} {P Q : Obs → List Thing → Prop} {p : Obs × List Obj} (h : Fine' o P p) (hpq : ∀ x l', P x l' → Q x l') : Fine' o Q p :=
  ⟨hpq _ _ h.1, h.2⟩

theorem fn_eq (f : Bytes → Bytes → Choice) : chFun f = Spec.fn f := by
  funext a b; unfold chFun Spec.fn Choice.apply; cases f a b <;> rfl

theorem diff {o : List Obj} {i j : Nat} {f : Node → Node → Node} {P : Obs → List Thing → Map → Map → Prop} (hk : ∀ x ∈ o, OKObj x)
    (hf : ∀ t u, Proper t → Proper u → Fine' o (fun x l' => P x l' (Radix.get t) (Radix.get u)) (.unit, o.set i (.tree (f t u)))) :
    Fine' o (fun x l' => different (o.map abs) i j x l' (P x l')) (pchangeWith o i j f) := by
  unfold pchangeWith different Fine'
  split
  · exact ⟨⟨rfl, rfl⟩, hk⟩
  · exact on_own (P := fun x l' m => onMap (o.map abs) j x l' fun m' => P x l' m m') hk fun t ht =>
      on_tree (P := fun x l' m' => P x l' (Radix.get t) m') hk fun u hu => hf t u ht hu

theorem entries_iter {t : Node} (h : Proper t) : IsEntries (Radix.get t) (Radix.iter t) := C05_iter h.reachable

theorem entries_unique {m : Map} {es es' : List (Bytes × Bytes)} (h : IsEntries m es) (h' : IsEntries m es') : es = es' :=
  sorted_eq h.1 h'.1 fun e => by obtain ⟨k, v⟩ := e; rw [h.2, h'.2]

theorem get_root {t : Node} (h : Proper t) : Radix.get t t.pfx = t.val := by
  rw [get_den h, den_eq]
  have : strip t.pfx t.pfx = some [] := by simpa using strip_append_self t.pfx []
  rw [this]

/-- One call on plain values sees only what is allowed. -/
theorem pstep_allowed (o : List Obj) (op : Op) (ht : Tame op) (hk : ∀ ob ∈ o, OKObj ob) : Fine o op (pstep o op) := by
  show Fine' o (fun x l' => Allowed (o.map abs) op x l') (pstep o op)
  cases op <;> simp only [Allowed, pstep]

  case empty => exact new_tree hk .empty (by rw [get_den .empty]; exact funext den_empty)
  case leaf v => exact new_tree hk (.leaf v) (by rw [get_den (.leaf v)]; exact funext fun k => den_leaf v k)
  case single k v => exact new_tree hk (.single k v) (by rw [get_den (.single k v)]; exact funext fun k' => den_single k v k')
  case clone i =>
    unfold Fine'
    rw [abs_tree]
    cases e : o[i]? with
    | none => exact ⟨⟨rfl, rfl⟩, hk⟩
    | some ob =>
      cases ob
      case tree t => exact ⟨⟨rfl, by simp [abs]⟩, ok_append hk (hk _ (List.mem_of_getElem? e))⟩
      case ref b id t =>
        have h1 : OKObj (.ref b id t) := hk _ (List.mem_of_getElem? e)
        exact ⟨⟨rfl, by simp [abs]⟩, ok_append (ob := .tree t) hk h1⟩
      case key t => exact ⟨⟨rfl, by simp [abs]⟩, ok_append hk trivial⟩
      all_goals exact ⟨⟨rfl, rfl⟩, hk⟩
  case drop i =>
    unfold Fine'
    rw [abs_tree]
    cases e : o[i]? with
    | none => exact ⟨⟨rfl, rfl⟩, hk⟩
    | some ob =>
      cases ob
      case ref b _ _ =>
        cases b
        · exact ⟨⟨rfl, by rw [List.map_set]; rfl⟩, ok_set hk trivial⟩
        · exact ⟨⟨rfl, rfl⟩, hk⟩
      all_goals exact ⟨⟨rfl, by rw [List.map_set]; rfl⟩, ok_set hk trivial⟩
  case insert i k v =>
    refine on_own hk fun t h => ?_
    exact set_tree hk (.insert k v h) (by
      rw [get_den (.insert k v h), get_den h]; exact funext fun k' => insert_den (reach_ord h) k v k')
  case remove i k =>
    refine on_own hk fun t h => ?_
    exact set_tree hk (.remove k h) (by
      rw [get_den (.remove k h), get_den h]; exact funext fun k' => remove_den (reach_ord h) k k')
  case removePrefix i p =>
    refine on_own hk fun t h => ?_
    exact set_tree hk (.removePrefix p h) (by
      rw [get_den (.removePrefix p h), get_den h]; exact funext fun k' => removePrefix_den (reach_ord h) p k')
  case outerCombineWith i j f =>
    refine diff hk fun t u h h' => ?_
    exact set_tree hk (.outerCombineWith _ _ h h') (by
      funext k; rw [fn_eq]; exact (C15_outer_combine_with h.reachable h'.reachable _ _ k).1)
  case innerCombineWith i j f =>
    refine diff hk fun t u h h' => ?_
    exact set_tree hk (.innerCombineWith _ h h') (by
      funext k; rw [fn_eq]; exact (C16_inner_combine_with h.reachable h'.reachable _ k).1)
  case leftCombineWith i j f =>
    refine diff hk fun t u h h' => ?_
    exact set_tree hk (.leftCombineWith _ h h') (by
      funext k; rw [fn_eq]; exact (C17_left_combine_with h.reachable h'.reachable _ k).1)
  case retainPrefixWith i j f =>
    refine diff hk fun t u h h' => ?_
    exact set_tree hk (.retainPrefixWith _ h h') (by
      rw [get_den (.retainPrefixWith _ h h'), get_den h, get_den h']
      exact retain_exact (proper_shape h) (reach_ord h) (reach_ord h'))
  case removePrefixWith i j f =>
    refine diff hk fun t u h h' => ?_
    exact set_tree hk (.removePrefixWith _ h h') (by
      funext k
      have hk := C21_remove_prefix_with h.reachable h'.reachable f k
      unfold Map.removePrefix
      split
      · rename_i e; exact hk.1 e
      · rename_i e; exact hk.2 e)
  case outerCombine i j f =>
    refine on_trees hk fun t u h h' => ?_
    exact new_tree hk (.outerCombine _ h h') (by
      funext k; rw [fn_eq]; exact C12_outer_combine h.reachable h'.reachable _ k)
  case innerCombine i j f =>
    refine on_trees hk fun t u h h' => ?_
    exact new_tree hk (.innerCombine _ h h') (by
      funext k; rw [fn_eq]; exact C13_inner_combine h.reachable h'.reachable _ k)
  case leftCombine i j f =>
    refine on_trees hk fun t u h h' => ?_
    exact new_tree hk (.leftCombine _ h h') (by
      funext k; rw [fn_eq]; exact C14_left_combine h.reachable h'.reachable _ k)
  case innerCombinePred i j f =>
    refine on_trees hk fun t u h h' => ?_
    exact ⟨⟨rfl, _, rfl, C18_inner_combine_pred h.reachable h'.reachable f⟩, hk⟩
  case leftCombinePred i j f =>
    refine on_trees hk fun t u h h' => ?_
    exact ⟨⟨rfl, _, rfl, C19_left_combine_pred_partial h h'.reachable f⟩, hk⟩
  case filterPrefix i p s =>
    refine on_tree hk fun t h => ?_
    have hp : Proper (Radix.filterPrefix t p s) := .filterPrefix p s h fun _ => by
      rcases ht with h1 | h1
      · exact .inl h1
      · exact .inr (.inl h1)
    exact new_tree hk hp (by
      rw [get_den hp, get_den h]
      funext k
      rw [filterPrefix_den (reach_ord h)]; exact strip_filterPrefix _ _ _ _)
  case detached i =>
    refine on_tree hk fun t h => ?_
    exact new_tree hk (.detached h) (by rw [get_den (.detached h), get_den h]; exact funext (den_detached t))
  case get i k =>
    refine on_tree hk fun t h => ?_
    exact new_value hk rfl
  case containsKey i k =>
    refine on_tree hk fun t h => ⟨⟨rfl, ?_⟩, hk⟩
    show Obs.bool _ = _
    congr 1
    have := C04_contains_key t k
    cases hc : Radix.containsKey t k with
    | true => obtain ⟨v, hv⟩ := this.1 hc; rw [hv]; rfl
    | false =>
      cases hv : Radix.get t k with
      | none => rfl
      | some v => rw [this.2 ⟨v, hv⟩] at hc; cases hc
  case hasPrefix i p =>
    refine on_tree hk fun t h => ⟨⟨rfl, _, rfl, ?_⟩, hk⟩
    exact C08_has_prefix_exact h p
  case firstValue i =>
    refine on_tree hk fun t h => ?_
    exact fine_mono (new_value hk (C22_first_last_partial h []).1) fun x l' e => ⟨_, entries_iter h, e⟩
  case lastValue i =>
    refine on_tree hk fun t h => ?_
    exact fine_mono (new_value hk (C22_first_last_partial h []).2.1) fun x l' e => ⟨_, entries_iter h, e⟩
  case firstEntry i p =>
    refine on_tree hk fun t h => ?_
    exact fine_mono (new_entry hk (C22_first_last_partial h p).2.2.1) fun x l' e => ⟨_, entries_iter h, e⟩
  case lastEntry i p =>
    refine on_tree hk fun t h => ?_
    exact fine_mono (new_entry hk (C22_first_last_partial h p).2.2.2.1) fun x l' e => ⟨_, entries_iter h, e⟩
  case rootValue i =>
    refine on_tree hk fun t h => ?_
    exact fine_mono (new_value hk rfl) fun x l' e => ⟨_, e, fun d hd => ⟨t.pfx, by rw [get_root h]; exact hd⟩⟩
  case isEmpty i =>
    refine on_tree hk fun t h => ?_
    exact ⟨⟨rfl, _, rfl, (C25_is_empty_is_leaf_partial h).1⟩, hk⟩
  case isLeaf i =>
    refine on_tree hk fun t h => ⟨⟨rfl, _, rfl, ?_⟩, hk⟩
    intro hl k v k' v' hv hv'
    have h1 := (C25_is_empty_is_leaf_partial h).2.1 hl
    have m1 := ((entries_iter h).2 k v).2 hv
    have m2 := ((entries_iter h).2 k' v').2 hv'
    cases hi : Radix.iter t with
    | nil => rw [hi] at m1; cases m1
    | cons e es =>
      rw [hi] at h1 m1 m2
      cases es with
      | cons _ _ => simp at h1
      | nil => simp at m1 m2; rw [← m2] at m1; cases m1; rfl
  case eq i j =>
    refine on_trees hk fun t u h h' => ?_
    exact ⟨⟨rfl, _, rfl, fun he hv hv' k => C24_eq_sound h.reachable h'.reachable he hv hv' k⟩, hk⟩
  case iter i =>
    refine on_tree hk fun t h => ?_
    exact ⟨⟨rfl, _, entries_iter h, by simp [abs, Radix.iter]⟩, ok_append hk trivial⟩
  case scanPrefix i p =>
    refine on_tree hk fun t h => ?_
    obtain ⟨d, _, hd⟩ := C09_scan_prefix_keys h.reachable p
    exact ⟨⟨rfl, _, d, entries_iter h, by rw [← hd]; simp [abs, Radix.scanPrefix]⟩, ok_append hk trivial⟩
  case values i =>
    refine on_tree hk fun t h => ?_
    exact ⟨⟨rfl, _, entries_iter h, by rw [← C06_values]; simp [abs, Radix.values]⟩, ok_append hk trivial⟩
  case groupBy i d =>
    refine on_tree hk fun t h => ?_
    have hg : ∀ u ∈ Radix.groupBy t (fun p _ => d p), Proper u := fun u hu => .groupBy _ u h hu
    refine ⟨⟨rfl, (Radix.groupBy t fun p _ => d p).map Radix.get, (Radix.groupBy t fun p _ => d p).map Radix.iter, by simp, ?_, ?_, by simp [abs, Radix.groupBy]⟩,
      ok_append hk hg⟩
    · intro j g es e1 e2
      rw [List.getElem?_map] at e1 e2
      cases hu : (Radix.groupBy t fun p _ => d p)[j]? with
      | none => rw [hu] at e1; cases e1
      | some u =>
        rw [hu] at e1 e2
        cases e1; cases e2
        exact entries_iter (hg u (List.mem_of_getElem? hu))
    · have := C23_group_by t (fun p _ => d p)
      rw [List.flatMap_def] at this
      rw [this]; exact entries_iter h
  case next i =>
    unfold Fine'
    unfold pnextOf
    rw [abs_tree]
    cases e : o[i]? with
    | none => exact ⟨⟨rfl, rfl⟩, hk⟩
    | some ob =>
      have same : ∀ x, abs x = abs ob → (o.set i x).map abs = o.map abs := by
        intro x hx
        rw [List.map_set, hx]
        apply List.ext_getElem?
        intro j
        rw [List.getElem?_set]
        split
        · subst_vars; split
          · rw [abs_tree, e]; rfl
          · rw [List.getElem?_eq_none (by omega)]
        · rfl
      cases ob
      case kv m =>
        simp only [Option.map_some, abs]
        cases hx : m.next0.1 with
        | none =>
          have h2 := next0_toList_none hx
          rw [h2.1]
          exact ⟨⟨rfl, same _ (by simp [abs, h2.1, h2.2])⟩, ok_set hk trivial⟩
        | some q =>
          rw [next0_toList_some hx]
          exact ⟨⟨rfl, by simp [abs, List.map_set]⟩, ok_append (ok_append (ok_set hk trivial) trivial) trivial⟩
      case group d m =>
        simp only [Option.map_some, abs]
        have hm := hk _ (List.mem_of_getElem? e)
        cases hx : (groupNext0 (fun p _ => d p) m).1 with
        | none =>
          have h2 := groupNext0_toList_none hx
          rw [h2.1]
          refine ⟨⟨rfl, same _ (by simp [abs, h2.1, h2.2])⟩, ok_set hk ?_⟩
          simp only [OKObj]; rw [h2.2]; simp
        | some q =>
          have h2 := groupNext0_toList_some hx
          simp only [OKObj] at hm
          rw [h2] at hm ⊢
          exact ⟨⟨rfl, by simp [abs, List.map_set]⟩, ok_append (ok_set hk fun u hu => hm u (by simp [hu])) (hm q (by simp))⟩
      case vals m =>
        simp only [Option.map_some, abs]
        cases hx : (valNext0 m).1 with
        | none =>
          have h2 := valNext0_toList_none hx
          rw [h2.1]
          exact ⟨⟨rfl, same _ (by simp [abs, h2.1, h2.2])⟩, ok_set hk trivial⟩
        | some q =>
          rw [valNext0_toList_some hx]
          exact ⟨⟨rfl, by simp [abs, List.map_set]⟩, ok_append (ok_set hk trivial) trivial⟩
      all_goals exact ⟨⟨rfl, rfl⟩, hk⟩
  case read i =>
    unfold Fine'
    unfold preadOf
    rw [abs_tree]
    cases e : o[i]? with
    | none => exact ⟨⟨rfl, rfl⟩, hk⟩
    | some ob => cases ob <;> exact ⟨⟨rfl, rfl⟩, hk⟩

/-- A session on plain values sees only what is allowed. -/
theorem prun_allowed : ∀ (ops : List Op) (o : List Obj), (∀ op ∈ ops, Tame op) → (∀ ob ∈ o, OKObj ob) →
    AllowedAll (o.map abs) ops (prun o ops).1 ((prun o ops).2.map abs)
  | [], o, _, _ => ⟨rfl, rfl⟩
  | op :: ops, o, ht, hk => by
    have h1 := pstep_allowed o op (ht op (by simp)) hk
    exact ⟨_, _, _, rfl, h1.1, prun_allowed ops _ (fun x hx => ht x (by simp [hx])) h1.2⟩

end Radix.Heap
