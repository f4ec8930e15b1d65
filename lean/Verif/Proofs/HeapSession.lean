import Verif.Heap.Session
import Verif.Proofs.HeapIter
import Verif.Proofs.HeapNew

/-
Sessions in memory give what sessions on plain values give.
-/

set_option linter.unusedVariables false

namespace Radix.Heap
open Node (nodesL nodesO)

/-! ### Slots -/

/-- The references a slot holds. Those of a lent tree are not among them. -/
def Slot.refs : Slot → List Ref
  | .tree x => x.refs
  | .ref _ _ _ => []
  | .value f => f.refs
  | .key a => [.blob a]
  | .kv s => s.refs
  | .group _ s => s.refs
  | .vals s => itsRefs s
  | .free => []

/-- The references all slots hold. -/
def slotsRefs (l : List Slot) : List Ref := l.flatMap Slot.refs

/-- A slot in memory holds the plain value. -/
def RepSlot (h : Mem) : Slot → Obj → Prop
  | .tree x, .tree m => Rep h x m
  | .ref o id x, .ref o' id' m => o = o' ∧ id = id' ∧ (id, x) ∈ h.lent ∧ Rep h x m
  | .value f, .value d => RepB h f d
  | .key a, .key d => cB h a = some d
  | .kv s, .kv m => RepKV h s m
  | .group d s, .group e m => d = e ∧ RepKV h s m
  | .vals s, .vals m => RepIts h s m
  | .free, .free => True
  | _, _ => False

/-- All slots hold the plain values. -/
def RepAll (h : Mem) (l : List Slot) (o : List Obj) : Prop :=
  l.length = o.length ∧ ∀ (i : Nat) (s : Slot) (ob : Obj), l[i]? = some s → o[i]? = some ob → RepSlot h s ob

/-- A good state: the counts are right and the slots hold the plain values. -/
def Good (h : Mem) (l : List Slot) (o : List Obj) : Prop := Inv h (slotsRefs l) ∧ RepAll h l o

theorem slotsRefs_append (l k : List Slot) : slotsRefs (l ++ k) = slotsRefs l ++ slotsRefs k := by simp [slotsRefs]

theorem slotsRefs_one (s : Slot) : slotsRefs [s] = s.refs := by simp [slotsRefs]

theorem mem_slotsRefs {l : List Slot} {i : Nat} {s : Slot} (e : l[i]? = some s) {r} (hr : r ∈ s.refs) : r ∈ slotsRefs l :=
  List.mem_flatMap.2 ⟨s, List.mem_of_getElem? e, hr⟩

theorem count_set : ∀ (l : List Slot) (i : Nat) (s t : Slot) (r : Ref), l[i]? = some s →
    (slotsRefs (l.set i t)).count r + s.refs.count r = (slotsRefs l).count r + t.refs.count r
  | [], i, s, t, r, e => by simp at e
  | x :: l, 0, s, t, r, e => by
    simp only [List.getElem?_cons_zero, Option.some.injEq] at e; subst e
    simp only [List.set_cons_zero, slotsRefs, List.flatMap_cons, List.count_append]; omega
  | x :: l, i + 1, s, t, r, e => by
    simp only [List.getElem?_cons_succ] at e
    have := count_set l i s t r e
    simp only [slotsRefs] at this
    simp only [List.set_cons_succ, slotsRefs, List.flatMap_cons, List.count_append]; omega

theorem mem_loan {l : List (Nat × Raw)} {id : Nat} {x : Raw} (h : (id, x) ∈ l) {r} (hr : r ∈ x.refs) : r ∈ loanRefs l := List.mem_flatMap.2 ⟨_, h, hr⟩

theorem RepSlot.keep {R h h' s ob} (hk : Keep R h h') (hr : ∀ r ∈ s.refs, Reach h R r) (h1 : RepSlot h s ob) : RepSlot h' s ob := by
  cases s <;> cases ob <;> simp only [RepSlot] at h1 ⊢
  · exact Rep.keep hk hr h1
  · exact ⟨h1.1, h1.2.1, by rw [hk.lent]; exact h1.2.2.1, Rep.keep hk (fun r hx => .loan (mem_loan h1.2.2.1 hx)) h1.2.2.2⟩
  · exact RepB.keep hk hr h1
  · rename_i a d
    exact content_cB (hk (.blob a) (hr _ (by simp [Slot.refs]))) h1
  · exact RepKV.keep hk hr h1
  · exact ⟨h1.1, RepKV.keep hk hr h1.2⟩
  · exact RepIts.keep hk hr h1

theorem RepAll.keep {h h' l o} (h1 : RepAll h l o) (hk : Keep (slotsRefs l) h h') : RepAll h' l o :=
  ⟨h1.1, fun i s ob e1 e2 => (h1.2 i s ob e1 e2).keep hk fun r hr => .root (mem_slotsRefs e1 hr)⟩

theorem RepAll.append {h l o s ob} (h1 : RepAll h l o) (h2 : RepSlot h s ob) : RepAll h (l ++ [s]) (o ++ [ob]) := by
  refine ⟨by simp [h1.1], ?_⟩
  intro i s' ob' e1 e2
  by_cases hi : i < l.length
  · rw [List.getElem?_append_left hi] at e1
    rw [List.getElem?_append_left (by rw [← h1.1]; exact hi)] at e2
    exact h1.2 i s' ob' e1 e2
  · rw [List.getElem?_append_right (by omega)] at e1
    rw [List.getElem?_append_right (by rw [← h1.1]; omega)] at e2
    rw [← h1.1] at e2
    cases hj : i - l.length with
    | zero => rw [hj] at e1 e2; simp at e1 e2; subst e1; subst e2; exact h2
    | succ n => rw [hj] at e1; simp at e1

theorem RepAll.set {h l o s ob} (i : Nat) (h1 : RepAll h l o) (h2 : RepSlot h s ob) : RepAll h (l.set i s) (o.set i ob) := by
  refine ⟨by simp [h1.1], ?_⟩
  intro j s' ob' e1 e2
  by_cases hj : i = j
  · subst hj
    rw [List.getElem?_set] at e1 e2
    simp only [if_true] at e1 e2
    split at e1
    · split at e2
      · cases e1; cases e2; exact h2
      · cases e2
    · cases e1
  · rw [List.getElem?_set_ne hj] at e1 e2
    exact h1.2 j s' ob' e1 e2

/-- Appending a new thing. -/
theorem Good.append {h h' l o s ob} (g : Good h l o) (p : Post (slotsRefs l) h h' s.refs) (r : RepSlot h' s ob) : Good h' (l ++ [s]) (o ++ [ob]) :=
  ⟨p.inv.mono (fun x => by rw [slotsRefs_append, slotsRefs_one]; simp only [List.count_append]; omega), (g.2.keep p.keep).append r⟩

theorem Good.keep {h h' l o} (g : Good h l o) (i : Inv h' (slotsRefs l)) (k : Keep (slotsRefs l) h h') : Good h' l o := ⟨i, g.2.keep k⟩

/-- Taking a thing out of its slot. -/
theorem Good.take {h l o} {i : Nat} {s : Slot} (g : Good h l o) (e : l[i]? = some s) :
    Inv h (s.refs ++ slotsRefs (l.set i .free)) ∧ RepAll h (l.set i .free) (o.set i .free) := by
  refine ⟨g.1.mono fun r => ?_, g.2.set i trivial⟩
  have := count_set l i s .free r e
  simp only [List.count_append, Slot.refs, List.count_nil] at this ⊢; omega

/-- Putting a thing back. -/
theorem Good.put {h h'} {l : List Slot} {o : List Obj} {s ob} {i : Nat} {s0 : Slot} (e : l[i]? = some s0) (g : RepAll h (l.set i .free) (o.set i .free))
    (p : Post (slotsRefs (l.set i .free)) h h' s.refs) (r : RepSlot h' s ob) : Good h' (l.set i s) (o.set i ob) := by
  refine ⟨p.inv.mono fun x => ?_, ?_⟩
  · have h1 := count_set l i s0 .free x e
    have h2 := count_set l i s0 s x e
    simp only [List.count_append, Slot.refs, List.count_nil] at h1 h2 ⊢; omega
  · have := (g.keep p.keep).set i r
    rwa [List.set_set, List.set_set] at this

/-! ### Sizes -/

/-- The number of steps a thing can ask for. -/
def Obj.size : Obj → Nat
  | .tree m => m.nodes
  | .ref _ _ m => m.nodes
  | .kv m => stackSize m.stack + 1
  | .group _ m => stackSize m.stack + 1
  | .vals m => vstackSize m + 1
  | _ => 0

/-- The number of steps a call can ask for. -/
def need (o : List Obj) : Nat := 2 * (o.map Obj.size).sum + 1

theorem size_le {o : List Obj} {i : Nat} {ob : Obj} (e : o[i]? = some ob) : ob.size ≤ (o.map Obj.size).sum := by
  have := List.mem_of_getElem? e
  induction o generalizing i with
  | nil => simp at e
  | cons x o ih =>
    simp only [List.map_cons, List.sum_cons]
    rcases List.mem_cons.1 this with h | h
    · subst h; omega
    · obtain ⟨j, hj⟩ := List.getElem?_of_mem h
      have := ih hj h; omega

/-! ### Calls -/

/-- The call in memory gives what the call on plain values gives. -/
def StepOK (f : H (Obs × List Slot)) (h : Mem) (p : Obs × List Obj) : Prop := ∃ l' h', f h = some ((p.1, l'), h') ∧ Good h' l' p.2

theorem ok_bad {h l o} (g : Good h l o) : StepOK (return (.bad, l)) h (.bad, o) := ⟨l, h, rfl, g⟩

theorem onOwn_ok {h l o} {i : Nat} {f : Raw → H (Obs × List Slot)} {p : Node → Obs × List Obj} (g : Good h l o)
    (hf : ∀ x m, l[i]? = some (.tree x) → o[i]? = some (.tree m) → Rep h x m → StepOK (f x) h (p m)) :
    StepOK (onOwn l i f) h (ponOwn o i p) := by
  unfold onOwn ponOwn
  cases e1 : l[i]? with
  | none =>
    have : o[i]? = none := by rw [List.getElem?_eq_none_iff] at e1 ⊢; rw [← g.2.1]; exact e1
    rw [this]; exact ok_bad g
  | some s =>
    cases e2 : o[i]? with
    | none => rw [List.getElem?_eq_none_iff, ← g.2.1, ← List.getElem?_eq_none_iff, e1] at e2; cases e2
    | some ob =>
      have hr := g.2.2 i s ob e1 e2
      cases s <;> cases ob <;> simp only [RepSlot] at hr <;> first | exact ok_bad g | exact hf _ _ e1 e2 hr

/-- The tree that a slot lets one read. -/
def Obj.reads : Obj → Option Node
  | .tree m => some m
  | .ref _ _ m => some m
  | _ => none

/-- The object in slot `i` is a tree, or a lent one. -/
def IsTree (o : List Obj) (i : Nat) (m : Node) : Prop := ∃ ob, o[i]? = some ob ∧ ob.reads = some m

theorem IsTree.own {o : List Obj} {i : Nat} {m : Node} (e : o[i]? = some (.tree m)) : IsTree o i m := ⟨_, e, rfl⟩

theorem onTree_ok' {h l o} {i i0 : Nat} {f : Raw → H (Obs × List Slot)} {p : Node → Obs × List Obj} (g : Good h l o) (hi : i0 ≠ i)
    (hf : ∀ x m, IsTree o i m → Rep h x m → Bor (slotsRefs (l.set i0 .free)) h x m → StepOK (f x) h (p m)) :
    StepOK (onTree l i f) h (ponTree o i p) := by
  unfold onTree ponTree
  cases e1 : l[i]? with
  | none =>
    have : o[i]? = none := by rw [List.getElem?_eq_none_iff] at e1 ⊢; rw [← g.2.1]; exact e1
    rw [this]; exact ok_bad g
  | some s =>
    cases e2 : o[i]? with
    | none => rw [List.getElem?_eq_none_iff, ← g.2.1, ← List.getElem?_eq_none_iff, e1] at e2; cases e2
    | some ob =>
      have hr := g.2.2 i s ob e1 e2
      have e3 : (l.set i0 .free)[i]? = some s := by rw [List.getElem?_set_ne hi]; exact e1
      cases s <;> cases ob <;> simp only [RepSlot] at hr <;> first
        | exact ok_bad g
        | exact hf _ _ ⟨_, e2, rfl⟩ hr ⟨hr, fun r hx => .root (mem_slotsRefs e3 hx)⟩
        | exact hf _ _ ⟨_, e2, rfl⟩ hr.2.2.2 ⟨hr.2.2.2, fun r hx => .loan (mem_loan hr.2.2.1 hx)⟩

theorem onTree_ok {h l o} {i : Nat} {f : Raw → H (Obs × List Slot)} {p : Node → Obs × List Obj} (g : Good h l o)
    (hf : ∀ x m, IsTree o i m → Rep h x m → Bor (slotsRefs l) h x m → StepOK (f x) h (p m)) :
    StepOK (onTree l i f) h (ponTree o i p) := by
  by_cases hl : i < l.length
  · refine onTree_ok' (i0 := l.length) g (by omega) ?_
    rw [List.set_eq_of_length_le (Nat.le_refl _)]
    exact hf
  · unfold onTree ponTree
    rw [List.getElem?_eq_none (by omega), List.getElem?_eq_none (by rw [← g.2.1]; omega)]
    exact ok_bad g

theorem onTrees_ok {h l o} {i j : Nat} {f : Raw → Raw → H (Obs × List Slot)} {p : Node → Node → Obs × List Obj} (g : Good h l o)
    (hf : ∀ x m y k, IsTree o i m → IsTree o j k → Bor (slotsRefs l) h x m → Bor (slotsRefs l) h y k → StepOK (f x y) h (p m k)) :
    StepOK (onTrees l i j f) h (ponTrees o i j p) :=
  onTree_ok g fun x m e _ b => onTree_ok g fun y k e' _ b' => hf x m y k e e' b b'

theorem change_ok {h l o} {i : Nat} {f : Raw → H Raw} {p : Node → Node} (g : Good h l o)
    (hf : ∀ m, IsTree o i m → UpdSpec f m (p m)) : StepOK (change l i f) h (pchange o i p) := by
  refine onOwn_ok g ?_
  intro x m e1 e2 hr
  obtain ⟨i1, r1⟩ := g.take e1
  obtain ⟨z, h', e, p', r'⟩ := hf m (.own e2) _ h x i1 hr
  exact ⟨_, h', by rw [run_bind e]; rfl, Good.put (s := .tree z) (ob := .tree (p m)) e1 r1 p' r'⟩

theorem changeWith_ok {h l o} {i j : Nat} {f : Raw → Raw → H Raw} {p : Node → Node → Node} (g : Good h l o)
    (hf : ∀ m k, IsTree o i m → IsTree o j k → CombSpec f m k (p m k)) : StepOK (changeWith l i j f) h (pchangeWith o i j p) := by
  unfold changeWith pchangeWith
  by_cases hij : i = j
  · rw [if_pos hij, if_pos hij]; exact ok_bad g
  rw [if_neg hij, if_neg hij]
  refine onOwn_ok g ?_
  intro x m e1 e2 hr
  refine onTree_ok' g hij ?_
  intro y k e4 _ b2
  obtain ⟨i1, r1⟩ := g.take e1
  obtain ⟨z, h', e, p', r'⟩ := hf m k (.own e2) e4 (slotsRefs (l.set i .free)) h x y i1 hr b2
  exact ⟨_, h', by rw [run_bind e]; rfl, Good.put (s := .tree z) (ob := .tree (p m k)) e1 r1 p' r'⟩

theorem newTree_ok {h l o f m} (g : Good h l o) (hf : ∃ y h', f h = some (y, h') ∧ Post (slotsRefs l) h h' y.refs ∧ Rep h' y m) :
    StepOK (newTree l f) h (.unit, o ++ [.tree m]) := by
  obtain ⟨y, h', e, p, r⟩ := hf
  exact ⟨_, h', by unfold newTree; rw [run_bind e]; rfl, g.append (s := .tree y) p r⟩

theorem newValue_ok {h l o f v} (g : Good h l o) (hf : ∃ y h', f h = some (y, h') ∧ Post (slotsRefs l) h h' (ovRefs y) ∧ RepOV h' y v) :
    StepOK (newValue l f) h (pnewValue o v) := by
  obtain ⟨y, h', e, p, r⟩ := hf
  unfold newValue StepOK
  rw [run_bind e]
  cases y with
  | none =>
    cases v with
    | some d => exact r.elim
    | none => exact ⟨_, h', rfl, g.append (s := .free) (ob := .free) p trivial⟩
  | some f =>
    cases v with
    | none => exact r.elim
    | some d => exact ⟨_, h', by dsimp only; rw [run_bind (slice_spec r)]; rfl, g.append (s := .value f) (ob := .value d) p r⟩

theorem newEntry_ok {h l o f v} (g : Good h l o) (hf : ∃ y h', f h = some (y, h') ∧ Post (slotsRefs l) h h' (oeRefs y) ∧ RepE h' y v) :
    StepOK (newEntry l f) h (pnewEntry o v) := by
  obtain ⟨y, h', e, p, r⟩ := hf
  unfold newEntry StepOK
  rw [run_bind e]
  cases y with
  | none =>
    cases v with
    | some d => exact r.elim
    | none => exact ⟨_, h', rfl, g.append (s := .free) (ob := .free) p trivial⟩
  | some f =>
    cases v with
    | none => exact r.elim
    | some d =>
      obtain ⟨k, f⟩ := f
      obtain ⟨k', d⟩ := d
      obtain ⟨hk, r⟩ := r
      cases hk
      exact ⟨_, h', by dsimp only; rw [run_bind (slice_spec r)]; rfl, g.append (s := .value f) (ob := .value d) p r⟩

theorem slot_cases {h l o} (g : Good h l o) (i : Nat) : (l[i]? = none ∧ o[i]? = none) ∨ ∃ s ob, l[i]? = some s ∧ o[i]? = some ob ∧ RepSlot h s ob := by
  cases e1 : l[i]? with
  | none => exact .inl ⟨rfl, by rw [List.getElem?_eq_none_iff] at e1 ⊢; rw [← g.2.1]; exact e1⟩
  | some s =>
    cases e2 : o[i]? with
    | none => rw [List.getElem?_eq_none_iff, ← g.2.1, ← List.getElem?_eq_none_iff, e1] at e2; cases e2
    | some ob => exact .inr ⟨s, ob, rfl, rfl, g.2.2 i s ob e1 e2⟩

theorem slotDrop_spec {R h s ob} (hi : Inv h (s.refs ++ R)) (hr : RepSlot h s ob) : ∃ h', s.drop h = some ((), h') ∧ Inv h' R ∧ Keep R h h' := by
  cases s <;> cases ob <;> simp only [RepSlot] at hr
  · exact dropOne_spec hi hr
  · exact ⟨h, rfl, hi, Keep.refl _ _⟩
  · exact drop_spec (v := some _) hi hr
  · obtain ⟨h', e, i, k, _⟩ := decBlob_spec hi
    exact ⟨h', e, i, k⟩
  · exact kvDrop_spec hi hr
  · exact kvDrop_spec hi hr.2
  · exact dropVals_spec _ _ _ _ hi hr
  · exact ⟨h, rfl, hi, Keep.refl _ _⟩

theorem leaf_spec {R h} (v : Bytes) (hi : Inv h R) : ∃ y h', Raw.leaf v h = some (y, h') ∧ Post R h h' y.refs ∧ Rep h' y (Node.leaf v) := by
  obtain ⟨g, h2, e2, p2, r2⟩ := ofData_spec v hi
  refine ⟨⟨Fld.empty, g, Fld.none⟩, h2, ?_, ⟨p2.inv.mono ?_, p2.keep⟩, ?_⟩
  · unfold Raw.leaf; rw [run_bind e2]; rfl
  · intro r; simp [Raw.refs, Fld.empty, Fld.none, Fld.refs, Word.refs, zeros]
  · have := rep_empty h2
    unfold Node.leaf
    unfold Node.empty at this
    simp only [Rep] at this ⊢
    exact ⟨this.1, r2, this.2.2⟩

/-- The clone of a plain value. -/
def Obj.clone : Obj → Option Obj
  | .tree m => some (.tree m)
  | .ref _ _ m => some (.tree m)
  | .key d => some (.key d)
  | _ => none

theorem slotClone_spec {R h s ob} (hi : Inv h R) (hr : RepSlot h s ob) (hm : ∀ r ∈ s.refs, r ∈ R) :
    (s.clone h = some (none, h) ∧ ob.clone = none) ∨ ∃ s' ob' h', s.clone h = some (some s', h') ∧ Post R h h' s'.refs ∧ RepSlot h' s' ob' ∧ ob.clone = some ob' := by
  cases s <;> cases ob <;> simp only [RepSlot] at hr <;> try exact .inl ⟨rfl, rfl⟩
  · rename_i x m
    obtain ⟨h', e, p, r⟩ := rawClone_post hi ⟨hr, fun r hx => .root (hm r hx)⟩
    exact .inr ⟨.tree x, .tree m, h', by unfold Slot.clone; dsimp only; rw [run_bind e]; rfl, p, r, rfl⟩
  · rename_i o id x o' id' m
    obtain ⟨h', e, p, r⟩ := rawClone_post hi ⟨hr.2.2.2, fun r hx => .loan (mem_loan hr.2.2.1 hx)⟩
    exact .inr ⟨.tree x, .tree m, h', by unfold Slot.clone; dsimp only; rw [run_bind e]; rfl, p, r, rfl⟩
  · rename_i a d
    obtain ⟨h', e, i', c⟩ := incBlob_spec (a := a) hi (.root (hm _ (by simp [Slot.refs])))
    exact .inr ⟨.key a, .key d, h', by unfold Slot.clone; dsimp only; rw [run_bind e]; rfl, ⟨i', c⟩, content_cB (c (.blob a) (Reach.root (hm (.blob a) (by simp [Slot.refs])))) hr, rfl⟩

theorem clone_ok {h l o} (g : Good h l o) (n i : Nat) : StepOK (step n l (.clone i)) h (pstep o (.clone i)) := by
  simp only [step, pstep]
  rcases slot_cases g i with ⟨e1, e2⟩ | ⟨s, ob, e1, e2, hr⟩
  · rw [e1, e2]; exact ok_bad g
  · rw [e1, e2]
    rcases slotClone_spec g.1 hr (fun r hx => mem_slotsRefs e1 hx) with ⟨e, e'⟩ | ⟨s', ob', h', e, p, r, e'⟩
    · dsimp only
      refine ⟨l, h, ?_, ?_⟩
      · rw [run_bind e]; cases ob <;> first | rfl | cases e'
      · cases ob <;> first | exact g | cases e'
    · dsimp only
      refine ⟨l ++ [s'], h', ?_, ?_⟩
      · rw [run_bind e]; cases ob <;> first | rfl | cases e'
      · cases ob <;> simp only [Obj.clone] at e' <;> cases e' <;> exact g.append p r

theorem drop_ok {h l o} (g : Good h l o) (n i : Nat) : StepOK (step n l (.drop i)) h (pstep o (.drop i)) := by
  simp only [step, pstep]
  rcases slot_cases g i with ⟨e1, e2⟩ | ⟨s, ob, e1, e2, hr⟩
  · rw [e1, e2]; exact ok_bad g
  · rw [e1, e2]
    obtain ⟨i1, r1⟩ := g.take e1
    obtain ⟨h', e, i', k'⟩ := slotDrop_spec i1 hr
    have key : StepOK (do s.drop; return (.unit, l.set i .free)) h (.unit, o.set i .free) :=
      ⟨_, h', by rw [run_bind e]; rfl, Good.put (s := .free) (ob := .free) e1 r1 ⟨i', k'⟩ trivial⟩
    cases s <;> cases ob <;> simp only [RepSlot] at hr <;> try exact key
    obtain ⟨rfl, hr⟩ := hr
    rename_i b _ _ _ _
    cases b
    · exact key
    · exact ok_bad g

theorem read_ok {h l o} (g : Good h l o) (i : Nat) : StepOK (readOf l i) h (preadOf o i) := by
  unfold readOf preadOf
  rcases slot_cases g i with ⟨e1, e2⟩ | ⟨s, ob, e1, e2, hr⟩
  · rw [e1, e2]; exact ok_bad g
  · rw [e1, e2]
    cases s <;> cases ob <;> simp only [RepSlot] at hr <;> try exact ok_bad g
    · exact ⟨l, h, by dsimp only; rw [run_bind (slice_spec hr)]; rfl, g⟩
    · exact ⟨l, h, by dsimp only; rw [run_bind (readBlob_spec hr)]; rfl, g⟩

/-- Putting a changed thing back and appending another one. -/
theorem Good.put_append {h h'} {l : List Slot} {o : List Obj} {s ob t tb} {i : Nat} {s0 : Slot} (e : l[i]? = some s0) (g : RepAll h (l.set i .free) (o.set i .free))
    (p : Post (slotsRefs (l.set i .free)) h h' (t.refs ++ s.refs)) (r : RepSlot h' s ob) (r' : RepSlot h' t tb) : Good h' (l.set i s ++ [t]) (o.set i ob ++ [tb]) := by
  refine ⟨p.inv.mono fun x => ?_, ?_⟩
  · have h1 := count_set l i s0 .free x e
    have h2 := count_set l i s0 s x e
    rw [slotsRefs_append, slotsRefs_one]
    simp only [List.count_append, Slot.refs, List.count_nil] at h1 h2 ⊢; omega
  · have := (g.keep p.keep).set i r
    rw [List.set_set, List.set_set] at this
    exact this.append r'

theorem Good.put_append2 {h h'} {l : List Slot} {o : List Obj} {s ob t tb u ub} {i : Nat} {s0 : Slot} (e : l[i]? = some s0) (g : RepAll h (l.set i .free) (o.set i .free))
    (p : Post (slotsRefs (l.set i .free)) h h' ((t.refs ++ u.refs) ++ s.refs)) (r : RepSlot h' s ob) (r' : RepSlot h' t tb) (r'' : RepSlot h' u ub) :
    Good h' (l.set i s ++ [t] ++ [u]) (o.set i ob ++ [tb] ++ [ub]) := by
  refine ⟨p.inv.mono fun x => ?_, ?_⟩
  · have h1 := count_set l i s0 .free x e
    have h2 := count_set l i s0 s x e
    rw [slotsRefs_append, slotsRefs_append, slotsRefs_one, slotsRefs_one]
    simp only [List.count_append, Slot.refs, List.count_nil] at h1 h2 ⊢; omega
  · have := (g.keep p.keep).set i r
    rw [List.set_set, List.set_set] at this
    exact (this.append r').append r''

theorem next_ok {h l o} (g : Good h l o) (n i : Nat) (hn : need o ≤ n) : StepOK (nextOf n l i) h (pnextOf o i) := by
  unfold nextOf pnextOf
  rcases slot_cases g i with ⟨e1, e2⟩ | ⟨s, ob, e1, e2, hr⟩
  · rw [e1, e2]; exact ok_bad g
  · rw [e1, e2]
    have hs := size_le e2
    unfold need at hn
    obtain ⟨i1, r1⟩ := g.take e1
    cases s <;> cases ob <;> simp only [RepSlot] at hr <;> try exact ok_bad g
    · rename_i s m
      simp only [Obj.size] at hs
      obtain ⟨x, s', h', e, p, re, rs⟩ := kvNext_spec n m s _ h (by omega) i1 hr
      unfold StepOK
      dsimp only
      rw [run_bind e]
      try dsimp only
      cases hx : m.next0.1 with
      | none =>
        rw [hx] at re
        cases x with
        | some q => exact re.elim
        | none => exact ⟨_, h', rfl, Good.put (s := .kv s') (ob := .kv _) e1 r1 p rs⟩
      | some q =>
        rw [hx] at re
        cases x with
        | none => exact re.elim
        | some y =>
          obtain ⟨k, v⟩ := y
          obtain ⟨kb, vb⟩ := q
          obtain ⟨ra, rb⟩ := re
          refine ⟨_, h', ?_, Good.put_append2 (s := .kv s') (ob := .kv _) (t := .key k) (u := .value v) (tb := .key kb) (ub := .value vb) e1 r1 p rs ra rb⟩
          dsimp only
          rw [run_bind (readBlob_spec ra), run_bind (slice_spec rb)]; rfl
    · rename_i d s d' m
      obtain ⟨rfl, hr⟩ := hr
      simp only [Obj.size] at hs
      obtain ⟨x, s', h', e, p, re, rs⟩ := nextGroup_spec d n m s _ h (by omega) i1 hr
      unfold StepOK
      dsimp only
      rw [run_bind e]
      try dsimp only
      cases hx : (groupNext0 (fun p _ => d p) m).1 with
      | none =>
        rw [hx] at re
        cases x with
        | some q => exact re.elim
        | none => exact ⟨_, h', rfl, Good.put (s := .group d s') (ob := .group d _) e1 r1 p ⟨rfl, rs⟩⟩
      | some q =>
        rw [hx] at re
        cases x with
        | none => exact re.elim
        | some y => exact ⟨_, h', rfl, Good.put_append (s := .group d s') (ob := .group d _) (t := .tree y) (tb := .tree q) e1 r1 p ⟨rfl, rs⟩ re⟩
    · rename_i s m
      simp only [Obj.size] at hs
      obtain ⟨x, s', h', e, p, re, rs⟩ := valNext_spec n m s _ h (by omega) i1 hr
      unfold StepOK
      dsimp only
      rw [run_bind e]
      try dsimp only
      cases hx : (valNext0 m).1 with
      | none =>
        rw [hx] at re
        cases x with
        | some q => exact re.elim
        | none => exact ⟨_, h', rfl, Good.put (s := .vals s') (ob := .vals _) e1 r1 p rs⟩
      | some q =>
        rw [hx] at re
        cases x with
        | none => exact re.elim
        | some y =>
          refine ⟨_, h', ?_, Good.put_append (s := .vals s') (ob := .vals _) (t := .value y) (tb := .value q) e1 r1 p rs re⟩
          dsimp only
          rw [run_bind (slice_spec re)]; rfl

theorem IsTree.size_le {o : List Obj} {i : Nat} {m : Node} (e : IsTree o i m) : m.nodes ≤ (o.map Obj.size).sum := by
  obtain ⟨ob, e1, e2⟩ := e
  have := Heap.size_le e1
  cases ob <;> simp only [Obj.reads, reduceCtorEq, Option.some.injEq] at e2
  all_goals (subst e2; exact this)

theorem need1 {o : List Obj} {n i : Nat} {m : Node} (hn : need o ≤ n) (e : IsTree o i m) : m.nodes + 1 ≤ n := by
  have := e.size_le; unfold need at hn; omega

theorem need2 {o : List Obj} {n i j : Nat} {m k : Node} (hn : need o ≤ n) (e : IsTree o i m) (e' : IsTree o j k) : m.nodes + k.nodes ≤ n := by
  have := e.size_le; have := e'.size_le; unfold need at hn; omega

theorem bool_ok {h l o} {f : H Bool} {b : Bool} (g : Good h l o) (hf : ∃ h', f h = some (b, h') ∧ Inv h' (slotsRefs l) ∧ Keep (slotsRefs l) h h') :
    StepOK (do return (.bool (← f), l)) h (.bool b, o) := by
  obtain ⟨h', e, i, k⟩ := hf
  exact ⟨l, h', by rw [run_bind e]; rfl, g.keep i k⟩

/-- One call in memory gives what the call on plain values gives. -/
theorem step_ok {h l o n} (op : Op) (g : Good h l o) (hn : need o ≤ n) : StepOK (step n l op) h (pstep o op) := by
  cases op with
  | empty => exact ⟨_, h, rfl, g.append (s := .tree Raw.empty) ⟨g.1.mono (fun r => by simp [Slot.refs, Raw.empty, Raw.refs, Fld.empty, Fld.none, Fld.refs, Word.refs, zeros]), Keep.refl _ _⟩ (rep_empty h)⟩
  | leaf v => exact newTree_ok g (leaf_spec v g.1)
  | single k v => exact newTree_ok g (single_spec k v g.1)
  | clone i => exact clone_ok g n i
  | drop i => exact drop_ok g n i
  | insert i k v => exact change_ok g fun m e => insert_spec n m k v (need1 hn e)
  | remove i k => exact change_ok g fun m e => remove_key_spec n m k (need1 hn e)
  | removePrefix i p => exact change_ok g fun m e => removePrefix_spec n m p (need1 hn e)
  | outerCombineWith i j f => exact changeWith_ok g fun m k e e' => outer_spec (setFn_spec f) n m k (need2 hn e e')
  | innerCombineWith i j f => exact changeWith_ok g fun m k e e' => inner_spec (setFn_spec f) n m k (need2 hn e e')
  | leftCombineWith i j f => exact changeWith_ok g fun m k e e' => left_spec (setFn_spec f) n m k (need2 hn e e')
  | retainPrefixWith i j f => exact changeWith_ok g fun m k e e' => retain_spec n m k (need2 hn e e')
  | removePrefixWith i j f => exact changeWith_ok g fun m k e e' => remove_spec n m k (need2 hn e e')
  | outerCombine i j f => exact onTrees_ok g fun x m y k e e' b b' => newTree_ok g (outerNew_spec f n m k (need2 hn e e') _ h x y g.1 b b')
  | innerCombine i j f => exact onTrees_ok g fun x m y k e e' b b' => newTree_ok g (innerNew_spec f n m k (need2 hn e e') _ h x y g.1 b b')
  | leftCombine i j f => exact onTrees_ok g fun x m y k e e' b b' => newTree_ok g (leftNew_spec f n m k (need2 hn e e') _ h x y g.1 b b')
  | innerCombinePred i j f => exact onTrees_ok g fun x m y k e e' b b' => bool_ok g (innerPred_spec f n m k (need2 hn e e') _ h x y g.1 b b')
  | leftCombinePred i j f => exact onTrees_ok g fun x m y k e e' b b' => bool_ok g (leftPred_spec f n m k (need2 hn e e') _ h x y g.1 b b')
  | filterPrefix i p s => exact onTree_ok g fun x m e _ b => newTree_ok g (filterPrefix_spec p s (Nat.le_of_succ_le (need1 hn e)) g.1 b)
  | detached i => exact onTree_ok g fun x m e _ b => newTree_ok g (detached_spec n m (Nat.le_of_succ_le (need1 hn e)) _ h x g.1 b)
  | get i k => exact onTree_ok g fun x m e _ b => newValue_ok g (get_spec k (Nat.le_of_succ_le (need1 hn e)) g.1 b)
  | containsKey i k => exact onTree_ok g fun x m e _ b => bool_ok g ⟨h, containsKey_spec k (Nat.le_of_succ_le (need1 hn e)) b, g.1, Keep.refl _ _⟩
  | hasPrefix i p => exact onTree_ok g fun x m e _ b => bool_ok g ⟨h, hasPrefix_spec p (Nat.le_of_succ_le (need1 hn e)) b, g.1, Keep.refl _ _⟩
  | firstValue i => exact onTree_ok g fun x m e _ b => newValue_ok g (firstValue_spec n m x _ h (Nat.le_of_succ_le (need1 hn e)) g.1 b)
  | lastValue i => exact onTree_ok g fun x m e _ b => newValue_ok g (lastValue_spec n m x _ h (Nat.le_of_succ_le (need1 hn e)) g.1 b)
  | firstEntry i p => exact onTree_ok g fun x m e _ b => newEntry_ok g (firstEntry_spec n m x p _ h (Nat.le_of_succ_le (need1 hn e)) g.1 b)
  | lastEntry i p => exact onTree_ok g fun x m e _ b => newEntry_ok g (lastEntry_spec n m x p _ h (Nat.le_of_succ_le (need1 hn e)) g.1 b)
  | rootValue i =>
    refine onTree_ok g fun x m e _ b => newValue_ok g ?_
    obtain ⟨o, h', e, p, r, _⟩ := ownedValue_spec g.1 b.val
    exact ⟨o, h', e, p, r⟩
  | isEmpty i => exact onTree_ok g fun x m e r b => by rw [r.isEmpty]; exact ⟨l, h, rfl, g⟩
  | isLeaf i => exact onTree_ok g fun x m e r b => by rw [r.isLeaf]; exact ⟨l, h, rfl, g⟩
  | eq i j => exact onTrees_ok g fun x m y k e e' b b' => bool_ok g ⟨h, nodeEq_spec n m k (Nat.le_of_succ_le (need1 hn e)) h x y b.1 b'.1, g.1, Keep.refl _ _⟩
  | iter i =>
    refine onTree_ok g fun x m e _ b => ?_
    obtain ⟨s, h', e, p, r⟩ := iter_spec g.1 b
    exact ⟨_, h', by rw [run_bind e]; rfl, g.append (s := .kv s) p r⟩
  | scanPrefix i p =>
    refine onTree_ok g fun x m e _ b => ?_
    obtain ⟨s, h', e, p, r⟩ := scanPrefix_spec p (Nat.le_of_succ_le (need1 hn e)) g.1 b
    exact ⟨_, h', by rw [run_bind e]; rfl, g.append (s := .kv s) p r⟩
  | values i =>
    refine onTree_ok g fun x m e _ b => ?_
    obtain ⟨s, h', e, p, r⟩ := values_spec g.1 b
    exact ⟨_, h', by rw [run_bind e]; rfl, g.append (s := .vals s) p r⟩
  | groupBy i d =>
    refine onTree_ok g fun x m e _ b => ?_
    obtain ⟨s, h', e, p, r⟩ := iter_spec g.1 b
    exact ⟨_, h', by rw [run_bind e]; rfl, g.append (s := .group d s) p ⟨rfl, r⟩⟩
  | next i => exact next_ok g n i hn
  | read i => exact read_ok g i

/-- The number of steps a session can ask for in one call. -/
def needAll : List Obj → List Op → Nat
  | o, [] => need o
  | o, op :: ops => need o + needAll (pstep o op).2 ops

/-- A session in memory gives what the session on plain values gives. -/
theorem run_ok : ∀ (ops : List Op) (h : Mem) (l : List Slot) (o : List Obj) (n : Nat), Good h l o → needAll o ops ≤ n →
    ∃ l' h', run n l ops h = some (((prun o ops).1, l'), h') ∧ Good h' l' (prun o ops).2
  | [], h, l, o, n, g, _ => ⟨l, h, rfl, g⟩
  | op :: ops, h, l, o, n, g, hn => by
    unfold needAll at hn
    obtain ⟨l1, h1, e1, g1⟩ := step_ok op g (n := n) (by omega)
    obtain ⟨l2, h2, e2, g2⟩ := run_ok ops h1 l1 (pstep o op).2 n g1 (by omega)
    exact ⟨l2, h2, by rw [run, run_bind e1]; dsimp only; rw [run_bind e2]; rfl, g2⟩

/-! ### One thread -/

namespace Cells

theorem heapRefs_mem {h : Heap} {r : Ref} (hr : r ∈ heapRefs h) : ∃ a ns, cK h a = some ns ∧ r ∈ refsL ns := by
  induction h with
  | nil => simp [heapRefs] at hr
  | cons o h ih =>
    simp only [heapRefs, List.mem_append] at hr
    rcases hr with hr | hr
    · cases o with
      | none => simp [orefs] at hr
      | some c =>
        cases c with
        | blob n d => simp [orefs] at hr
        | kids n ns => exact ⟨0, ns, by simp [cK], hr⟩
    · obtain ⟨a, ns, h1, h2⟩ := ih hr
      exact ⟨a + 1, ns, by simpa [cK] using h1, h2⟩

theorem lt_of_content {h : Heap} {r : Ref} (hc : content h r ≠ none) : r.addr < h.length := by
  rcases Nat.lt_or_ge r.addr h.length with h1 | h1
  · exact h1
  · have h2 : h[r.addr]? = none := List.getElem?_eq_none h1
    exfalso; apply hc
    cases r <;> simp only [Ref.addr] at h2 <;> simp [content, cB, cK, h2]

/-- What is in memory, other than empty arrays of children, can be reached from what the program holds. -/
theorem Inv.reach {h R} (hi : Inv h R) : ∀ (n : Nat) (r : Ref), h.length ≤ r.addr + n → content h r ≠ none → content h r ≠ some (.inr []) → Reach h R r
  | 0, r, hn, hc, _ => absurd (lt_of_content hc) (by omega)
  | n + 1, r, hn, hc, he => by
    have h1 := hi.pos r hc
    have h2 := hi.eq r he
    rcases Nat.eq_zero_or_pos (R.count r) with h3 | h3
    · obtain ⟨a, ns, h4, h5⟩ := heapRefs_mem (List.count_pos_iff.1 (by omega : 0 < (heapRefs h).count r))
      have h6 := hi.ord a ns r h4 h5
      refine .step (hi.reach n (.kids a) (by simp only [Ref.addr] at *; omega) (by simp [content, h4]) ?_) h4 h5
      simp only [content, h4, Option.map_some, ne_eq, Option.some.injEq, Sum.inr.injEq]
      intro h7; subst h7; simp at h5
    · exact .root (List.count_pos_iff.1 h3)

end Cells

/-- Nothing in memory, no other threads. -/
def Mem.init : Mem := ⟨[], [], [], [], fun _ => id⟩

theorem valid_id : Valid id := fun h T R hi => ⟨hi, Cells.Keep.refl _ _⟩

theorem good_init : Good Mem.init [] [] :=
  ⟨⟨⟨fun r => by simp [Mem.init, Mem.roots, loanRefs, heapRefs, cnt, ocnt], fun r _ => by cases r <;> simp [Mem.init, Mem.roots, loanRefs, heapRefs, cnt, ocnt],
      fun a ns r h => by simp [Mem.init, Cells.cK] at h, fun r h => by cases r <;> simp [Mem.init, Cells.content, Cells.cB, Cells.cK] at h⟩,
    fun r => by simp [Mem.init, slotsRefs], fun r _ => by simp [Mem.init, slotsRefs], fun n => valid_id⟩, rfl, fun i s ob e => by simp at e⟩

/-- No other threads. -/
def Mem.Alone (m : Mem) : Prop := m.others = [] ∧ m.lent = [] ∧ ∀ n, m.env n = id

theorem change_alone {x : Act} {m b m'} (ha : m.Alone) (e : x.change m = some (b, m')) : x.exec m.cells = some (b, m'.cells) ∧ m'.Alone := by
  have h1 : m.moved = m := by
    obtain ⟨h, o, lt, t, env⟩ := m
    obtain ⟨h2, _, h3⟩ := ha
    have h4 : env = fun _ => id := funext h3
    subst h4; rfl
  unfold Act.change at e
  rw [h1] at e
  split at e
  · cases h2 : x.exec m.cells with
    | none => rw [h2] at e; cases e
    | some q => obtain ⟨c, h⟩ := q; rw [h2] at e; cases e; exact ⟨rfl, ha⟩
  · cases e

theorem act_alone {x : Act} {m b m'} (ha : m.Alone) (e : x.run m = some (b, m')) : x.exec m.cells = some (b, m'.cells) ∧ m'.Alone := by
  cases x
  case readBlob a =>
    have e : (cB m a).map (fun d => (d, m)) = some (b, m') := e
    obtain ⟨d, h1, h2⟩ := Option.map_eq_some_iff.1 e
    cases h2
    refine ⟨?_, ha⟩
    have h3 := (cB_some h1).2
    unfold Cells.cB at h3
    simp only [Act.exec]
    split at h3
    · rename_i e1; cases h3; rw [e1]
    · cases h3
  case readKids a =>
    have e : (cK m a).map (fun d => (d, m)) = some (b, m') := e
    obtain ⟨d, h1, h2⟩ := Option.map_eq_some_iff.1 e
    cases h2
    refine ⟨?_, ha⟩
    have h3 := (cK_some h1).2
    unfold Cells.cK at h3
    simp only [Act.exec]
    split at h3
    · rename_i e1; cases h3; rw [e1]
    · cases h3
  all_goals exact change_alone ha e

/-- Without other threads a computation does what it does step by step. -/
theorem run_alone {α : Type} {x : H α} {m : Mem} {a : α} {m' : Mem} (ha : m.Alone) (e : x.run m = some (a, m')) : x.exec m.cells = some (a, m'.cells) ∧ m'.Alone := by
  induction x generalizing m with
  | done b => simp only [H.run] at e; cases e; exact ⟨rfl, ha⟩
  | stop => simp only [H.run] at e; cases e
  | act y k ih =>
    simp only [H.run] at e
    cases h : y.run m with
    | none => rw [h] at e; cases e
    | some q =>
      obtain ⟨b, m1⟩ := q
      rw [h] at e
      obtain ⟨h1, h2⟩ := act_alone ha h
      obtain ⟨h3, h4⟩ := ih b h2 e
      exact ⟨by simp only [H.exec]; rw [h1]; exact h3, h4⟩

theorem Inv.alone {m R} (hi : Inv m R) (ha : m.others = []) (hl : m.lent = []) : Cells.Inv m.cells R := by
  have hb := hi.base
  simp only [Mem.roots, ha, hl, loanRefs, List.flatMap_nil, List.append_nil] at hb
  exact ⟨fun r => by have := hb.le r; have := hi.le r; omega, fun r hr => by rw [hi.eq r hr]; exact hb.eq r hr, hb.ord, hb.pos⟩

/-- A session without other threads gives what the session on plain values gives. -/
theorem exec_ok (ops : List Op) (n : Nat) (hn : needAll [] ops ≤ n) : ∃ l h, (run n [] ops).exec [] = some (((prun [] ops).1, l), h) ∧
    Cells.Inv h (slotsRefs l) ∧ l.length = (prun [] ops).2.length := by
  obtain ⟨l, m, e, g⟩ := run_ok ops Mem.init [] [] n good_init hn
  obtain ⟨h1, h2⟩ := run_alone ⟨rfl, rfl, fun _ => rfl⟩ e
  exact ⟨l, m.cells, h1, g.1.alone h2.1 h2.2.1, g.2.1⟩

end Radix.Heap
