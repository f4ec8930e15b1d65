import Verif.Heap.AttSession
import Verif.Proofs.AttachedIter
import Verif.Proofs.AttachedNew
import Verif.Proofs.HeapSession

/-
Sessions with a store: what happens in memory is what happens on plain values.
-/

set_option linter.unusedVariables false

namespace Radix.Heap.Att

variable {σ τ ε : Type}

/-! ### Slots -/

/-- The references a slot holds. -/
def Slot.refs : Slot → List Heap.Ref
  | .tree _ x => x.refs
  | .value _ f => f.refs
  | .key a => [.blob a]
  | .kv _ s => s.refs
  | .group _ s => s.refs
  | .vals _ s => aitsRefs s
  | .free => []

/-- The references all slots hold. -/
def slotsRefs (l : List Slot) : List Heap.Ref := l.flatMap Slot.refs

/-- A slot in memory holds the plain value. -/
def RepSlot (h : Mem) : Slot → Obj → Prop
  | .tree a x, .tree b m => a = b ∧ RepS h x m
  | .value a f, .value b d => a = b ∧ RepBV h f d
  | .key a, .key d => cB h a = some d
  | .kv a s, .kv b m => a = b ∧ RepAKV h s m
  | .group a s, .group b m => a = b ∧ RepAKV h s m
  | .vals a s, .vals b m => a = b ∧ RepAs h s m
  | .free, .free => True
  | _, _ => False

/-- All slots hold the plain values. -/
def RepAll (h : Mem) (l : List Slot) (o : List Obj) : Prop :=
  l.length = o.length ∧ ∀ (i : Nat) (s : Slot) (ob : Obj), l[i]? = some s → o[i]? = some ob → RepSlot h s ob

/-- A good state: the counts are right and the slots hold the plain values. -/
def Good (h : Mem) (l : List Slot) (o : List Obj) : Prop := Inv h (slotsRefs l) ∧ RepAll h l o

theorem slotsRefs_append (l k : List Slot) : slotsRefs (l ++ k) = slotsRefs l ++ slotsRefs k := by simp [slotsRefs]

theorem slotsRefs_one (s : Slot) : slotsRefs [s] = s.refs := by simp [slotsRefs]

theorem mem_slotsRefs {l : List Slot} {i : Nat} {s : Slot} (e : l[i]? = some s) {r} (hr : r ∈ s.refs) : r ∈ slotsRefs l :=
  List.mem_flatMap.2 ⟨s, List.mem_of_getElem? e, hr⟩

theorem count_set : ∀ (l : List Slot) (i : Nat) (s t : Slot) (r : Heap.Ref), l[i]? = some s →
    (slotsRefs (l.set i t)).count r + s.refs.count r = (slotsRefs l).count r + t.refs.count r
  | [], i, s, t, r, e => by simp at e
  | x :: l, 0, s, t, r, e => by
    simp only [List.getElem?_cons_zero, Option.some.injEq] at e; subst e
    simp only [List.set_cons_zero, slotsRefs, List.flatMap_cons, List.count_append]; omega
  | x :: l, i + 1, s, t, r, e => by
    simp only [List.getElem?_cons_succ] at e
    have := count_set l i s t r e
    simp only [slotsRefs] at this
    simp only [List.set_cons_succ, slotsRefs, List.flatMap_cons, List.count_append]; omega

theorem RepSlot.keep {R h h' s ob} (hk : Keep R h h') (hr : ∀ r ∈ s.refs, Reach h R r) (h1 : RepSlot h s ob) : RepSlot h' s ob := by
  cases s <;> cases ob <;> simp only [RepSlot] at h1 ⊢
  · exact ⟨h1.1, RepS.keep hk hr h1.2⟩
  · exact ⟨h1.1, RepBV.keep hk hr h1.2⟩
  · exact content_cB (hk _ (hr _ (by simp [Slot.refs]))) h1
  · exact ⟨h1.1, RepAKV.keep hk hr h1.2⟩
  · exact ⟨h1.1, RepAKV.keep hk hr h1.2⟩
  · exact ⟨h1.1, RepAs.keep hk hr h1.2⟩

theorem RepAll.keep {h h' l o} (h1 : RepAll h l o) (hk : Keep (slotsRefs l) h h') : RepAll h' l o :=
  ⟨h1.1, fun i s ob e1 e2 => (h1.2 i s ob e1 e2).keep hk fun r hr => .root (mem_slotsRefs e1 hr)⟩

theorem RepAll.append {h l o s ob} (h1 : RepAll h l o) (h2 : RepSlot h s ob) : RepAll h (l ++ [s]) (o ++ [ob]) := by
  refine ⟨by simp [h1.1], ?_⟩
  intro i s' ob' e1 e2
  by_cases hi : i < l.length
  · rw [List.getElem?_append_left hi] at e1
    rw [List.getElem?_append_left (by rw [← h1.1]; exact hi)] at e2
    exact h1.2 i s' ob' e1 e2
  · rw [List.getElem?_append_right (by omega)] at e1
    rw [List.getElem?_append_right (by rw [← h1.1]; omega)] at e2
    rw [← h1.1] at e2
    cases hj : i - l.length with
    | zero => rw [hj] at e1 e2; simp at e1 e2; subst e1; subst e2; exact h2
    | succ n => rw [hj] at e1; simp at e1

theorem RepAll.set {h l o s ob} (i : Nat) (h1 : RepAll h l o) (h2 : RepSlot h s ob) : RepAll h (l.set i s) (o.set i ob) := by
  refine ⟨by simp [h1.1], ?_⟩
  intro j s' ob' e1 e2
  by_cases hj : i = j
  · subst hj
    rw [List.getElem?_set] at e1 e2
    simp only [if_true] at e1 e2
    split at e1
    · split at e2
      · cases e1; cases e2; exact h2
      · cases e2
    · cases e1
  · rw [List.getElem?_set_ne hj] at e1 e2
    exact h1.2 j s' ob' e1 e2

/-- Appending a new thing. -/
theorem Good.append {h h' l o s ob} (g : Good h l o) (p : Post (slotsRefs l) h h' s.refs) (r : RepSlot h' s ob) : Good h' (l ++ [s]) (o ++ [ob]) :=
  ⟨p.inv.mono (fun x => by rw [slotsRefs_append, slotsRefs_one]; simp only [List.count_append]; omega), (g.2.keep p.keep).append r⟩

theorem Good.keep {h h' l o} (g : Good h l o) (i : Inv h' (slotsRefs l)) (k : Keep (slotsRefs l) h h') : Good h' l o := ⟨i, g.2.keep k⟩

/-- Taking a thing out of its slot. -/
theorem Good.take {h l o} {i : Nat} {s : Slot} (g : Good h l o) (e : l[i]? = some s) :
    Inv h (s.refs ++ slotsRefs (l.set i .free)) ∧ RepAll h (l.set i .free) (o.set i .free) := by
  refine ⟨g.1.mono fun r => ?_, g.2.set i trivial⟩
  have := count_set l i s .free r e
  simp only [List.count_append, Slot.refs, List.count_nil] at this ⊢; omega

/-- Putting a thing back. -/
theorem Good.put {h h'} {l : List Slot} {o : List Obj} {s ob} {i : Nat} {s0 : Slot} (e : l[i]? = some s0) (g : RepAll h (l.set i .free) (o.set i .free))
    (p : Post (slotsRefs (l.set i .free)) h h' s.refs) (r : RepSlot h' s ob) : Good h' (l.set i s) (o.set i ob) := by
  refine ⟨p.inv.mono fun x => ?_, ?_⟩
  · have h1 := count_set l i s0 .free x e
    have h2 := count_set l i s0 s x e
    simp only [List.count_append, Slot.refs, List.count_nil] at h1 h2 ⊢; omega
  · have := (g.keep p.keep).set i r
    rwa [List.set_set, List.set_set] at this

theorem slot_cases {h l o} (g : Good h l o) (i : Nat) : (l[i]? = none ∧ o[i]? = none) ∨ ∃ s ob, l[i]? = some s ∧ o[i]? = some ob ∧ RepSlot h s ob := by
  cases e1 : l[i]? with
  | none => exact .inl ⟨rfl, by rw [List.getElem?_eq_none_iff] at e1 ⊢; rw [← g.2.1]; exact e1⟩
  | some s =>
    cases e2 : o[i]? with
    | none => rw [List.getElem?_eq_none_iff, ← g.2.1, ← List.getElem?_eq_none_iff, e1] at e2; cases e2
    | some ob => exact .inr ⟨s, ob, rfl, rfl, g.2.2 i s ob e1 e2⟩

/-! ### Calls -/

/-- If the call on plain values has a result, the call in memory gives the same. -/
def StepOK (f : H (Obs ε × World σ)) (h : Mem) (p : Option (Obs ε × PWorld σ)) : Prop :=
  ∀ o st ob, p = some (o, st, ob) → ∃ l' h', f h = some ((o, st, l'), h') ∧ Good h' l' ob

theorem StepOK.none {f : H (Obs ε × World σ)} {h} : StepOK f h none := fun _ _ _ e => by cases e

theorem StepOK.intro {f : H (Obs ε × World σ)} {h o st ob l' h'} (e : f h = some ((o, st, l'), h')) (g : Good h' l' ob) : StepOK f h (some (o, st, ob)) := by
  intro o1 st1 ob1 e1; cases e1; exact ⟨l', h', e, g⟩

theorem ok_bad {h st l o} (g : Good h l o) : StepOK (σ := σ) (ε := ε) (return (.bad, st, l)) h (some (.bad, st, o)) := .intro rfl g

theorem onTree_ok' {h st l o} {i i0 : Nat} {f : Bool → Raw → H (Obs ε × World σ)} {p : Bool → SNode → Option (Obs ε × PWorld σ)} (g : Good h l o) (hi : i0 ≠ i)
    (hf : ∀ a x m, l[i]? = some (.tree a x) → RepS h x m → BorS (slotsRefs (l.set i0 .free)) h x m → StepOK (f a x) h (p a m)) :
    StepOK (onTree (st, l) i f) h (ponTree (st, o) i p) := by
  unfold onTree ponTree
  dsimp only
  rcases slot_cases g i with ⟨e1, e2⟩ | ⟨s, ob, e1, e2, hr⟩
  · rw [e1, e2]; exact ok_bad g
  · rw [e1, e2]
    have e3 : (l.set i0 .free)[i]? = some s := by rw [List.getElem?_set_ne hi]; exact e1
    cases s <;> cases ob <;> simp only [RepSlot] at hr <;> try exact ok_bad g
    obtain ⟨rfl, hr⟩ := hr
    exact hf _ _ _ e1 hr ⟨hr, fun r hx => .root (mem_slotsRefs e3 hx)⟩

theorem onTree_ok {h st l o} {i : Nat} {f : Bool → Raw → H (Obs ε × World σ)} {p : Bool → SNode → Option (Obs ε × PWorld σ)} (g : Good h l o)
    (hf : ∀ a x m, l[i]? = some (.tree a x) → RepS h x m → BorS (slotsRefs l) h x m → StepOK (f a x) h (p a m)) :
    StepOK (onTree (st, l) i f) h (ponTree (st, o) i p) := by
  by_cases hl : i < l.length
  · refine onTree_ok' (i0 := l.length) g (by omega) ?_
    rw [List.set_eq_of_length_le (Nat.le_refl _)]
    exact hf
  · unfold onTree ponTree
    dsimp only
    rw [List.getElem?_eq_none (by omega), List.getElem?_eq_none (by rw [← g.2.1]; omega)]
    exact ok_bad g

theorem changed_ok {h st l o} {i : Nat} {a : Bool} {x : Raw} {f : H (Except ε Unit × Raw)} {p : Res ε Unit × SNode} (g : Good h l o) (e1 : l[i]? = some (.tree a x))
    (hf : SimN (slotsRefs (l.set i .free)) h f p) : StepOK (do let r ← f; return changed (st, l) i a r) h (pchanged (σ := σ) (st, o) i a p) := by
  obtain ⟨i1, r1⟩ := g.take e1
  obtain ⟨v, m⟩ := p
  cases v with
  | ok u =>
    obtain ⟨y, h', e, p', r'⟩ := hf
    exact .intro (by rw [run_bind e]; rfl) (Good.put (s := .tree a y) (ob := .tree a m) e1 r1 p' ⟨rfl, r'⟩)
  | err er =>
    obtain ⟨y, h', e, p', r'⟩ := hf
    exact .intro (by rw [run_bind e]; rfl) (Good.put (s := .tree a y) (ob := .tree a m) e1 r1 p' ⟨rfl, r'⟩)
  | panic => exact .none
  | deep => exact .none

theorem change_ok {h st l o} {i : Nat} {f : Bool → Raw → H (Except ε Unit × Raw)} {p : Bool → SNode → Res ε Unit × SNode} (g : Good h l o)
    (hf : ∀ a R x m, Inv h (x.refs ++ R) → RepS h x m → SimN R h (f a x) (p a m)) : StepOK (change (σ := σ) (st, l) i f) h (pchange (st, o) i p) := by
  refine onTree_ok g ?_
  intro a x m e1 hr _
  exact changed_ok g e1 (hf a _ x m (g.take e1).1 hr)

theorem changeWith_ok {h st l o} {i j : Nat} {ok : Bool → Bool → Bool} {f : Bool → Bool → Raw → HRef → H (Except ε Unit × Raw)}
    {p : Bool → Bool → SNode → Radix.Ref → Res ε Unit × SNode} (g : Good h l o) (hf : ∀ a b, ok a b = true → CombS (f a b) (p a b)) :
    StepOK (changeWith (σ := σ) (st, l) i j ok f) h (pchangeWith (st, o) i j ok p) := by
  unfold changeWith pchangeWith
  by_cases hij : i = j
  · rw [if_pos hij, if_pos hij]; exact ok_bad g
  rw [if_neg hij, if_neg hij]
  refine onTree_ok g ?_
  intro a x m e1 hr _
  refine onTree_ok' g hij ?_
  intro b y k e2 _ hb
  cases hok : ok a b
  · rw [if_neg (by simp), if_neg (by simp)]; exact ok_bad g
  · rw [if_pos rfl, if_pos rfl]
    exact changed_ok g e1 (hf a b hok _ h x m (.owned y) (.owned k) (g.take e1).1 hr hb)

theorem newTree_ok {h st l o a} {f : H (Except ε Raw)} {v : Res ε SNode} (g : Good h l o) (hf : NewN (slotsRefs l) h f v) :
    StepOK (newTree (σ := σ) (st, l) a f) h (pnewTree (st, o) a v) := by
  unfold newTree
  cases v with
  | ok m =>
    obtain ⟨y, h', e, p, r⟩ := hf
    exact .intro (by rw [run_bind e]; rfl) (g.append (s := .tree a y) (ob := .tree a m) p ⟨rfl, r⟩)
  | err er =>
    obtain ⟨h', e, i', k'⟩ := hf
    exact .intro (by rw [run_bind e]; rfl) (g.keep i' k')
  | panic => exact .none
  | deep => exact .none

theorem newValue_ok {h st l o a} {f : H (Except ε (Option Fld))} {v : Res ε (Option BlobV)} (g : Good h l o) (hf : NewV (slotsRefs l) h f v) :
    StepOK (newValue (σ := σ) (st, l) a f) h (pnewValue (st, o) a v) := by
  unfold newValue
  cases v with
  | ok b =>
    obtain ⟨y, h', e, p, r⟩ := hf
    cases b with
    | none =>
      cases y with
      | some q => exact r.elim
      | none => exact .intro (by rw [run_bind e]; rfl) (g.append (s := .free) (ob := .free) p trivial)
    | some b =>
      cases y with
      | none => exact r.elim
      | some q => exact .intro (by rw [run_bind e]; dsimp only; rw [run_bind (blobV_spec r)]; rfl) (g.append (s := .value a q) (ob := .value a b) p ⟨rfl, r⟩)
  | err er =>
    obtain ⟨h', e, i', k'⟩ := hf
    exact .intro (by rw [run_bind e]; rfl) (g.keep i' k')
  | panic => exact .none
  | deep => exact .none

theorem newEntry_ok {h st l o a} {f : H (Except ε (Option (Bytes × Fld)))} {v : Res ε (Option (Bytes × BlobV))} (g : Good h l o) (hf : NewE (slotsRefs l) h f v) :
    StepOK (newEntry (σ := σ) (st, l) a f) h (pnewEntry (st, o) a v) := by
  unfold newEntry
  cases v with
  | ok b =>
    obtain ⟨y, h', e, p, r⟩ := hf
    cases b with
    | none =>
      cases y with
      | some q => exact r.elim
      | none => exact .intro (by rw [run_bind e]; rfl) (g.append (s := .free) (ob := .free) p trivial)
    | some b =>
      cases y with
      | none => exact r.elim
      | some q =>
        obtain ⟨k, q⟩ := q
        obtain ⟨k', b⟩ := b
        obtain ⟨rfl, r⟩ := r
        exact .intro (by rw [run_bind e]; dsimp only; rw [run_bind (blobV_spec r)]; rfl) (g.append (s := .value a q) (ob := .value a b) p ⟨rfl, r⟩)
  | err er =>
    obtain ⟨h', e, i', k'⟩ := hf
    exact .intro (by rw [run_bind e]; rfl) (g.keep i' k')
  | panic => exact .none
  | deep => exact .none

theorem answer_ok {α : Type} {h st l o} {q : α → Obs ε} {f : H (Except ε α)} {v : Res ε α} (g : Good h l o) (hf : OutR (fun a b => a = b) h f v) :
    StepOK (answer (σ := σ) (st, l) q f) h (panswer (st, o) q v) := by
  unfold answer
  cases v with
  | ok b =>
    obtain ⟨y, e, rfl⟩ := hf
    exact .intro (by rw [run_bind e]; rfl) g
  | err er => exact .intro (by rw [run_bind (show f h = some (.error er, h) from hf)]; rfl) g
  | panic => exact .none
  | deep => exact .none

theorem ask_ok {α : Type} {h st l o} {q : α → Obs ε} {f : H (Except ε α)} {v : Res ε α} (g : Good h l o) (hf : Ask (slotsRefs l) h f v) :
    StepOK (answer (σ := σ) (st, l) q f) h (panswer (st, o) q v) := by
  unfold answer
  cases v with
  | ok b =>
    obtain ⟨y, h', e, p, rfl⟩ := hf
    exact .intro (by rw [run_bind e]; rfl) (g.keep (by simpa using p.inv) p.keep)
  | err er =>
    obtain ⟨h', e, i', k'⟩ := hf
    exact .intro (by rw [run_bind e]; rfl) (g.keep i' k')
  | panic => exact .none
  | deep => exact .none

theorem onTrees_ok {h st l o} {i j : Nat} {f : Bool → Bool → HRef → HRef → H (Obs ε × World σ)} {p : Bool → Bool → Radix.Ref → Radix.Ref → Option (Obs ε × PWorld σ)}
    (g : Good h l o) (hf : ∀ a b x y m k, BorR (slotsRefs l) h x m → BorR (slotsRefs l) h y k → StepOK (f a b x y) h (p a b m k)) :
    StepOK (onTrees (st, l) i j f) h (ponTrees (st, o) i j p) :=
  onTree_ok g fun a x m _ _ h1 => onTree_ok g fun b y k _ _ h2 => hf a b (.owned x) (.owned y) (.owned m) (.owned k) h1 h2

theorem attached_ok {S : BlobStore σ ε} {h st l o} (n i : Nat) (g : Good h l o) : StepOK (attachedOf S n (st, l) i) h (pattachedOf S n (st, o) i) := by
  refine onTree_ok g ?_
  intro a x m e1 hr hb
  cases a
  case true => rw [if_pos rfl, if_pos rfl]; exact ok_bad g
  rw [if_neg (by simp), if_neg (by simp)]
  by_cases hn : levels m ≤ n
  · rw [if_pos hn]
    have h1 := attach_spec (S := S) n st hn g.1 hb
    dsimp only
    generalize attachS S m st = q at h1 ⊢
    obtain ⟨v, st'⟩ := q
    cases v with
    | ok m' =>
      obtain ⟨y, h', e, p, r⟩ := h1
      exact .intro (by rw [run_bind e]; rfl) (g.append (s := .tree true y) (ob := .tree true m') p ⟨rfl, r⟩)
    | err er =>
      obtain ⟨h', e, i', k'⟩ := h1
      exact .intro (by rw [run_bind e]; rfl) (g.keep i' k')
    | panic => exact .none
    | deep => exact .none
  · rw [if_neg hn]; exact .none

theorem reattach_ok {S : BlobStore σ ε} {h st l o} (n i : Nat) (g : Good h l o) : StepOK (reattachOf S n (st, l) i) h (preattachOf S n (st, o) i) := by
  refine onTree_ok g ?_
  intro a x m e1 hr hb
  cases a
  case false => rw [if_neg (by simp), if_neg (by simp)]; exact ok_bad g
  rw [if_pos rfl, if_pos rfl]
  by_cases hn : levels m ≤ n
  · rw [if_pos hn]
    obtain ⟨i1, r1⟩ := g.take e1
    have h1 := reattach_spec (S := S) n st hn i1 hr
    dsimp only
    generalize reattachS S m st = q at h1 ⊢
    obtain ⟨⟨v, m'⟩, st'⟩ := q
    cases v with
    | ok id =>
      obtain ⟨y, h', e, p, r⟩ := h1
      exact .intro (by rw [run_bind e]; rfl) (Good.put (s := .tree true y) (ob := .tree true m') e1 r1 p ⟨rfl, r⟩)
    | err er =>
      obtain ⟨y, h', e, p, r⟩ := h1
      exact .intro (by rw [run_bind e]; rfl) (Good.put (s := .tree true y) (ob := .tree true m') e1 r1 p ⟨rfl, r⟩)
    | panic => exact .none
    | deep => exact .none
  · rw [if_neg hn]; exact .none

theorem slotDrop_spec {R h s ob} (hi : Inv h (s.refs ++ R)) (hr : RepSlot h s ob) : ∃ h', s.drop h = some ((), h') ∧ Inv h' R ∧ Keep R h h' := by
  cases s <;> cases ob <;> simp only [RepSlot] at hr
  · exact dropOne_specS hi hr.2
  · exact drop_specS hi hr.2
  · obtain ⟨h', e, i, k, _⟩ := decBlob_spec hi
    exact ⟨h', e, i, k⟩
  · exact akvDrop_spec hi hr.2
  · exact akvDrop_spec hi hr.2
  · exact dropVals_specS _ _ _ _ hi hr.2
  · exact ⟨h, rfl, hi, Keep.refl _ _⟩

theorem drop_ok {S : BlobStore σ ε} {mask h st l o} (g : Good h l o) (n i : Nat) : StepOK (step S mask n (st, l) (.drop i)) h (pstep S mask n (st, o) (.drop i)) := by
  simp only [step, pstep, dropOf]
  rcases slot_cases g i with ⟨e1, e2⟩ | ⟨s, ob, e1, e2, hr⟩
  · rw [e1, e2]; exact ok_bad g
  · rw [e1, e2]
    obtain ⟨i1, r1⟩ := g.take e1
    obtain ⟨h', e, i', k'⟩ := slotDrop_spec i1 hr
    exact .intro (by dsimp only; rw [run_bind e]; rfl) (Good.put (s := .free) (ob := .free) e1 r1 ⟨i', k'⟩ trivial)

theorem load_ok {S : BlobStore σ ε} {h st l o} (g : Good h l o) (i : Nat) : StepOK (loadOf S (st, l) i) h (ploadOf S (st, o) i) := by
  unfold loadOf ploadOf
  dsimp only
  rcases slot_cases g i with ⟨e1, e2⟩ | ⟨s, ob, e1, e2, hr⟩
  · rw [e1, e2]; exact ok_bad g
  · rw [e1, e2]
    cases s <;> cases ob <;> simp only [RepSlot] at hr <;> try exact ok_bad g
    obtain ⟨rfl, hr⟩ := hr
    exact answer_ok g (valueLoad_spec hr).outR

theorem clone_ok {h st l o} (g : Good h l o) (i : Nat) : StepOK (cloneOf (σ := σ) (ε := ε) (st, l) i) h (pcloneOf (st, o) i) := by
  unfold cloneOf pcloneOf
  dsimp only
  rcases slot_cases g i with ⟨e1, e2⟩ | ⟨s, ob, e1, e2, hr⟩
  · rw [e1, e2]; exact ok_bad g
  · rw [e1, e2]
    have hm : ∀ r ∈ s.refs, Reach h (slotsRefs l) r := fun r hx => .root (mem_slotsRefs e1 hx)
    cases s <;> cases ob <;> simp only [RepSlot] at hr <;> try exact ok_bad g
    · obtain ⟨rfl, hr⟩ := hr
      obtain ⟨h', e, p, r⟩ := rawClone_postS g.1 ⟨hr, hm⟩
      exact .intro (by dsimp only; rw [run_bind e]; rfl) (g.append (s := .tree _ _) (ob := .tree _ _) p ⟨rfl, r⟩)
    · rename_i a d
      obtain ⟨h', e, i', k'⟩ := incBlob_spec g.1 (hm (.blob a) (by simp [Slot.refs]))
      exact .intro (by dsimp only; rw [run_bind e]; rfl) (g.append (s := .key a) (ob := .key d) ⟨i', k'⟩ (content_cB (k' _ (hm (.blob a) (by simp [Slot.refs]))) hr))

theorem readKey_ok {h st l o} (g : Good h l o) (i : Nat) : StepOK (readKeyOf (σ := σ) (ε := ε) (st, l) i) h (preadKeyOf (st, o) i) := by
  unfold readKeyOf preadKeyOf
  dsimp only
  rcases slot_cases g i with ⟨e1, e2⟩ | ⟨s, ob, e1, e2, hr⟩
  · rw [e1, e2]; exact ok_bad g
  · rw [e1, e2]
    cases s <;> cases ob <;> simp only [RepSlot] at hr <;> try exact ok_bad g
    exact .intro (by dsimp only; rw [run_bind (readBlob_spec hr)]; rfl) g

theorem newIter_ok {h st l o a} {f : H (Except ε AKV)} {v : Res ε SIter} (g : Good h l o) (hf : New RepAKV AKV.refs (slotsRefs l) h f v) :
    StepOK (newIter (σ := σ) (st, l) a f) h (pnewIter (st, o) a v) := by
  unfold newIter
  cases v with
  | ok m =>
    obtain ⟨y, h', e, p, r⟩ := hf
    exact .intro (by rw [run_bind e]; rfl) (g.append (s := .kv a y) (ob := .kv a m) p ⟨rfl, r⟩)
  | err er =>
    obtain ⟨h', e, i', k'⟩ := hf
    exact .intro (by rw [run_bind e]; rfl) (g.keep i' k')
  | panic => exact .none
  | deep => exact .none

/-- Putting a thing back, where something new has been made as well. -/
theorem Good.put2 {h h'} {l : List Slot} {o : List Obj} {s ob t tb} {i : Nat} {s0 : Slot} (e : l[i]? = some s0) (g : RepAll h (l.set i .free) (o.set i .free))
    (p : Post (slotsRefs (l.set i .free)) h h' (t.refs ++ s.refs)) (r : RepSlot h' s ob) (r' : RepSlot h' t tb) : Good h' (l.set i s ++ [t]) (o.set i ob ++ [tb]) := by
  have g1 : RepAll h' (l.set i s) (o.set i ob) := by
    have := (g.keep p.keep).set i r
    rwa [List.set_set, List.set_set] at this
  refine ⟨p.inv.mono fun x => ?_, g1.append r'⟩
  have h1 := count_set l i s0 .free x e
  have h2 := count_set l i s0 s x e
  rw [slotsRefs_append, slotsRefs_one]
  simp only [List.count_append, Slot.refs, List.count_nil] at h1 h2 ⊢; omega

/-- The same with two new things. -/
theorem Good.put3 {h h'} {l : List Slot} {o : List Obj} {s ob t tb u ub} {i : Nat} {s0 : Slot} (e : l[i]? = some s0) (g : RepAll h (l.set i .free) (o.set i .free))
    (p : Post (slotsRefs (l.set i .free)) h h' ((t.refs ++ u.refs) ++ s.refs)) (r : RepSlot h' s ob) (r' : RepSlot h' t tb) (r'' : RepSlot h' u ub) :
    Good h' (l.set i s ++ [t] ++ [u]) (o.set i ob ++ [tb] ++ [ub]) := by
  have g1 : RepAll h' (l.set i s) (o.set i ob) := by
    have := (g.keep p.keep).set i r
    rwa [List.set_set, List.set_set] at this
  refine ⟨p.inv.mono fun x => ?_, (g1.append r').append r''⟩
  have h1 := count_set l i s0 .free x e
  have h2 := count_set l i s0 s x e
  rw [slotsRefs_append, slotsRefs_append, slotsRefs_one, slotsRefs_one]
  simp only [List.count_append, Slot.refs, List.count_nil] at h1 h2 ⊢; omega

theorem next_ok {S : BlobStore σ ε} {h st l o} (g : Good h l o) (n i : Nat) : StepOK (nextOf S n (st, l) i) h (pnextOf S n (st, o) i) := by
  unfold nextOf pnextOf
  dsimp only
  rcases slot_cases g i with ⟨e1, e2⟩ | ⟨s, ob, e1, e2, hr⟩
  · rw [e1, e2]; exact ok_bad g
  · rw [e1, e2]
    obtain ⟨i1, r1⟩ := g.take e1
    cases s <;> cases ob <;> simp only [RepSlot] at hr <;> try exact ok_bad g
    · rename_i a s b m
      obtain ⟨rfl, hr⟩ := hr
      have h1 := next_specS (S := (storeOf S st a).S) (st := (storeOf S st a).st) n i1 hr
      dsimp only
      generalize SIter.next (storeOf S st a).S (storeOf S st a).st n m = q at h1 ⊢
      cases q with
      | ok q =>
        obtain ⟨x, m'⟩ := q
        obtain ⟨ov, s', h', e, p, r2, r3⟩ := h1
        rcases x with _ | _ | ⟨k, v⟩
        · rcases ov with _ | _ | _
          · exact .intro (by rw [run_bind e]; rfl) (Good.put (s := .kv a s') (ob := .kv a m') e1 r1 p ⟨rfl, r3⟩)
          · exact r2.elim
          · exact r2.elim
        · rcases ov with _ | _ | _
          · exact r2.elim
          · obtain rfl := r2
            exact .intro (by rw [run_bind e]; rfl) (Good.put (s := .kv a s') (ob := .kv a m') e1 r1 p ⟨rfl, r3⟩)
          · exact r2.elim
        · rcases ov with _ | _ | ⟨k', v'⟩
          · exact r2.elim
          · exact r2.elim
          · obtain ⟨r4, r5⟩ := r2
            exact .intro (by rw [run_bind e]; dsimp only; rw [run_bind (readBlob_spec r4), run_bind (blobV_spec r5)]; rfl)
              (Good.put3 (s := .kv a s') (ob := .kv a m') (t := .key k') (tb := .key k) (u := .value a v') (ub := .value a v) e1 r1 p ⟨rfl, r3⟩ r4 ⟨rfl, r5⟩)
      | err e => exact e.elim
      | panic => exact .none
      | deep => exact .none
    · rename_i a s b m
      obtain ⟨rfl, hr⟩ := hr
      have h1 := valNext_specS (S := (storeOf S st a).S) (st := (storeOf S st a).st) n i1 hr
      dsimp only
      generalize valNextS (storeOf S st a).S (storeOf S st a).st n m = q at h1 ⊢
      cases q with
      | ok q =>
        obtain ⟨x, m'⟩ := q
        obtain ⟨ov, s', h', e, p, r2, r3⟩ := h1
        rcases x with _ | _ | v
        · rcases ov with _ | _ | _
          · exact .intro (by rw [run_bind e]; rfl) (Good.put (s := .vals a s') (ob := .vals a m') e1 r1 p ⟨rfl, r3⟩)
          · exact r2.elim
          · exact r2.elim
        · rcases ov with _ | _ | _
          · exact r2.elim
          · obtain rfl := r2
            exact .intro (by rw [run_bind e]; rfl) (Good.put (s := .vals a s') (ob := .vals a m') e1 r1 p ⟨rfl, r3⟩)
          · exact r2.elim
        · rcases ov with _ | _ | v'
          · exact r2.elim
          · exact r2.elim
          · exact .intro (by rw [run_bind e]; dsimp only; rw [run_bind (blobV_spec r2)]; rfl)
              (Good.put2 (s := .vals a s') (ob := .vals a m') (t := .value a v') (tb := .value a v) e1 r1 p ⟨rfl, r3⟩ ⟨rfl, r2⟩)
      | err e => exact e.elim
      | panic => exact .none
      | deep => exact .none

theorem nextGroup_ok {S : BlobStore σ ε} {h st l o} (g : Good h l o) (n i : Nat) (d : Bytes → Except ε Bool) :
    StepOK (nextGroupOf S n (st, l) i d) h (pnextGroupOf S n (st, o) i d) := by
  unfold nextGroupOf pnextGroupOf
  dsimp only
  rcases slot_cases g i with ⟨e1, e2⟩ | ⟨s, ob, e1, e2, hr⟩
  · rw [e1, e2]; exact ok_bad g
  · rw [e1, e2]
    obtain ⟨i1, r1⟩ := g.take e1
    cases s <;> cases ob <;> simp only [RepSlot] at hr <;> try exact ok_bad g
    rename_i a s b m
    obtain ⟨rfl, hr⟩ := hr
    have h1 := nextGroup_specS (S := (storeOf S st a).S) (st := (storeOf S st a).st) d n i1 hr
    dsimp only
    generalize groupNextS (storeOf S st a).S (descendS d) (storeOf S st a).st n m = q at h1 ⊢
    cases q with
    | ok q =>
      obtain ⟨x, m'⟩ := q
      obtain ⟨ov, s', h', e, p, r2, r3⟩ := h1
      rcases x with _ | _ | k
      · rcases ov with _ | _ | _
        · exact .intro (by rw [run_bind e]; rfl) (Good.put (s := .group a s') (ob := .group a m') e1 r1 p ⟨rfl, r3⟩)
        · exact r2.elim
        · exact r2.elim
      · rcases ov with _ | _ | _
        · exact r2.elim
        · obtain rfl := r2
          exact .intro (by rw [run_bind e]; rfl) (Good.put (s := .group a s') (ob := .group a m') e1 r1 p ⟨rfl, r3⟩)
        · exact r2.elim
      · rcases ov with _ | _ | x'
        · exact r2.elim
        · exact r2.elim
        · exact .intro (by rw [run_bind e]; rfl)
            (Good.put2 (s := .group a s') (ob := .group a m') (t := .tree a x') (tb := .tree a k) e1 r1 p ⟨rfl, r3⟩ ⟨rfl, r2⟩)
    | err e => exact e.elim
    | panic => exact .none
    | deep => exact .none

theorem conv_ok {S : BlobStore σ ε} {st : σ} {n : Nat} {a b : Bool} {c : Conv} (h : fits a b c = true) :
    ConvOk (storeOf S st b).S (storeOf S st b).st c n (convOf S st n b c) := by
  cases c
  · cases b
    · exact convOk_downcast n
    · simp [fits] at h
  · exact convOk_identity _ _ n
  · exact convOk_detach _ _ n

/-- One call in memory gives what the call on plain values gives. -/
theorem step_ok {S : BlobStore σ ε} {mask h st l o n} (op : Op σ ε) (g : Good h l o) : StepOK (step S mask n (st, l) op) h (pstep S mask n (st, o) op) := by
  cases op with
  | empty a =>
    exact .intro rfl (g.append (s := .tree a Raw.empty) (ob := .tree a SNode.empty)
      ⟨g.1.mono (fun r => by simp [Slot.refs, Raw.empty, Raw.refs, Fld.empty, Fld.none, Fld.refs, Word.refs, zeros]), Keep.refl _ _⟩ ⟨rfl, repS_empty h⟩)
  | single k v =>
    refine newTree_ok (v := .ok (.ref (.data k) (.data v) [])) g ?_
    obtain ⟨y, h', e, p, r⟩ := single_specS k v g.1
    exact ⟨y, h', by rw [run_bind e]; rfl, p, r⟩
  | load id => exact newTree_ok g (load_spec id g.1)
  | clone i =>
    exact clone_ok g i
  | drop i => exact drop_ok g n i
  | insert i k v => exact change_ok g fun a R x m hi hr => insert_specS k v hi hr
  | remove i k => exact change_ok g fun a R x m hi hr => remove_specS k hi hr
  | removePrefix i p => exact change_ok g fun a R x m hi hr => removePrefix_specS p hi hr
  | outerCombineWith i j c f => exact changeWith_ok g fun a b hf => outerCombineWith_spec (envOf S st mask a b) (conv_ok hf) (setFn_ok f) n
  | innerCombineWith i j f => exact changeWith_ok g fun a b hf => innerCombineWith_spec (envOf S st mask a b) (setFn_ok f) n
  | leftCombineWith i j f => exact changeWith_ok g fun a b hf => leftCombineWith_spec (envOf S st mask a b) (setFn_ok f) n
  | retainPrefixWith i j f => exact changeWith_ok g fun a b hf => retainPrefixWith_spec (envOf S st mask a b) f n
  | removePrefixWith i j f => exact changeWith_ok g fun a b hf => removePrefixWith_spec (envOf S st mask a b) f n
  | outerCombine i j f =>
    rw [step, pstep]
    refine onTrees_ok g ?_
    intro a b x y m k hx hy
    exact newTree_ok g (outerCombine_specS (newFn_user f) n _ h x y m k g.1 hx hy).newN
  | innerCombine i j f =>
    rw [step, pstep]
    refine onTrees_ok g ?_
    intro a b x y m k hx hy
    exact newTree_ok g (innerCombine_specS (newFn_user f) n _ h x y m k g.1 hx hy).newN
  | leftCombine i j f =>
    rw [step, pstep]
    refine onTrees_ok g ?_
    intro a b x y m k hx hy
    exact newTree_ok g (leftCombine_specS (newFn_user f) n _ h x y m k g.1 hx hy).newN
  | innerCombinePred i j f =>
    rw [step, pstep]
    refine onTrees_ok g ?_
    intro a b x y m k hx hy
    exact ask_ok g (innerCombinePred_specS (testFn_user f) n _ h x y m k g.1 hx hy)
  | leftCombinePred i j f =>
    rw [step, pstep]
    refine onTrees_ok g ?_
    intro a b x y m k hx hy
    exact ask_ok g (leftCombinePred_specS (testFn_user f) n _ h x y m k g.1 hx hy)
  | filterPrefix i p s => exact onTree_ok g fun a x m e1 hr hb => newTree_ok g (filterPrefix_specS n p s g.1 hb)
  | detached i => exact onTree_ok g fun a x m e1 hr hb => newTree_ok g (detached_spec n _ h x m g.1 hb)
  | attached i => exact attached_ok n i g
  | reattach i => exact reattach_ok n i g
  | get i k => exact onTree_ok g fun a x m e1 hr hb => newValue_ok g (get_specS n k g.1 hb)
  | containsKey i k => exact onTree_ok g fun a x m e1 hr hb => answer_ok g (containsKey_specS n k hb)
  | hasPrefix i p => exact onTree_ok g fun a x m e1 hr hb => answer_ok g (hasPrefix_specS n p hb)
  | firstValue i => exact onTree_ok g fun a x m e1 hr hb => newValue_ok g (firstValue_specS g.1 n (.owned x) (.owned m) hb)
  | lastValue i => exact onTree_ok g fun a x m e1 hr hb => newValue_ok g (lastValue_specS g.1 n (.owned x) (.owned m) hb)
  | firstEntry i p => exact onTree_ok g fun a x m e1 hr hb => newEntry_ok g (firstEntry_specS g.1 n p (.owned x) (.owned m) hb)
  | lastEntry i p => exact onTree_ok g fun a x m e1 hr hb => newEntry_ok g (lastEntry_specS g.1 n p (.owned x) (.owned m) hb)
  | rootValue i => exact onTree_ok g fun a x m e1 hr hb => newValue_ok g (newV_own (x := .owned x) (n := .owned m) g.1 hb)
  | isEmpty i => exact onTree_ok g fun a x m e1 hr hb => by rw [hr.isEmpty]; exact .intro rfl g
  | loadValue i => exact load_ok g i
  | iter i =>
    refine onTree_ok g fun a x m e1 hr hb => newIter_ok (v := .ok (iterS m)) g ?_
    obtain ⟨s, h', e, p, r⟩ := iter_specS g.1 hb
    exact ⟨s, h', by rw [run_bind e]; rfl, p, r⟩
  | scanPrefix i p => exact onTree_ok g fun a x m e1 hr hb => newIter_ok g (scanPrefix_specS n p g.1 hb)
  | values i =>
    refine onTree_ok g fun a x m e1 hr hb => ?_
    obtain ⟨s, h', e, p, r⟩ := values_specS g.1 hb
    exact .intro (by rw [run_bind e]; rfl) (g.append (s := .vals a s) (ob := .vals a _) p ⟨rfl, r⟩)
  | groupBy i =>
    refine onTree_ok g fun a x m e1 hr hb => ?_
    obtain ⟨s, h', e, p, r⟩ := iter_specS g.1 hb
    exact .intro (by rw [run_bind e]; rfl) (g.append (s := .group a s) (ob := .group a _) p ⟨rfl, r⟩)
  | next i => exact next_ok g n i
  | nextGroup i d => exact nextGroup_ok g n i d
  | readKey i => exact readKey_ok g i
  | outside q => exact .intro rfl g

/-- A session in memory gives what the session on plain values gives. -/
theorem run_ok {S : BlobStore σ ε} {mask n} : ∀ (ops : List (Op σ ε)) (h : Mem) (st : σ) (l : List Slot) (o : List Obj), Good h l o →
    ∀ os st' ob, prun S mask n (st, o) ops = some (os, st', ob) → ∃ l' h', run S mask n (st, l) ops h = some ((os, st', l'), h') ∧ Good h' l' ob
  | [], h, st, l, o, g, os, st', ob, e => by
    simp only [prun, Option.some.injEq, Prod.mk.injEq] at e
    obtain ⟨rfl, rfl, rfl⟩ := e
    exact ⟨l, h, rfl, g⟩
  | op :: ops, h, st, l, o, g, os, st', ob, e => by
    rw [prun] at e
    have h1 := step_ok (S := S) (mask := mask) (n := n) (st := st) op g
    generalize pstep S mask n (st, o) op = q at e h1
    cases q with
    | none => cases e
    | some q =>
      obtain ⟨o1, st1, ob1⟩ := q
      obtain ⟨l1, m1, e1, g1⟩ := h1 o1 st1 ob1 rfl
      dsimp only at e
      cases e2 : prun S mask n (st1, ob1) ops with
      | none => rw [e2] at e; cases e
      | some q =>
        obtain ⟨os2, st2, ob2⟩ := q
        rw [e2] at e
        simp only [Option.some.injEq, Prod.mk.injEq] at e
        obtain ⟨rfl, rfl, rfl⟩ := e
        obtain ⟨l2, m2, e3, g2⟩ := run_ok ops m1 st1 l1 ob1 g1 os2 st2 ob2 e2
        exact ⟨l2, m2, by rw [run, run_bind e1]; dsimp only; rw [run_bind e3]; rfl, g2⟩

theorem good_init : Good Mem.init [] [] := ⟨Heap.good_init.1, rfl, fun i s ob e => by simp at e⟩

/-- A session without other threads gives what the session on plain values gives. -/
theorem exec_ok {S : BlobStore σ ε} {mask n} (ops : List (Op σ ε)) (st : σ) {os st' ob} (e : prun S mask n (st, []) ops = some (os, st', ob)) :
    ∃ l h, (run S mask n (st, []) ops).exec [] = some ((os, st', l), h) ∧ Cells.Inv h (slotsRefs l) ∧ l.length = ob.length := by
  obtain ⟨l, m, e, g⟩ := run_ok ops Mem.init st [] [] good_init os st' ob e
  obtain ⟨h1, h2⟩ := run_alone ⟨rfl, rfl, fun _ => rfl⟩ e
  exact ⟨l, m.cells, h1, g.1.alone h2.1 h2.2.1, g.2.1⟩

end Radix.Heap.Att
