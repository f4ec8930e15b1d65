import Verif.Spec.AttMaps
import Verif.Proofs.CombineFuel
import Verif.Proofs.CombineS
import Verif.Proofs.ConvFuel
import Verif.Proofs.Group
import Verif.Proofs.Attached
import Verif.Proofs.Unique
import Verif.Proofs.History

/-
Sessions with a store on plain values see only what `Verif/Spec/AttMaps.lean` allows.
-/

set_option linter.unusedVariables false

namespace Radix.Kept
open Radix Node
open Radix.Heap (Choice)
open Radix.Heap.Att (Op Obs Obj NewChoice PWorld storeOf fits pstep prun ponTree ponTrees pchanged pchange pchangeWith pnewTree pnewValue pnewEntry panswer
  pattachedOf preattachOf ploadOf pcloneOf pnewIter pnextOf pnextGroupOf preadKeyOf convOf penvOf attachS reattachS setFnS predS newFnS testFnS descendS maskAb)
open Radix.Spec (Map IsEntries Selected outer inner left)
open Radix.Spec.Kept

section
variable {σ ε : Type} {S : BlobStore σ ε}

/-! ### Writing only adds -/

theorem mono_trans {L : Lawful S} {a b c : σ} (h : Mono L a b) (h' : Mono L b c) : Mono L a c := fun i d x => h' i d (h i d x)

theorem write_mono (L : Lawful S) (st : σ) (d : Bytes) : Mono L st (S.write st d).2 := fun i e h => L.write_mono (r := (S.write st d).1) rfl h

theorem _root_.Radix.Spec.Kept.Grown.trans {a b c : σ} (h : Grown S a b) (h' : Grown S b c) : Grown S a c := by
  induction h' with
  | same => exact h
  | write d _ ih => exact .write d ih

theorem _root_.Radix.Spec.Kept.Grown.mono {a b : σ} (h : Grown S a b) (L : Lawful S) : Mono L a b := by
  induction h with
  | same => exact Mono.refl L a
  | write d _ ih => exact mono_trans ih (write_mono L _ d)

theorem write_grown (st : σ) (d : Bytes) : Grown S st (S.write st d).2 := .write d .same

theorem stBind_grown {α β} {a : σ} {x : Res ε α × σ} {f : α → σ → Res ε β × σ} (h : Grown S a x.2) (hf : ∀ y st', Grown S a st' → Grown S a (f y st').2) :
    Grown S a (stBind x f).2 := by
  obtain ⟨r, s⟩ := x
  cases r <;> first | exact hf _ _ h | exact h

theorem blob_grown (n : Nat) (st : σ) (b : BlobV) : Grown S st (b.serialize S n st).2 := by
  unfold BlobV.serialize
  cases b with
  | id i => exact .same
  | data d =>
    dsimp only
    split
    · exact .same
    · have := write_grown (S := S) st d
      split <;> rename_i e <;> rw [e] at this
      · split <;> exact this
      all_goals exact this

mutual
theorem serialize_grown : ∀ (a : SNode) (st : σ), Grown S st (a.serialize S st).2
  | .arc p v l, st => by
    rw [SNode.serialize]
    refine stBind_grown (blob_grown _ _ _) fun pb s1 m1 => stBind_grown (m1.trans (blob_grown _ _ _)) fun vb s2 m2 => ?_
    split
    · exact m2
    · refine stBind_grown (m2.trans (serializeL_grown l _ _ _)) fun x s3 m3 => ?_
      obtain ⟨data, rs⟩ := x
      refine stBind_grown (m3.trans (write_grown _ _)) fun i s4 m4 => ?_
      split <;> exact m4
  | .ref p v i, st => by
    rw [SNode.serialize]
    exact stBind_grown (blob_grown _ _ _) fun pb s1 m1 => stBind_grown (m1.trans (blob_grown _ _ _)) fun vb s2 m2 => m2
theorem serializeL_grown : ∀ (l : List SNode) (d : Bytes) (n : Nat) (st : σ), Grown S st (serializeL S l d n st).2
  | [], d, n, st => by rw [serializeL]; exact .same
  | c :: cs, d, n, st => by
    rw [serializeL]
    exact stBind_grown (serialize_grown c st) fun b s m => m.trans (serializeL_grown cs _ _ _)
end

theorem attachS_grown (a : SNode) (st : σ) : Grown S st (attachS S a st).2 := by
  refine stBind_grown (serialize_grown a st) fun bs s m => ?_
  split <;> exact m

theorem tryReattach_grown (a : SNode) (st : σ) : Grown S st (tryReattach S a st).2 :=
  stBind_grown (serialize_grown a st) fun bs s m => stBind_grown (m.trans (write_grown _ _)) fun i s m => m

theorem reattachS_grown (a : SNode) (st : σ) : Grown S st (reattachS S a st).2 := by
  have := tryReattach_grown (S := S) a st
  unfold reattachS
  split <;> rename_i e <;> rw [e] at this <;> exact this

/-! ### Outcomes at any depth -/

/-- If the call returns, the result is as described; if it fails, there is a reason. -/
def Out (E : Prop) {α} (x : Res ε α) (Q : α → Prop) : Prop :=
  match x with
  | .ok a => Q a
  | .err _ => E
  | _ => True

/-- The same for calls that change something. -/
def OutP (E : Prop) {α β} (x : Res ε α × β) (Q : β → Prop) : Prop :=
  match x with
  | (.ok _, b) => Q b
  | (.err _, _) => E
  | _ => True

theorem out_of_rp {E P : Prop} {α} {x : Res ε α} {Q : α → Prop} (h : RP E P x Q) : Out E x Q := by
  cases x <;> first | exact h | trivial

theorem out_fuel {E P : Prop} {α} {f : Nat → Res ε α} {Q : α → Prop} (hm : ∀ n, LeR (f n) (f (n + 1))) (N : Nat) (h : RP E P (f N) Q) (n : Nat) :
    Out E (f n) Q := by
  rcases leR_le hm (Nat.le_max_left n N) with e | e
  · rw [e]; trivial
  · rcases leR_le hm (Nat.le_max_right n N) with e' | e'
    · rw [e'] at h; exact h.elim
    · rw [e, ← e']; exact out_of_rp h

theorem outP_fuel {E P : Prop} {α β} {f : Nat → Res ε α × β} {Q : β → Prop} (hm : ∀ n, LeP (f n) (f (n + 1))) (N : Nat) (h : UP E P (f N) fun _ b => Q b) (n : Nat) :
    OutP E (f n) Q := by
  rcases leP_le hm (Nat.le_max_left n N) with e | e
  · unfold OutP
    cases h1 : f n with
    | mk r b => rw [h1] at e; simp only at e; subst e; trivial
  · rcases leP_le hm (Nat.le_max_right n N) with e' | e'
    · unfold UP at h; rw [e'] at h; exact h.elim
    · rw [e, ← e']
      unfold UP at h
      cases h1 : f N with
      | mk r b => rw [h1] at h; cases r <;> first | exact h | trivial

theorem Out.imp {E E' : Prop} {α} {x : Res ε α} {Q Q' : α → Prop} (h : Out E x Q) (hE : E → E') (hQ : ∀ a, Q a → Q' a) : Out E' x Q' := by
  cases x <;> first | exact hQ _ h | exact hE h | trivial

theorem OutP.imp {E E' : Prop} {α β} {x : Res ε α × β} {Q Q' : β → Prop} (h : OutP E x Q) (hE : E → E') (hQ : ∀ a, Q a → Q' a) : OutP E' x Q' := by
  rcases x with ⟨r, b⟩
  cases r <;> first | exact hQ _ h | exact hE h | trivial

theorem out_bind {E : Prop} {α β} {x : Res ε α} {f : α → β} {Q : β → Prop} (h : Out E x fun a => Q (f a)) : Out E (x.bind fun a => .ok (f a)) Q := by
  cases x <;> exact h

/-! ### The relation -/

/-- The laws of the store of a tree. -/
def lawOf (L : Lawful S) (st : σ) : (a : Bool) → Lawful (storeOf S st a).S
  | true => L
  | false => lawfulDetached ε

variable {L : Lawful S} {st : σ}

theorem fails_of {a : Bool} (h : ¬ ReadsSucceed (lawOf L st a) (storeOf S st a).st) : Fails L st a := by
  cases a with
  | true => exact ⟨rfl, h⟩
  | false => exact absurd (readsSucceed_detached ()) h

theorem shows_iff {a : Bool} {b : BlobV} {d : Bytes} : ValRep (lawOf L st a) (storeOf S st a).st b (some d) ↔ Shows L st a b d := by
  cases a with
  | true => exact Iff.rfl
  | false =>
    constructor
    · exact fun h => repPlain_val (plain_detached _ _) h
    · exact fun h => Or.inl h

/-- The tree stands for the map. -/
abbrev Is (L : Lawful S) (st : σ) (a : Bool) (n : SNode) (m : Map) : Prop := ∃ t, Stands (lawOf L st a) false (storeOf S st a).st n m t

/-- The trees in a stack of an iterator over groups. -/
def Sound (s : KVIter) : Prop := s = kvIter Node.empty ∨ ∀ f ∈ s.stack, ∀ l, f.2 = some l → ∀ x ∈ l, Ord x ∧ Cmp x

/-- What a thing is for the specification. -/
inductive RelItem (L : Lawful S) (st : σ) : Obj → Item → Prop
  | tree {a n m} : Is L st a n m → RelItem L st (.tree a n) (.map a m)
  | value {a b d} : Shows L st a b d → RelItem L st (.value a b) (.value a d)
  | key {d} : RelItem L st (.key d) (.key d)
  | kv {a s s' es} : SIterRep (lawOf L st a) false (storeOf S st a).st s s' → stackEnts s'.path s'.stack = es → RelItem L st (.kv a s) (.entries a es)
  | group {a s s' es} : SIterRep (lawOf L st a) false (storeOf S st a).st s s' → Sound s' → stackEnts s'.path s'.stack = es → RelItem L st (.group a s) (.groups a es)
  | vals {a s s' vs} : VStackRep (lawOf L st a) false (storeOf S st a).st s s' → vstackVals s' = vs → RelItem L st (.vals a s) (.vals a vs)
  | unknown {ob} : RelItem L st ob .unknown
  | free : RelItem L st .free .free

theorem law_mono {st' : σ} (hm : Mono L st st') (a : Bool) {X : {τ : Type} → {T : BlobStore τ ε} → Lawful T → τ → Prop}
    (hX : ∀ {s s' : σ}, Mono L s s' → X L s → X L s') (h : X (lawOf L st a) (storeOf S st a).st) : X (lawOf L st' a) (storeOf S st' a).st := by
  cases a with
  | true => exact hX hm h
  | false => exact h

theorem RelItem.mono {st' : σ} (hm : Mono L st st') {ob : Obj} {x : Item} (h : RelItem L st ob x) : RelItem L st' ob x := by
  cases h with
  | @tree a n m h =>
    obtain ⟨t, h1, h2, h3, h4⟩ := h
    exact .tree ⟨t, h1, h2, law_mono hm a (X := fun L st => Rep L false st n t) (fun hm h => rep_mono hm _ _ h) h3, h4⟩
  | @value a b d h =>
    exact .value (shows_iff.1 (law_mono hm a (X := fun L st => ValRep L st b (some d)) (fun hm h => by
      rcases h with h | ⟨i, h1, h2, h3, h4⟩
      · exact Or.inl h
      · exact Or.inr ⟨i, h1, h2, h3, hm _ _ h4⟩) (shows_iff.2 h)))
  | key => exact .key
  | @kv a s s' es h e => exact .kv (law_mono hm a (X := fun L st => SIterRep L false st s s') (fun hm h => siterRep_mono hm h) h) e
  | @group a s s' es h hs e => exact .group (law_mono hm a (X := fun L st => SIterRep L false st s s') (fun hm h => siterRep_mono hm h) h) hs e
  | @vals a s s' es h e => exact .vals (law_mono hm a (X := fun L st => VStackRep L false st s s') (fun hm h => vstackRep_mono hm h) h) e
  | unknown => exact .unknown
  | free => exact .free

/-- What is in the slots. -/
def RelAll (L : Lawful S) (st : σ) (o : List Obj) (l : List Item) : Prop :=
  o.length = l.length ∧ ∀ (i : Nat) ob x, o[i]? = some ob → l[i]? = some x → RelItem L st ob x

theorem RelAll.get {o l} (h : RelAll L st o l) (i : Nat) :
    (o[i]? = none ∧ l[i]? = none) ∨ ∃ ob x, o[i]? = some ob ∧ l[i]? = some x ∧ RelItem L st ob x := by
  by_cases hi : i < o.length
  · have hi' : i < l.length := by rw [← h.1]; exact hi
    refine Or.inr ⟨o[i], l[i], List.getElem?_eq_getElem hi, List.getElem?_eq_getElem hi', h.2 i _ _ (List.getElem?_eq_getElem hi) (List.getElem?_eq_getElem hi')⟩
  · exact Or.inl ⟨List.getElem?_eq_none (by omega), List.getElem?_eq_none (by rw [← h.1]; omega)⟩

theorem RelAll.set {o l} (h : RelAll L st o l) (i : Nat) {ob x} (hx : RelItem L st ob x) : RelAll L st (o.set i ob) (l.set i x) := by
  refine ⟨by simp [h.1], fun j ob' x' ho hl => ?_⟩
  by_cases e : i = j
  · subst e
    rw [List.getElem?_set_self'] at ho hl
    cases ho1 : o[i]? <;> rw [ho1] at ho <;> cases ho
    cases hl1 : l[i]? <;> rw [hl1] at hl <;> cases hl
    exact hx
  · rw [List.getElem?_set_ne e] at ho hl
    exact h.2 j _ _ ho hl

theorem RelAll.append {o l o' l'} (h : RelAll L st o l) (h' : RelAll L st o' l') : RelAll L st (o ++ o') (l ++ l') := by
  refine ⟨by simp [h.1, h'.1], fun j ob x ho hl => ?_⟩
  by_cases hj : j < o.length
  · rw [List.getElem?_append_left hj] at ho
    rw [List.getElem?_append_left (by rw [← h.1]; exact hj)] at hl
    exact h.2 j _ _ ho hl
  · rw [List.getElem?_append_right (by omega)] at ho
    rw [List.getElem?_append_right (by rw [← h.1]; omega), ← h.1] at hl
    exact h'.2 _ _ _ ho hl

theorem RelAll.one {ob x} (h : RelItem L st ob x) : RelAll L st [ob] [x] := by
  refine ⟨rfl, fun i ob' x' ho hl => ?_⟩
  cases i with
  | zero => cases ho; cases hl; exact h
  | succ i => simp at ho

theorem RelAll.unknown (o : List Obj) : RelAll L st o (List.replicate o.length .unknown) := by
  refine ⟨by simp, fun i ob x ho hl => ?_⟩
  rw [List.getElem?_replicate] at hl
  split at hl <;> cases hl
  exact .unknown

theorem RelAll.mono {st' : σ} (hm : Mono L st st') {o l} (h : RelAll L st o l) : RelAll L st' o l :=
  ⟨h.1, fun i ob x ho hl => (h.2 i ob x ho hl).mono hm⟩

/-- The map is in the store. -/
def Saved (L : Lawful S) (st : σ) (id : Bytes) (m : Map) : Prop :=
  ∃ t bs, Ord t ∧ Shape t ∧ (∀ k, den t k = m k) ∧ L.Has st id bs ∧ RecRep L false t bs st

/-- What a session on plain values is for the specification. -/
def Rel (L : Lawful S) (st : σ) (o : List Obj) (w : World) : Prop :=
  RelAll L st o w.items ∧ ∀ id m, w.saved id = some m → Saved L st id m

theorem Rel.mono {st' : σ} (hm : Mono L st st') {o w} (h : Rel L st o w) : Rel L st' o w :=
  ⟨h.1.mono hm, fun id m e => by
    obtain ⟨t, bs, h1, h2, h3, h4, h5⟩ := h.2 id m e
    exact ⟨t, bs, h1, h2, h3, hm _ _ h4, recRep_mono hm h5⟩⟩

theorem Rel.add {o w ob x} (h : Rel L st o w) (hx : RelItem L st ob x) : Rel L st (o ++ [ob]) (w.add x) := ⟨h.1.append (.one hx), h.2⟩

theorem Rel.put {o w ob x} (h : Rel L st o w) (i : Nat) (hx : RelItem L st ob x) : Rel L st (o.set i ob) (w.put i x) := ⟨h.1.set i hx, h.2⟩

theorem Rel.more {o w} (h : Rel L st o w) (ex : List Obj) : Rel L st (o ++ ex) (w.more ex.length) := ⟨h.1.append (.unknown ex), h.2⟩

theorem Rel.forget {o w} (h : Rel L st o w) (i : Nat) : Rel L st o (w.put i .unknown) := by
  refine ⟨⟨by simp [World.put, h.1.1], fun j ob x ho hl => ?_⟩, h.2⟩
  by_cases e : i = j
  · subst e
    unfold World.put at hl
    rw [List.getElem?_set_self'] at hl
    cases hl1 : w.items[i]? <;> rw [hl1] at hl <;> cases hl
    exact .unknown
  · unfold World.put at hl
    rw [List.getElem?_set_ne e] at hl
    exact h.1.2 j _ _ ho hl

theorem put_same {w : World} {i : Nat} {x : Item} (h : w.items[i]? = some x) : w.put i x = w := by
  have e : w.items.set i x = w.items := by
    refine List.ext_getElem? fun j => ?_
    by_cases e : i = j
    · subst e; rw [List.getElem?_set_self', h]; rfl
    · rw [List.getElem?_set_ne e]
  unfold World.put
  rw [e]

/-! ### Calls -/

/-- If the call returns, what it does is as described. -/
def Fin (L : Lawful S) (r : Option (Obs ε × PWorld σ)) (P : Obs ε → σ → World → Prop) : Prop :=
  ∀ ob st' o', r = some (ob, st', o') → ∃ w', P ob st' w' ∧ Rel L st' o' w'

theorem fin_some {P : Obs ε → σ → World → Prop} {ob st' o'} {w' : World} (h : P ob st' w') (hr : Rel L st' o' w') : Fin L (some (ob, st', o')) P := by
  intro _ _ _ e; cases e; exact ⟨w', h, hr⟩

theorem fin_none {P : Obs ε → σ → World → Prop} : Fin (ε := ε) L none P := by intro _ _ _ e; cases e

theorem Fin.imp {r} {P Q : Obs ε → σ → World → Prop} (h : Fin L r P) (hq : ∀ ob st' w', P ob st' w' → Q ob st' w') : Fin L r Q := by
  intro ob st' o' e
  obtain ⟨w', h1, h2⟩ := h ob st' o' e
  exact ⟨w', hq _ _ _ h1, h2⟩

/-- The call only adds things. -/
def Grows (st : σ) (o : List Obj) (r : Option (Obs ε × PWorld σ)) : Prop := ∀ ob st' o', r = some (ob, st', o') → st' = st ∧ ∃ ex, o' = o ++ ex

theorem fin_grows {o w r} (h : Rel L st o w) (hg : Grows (ε := ε) st o r) : Fin L r fun _ st' w' => st' = st ∧ ∃ n, w' = w.more n := by
  intro ob st' o' e
  obtain ⟨rfl, ex, rfl⟩ := hg ob st' o' e
  exact ⟨_, ⟨rfl, _, rfl⟩, h.more ex⟩

theorem more_zero (w : World) : w.more 0 = w := by simp [World.more]

theorem on_tree {o w} {i : Nat} {f : Bool → SNode → Option (Obs ε × PWorld σ)} {P : Bool → Map → Obs ε → World → Prop} {Q : σ → Prop} (h : Rel L st o w) (hq : Q st)
    (hf : ∀ a n m, Is L st a n m → Fin L (f a n) fun ob st' w' => Q st' ∧ P a m ob w')
    (hu : ∀ a n, w.items[i]? = some .unknown → Fin L (f a n) fun ob st' w' => Q st' ∧ ∃ k, w' = w.more k) :
    Fin L (ponTree (st, o) i f) fun ob st' w' => Q st' ∧ onMap w i ob w' fun a m => P a m ob w' := by
  unfold ponTree onMap
  rcases h.1.get i with ⟨h1, h2⟩ | ⟨ob, x, h1, h2, hx⟩
  · rw [h1, h2]; exact fin_some ⟨hq, rfl, rfl⟩ h
  · rw [h1, h2]
    cases hx with
    | tree hs => exact hf _ _ _ hs
    | unknown =>
      cases ob
      case tree a n => exact hu a n h2
      all_goals exact fin_some ⟨hq, 0, (more_zero w).symm⟩ h
    | _ => exact fin_some ⟨hq, rfl, rfl⟩ h

theorem on_trees {o w} {i j : Nat} {f : Bool → Bool → SNode → SNode → Option (Obs ε × PWorld σ)} {P : Bool → Bool → Map → Map → Obs ε → World → Prop} {U : World → Prop}
    (h : Rel L st o w) (hU : ∃ w1, U w1 ∧ Rel L st o w1)
    (hf : ∀ a b n n' m m', Is L st a n m → Is L st b n' m' → Fin L (f a b n n') fun ob st' w' => st' = st ∧ P a b m m' ob w')
    (hu : ∀ a b n n', w.items[i]? = some .unknown ∨ w.items[j]? = some .unknown → Fin L (f a b n n') fun ob st' w' => st' = st ∧ U w') :
    Fin L (ponTree (st, o) i fun a n => ponTree (st, o) j fun b n' => f a b n n') fun ob st' w' => st' = st ∧ onMaps w i j ob w' (U w') fun a b m m' => P a b m m' ob w' := by
  obtain ⟨w1, hU, hr⟩ := hU
  unfold ponTree onMaps
  dsimp only
  rcases h.1.get i with ⟨h1, h2⟩ | ⟨ob, x, h1, h2, hx⟩
  · rw [h1, h2]; exact fin_some ⟨rfl, rfl, rfl⟩ h
  · rw [h1, h2]
    rcases h.1.get j with ⟨h1', h2'⟩ | ⟨ob', x', h1', h2', hx'⟩
    · rw [h1', h2']
      cases ob <;> cases x <;> exact fin_some ⟨rfl, rfl, rfl⟩ h
    · rw [h1', h2']
      cases hx with
      | tree hs =>
        cases hx' with
        | tree hs' => exact hf _ _ _ _ _ _ hs hs'
        | unknown =>
          cases ob'
          case tree a n => exact hu _ _ _ _ (.inr h2')
          all_goals exact fin_some ⟨rfl, hU⟩ hr
        | _ => exact fin_some ⟨rfl, rfl, rfl⟩ h
      | unknown =>
        cases hx' with
        | tree hs' =>
          cases ob
          case tree a n => exact hu _ _ _ _ (.inl h2)
          all_goals exact fin_some ⟨rfl, hU⟩ hr
        | unknown =>
          cases ob
          case tree a n =>
            cases ob'
            case tree a n => exact hu _ _ _ _ (.inl h2)
            all_goals exact fin_some ⟨rfl, hU⟩ hr
          all_goals exact fin_some ⟨rfl, hU⟩ hr
        | _ => cases ob <;> exact fin_some ⟨rfl, rfl, rfl⟩ h
      | _ => cases hx' <;> exact fin_some ⟨rfl, rfl, rfl⟩ h

end

end Radix.Kept
