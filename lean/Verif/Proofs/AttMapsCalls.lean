import Verif.Proofs.AttMaps

/-
The calls of a session with a store, one by one: those that change a tree, those that make a new one, and those that read.
-/

set_option linter.unusedVariables false

namespace Radix.Kept
open Radix Node
open Radix.Heap (Choice)
open Radix.Heap.Att (Op Obs Obj NewChoice PWorld storeOf fits pstep prun ponTree ponTrees pchanged pchange pchangeWith pnewTree pnewValue pnewEntry panswer
  pattachedOf preattachOf ploadOf pcloneOf pnewIter pnextOf pnextGroupOf preadKeyOf convOf penvOf attachS reattachS setFnS predS newFnS testFnS descendS maskAb)
open Radix.Spec (Map IsEntries Selected outer inner left)
open Radix.Spec.Kept

section
variable {σ ε : Type} {S : BlobStore σ ε} {L : Lawful S} {st : σ}

/-! ### Results -/

theorem new_tree {o w} {E : Prop} {a : Bool} {m : Map} {x : Res ε SNode} (h : Rel L st o w) (hx : Out E x fun y => Is L st a y m) :
    Fin L (pnewTree (st, o) a x) fun ob st' w' => st' = st ∧ made E w ob w' a m := by
  cases x with
  | ok y => exact fin_some ⟨rfl, Or.inl ⟨rfl, rfl⟩⟩ (h.add (.tree hx))
  | err e => exact fin_some ⟨rfl, Or.inr ⟨⟨e, rfl⟩, hx, rfl⟩⟩ h
  | panic => exact fin_none
  | deep => exact fin_none

theorem set_tree {o w} {E : Prop} {i : Nat} {a : Bool} {m : Map} {x : Res ε Unit × SNode} (h : Rel L st o w) (hx : OutP E x fun y => Is L st a y m) :
    Fin L (pchanged (st, o) i a x) fun ob st' w' => st' = st ∧ changed E w i ob w' a m := by
  rcases x with ⟨r, y⟩
  cases r with
  | ok u => exact fin_some ⟨rfl, Or.inl ⟨rfl, rfl⟩⟩ (h.put i (.tree hx))
  | err e => exact fin_some ⟨rfl, Or.inr ⟨⟨e, rfl⟩, hx, rfl⟩⟩ (h.put i .unknown)
  | panic => exact fin_none
  | deep => exact fin_none

theorem set_unknown {o w} {i : Nat} {a : Bool} {x : Res ε Unit × SNode} (h : Rel L st o w) :
    Fin L (pchanged (st, o) i a x) fun ob st' w' => st' = st ∧ w' = w.put i .unknown := by
  rcases x with ⟨r, y⟩
  cases r with
  | ok u => exact fin_some ⟨rfl, rfl⟩ (h.put i .unknown)
  | err e => exact fin_some ⟨rfl, rfl⟩ (h.put i .unknown)
  | panic => exact fin_none
  | deep => exact fin_none

theorem new_value {o w} {a : Bool} {v : Option Bytes} {x : Res ε (Option BlobV)} (h : Rel L st o w)
    (hx : Out (Fails L st a) x fun y => OValRep (lawOf L st a) (storeOf S st a).st y v) :
    Fin L (pnewValue (st, o) a x) fun ob st' w' => st' = st ∧ isValue L st a w v ob w' := by
  cases x with
  | ok y =>
    cases y with
    | none =>
      cases v with
      | none => exact fin_some ⟨rfl, Or.inr ⟨rfl, rfl⟩⟩ (h.add .free)
      | some v => exact hx.elim
    | some b =>
      cases v with
      | none => exact hx.elim
      | some v =>
        have := shows_iff.1 hx
        exact fin_some ⟨rfl, Or.inr ⟨b, rfl, this, rfl⟩⟩ (h.add (.value this))
  | err e => exact fin_some ⟨rfl, Or.inl ⟨⟨e, rfl⟩, hx, rfl⟩⟩ h
  | panic => exact fin_none
  | deep => exact fin_none

theorem new_entry {o w} {a : Bool} {v : Option (Bytes × Bytes)} {x : Res ε (Option (Bytes × BlobV))} (h : Rel L st o w)
    (hx : Out (Fails L st a) x fun y => OEntRep (lawOf L st a) (storeOf S st a).st y v) :
    Fin L (pnewEntry (st, o) a x) fun ob st' w' => st' = st ∧ isEntry L st a w v ob w' := by
  cases x with
  | ok y =>
    cases y with
    | none =>
      cases v with
      | none => exact fin_some ⟨rfl, Or.inr ⟨rfl, rfl⟩⟩ (h.add .free)
      | some v => exact hx.elim
    | some b =>
      cases v with
      | none => exact hx.elim
      | some v =>
        obtain ⟨k, b⟩ := b
        obtain ⟨k', v⟩ := v
        obtain ⟨h1, h2⟩ := hx
        have h1 : k = k' := h1
        subst h1
        have := shows_iff.1 h2
        exact fin_some ⟨rfl, Or.inr ⟨b, rfl, this, rfl⟩⟩ (h.add (.value this))
  | err e => exact fin_some ⟨rfl, Or.inl ⟨⟨e, rfl⟩, hx, rfl⟩⟩ h
  | panic => exact fin_none
  | deep => exact fin_none

theorem answer {o w} {E P : Prop} {x : Res ε Bool} (h : Rel L st o w) (hx : Out E x fun y => (y = true ↔ P)) :
    Fin L (panswer (st, o) .bool x) fun ob st' w' => st' = st ∧ isBool E w P ob w' := by
  cases x with
  | ok y => exact fin_some ⟨rfl, Or.inr ⟨rfl, y, rfl, hx⟩⟩ h
  | err e => exact fin_some ⟨rfl, Or.inl ⟨⟨e, rfl⟩, hx, rfl⟩⟩ h
  | panic => exact fin_none
  | deep => exact fin_none

theorem answer_same {o w} {α} {g : α → Obs ε} {x : Res ε α} (h : Rel L st o w) : Fin L (panswer (st, o) g x) fun ob st' w' => st' = st ∧ w' = w := by
  cases x with
  | ok y => exact fin_some ⟨rfl, rfl⟩ h
  | err e => exact fin_some ⟨rfl, rfl⟩ h
  | panic => exact fin_none
  | deep => exact fin_none

theorem grows_some {o : List Obj} {ob : Obs ε} (ex : List Obj) : Grows st o (some (ob, st, o ++ ex)) := by
  intro _ _ _ e; cases e; exact ⟨rfl, ex, rfl⟩

theorem grows_same {o : List Obj} {ob : Obs ε} : Grows st o (some (ob, st, o)) := by
  intro _ _ _ e; cases e; exact ⟨rfl, [], by simp⟩

theorem grows_none {o : List Obj} : Grows (ε := ε) st o none := by intro _ _ _ e; cases e

theorem grows_tree {o : List Obj} {a : Bool} (x : Res ε SNode) : Grows st o (pnewTree (st, o) a x) := by
  cases x <;> first | exact grows_some _ | exact grows_same | exact grows_none

theorem grows_value {o : List Obj} {a : Bool} (x : Res ε (Option BlobV)) : Grows st o (pnewValue (st, o) a x) := by
  cases x with
  | ok y => cases y <;> exact grows_some _
  | err => exact grows_same
  | panic => exact grows_none
  | deep => exact grows_none

theorem grows_entry {o : List Obj} {a : Bool} (x : Res ε (Option (Bytes × BlobV))) : Grows st o (pnewEntry (st, o) a x) := by
  cases x with
  | ok y => cases y <;> exact grows_some _
  | err => exact grows_same
  | panic => exact grows_none
  | deep => exact grows_none

theorem grows_answer {o : List Obj} {α} {g : α → Obs ε} (x : Res ε α) : Grows st o (panswer (st, o) g x) := by
  cases x <;> first | exact grows_same | exact grows_none

theorem grows_iter {o : List Obj} {a : Bool} (x : Res ε SIter) : Grows st o (pnewIter (st, o) a x) := by
  cases x <;> first | exact grows_some _ | exact grows_same | exact grows_none

/-- A call about one tree that only adds things, if nothing is known about the tree. -/
theorem on_tree_grows {o w} {i : Nat} {f : Bool → SNode → Option (Obs ε × PWorld σ)} {P : Bool → Map → Obs ε → World → Prop} (h : Rel L st o w)
    (hf : ∀ a n m, Is L st a n m → Fin L (f a n) fun ob st' w' => st' = st ∧ P a m ob w') (hu : ∀ a n, Grows st o (f a n)) :
    Fin L (ponTree (st, o) i f) fun ob st' w' => st' = st ∧ onMap w i ob w' fun a m => P a m ob w' :=
  on_tree (Q := fun s => s = st) h rfl hf fun a n _ => fin_grows h (hu a n)

/-! ### Changes -/

theorem change {o w} {i n : Nat} {f : Bool → SNode → Nat → Res ε Unit × SNode} {g : Map → Map} (h : Rel L st o w)
    (hf : ∀ a y m, Is L st a y m → OutP (Fails L st a) (f a y n) fun z => Is L st a z (g m)) :
    Fin L (pchange (st, o) i fun a y => f a y n) fun ob st' w' => st' = st ∧ onMap w i ob w' fun a m => changed (Fails L st a) w i ob w' a (g m) := by
  refine on_tree (Q := fun s => s = st) h rfl (fun a y m hm => set_tree h (hf a y m hm)) fun a y hi => (set_unknown h).imp ?_
  rintro ob st' w' ⟨rfl, rfl⟩
  exact ⟨rfl, 0, by rw [put_same hi, more_zero]⟩

theorem insert_call {a : Bool} {y : SNode} {m : Map} (hm : Is L st a y m) (ab) (n : Nat) (k v : Bytes) :
    OutP (Fails L st a) (insertS (storeOf S st a).S (storeOf S st a).st false ab n y k v) fun z => Is L st a z (m.insert k v) := by
  obtain ⟨t, ho, hs, hr, hd⟩ := hm
  refine (outP_fuel (fun n => outerCombineWithS_fuel (e := singleEnv (storeOf S st a).S (storeOf S st a).st false ab) _ _ n _ _) _
    (insertS_rep hr (Or.inr ⟨ho, hs⟩) false ab (Nat.le_refl _) k v) n).imp fails_of fun z hz => ?_
  have hgd := insert_good t k v ho
  exact ⟨insert t k v, hgd.ord, hgd.shape hs (shape_single k v), hz, fun k' => by rw [insert_den ho, hd]; rfl⟩

theorem remove_call {a : Bool} {y : SNode} {m : Map} (hm : Is L st a y m) (ab) (n : Nat) (k : Bytes) :
    OutP (Fails L st a) (removeS (storeOf S st a).S (storeOf S st a).st false ab n y k) fun z => Is L st a z (m.erase k) := by
  obtain ⟨t, ho, hs, hr, hd⟩ := hm
  refine (outP_fuel (fun n => leftCombineWithS_fuel (e := singleEnv (storeOf S st a).S (storeOf S st a).st false ab) _ n _ _) _
    (removeS_rep hr hs false ab (Nat.le_refl _) k) n).imp fails_of fun z hz => ?_
  have hgd := remove_good t k ho
  exact ⟨remove t k, hgd.ord, hgd.shape hs (shape_single k []), hz, fun k' => by rw [remove_den ho, hd]; rfl⟩

theorem removePrefix_call {a : Bool} {y : SNode} {m : Map} (hm : Is L st a y m) (ab) (n : Nat) (p : Bytes) :
    OutP (Fails L st a) (removePrefixS (storeOf S st a).S (storeOf S st a).st false ab n y p) fun z => Is L st a z (m.erasePrefix p) := by
  obtain ⟨t, ho, hs, hr, hd⟩ := hm
  refine (outP_fuel (fun n => removePrefixWithS_fuel (e := singleEnv (storeOf S st a).S (storeOf S st a).st false ab) _ n _ _) _
    (removePrefixS_rep hr hs false ab (Nat.le_refl _) p) n).imp fails_of fun z hz => ?_
  have hgd := removePrefix_good t p ho
  exact ⟨removePrefix t p, hgd.ord, hgd.shape hs (shape_single p []), hz, fun k' => by rw [removePrefix_den ho, hd]; rfl⟩

/-! ### Changes with another tree -/

theorem given_of {γ : Type} {A : γ → Prop} {r : Option (Obs ε × PWorld σ)} {X : γ → Obs ε → World → Prop} {Y : Obs ε → World → Prop}
    (hX : ∀ g, A g → Fin L r fun ob st' w' => st' = st ∧ X g ob w') (hY : Fin L r fun ob st' w' => st' = st ∧ Y ob w') :
    Fin L r fun ob st' w' => st' = st ∧ given A (fun g => X g ob w') (Y ob w') := by
  by_cases h : ∃ g, A g
  · obtain ⟨g, hg⟩ := h
    exact (hX g hg).imp fun ob st' w' h => ⟨h.1, Or.inl ⟨g, hg, h.2⟩⟩
  · exact hY.imp fun ob st' w' h' => ⟨h'.1, Or.inr ⟨h, h'.2⟩⟩

theorem changeWith {o w} {i j : Nat} {ok : Bool → Bool → Bool} {f : Bool → Bool → SNode → Radix.Ref → Res ε Unit × SNode}
    {P : Bool → Bool → Map → Map → Obs ε → World → Prop} (h : Rel L st o w)
    (hf : ∀ a b y z m m', Is L st a y m → Is L st b z m' → ok a b = true →
      Fin L (pchanged (st, o) i a (f a b y (.owned z))) fun ob st' w' => st' = st ∧ P a b m m' ob w') :
    Fin L (pchangeWith (st, o) i j ok f) fun ob st' w' => st' = st ∧ different w i j ob w' fun a b m m' =>
      if ok a b then P a b m m' ob w' else ob = .bad ∧ w' = w := by
  unfold pchangeWith different
  by_cases e : i = j
  · rw [if_pos e]
    exact fin_some ⟨rfl, by rw [if_pos e]; exact ⟨rfl, rfl⟩⟩ h
  · simp only [if_neg e]
    refine on_trees h ⟨_, rfl, h.forget i⟩ (fun a b y z m m' hm hm' => ?_) fun a b y z _ => ?_
    · cases e' : ok a b with
      | true => simp only [if_true]; exact hf a b y z m m' hm hm' e'
      | false => exact fin_some ⟨rfl, rfl, rfl⟩ h
    · cases e' : ok a b with
      | true => exact set_unknown h
      | false => exact fin_some ⟨rfl, rfl⟩ (h.forget i)

theorem fok_of {a b : Bool} {f : BlobV → BlobV → Except ε Choice} {g : Bytes → Bytes → Option Bytes} (mask) (hf : Follows L st a b f g) :
    FOK (e := penvOf S st mask a b) (lawOf L st a) (lawOf L st b) (Fails L st a ∨ Fails L st b ∨ Refuses L st a b f) True (setFnS f) g := by
  intro av bv x y ha hb
  have := hf av bv x y (shows_iff.1 ha) (shows_iff.1 hb)
  unfold setFnS
  cases e : f av bv with
  | error er => exact Or.inr (Or.inr ⟨av, bv, x, y, er, shows_iff.1 ha, shows_iff.1 hb, e⟩)
  | ok c =>
    rw [e] at this
    cases c with
    | keep => simp only at this; show ValRep _ _ _ _; rw [this]; exact ha
    | clear => simp only at this; show ValRep _ _ _ _; rw [this]; rfl
    | take => show ValRep _ _ _ _; rw [this.1]; exact shows_iff.2 this.2

theorem predOK_of {a b : Bool} {f : BlobV → Except ε Bool} {p : Bytes → Bool} (mask) (hf : Tells L st b f p) :
    PredOK (e := penvOf S st mask a b) (lawOf L st b) (Fails L st a ∨ Fails L st b ∨ Refuses1 L st b f) True (predS f) p := by
  intro bv y hb
  unfold predS
  cases e : f bv with
  | error er => exact Or.inr (Or.inr ⟨bv, y, er, shows_iff.1 hb, e⟩)
  | ok r => exact hf bv y (shows_iff.1 hb) r e

theorem uok {a b : Bool} (mask) {U : Prop} : UOK (e := penvOf S st mask a b) (lawOf L st a) (lawOf L st b) (Fails L st a ∨ Fails L st b ∨ U) True :=
  ⟨fun h => Or.inl (fails_of h), fun h => Or.inr (Or.inl (fails_of h)), Or.inl trivial⟩

theorem outerWith_call {a b : Bool} {y z : SNode} {m m' : Map} (hm : Is L st a y m) (hm' : Is L st b z m') {c : Conv} (hc : fits a b c = true)
    {f : BlobV → BlobV → Except ε Choice} {g} (hf : Follows L st a b f g) (mask) (n : Nat) :
    OutP (Fails L st a ∨ Fails L st b ∨ Refuses L st a b f) (outerCombineWithS (penvOf S st mask a b) (convOf S st n b c) (setFnS f) n y (.owned z))
      fun x => Is L st a x (Map.combine (outer g) m m') := by
  obtain ⟨t, ho, hs, hr, hd⟩ := hm
  obtain ⟨u, ho', hs', hr', hd'⟩ := hm'
  have fin : ∀ c x, Rep (lawOf L st a) false (storeOf S st a).st x (outerCombineWith c g t u) → Is L st a x (Map.combine (outer g) m m') := fun c x hx => by
    have hgd := outerCombineWith_good c g t u ho ho'
    exact ⟨_, hgd.ord, hgd.shape hs hs', hx, fun k => by rw [hgd.den k, hd, hd']; rfl⟩
  cases c with
  | downcast =>
    cases b with
    | true => cases hc
    | false =>
      exact (outP_fuel (fun n => outerCombineWithS_fuel _ _ n _ _) _ (outerCombineWithS_rep (e := penvOf S st mask a false) (uok mask)
        (conv_downcast (lawOf L st a) (storeOf S st a).st false false _ _ false (maskAb mask) u.nodes) (fok_of mask hf) (Or.inl rfl) _ y (.owned z) t u (Nat.le_refl _) (Nat.le_refl _)
        (Or.inl rfl) hr ⟨hr', Or.inl trivial⟩) n).imp id fun x hx => fin _ x hx
  | identity =>
    have e : a = b := by simpa [fits] using hc
    subst e
    exact (outP_fuel (fun n => outerCombineWithS_fuel _ _ n _ _) _ (outerCombineWithS_rep (e := penvOf S st mask a a) (uok mask)
      (conv_identity (storeOf S st a).st false false (maskAb mask) u.nodes fun h => Or.inl (fails_of h)) (fok_of mask hf) (Or.inl rfl) _ y (.owned z) t u (Nat.le_refl _) (Nat.le_refl _)
      (Or.inl rfl) hr ⟨hr', Or.inl trivial⟩) n).imp id fun x hx => fin _ x hx
  | detach =>
    exact (outP_fuel (fun n => outerDetach_fuel (e := penvOf S st mask a b) _ _ _ _ _ n) (t.nodes + 3 * u.nodes) (outerCombineWithS_rep (e := penvOf S st mask a b) (uok mask)
      (conv_detachTo (lawOf L st a) (storeOf S st a).st (storeOf S st b).st false false (maskAb mask) (B := u.nodes) (by omega) (fun h => Or.inr (Or.inl (fails_of h)))
        fun h => Or.inl (fails_of h)) (fok_of mask hf) (Or.inl rfl) _ y (.owned z) t u (by omega) (Nat.le_refl _)
      (Or.inl rfl) hr ⟨hr', Or.inl trivial⟩) n).imp id fun x hx => fin _ x hx

theorem innerWith_call {a b : Bool} {y z : SNode} {m m' : Map} (hm : Is L st a y m) (hm' : Is L st b z m')
    {f : BlobV → BlobV → Except ε Choice} {g} (hf : Follows L st a b f g) (mask) (n : Nat) :
    OutP (Fails L st a ∨ Fails L st b ∨ Refuses L st a b f) (innerCombineWithS (penvOf S st mask a b) (setFnS f) n y (.owned z))
      fun x => Is L st a x (Map.combine (inner g) m m') := by
  obtain ⟨t, ho, hs, hr, hd⟩ := hm
  obtain ⟨u, ho', hs', hr', hd'⟩ := hm'
  refine (outP_fuel (fun n => innerCombineWithS_fuel _ n _ _) _ (innerCombineWithS_rep (e := penvOf S st mask a b) (uok mask) (fok_of mask hf) _ y (.owned z) t u
    (Nat.le_refl _) hr ⟨hr', Or.inl trivial⟩) n).imp id fun x hx => ?_
  have hgd := innerCombineWith_good g t u ho ho'
  exact ⟨_, hgd.ord, hgd.shape hs hs', hx, fun k => by rw [hgd.den k, hd, hd']; rfl⟩

theorem leftWith_call {a b : Bool} {y z : SNode} {m m' : Map} (hm : Is L st a y m) (hm' : Is L st b z m')
    {f : BlobV → BlobV → Except ε Choice} {g} (hf : Follows L st a b f g) (mask) (n : Nat) :
    OutP (Fails L st a ∨ Fails L st b ∨ Refuses L st a b f) (leftCombineWithS (penvOf S st mask a b) (setFnS f) n y (.owned z))
      fun x => Is L st a x (Map.combine (left g) m m') := by
  obtain ⟨t, ho, hs, hr, hd⟩ := hm
  obtain ⟨u, ho', hs', hr', hd'⟩ := hm'
  refine (outP_fuel (fun n => leftCombineWithS_fuel _ n _ _) _ (leftCombineWithS_rep (e := penvOf S st mask a b) (uok mask) (fun _ => Or.inl trivial) (fok_of mask hf) _ y (.owned z) t u
    (Nat.le_refl _) (Or.inl hs) hr ⟨hr', Or.inl trivial⟩) n).imp id fun x hx => ?_
  have hgd := leftCombineWith_good g t u ho ho'
  exact ⟨_, hgd.ord, hgd.shape hs hs', hx, fun k => by rw [hgd.den k, hd, hd']; rfl⟩

theorem removeWith_call {a b : Bool} {y z : SNode} {m m' : Map} (hm : Is L st a y m) (hm' : Is L st b z m')
    {f : BlobV → Except ε Bool} {p} (hf : Tells L st b f p) (mask) (n : Nat) :
    OutP (Fails L st a ∨ Fails L st b ∨ Refuses1 L st b f) (removePrefixWithS (penvOf S st mask a b) (predS f) n y (.owned z)) fun x => Is L st a x (m.removePrefix p m') := by
  obtain ⟨t, ho, hs, hr, hd⟩ := hm
  obtain ⟨u, ho', hs', hr', hd'⟩ := hm'
  have hgd := removePrefixWith_good p t u ho ho'
  refine (outP_fuel (fun n => removePrefixWithS_fuel _ n _ _) _ (removePrefixWithS_rep (e := penvOf S st mask a b) (uok mask)
    (fun _ => Or.inl trivial) (predOK_of mask hf) _ y (.owned z) t u (Nat.le_refl _) (Or.inl hs) hr ⟨hr', Or.inl trivial⟩) n).imp id fun x hx => ⟨_, hgd.ord, hgd.shape hs hs', hx, fun k => ?_⟩
  have hk := remove_with_den (f := p) ho ho' k
  rw [show den u = m' from funext hd', hd] at hk
  unfold Map.removePrefix
  split
  · rename_i h; exact hk.1 h
  · rename_i h; exact hk.2 h

theorem retainWith_call {a b : Bool} {y z : SNode} {m m' : Map} (hm : Is L st a y m) (hm' : Is L st b z m')
    {f : BlobV → Except ε Bool} {p} (hf : Tells L st b f p) (mask) (n : Nat) :
    OutP (Fails L st a ∨ Fails L st b ∨ Refuses1 L st b f) (retainPrefixWithS (penvOf S st mask a b) (predS f) n y (.owned z)) fun x => Is L st a x (m.retainPast p m') := by
  obtain ⟨t, ho, hs, hr, hd⟩ := hm
  obtain ⟨u, ho', hs', hr', hd'⟩ := hm'
  have hgd := retainPrefixWith_good p t u ho ho'
  refine (outP_fuel (fun n => retainPrefixWithS_fuel _ n _ _) _ (retainPrefixWithS_rep (e := penvOf S st mask a b) (uok mask)
    (fun _ => Or.inl trivial) (predOK_of mask hf) _ y (.owned z) t u (Nat.le_refl _) (Or.inl hs) hr ⟨hr', Or.inl trivial⟩) n).imp id fun x hx => ⟨_, hgd.ord, hgd.shape hs hs', hx, fun k => ?_⟩
  rw [retain_exact hs ho ho', show den u = m' from funext hd', show den t = m from funext hd]

end

end Radix.Kept
