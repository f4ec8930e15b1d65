import Verif.Spec.AttSafe
import Verif.Proofs.AttMapsFuel
import Verif.Proofs.NoSplitWith

/-
Sessions with a store on plain values: calls about things that are known do not panic, and some depth is enough.
-/

set_option linter.unusedVariables false

namespace Radix.Kept
open Radix Node
open Radix.Heap (Choice)
open Radix.Heap.Att (Op Obs Obj NewChoice PWorld storeOf fits pstep prun ponTree ponTrees pchanged pchange pchangeWith pnewTree pnewValue pnewEntry panswer
  pattachedOf preattachOf ploadOf pcloneOf pnewIter pnextOf pnextGroupOf preadKeyOf convOf penvOf attachS reattachS attachS_embed setFnS predS newFnS testFnS descendS maskAb levels)
open Radix.Spec (Map IsEntries Selected outer inner left Fits Shared Within)
open Radix.Spec.Kept

section
variable {σ τ ε : Type} {S : BlobStore σ ε} {T : BlobStore τ ε} {L : Lawful S} {st : σ}

/-! ### Conversions of detached trees -/

theorem conv_identityP (st : σ) (g : Bool) (dbg : Bool) (ab) (B : Nat) {E P : Prop} (hP : P ∨ Plain L st) (hE : ¬ ReadsSucceed L st → E) :
    ConvOK (e := ⟨S, st, S, st, dbg, ab⟩) L L g g E P B (SConv.identity S st) .identity where
  node b m _ h := by
    have h1 := rp_of_rpost (E := E) (P := P) hE h.1.toOwned
    cases b with
    | owned a => exact ⟨h1, id⟩
    | borrowed r =>
      obtain ⟨i, e, h⟩ := h.1
      simp only [SConv.identity, Ref.toOwned, Rec.toOwned, e] at h1 ⊢
      exact ⟨h1, id⟩
  short b m k _ h := rp_imp (RefOK.cloneShortened (LA := L) ⟨hE, hE, hP⟩ h k) fun a ha => ha.1
  value v y h := h

theorem conv_detachP {M : Lawful T} (L : Lawful S) (st : σ) (st' : τ) (gb : Bool) (dbg : Bool) (ab) {B fuel : Nat}
    (hf : B ≤ fuel) {E P : Prop} (hP : Plain M st') (hE : ¬ ReadsSucceed M st' → E) (hE' : ¬ ReadsSucceed L st → E) :
    ConvOK (e := ⟨S, st, T, st', dbg, ab⟩) L M false gb E P B (SConv.detach T st' fuel) .detach where
  node b m hB h := by
    refine rp_bind (rp_of_rpost (L := M) hE (rpost_bind h.1.toOwned fun a ha => detachedS_repH.1 ha
      (Nat.le_trans hB hf))) fun n hn => ?_
    have hn : n = m.detached := hn
    subst hn
    refine ⟨embed_rep _, fun _ => ?_⟩
    generalize m.detached = d
    cases d with
    | mk p v c => cases c <;> rfl
  short b m k hB h := by
    refine rp_bind (RefOK.cloneShortened (LA := L) ⟨hE', hE, Or.inr hP⟩ h k)
      fun a ha => ?_
    refine rp_bind (rp_of_rpost (L := M) hE (detachedS_repH.1 ha.1 ?_)) fun n hn => ?_
    · rw [height_cloneShortened]; omega
    · have hn : n = (m.cloneShortened k).detached := hn
      subst hn
      exact embed_rep _
  value v y h := by
    cases v with
    | data d =>
      rcases h with h | ⟨i, h, _⟩
      · exact Or.inl h
      · cases h
    | id i =>
      rcases h with h | ⟨j, h, _, _, hh⟩
      · cases h
      · exact (hP _ _ hh).elim

/-! ### Results -/

theorem some_R {α β} {E : Prop} {g : Res ε α → Option β} {x : Res ε α} {Q : α → Prop} (hk : ∀ a, (g (.ok a)).isSome) (he : ∀ e, (g (.err e)).isSome) (h : RP E False x Q) :
    (g x).isSome := by
  cases x with
  | ok a => exact hk a
  | err e => exact he e
  | panic => exact h.elim
  | deep => exact h.elim

theorem rp_no {α} {L : Lawful S} {x : Res ε α} {Q : α → Prop} (h : RPost L st x Q) : RP True False x Q := rp_of_rpost (fun _ => trivial) h

theorem some_tree {w : PWorld σ} {a : Bool} {E : Prop} {x : Res ε SNode} {Q} (h : RP E False x Q) : (pnewTree w a x).isSome := some_R (fun _ => rfl) (fun _ => rfl) h
theorem some_iter {w : PWorld σ} {a : Bool} {E : Prop} {x : Res ε SIter} {Q} (h : RP E False x Q) : (pnewIter w a x).isSome := some_R (fun _ => rfl) (fun _ => rfl) h
theorem some_answer {α} {w : PWorld σ} {g : α → Obs ε} {E : Prop} {x : Res ε α} {Q} (h : RP E False x Q) : (panswer w g x).isSome := some_R (fun _ => rfl) (fun _ => rfl) h

theorem some_value {w : PWorld σ} {a : Bool} {E : Prop} {x : Res ε (Option BlobV)} {Q} (h : RP E False x Q) : (pnewValue w a x).isSome :=
  some_R (fun v => by cases v <;> rfl) (fun _ => rfl) h

theorem some_entry {w : PWorld σ} {a : Bool} {E : Prop} {x : Res ε (Option (Bytes × BlobV))} {Q} (h : RP E False x Q) : (pnewEntry w a x).isSome :=
  some_R (fun v => by cases v <;> rfl) (fun _ => rfl) h

theorem some_changed {w : PWorld σ} {i : Nat} {a : Bool} {E : Prop} {x : Res ε Unit × SNode} {Q} (h : UP E False x Q) : (pchanged w i a x).isSome := by
  obtain ⟨r, y⟩ := x
  cases r with
  | ok _ => rfl
  | err _ => rfl
  | panic => exact h.elim
  | deep => exact h.elim

theorem rp_bindOk {α β} {E : Prop} {x : Res ε α} {f : α → β} {Q} (h : RP E False x Q) : RP E False (x.bind fun a => .ok (f a)) fun _ => True :=
  rp_bind h fun _ _ => trivial

/-! ### What is known -/

theorem known_tree {o w} {i : Nat} {f : Nat → Bool → SNode → Option (Obs ε × PWorld σ)} (h : Rel L st o w) (hk : w.knows i)
    (hf : ∀ a y m, w.items[i]? = some (.map a m) → Is L st a y m → ∃ N, (f N a y).isSome) : ∃ N, (ponTree (st, o) i (f N)).isSome := by
  unfold ponTree
  rcases h.1.get i with ⟨h1, h2⟩ | ⟨ob, x, h1, h2, hx⟩
  · rw [h1]; exact ⟨0, rfl⟩
  · rw [h1]
    cases hx with
    | tree hm => exact hf _ _ _ h2 hm
    | unknown => exact (hk h2).elim
    | _ => exact ⟨0, rfl⟩

theorem known_with {o w} {i j : Nat} {ok} {f : Nat → Bool → Bool → SNode → Radix.Ref → Res ε Unit × SNode} {P : Bool → Bool → Map → Map → Prop} (h : Rel L st o w) (hk : w.knows2 i j P)
    (hf : ∀ a b y z m m', P a b m m' → ok a b = true → Is L st a y m → Is L st b z m' → ∃ N, UP True False (f N a b y (.owned z)) fun _ _ => True) :
    ∃ N, (pchangeWith (st, o) i j ok (f N)).isSome := by
  unfold pchangeWith
  split
  · exact ⟨0, rfl⟩
  · refine known_tree (f := fun N a m => ponTree (st, o) j fun b k => if ok a b then pchanged (st, o) i a (f N a b m (.owned k)) else some (.bad, (st, o))) h hk.1 fun a y m h1 hm => ?_
    refine known_tree (f := fun N b k => if ok a b then pchanged (st, o) i a (f N a b y (.owned k)) else some (.bad, (st, o))) h hk.2.1 fun b z m' h2 hm' => ?_
    cases e : ok a b with
    | false => exact ⟨0, rfl⟩
    | true =>
      obtain ⟨N, hN⟩ := hf a b y z m m' (hk.2.2 a b m m' h1 h2) e hm hm'
      exact ⟨N, some_changed hN⟩

theorem known_trees {o w} {i j : Nat} {f : Nat → Bool → Bool → Radix.Ref → Radix.Ref → Option (Obs ε × PWorld σ)} {P : Bool → Bool → Map → Map → Prop} (h : Rel L st o w) (hk : w.knows2 i j P)
    (hf : ∀ a b y z m m', P a b m m' → Is L st a y m → Is L st b z m' → ∃ N, (f N a b (.owned y) (.owned z)).isSome) :
    ∃ N, (ponTrees (st, o) i j (f N)).isSome := by
  unfold ponTrees
  refine known_tree (f := fun N a m => ponTree (st, o) j fun b k => f N a b (.owned m) (.owned k)) h hk.1 fun a y m h1 hm => ?_
  exact known_tree (f := fun N b k => f N a b (.owned y) (.owned k)) h hk.2.1 fun b z m' h2 hm' => hf a b y z m m' (hk.2.2 a b m m' h1 h2) hm hm'

/-! ### Functions of the user -/

theorem fok_no {a b : Bool} {f : BlobV → BlobV → Except ε Choice} {g : Bytes → Bytes → Option Bytes} (mask) (hf : Follows L st a b f g) :
    FOK (e := penvOf S st mask a b) (lawOf L st a) (lawOf L st b) True False (setFnS f) g := by
  intro av bv x y ha hb
  have := fok_of mask hf av bv x y ha hb
  cases e : setFnS f av bv with
  | ok v => rw [e] at this; exact this
  | err _ => trivial
  | panic => unfold setFnS at e; split at e <;> cases e
  | deep => rw [e] at this; exact this

theorem pred_no {a b : Bool} {f : BlobV → Except ε Bool} {p : Bytes → Bool} (mask) (hf : Tells L st b f p) :
    PredOK (e := penvOf S st mask a b) (lawOf L st b) True False (predS f) p := by
  intro bv y hb
  have := predOK_of (a := a) mask hf bv y hb
  cases e : predS f bv with
  | ok v => rw [e] at this; exact this
  | err _ => trivial
  | panic => unfold predS at e; split at e <;> cases e
  | deep => rw [e] at this; exact this

theorem new_np {a b : Bool} {f : BlobV → BlobV → Except ε NewChoice} {g : Bytes → Bytes → Option Bytes} (hf : Makes L st a b f g) (hi : Inline L st a b f) :
    FNP (lawOf L st a) (storeOf S st a).st (lawOf L st b) (storeOf S st b).st (newFnS f) := by
  intro av bv x y ha hb
  have h1 := cfok_of hf av bv x y ha hb
  have ha := shows_iff.1 ha
  have hb := shows_iff.1 hb
  obtain ⟨h2, h3⟩ := hi av bv x y ha hb
  unfold newFnS at h1 ⊢
  cases e : f av bv with
  | error _ => trivial
  | ok c =>
    cases c with
    | clear => trivial
    | own d => trivial
    | left =>
      have : av = .data x := by
        cases a with
        | false => exact ha
        | true => exact h2 rfl e
      subst this; exact trivial
    | right =>
      have : bv = .data y := by
        cases b with
        | false => exact hb
        | true => exact h3 rfl e
      subst this; exact trivial

theorem test_np {a b : Bool} {f : BlobV → BlobV → Except ε Bool} :
    FNP (lawOf L st a) (storeOf S st a).st (lawOf L st b) (storeOf S st b).st (testFnS f) := by
  intro av bv x y _ _
  unfold testFnS
  split <;> trivial

/-- A tree that is not attached has no stored nodes. -/
theorem att_or_plain (b : Bool) : b = true ∨ Plain (lawOf L st b) (storeOf S st b).st := by
  cases b with
  | true => exact Or.inl rfl
  | false => exact Or.inr (plain_detached (lawOf L st false) ())

/-- Two trees that meet, the first one changed in place. -/
theorem is_meet {a b : Bool} {y z : SNode} {m m' : Map} (hm : Is L st a y m) (hm' : Is L st b z m') (h : b = true → Fits m' m) :
    ∃ t u, Rep (lawOf L st a) false (storeOf S st a).st y t ∧ RefS (lawOf L st b) (storeOf S st b).st false (b = true) (.owned z) u ∧
      Meet False (b = true) (.owned y) (.owned z) t u := by
  obtain ⟨t, ho, hs, hr, hd⟩ := hm
  obtain ⟨u, ho', hs', hr', hd'⟩ := hm'
  cases (funext hd : den t = m)
  cases (funext hd' : den u = m')
  exact ⟨t, u, hr, refS_owned hr', ho, ho', hs, hs', fun h => h.elim, h, Or.inr ⟨⟨_, rfl⟩, _, rfl⟩⟩

/-- Two trees that meet, both only read. -/
theorem is_meet2 {a b : Bool} {y z : SNode} {m m' : Map} (hm : Is L st a y m) (hm' : Is L st b z m') (h : a = true → Fits m m') (h' : b = true → Fits m' m) :
    ∃ t u, den t = m ∧ den u = m' ∧ RefS (lawOf L st a) (storeOf S st a).st false (a = true) (.owned y) t ∧
      RefS (lawOf L st b) (storeOf S st b).st false (b = true) (.owned z) u ∧ Meet (a = true) (b = true) (.owned y) (.owned z) t u := by
  obtain ⟨t, ho, hs, hr, hd⟩ := hm
  obtain ⟨u, ho', hs', hr', hd'⟩ := hm'
  cases (funext hd : den t = m)
  cases (funext hd' : den u = m')
  exact ⟨t, u, rfl, rfl, refS_owned hr, refS_owned hr', ho, ho', hs, hs', h, h', Or.inr ⟨⟨_, rfl⟩, _, rfl⟩⟩

theorem uok_no {a : Bool} (mask) : UOK (e := penvOf S st mask a false) (lawOf L st a) (lawOf L st false) True False :=
  ⟨fun _ => trivial, fun _ => trivial, Or.inr (plain_detached (lawOf L st false) ())⟩

theorem up_any {E P : Prop} {α β} {x : Res ε α × β} {Q : α → β → Prop} (h : UP E P x Q) : UP True P x fun _ _ => True := by
  obtain ⟨r, y⟩ := x
  cases r <;> first | trivial | exact h

theorem outerWith_no {a : Bool} {y z : SNode} {m m' : Map} (hm : Is L st a y m) (hm' : Is L st false z m') {c : Conv} (hc : fits a false c = true)
    {f : BlobV → BlobV → Except ε Choice} {g} (hf : Follows L st a false f g) (mask) :
    ∃ n, UP True False (outerCombineWithS (penvOf S st mask a false) (convOf S st n false c) (setFnS f) n y (.owned z)) fun _ _ => True := by
  obtain ⟨t, ho, hs, hr, hd⟩ := hm
  obtain ⟨u, ho', hs', hr', hd'⟩ := hm'
  cases c with
  | downcast =>
    exact ⟨_, up_any (outerCombineWithS_rep (e := penvOf S st mask a false) (uok_no mask)
        (conv_downcast (lawOf L st a) (storeOf S st a).st false false _ _ false (maskAb mask) u.nodes) (fok_no mask hf) (Or.inl rfl) _ y (.owned z) t u (Nat.le_refl _) (Nat.le_refl _)
        (Or.inl rfl) hr ⟨hr', Or.inr ⟨_, rfl⟩⟩)⟩
  | identity =>
    have e : a = false := by simpa [fits] using hc
    subst e
    exact ⟨_, up_any (outerCombineWithS_rep (e := penvOf S st mask false false) (uok_no mask)
      (conv_identityP (storeOf S st false).st false false (maskAb mask) u.nodes (Or.inr (plain_detached (lawOf L st false) ())) fun _ => trivial) (fok_no mask hf) (Or.inl rfl) _ y (.owned z) t u
      (Nat.le_refl _) (Nat.le_refl _) (Or.inl rfl) hr ⟨hr', Or.inr ⟨_, rfl⟩⟩)⟩
  | detach =>
    exact ⟨t.nodes + 3 * u.nodes, up_any (outerCombineWithS_rep (e := penvOf S st mask a false) (uok_no mask)
      (conv_detachP (lawOf L st a) (storeOf S st a).st (storeOf S st false).st false false (maskAb mask) (B := u.nodes) (by omega) (plain_detached (lawOf L st false) ()) (fun _ => trivial)
        fun _ => trivial) (fok_no mask hf) (Or.inl rfl) _ y (.owned z) t u (by omega) (Nat.le_refl _)
      (Or.inl rfl) hr ⟨hr', Or.inr ⟨_, rfl⟩⟩)⟩

theorem outerWith_np {a b : Bool} {y z : SNode} {m m' : Map} (hm : Is L st a y m) (hm' : Is L st b z m') {c : Conv} (hc : fits a b c = true)
    (h : b = true → Fits m' (m'.both m) ∧ (c = .identity ∨ Shared m' m)) {f : BlobV → BlobV → Except ε Choice} {g} (hf : Follows L st a b f g) (mask) :
    ∃ n, UP True False (outerCombineWithS (penvOf S st mask a b) (convOf S st n b c) (setFnS f) n y (.owned z)) fun _ _ => True := by
  cases b with
  | false => exact outerWith_no hm hm' hc hf mask
  | true =>
    obtain ⟨h1, h2⟩ := h rfl
    obtain ⟨t, ho, hs, hr, hd⟩ := hm
    obtain ⟨u, ho', hs', hr', hd'⟩ := hm'
    cases (funext hd : den t = m)
    cases (funext hd' : den u = m')
    have hM : Meet False True (.owned y) (.owned z) t u := ⟨ho, ho', hs, hs', fun h => h.elim, fun _ => (fits_both h1).1, Or.inr ⟨⟨_, rfl⟩, _, rfl⟩⟩
    cases c with
    | downcast => simp [fits] at hc
    | identity =>
      have e : a = true := by simpa [fits] using hc
      subst e
      exact ⟨_, up_any (outerCombineWithS_np (e := penvOf S st mask true true) (PB := True) (Or.inl trivial) (conv_identity_np L st false (maskAb mask) u.height) (fok_no mask hf) _ y (.owned z) t u
        (Nat.le_refl _) (Nat.le_refl _) hr (refS_owned hr') ⟨hM, fun _ => (fits_both h1).2, Or.inl trivial⟩)⟩
    | detach =>
      have hv : Shared (den u) (den t) := h2.elim (fun h => by cases h) id
      exact ⟨t.height + u.height, up_any (outerCombineWithS_np (e := penvOf S st mask a true) (PB := True) (Or.inl trivial)
        (conv_detach_np (lawOf L st a) (storeOf S st a).st L st false false (maskAb mask) (B := u.height) (by omega)) (fok_no mask hf) _ y (.owned z) t u
        (Nat.le_refl _) (Nat.le_refl _) hr (refS_owned hr') ⟨hM, fun _ => (fits_both h1).2, Or.inr hv⟩)⟩

/-! ### Every call -/

theorem step_ends {o w} (h : Rel L st o w) (mask) (op : Op σ ε) (hs : Safe L st w op) : ∃ N, (pstep S mask N (st, o) op).isSome := by
  cases op with
  | empty a => exact ⟨0, rfl⟩
  | single k v => exact ⟨0, rfl⟩
  | load id =>
    obtain ⟨m, e⟩ := hs
    obtain ⟨t, bs, ho, hs, hd, hh, hrec⟩ := h.2 id m e
    exact ⟨0, some_tree (rp_no (tryLoad_rep (S := S) hh hrec))⟩
  | clone i => exact ⟨0, by simp only [pstep, pcloneOf]; split <;> rfl⟩
  | drop i => exact ⟨0, by simp only [pstep]; split <;> rfl⟩
  | insert i k v =>
    refine known_tree (f := fun n a m => pchanged (st, o) i a (insertS (storeOf S st a).S (storeOf S st a).st false (maskAb mask) n m k v)) h hs fun a y m _ hm => ?_
    obtain ⟨t, ho, hs, hr, hd⟩ := hm
    exact ⟨_, some_changed (insertS_rep hr (Or.inr ⟨ho, hs⟩) false (maskAb mask) (Nat.le_refl _) k v)⟩
  | remove i k =>
    refine known_tree (f := fun n a m => pchanged (st, o) i a (removeS (storeOf S st a).S (storeOf S st a).st false (maskAb mask) n m k)) h hs fun a y m _ hm => ?_
    obtain ⟨t, ho, hs, hr, hd⟩ := hm
    have := removeS_rep hr hs false (maskAb mask) (Nat.le_refl _) k
    simp only [Bool.false_eq_true] at this
    exact ⟨_, some_changed this⟩
  | removePrefix i p =>
    refine known_tree (f := fun n a m => pchanged (st, o) i a (removePrefixS (storeOf S st a).S (storeOf S st a).st false (maskAb mask) n m p)) h hs fun a y m _ hm => ?_
    obtain ⟨t, ho, hs, hr, hd⟩ := hm
    have := removePrefixS_rep hr hs false (maskAb mask) (Nat.le_refl _) p
    simp only [Bool.false_eq_true] at this
    exact ⟨_, some_changed this⟩
  | outerCombineWith i j c f =>
    refine known_with (f := fun n a b => outerCombineWithS (penvOf S st mask a b) (convOf S st n b c) (setFnS f) n) h hs fun a b y z m m' hP hok hm hm' => ?_
    obtain ⟨h1, g, hg⟩ := hP hok
    exact outerWith_np hm hm' hok h1 hg mask
  | innerCombineWith i j f =>
    refine known_with (f := fun n a b => innerCombineWithS (penvOf S st mask a b) (setFnS f) n) h hs fun a b y z m m' hP hok hm hm' => ?_
    obtain ⟨h1, g, hg⟩ := hP
    obtain ⟨t, u, h2, h3, h4⟩ := is_meet hm hm' h1
    exact ⟨_, up_any (innerCombineWithS_np (e := penvOf S st mask a b) (att_or_plain b) (fok_no mask hg) _ y (.owned z) t u (Nat.le_refl _) h2 h3 h4)⟩
  | leftCombineWith i j f =>
    refine known_with (f := fun n a b => leftCombineWithS (penvOf S st mask a b) (setFnS f) n) h hs fun a b y z m m' hP hok hm hm' => ?_
    obtain ⟨h1, g, hg⟩ := hP
    obtain ⟨t, u, h2, h3, h4⟩ := is_meet hm hm' h1
    exact ⟨_, up_any (leftCombineWithS_np (e := penvOf S st mask a b) (att_or_plain b) (fun h => by cases h) (fok_no mask hg) _ y (.owned z) t u (Nat.le_refl _) h2 h3 h4)⟩
  | retainPrefixWith i j f =>
    refine known_with (f := fun n a b => retainPrefixWithS (penvOf S st mask a b) (predS f) n) h hs fun a b y z m m' hP hok hm hm' => ?_
    obtain ⟨h1, g, hg⟩ := hP
    obtain ⟨t, u, h2, h3, h4⟩ := is_meet hm hm' h1
    exact ⟨_, up_any (retainPrefixWithS_np (e := penvOf S st mask a b) (att_or_plain b) (fun h => by cases h) (pred_no mask hg) _ y (.owned z) t u (Nat.le_refl _) h2 h3 h4)⟩
  | removePrefixWith i j f =>
    refine known_with (f := fun n a b => removePrefixWithS (penvOf S st mask a b) (predS f) n) h hs fun a b y z m m' hP hok hm hm' => ?_
    obtain ⟨h1, g, hg⟩ := hP
    obtain ⟨t, u, h2, h3, h4⟩ := is_meet hm hm' h1
    exact ⟨_, up_any (removePrefixWithS_np (e := penvOf S st mask a b) (att_or_plain b) (fun h => by cases h) (pred_no mask hg) _ y (.owned z) t u (Nat.le_refl _) h2 h3 h4)⟩
  | outerCombine i j f =>
    refine known_trees (f := fun n a b m k => pnewTree (st, o) false
      ((outerCombineS (storeOf S st a).S (storeOf S st a).st (storeOf S st b).S (storeOf S st b).st (newFnS f) n m k).bind fun q => .ok (embed q))) h hs fun a b y z m m' hP hm hm' => ?_
    obtain ⟨h1, h2, hi, g, hg⟩ := hP
    obtain ⟨t, u, rfl, rfl, h3, h4, h5⟩ := is_meet2 hm hm' (fun h => (fits_both (h1 h).1).1) fun h => (fits_both (h2 h).1).1
    exact ⟨_, some_tree (rp_bindOk (outerCombineS_np (att_or_plain a) (att_or_plain b) (new_np hg hi) _ _ _ t u (Nat.le_refl _) h3 h4
      ⟨h5, fun h => (h1 h).2.1, fun h => (h1 h).2.2, fun h => (fits_both (h1 h).1).2, fun h => (h2 h).2.1, fun h => (h2 h).2.2, fun h => (fits_both (h2 h).1).2⟩))⟩
  | innerCombine i j f =>
    refine known_trees (f := fun n a b m k => pnewTree (st, o) false
      ((innerCombineS (storeOf S st a).S (storeOf S st a).st (storeOf S st b).S (storeOf S st b).st (newFnS f) n m k).bind fun q => .ok (embed q))) h hs fun a b y z m m' hP hm hm' => ?_
    obtain ⟨h1, h2, hi, g, hg⟩ := hP
    obtain ⟨t, u, -, -, h3, h4, h5⟩ := is_meet2 hm hm' h1 h2
    exact ⟨_, some_tree (rp_bindOk (innerCombineS_np (att_or_plain a) (att_or_plain b) (new_np hg hi) _ _ _ t u (Nat.le_refl _) h3 h4 h5))⟩
  | leftCombine i j f =>
    refine known_trees (f := fun n a b m k => pnewTree (st, o) false
      ((leftCombineS (storeOf S st a).S (storeOf S st a).st (storeOf S st b).S (storeOf S st b).st (newFnS f) n m k).bind fun q => .ok (embed q))) h hs fun a b y z m m' hP hm hm' => ?_
    obtain ⟨h1, h2, hi, g, hg⟩ := hP
    obtain ⟨t, u, rfl, rfl, h3, h4, h5⟩ := is_meet2 hm hm' (fun h => (h1 h).1) h2
    exact ⟨_, some_tree (rp_bindOk (leftCombineS_np (att_or_plain a) (att_or_plain b) (new_np hg hi) _ _ _ t u (Nat.le_refl _) h3 h4
      ⟨h5, fun h => (h1 h).2.1, fun h => (h1 h).2.2⟩))⟩
  | innerCombinePred i j f =>
    refine known_trees (f := fun n a b m k => panswer (st, o) .bool
      (innerCombinePredS (storeOf S st a).S (storeOf S st a).st (storeOf S st b).S (storeOf S st b).st (testFnS f) n m k)) h hs fun a b y z m m' hP hm hm' => ?_
    obtain ⟨h1, h2, g, hg⟩ := hP
    obtain ⟨t, u, -, -, h3, h4, h5⟩ := is_meet2 hm hm' h1 h2
    exact ⟨_, some_answer (innerCombinePredS_np (att_or_plain a) (att_or_plain b) test_np _ _ _ t u (Nat.le_refl _) h3 h4 h5)⟩
  | leftCombinePred i j f =>
    refine known_trees (f := fun n a b m k => panswer (st, o) .bool
      (leftCombinePredS (storeOf S st a).S (storeOf S st a).st (storeOf S st b).S (storeOf S st b).st (testFnS f) n m k)) h hs fun a b y z m m' hP hm hm' => ?_
    obtain ⟨h1, h2, g, hg⟩ := hP
    obtain ⟨t, u, -, -, h3, h4, h5⟩ := is_meet2 hm hm' h1 h2
    exact ⟨_, some_answer (leftCombinePredS_np (att_or_plain a) (att_or_plain b) test_np _ _ _ t u (Nat.le_refl _) h3 h4 h5)⟩
  | filterPrefix i p s =>
    refine known_tree (f := fun n a m => pnewTree (st, o) a (filterPrefixS (storeOf S st a).S n (storeOf S st a).st m p s)) h hs fun a y m _ hm => ?_
    obtain ⟨t, ho, hs, hr, hd⟩ := hm
    exact ⟨_, some_tree (rp_no (filterPrefixS_rep ho hr (Nat.le_refl _) p s))⟩
  | detached i =>
    refine known_tree (f := fun n a m => pnewTree (st, o) false ((detachedS (storeOf S st a).S (storeOf S st a).st n m).bind fun k => .ok (embed k))) h hs fun a y m _ hm => ?_
    obtain ⟨t, ho, hs, hr, hd⟩ := hm
    exact ⟨_, some_tree (rp_bindOk (rp_no (detachedS_rep.1 hr (Nat.le_refl _))))⟩
  | attached i =>
    refine known_tree (f := fun n a m => if a then some (.bad, (st, o)) else if levels m ≤ n then
        match attachS S m st with
        | (.ok y, st) => some (.unit, st, o ++ [.tree true y])
        | (.err e, st) => some (.err e, st, o)
        | _ => none
      else none) h hs.1 fun a y m hi hm => ?_
    cases a with
    | true => exact ⟨0, rfl⟩
    | false =>
      refine ⟨levels y, ?_⟩
      simp only [Bool.false_eq_true, if_false, Nat.le_refl, if_true]
      obtain ⟨t, ho, hsh, hr, hd⟩ := hm
      have hnp := hs.2 _ _ _ hi (isEntries ho hd)
      have hno := shape_nodes hsh
      rw [iter_eq] at hno
      have e := repPlain (plain_detached _ _) _ _ hr
      subst e
      rw [attachS_embed]
      have hp := tryAttached_rep (L := L) (g := true) t st (Or.inl rfl)
      rcases hx : tryAttached S t st with ⟨r, st1⟩
      rw [hx] at hp
      cases r with
      | ok z => rfl
      | err e => rfl
      | panic => exact (hp.2 (hnp.le (by omega))).elim
      | deep => exact (hp.2 (hnp.le (by omega))).elim
  | reattach i =>
    refine known_tree (f := fun n a m => if a then
        if levels m ≤ n then
          match reattachS S m st with
          | ((.ok id, y), st) => some (.bytes id, st, o.set i (.tree true y))
          | ((.err e, y), st) => some (.err e, st, o.set i (.tree true y))
          | _ => none
        else none
      else some (.bad, (st, o))) h hs.1 fun a y m hi hm => ?_
    cases a with
    | false => exact ⟨0, rfl⟩
    | true =>
      refine ⟨levels y, ?_⟩
      simp only [Nat.le_refl, if_true]
      obtain ⟨t, ho, hsh, hr, hd⟩ := hm
      have hnp := hs.2 _ _ _ hi (isEntries ho hd)
      have hno := shape_nodes hsh
      rw [iter_eq] at hno
      have hp : Post L _ st (tryReattach S y st) _ := tryReattach_rep (S := S) (L := L) (g := false) (g' := true) hr (Or.inl rfl)
      unfold reattachS
      rcases hx : tryReattach S y st with ⟨r, st1⟩
      rw [hx] at hp
      cases r with
      | ok z => rfl
      | err e => rfl
      | panic => exact (hp.2 (hnp.le (by omega))).elim
      | deep => exact (hp.2 (hnp.le (by omega))).elim
  | get i k =>
    refine known_tree (f := fun n a m => pnewValue (st, o) a (getS (storeOf S st a).S n (storeOf S st a).st m k)) h hs fun a y m _ hm => ?_
    obtain ⟨t, ho, hs, hr, hd⟩ := hm
    exact ⟨_, some_value (rp_no (getS_rep ho hr (Nat.le_refl _) k))⟩
  | containsKey i k =>
    refine known_tree (f := fun n a m => panswer (st, o) .bool (containsKeyS (storeOf S st a).S n (storeOf S st a).st m k)) h hs fun a y m _ hm => ?_
    obtain ⟨t, ho, hs, hr, hd⟩ := hm
    exact ⟨_, some_answer (rp_no (containsKeyS_rep ho hr (Nat.le_refl _) k))⟩
  | hasPrefix i p =>
    refine known_tree (f := fun n a m => panswer (st, o) .bool (hasPrefixS (storeOf S st a).S n (storeOf S st a).st m p)) h hs fun a y m _ hm => ?_
    obtain ⟨t, ho, hs, hr, hd⟩ := hm
    exact ⟨_, some_answer (rp_no (hasPrefixS_rep ho hr (Nat.le_refl _) p))⟩
  | firstValue i =>
    refine known_tree (f := fun n a m => pnewValue (st, o) a (firstValueS (storeOf S st a).S (storeOf S st a).st n (.owned m))) h hs fun a y m _ hm => ?_
    obtain ⟨t, ho, hs, hr, hd⟩ := hm
    exact ⟨_, some_value (rp_no (firstValueS_rep (r := .owned y) hr (Nat.le_refl _)))⟩
  | lastValue i =>
    refine known_tree (f := fun n a m => pnewValue (st, o) a (lastValueS (storeOf S st a).S (storeOf S st a).st n (.owned m))) h hs fun a y m _ hm => ?_
    obtain ⟨t, ho, hs, hr, hd⟩ := hm
    exact ⟨_, some_value (rp_no (lastValueS_rep (r := .owned y) hr (Nat.le_refl _)))⟩
  | firstEntry i p =>
    refine known_tree (f := fun n a m => pnewEntry (st, o) a (firstEntryS (storeOf S st a).S (storeOf S st a).st n p (.owned m))) h hs fun a y m _ hm => ?_
    obtain ⟨t, ho, hs, hr, hd⟩ := hm
    exact ⟨_, some_entry (rp_no (firstEntryS_rep (r := .owned y) hr (Nat.le_refl _)))⟩
  | lastEntry i p =>
    refine known_tree (f := fun n a m => pnewEntry (st, o) a (lastEntryS (storeOf S st a).S (storeOf S st a).st n p (.owned m))) h hs fun a y m _ hm => ?_
    obtain ⟨t, ho, hs, hr, hd⟩ := hm
    exact ⟨_, some_entry (rp_no (lastEntryS_rep (r := .owned y) hr (Nat.le_refl _)))⟩
  | rootValue i =>
    refine ⟨0, ?_⟩
    simp only [pstep, ponTree]
    split
    · exact some_value (E := True) (Q := fun _ => True) trivial
    · rfl
  | isEmpty i => exact ⟨0, by simp only [pstep, ponTree]; split <;> rfl⟩
  | loadValue i =>
    refine ⟨0, ?_⟩
    simp only [pstep, ploadOf]
    rcases h.1.get i with ⟨h1, h2⟩ | ⟨ob, x, h1, h2, hx⟩
    · rw [h1]; rfl
    · rw [h1]
      cases hx with
      | value hv => exact some_answer (rp_no (load_rep (shows_iff.2 hv)))
      | unknown => exact (hs h2).elim
      | _ => rfl
  | iter i => exact ⟨0, by simp only [pstep, ponTree]; split <;> rfl⟩
  | scanPrefix i p =>
    refine known_tree (f := fun n a m => pnewIter (st, o) a (scanPrefixS (storeOf S st a).S n (storeOf S st a).st m p)) h hs fun a y m _ hm => ?_
    obtain ⟨t, ho, hs, hr, hd⟩ := hm
    exact ⟨_, some_iter (rp_no (scanPrefixS_rep ho hr (Nat.le_refl _) p))⟩
  | values i => exact ⟨0, by simp only [pstep, ponTree]; split <;> rfl⟩
  | groupBy i => exact ⟨0, by simp only [pstep, ponTree]; split <;> rfl⟩
  | next i =>
    simp only [pstep, pnextOf]
    rcases h.1.get i with ⟨h1, h2⟩ | ⟨ob, x, h1, h2, hx⟩
    · rw [h1]; exact ⟨0, rfl⟩
    · rw [h1]
      cases hx with
      | @kv a s s' es hr he =>
        obtain ⟨N, hp⟩ : ∃ N, RP True False (SIter.next0 (storeOf S st a).S (storeOf S st a).st N s) fun _ => True :=
          ⟨_, rp_imp (rp_no (next0_rep hr (Nat.lt_succ_self _))) fun _ _ => trivial⟩
        refine ⟨N, ?_⟩
        simp only [SIter.next]
        cases hx : SIter.next0 (storeOf S st a).S (storeOf S st a).st N s with
        | ok x => obtain ⟨e, s1⟩ := x; cases e <;> rfl
        | err e => rfl
        | panic => rw [hx] at hp; exact hp.elim
        | deep => rw [hx] at hp; exact hp.elim
      | @vals a s s' es hr he =>
        obtain ⟨N, hp⟩ : ∃ N, RP True False (valNext0S (storeOf S st a).S (storeOf S st a).st N s) fun _ => True :=
          ⟨_, rp_imp (rp_no (valNext0_rep hr (Nat.lt_succ_self _))) fun _ _ => trivial⟩
        refine ⟨N, ?_⟩
        simp only [valNextS]
        cases hx : valNext0S (storeOf S st a).S (storeOf S st a).st N s with
        | ok x => obtain ⟨e, s1⟩ := x; cases e <;> rfl
        | err e => rfl
        | panic => rw [hx] at hp; exact hp.elim
        | deep => rw [hx] at hp; exact hp.elim
      | unknown => exact (hs h2).elim
      | _ => exact ⟨0, rfl⟩
  | nextGroup i d =>
    simp only [pstep, pnextGroupOf]
    rcases h.1.get i with ⟨h1, h2⟩ | ⟨ob, x, h1, h2, hx⟩
    · rw [h1]; exact ⟨0, rfl⟩
    · rw [h1]
      cases hx with
      | @group a s s' es hr hso he =>
        obtain ⟨N, hp⟩ : ∃ N, RP True False (groupNext0S (storeOf S st a).S (descendS d) (storeOf S st a).st N s) fun _ => True := by
          refine ⟨_, rp_imp (rp_no (groupNext0_rep (d := answerOf d) ?_ hr (Nat.lt_succ_self _))) fun _ _ => trivial⟩
          intro path r nd _
          obtain ⟨b, hb⟩ := hs.2 path
          unfold descendS answerOf
          rw [hb]
          exact rfl
        refine ⟨N, ?_⟩
        simp only [groupNextS]
        cases hx : groupNext0S (storeOf S st a).S (descendS d) (storeOf S st a).st N s with
        | ok x => obtain ⟨e, s1⟩ := x; cases e <;> rfl
        | err e => rfl
        | panic => rw [hx] at hp; exact hp.elim
        | deep => rw [hx] at hp; exact hp.elim
      | unknown => exact (hs.1 h2).elim
      | _ => exact ⟨0, rfl⟩
  | readKey i => exact ⟨0, by simp only [pstep, preadKeyOf]; split <;> rfl⟩
  | outside g => exact ⟨0, rfl⟩

/-- A session in which all calls are about things that are known. -/
theorem run_ends (mask) : ∀ (ops : List (Op σ ε)) {st : σ} {o w}, Rel L st o w → Keeping L ops → AllSafe L st w ops → ∃ N, (prun S mask N (st, o) ops).isSome := by
  intro ops
  induction ops with
  | nil => exact fun _ _ _ => ⟨0, rfl⟩
  | cons op ops ih =>
    intro st o w h hk hs
    obtain ⟨N1, h1⟩ := step_ends h mask op hs.1
    obtain ⟨⟨ob, st1, o1⟩, e1⟩ := Option.isSome_iff_exists.1 h1
    obtain ⟨w1, hst, hr⟩ := step_ok h mask N1 op (fun g hg => hk op (by simp) g hg st) ob st1 o1 e1
    obtain ⟨N2, h2⟩ := ih hr (fun op' ho g hg => hk op' (by simp [ho]) g hg) (hs.2 ob st1 w1 hst)
    obtain ⟨r, e2⟩ := Option.isSome_iff_exists.1 h2
    refine ⟨max N1 N2, ?_⟩
    rw [prun, pstep_more mask (Nat.le_max_left N1 N2) e1]
    dsimp only
    rw [prun_more mask (Nat.le_max_right N1 N2) ops e2]
    rfl

end

end Radix.Kept
