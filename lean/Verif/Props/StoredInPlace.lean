import Verif.Proofs.Touched
import Verif.Proofs.ConvFuel
import Verif.Props.StoredCombine

/-
Properties C70 and C71: the in-place operations (src/node/mod.rs 3606-3775) on trees that are attached to stores, with every
outcome.

`Att S L long st a m` (Verif/Stored/History.lean): the tree `a`, attached to the store `S` in state `st`, was made by calls
of the API that succeeded, and stands for the map `m`; this includes detached trees, with the store `detachedStore`.
`Touched S L st a A` (same file): the tree `a` was made by calls with any outcomes, and `A` are the entries that somebody put
into it. `ReadsAs L st a m` (same file): lookups, iteration and detaching of `a` give `m`.
-/

set_option linter.unusedVariables false

namespace Radix
open Node

section
variable {σ ε : Type} {S : BlobStore σ ε} {L : Lawful S} {st : σ}

theorem readsAs_of {g : Bool} {a : SNode} {n : Node} (ho : Ord n) (hr : Rep L g st a n) : ReadsAs L st a (get n) where
  get k := agrees_bind (fun n => getS_fuel a k n) (getS_rep ho hr (Nat.le_refl _) k) fun x hx => loadOptV_rep hx
  containsKey k := by
    rw [← containsKey_eq]
    exact rpost_agrees (fun n => containsKeyS_fuel a k n) (containsKeyS_rep ho hr (Nat.le_refl _) k)
  iter := ⟨Radix.iter n, iter_sorted ho, fun k v => mem_iter ho k v, fun sts hl => by
    rw [← iter_stack]; exact iter_log sts (iterS_rep hr) hl⟩
  detached := ⟨n.detached, fun k => by
    rw [get_eq_den _ _ (ord_detached n ho), get_eq_den _ _ ho, den_detached], holdsTree_of_rep hr⟩

/-- **C70**: after any sequence of calls, whether they succeeded, failed or panicked, the tree is readable as a map in key
order, and each of its entries was put there by somebody. What is missing: histories that write keys of 128 or more bytes
to the store (`C70_false`); and what an abandoned `InPlaceVecBuilder` leaves in the vector is assumed to be a part of what
was in it (`Keeps`, in `Touched`), as the source of that crate is not part of /repo. -/
theorem C70_entries_partial {a : SNode} {A : Bytes → Bytes → Prop} (h : Touched S L st a A) :
    ∃ m : Spec.Map, ReadsAs L st a m ∧ ∀ k v, m k = some v → A k v := by
  obtain ⟨n, hr, ho, hi⟩ := touched_hold h
  exact ⟨get n, readsAs_of ho hr, fun k v hk => (in_den ho).1 hi k v (by rw [← get_eq_den _ _ ho, hk])⟩

/-- **C70**: and inserting into such a tree works as into every other one: unless a read of the store fails it succeeds, and
the tree then reads as before with the entry set. -/
theorem C70_insert_partial {a : SNode} {A : Bytes → Bytes → Prop} (h : Touched S L st a A) (dbg : Bool) (ab) (k v : Bytes) :
    ∃ m : Spec.Map, ReadsAs L st a m ∧ (∀ k v, m k = some v → A k v) ∧
      Updates L st (fun fuel => insertS S st dbg ab fuel a k v) fun a' => ReadsAs L st a' (m.insert k v) := by
  obtain ⟨n, hr, ho, hi⟩ := touched_hold h
  refine ⟨get n, readsAs_of ho hr, fun k v hk => (in_den ho).1 hi k v (by rw [← get_eq_den _ _ ho, hk]), ?_⟩
  have hm : get (insert n k v) = Spec.Map.insert (get n) k v := by
    funext k'
    rw [get_eq_den _ _ (insert_good n k v ho).ord, insert_den ho, Spec.Map.insert, get_eq_den _ _ ho]
  refine updates_of (fun n => outerCombineWithS_fuel _ _ n _ _)
    (insertS_rep hr (Or.inl rfl) dbg ab (Nat.le_refl _) k v) id fun a' hoc => ?_
  have := up_of_outcome (fun fuel hf => insertS_rep hr (Or.inl rfl) dbg ab hf k v) hoc
  rw [← hm]
  exact readsAs_of (insert_good n k v ho).ord this

end

/-! ### C36 -/

section
variable {ε : Type}

theorem userF_fh (f : Bytes → Bytes → Except ε (Option Bytes)) (dbg : Bool) (ab) :
    FH (e := plainEnv ε dbg ab) (lawfulDetached ε) (lawfulDetached ε) (userF f) fun x y w => f x y = .ok w := by
  intro av bv x y ha hb
  have h1 : av = .data x := repPlain_val (plain_detached _ _) ha
  have h2 : bv = .data y := repPlain_val (plain_detached _ _) hb
  subst h1 h2
  simp only [userF]
  cases e : f x y with
  | ok v => exact ⟨v, embedVal_rep v, rfl⟩
  | error e' => trivial

theorem hold_plain {x : Res ε Unit × SNode} {C : Ents} (h : Hold (lawfulDetached ε) () x.2 C) :
    ∃ r, x.2 = embed r ∧ (iter r).Pairwise (fun x y => x.1 < y.1) ∧ (∀ k v, (k, v) ∈ iter r ↔ get r k = some v) ∧
      ∀ k v, get r k = some v → C k v := by
  obtain ⟨n, h1, h2, h3⟩ := h
  exact ⟨n, repPlain (plain_detached _ _) _ _ h1, iter_sorted h2, mem_iter h2, fun k v hk =>
    (in_den h2).1 h3 k v (by rw [← get_eq_den _ _ h2, hk])⟩

theorem reach_in {a : Node} (ha : Reachable a) : In a fun k v => get a k = some v :=
  (in_den (reach_ord ha)).2 fun k v hk => by rw [get_eq_den _ _ (reach_ord ha), hk]

/-- **C36**, what is left in the target when the function of the user fails (or does not): the target is a map in key order,
and each entry of it was an entry of the target, or (`outer_combine_with`) is one of the other tree, or is a result of the
function for the values that the two trees had at this key. What is missing: entries of the target can be lost
(`C36_false`); and `Keeps ab` is assumed of the abandoned `InPlaceVecBuilder`. -/
theorem C36_no_invention_partial {a b : Node} (ha : Reachable a) (hb : Reachable b) (dbg : Bool) {ab} (hab : Keeps ab)
    (f : Bytes → Bytes → Except ε (Option Bytes)) (fuel : Nat) :
    (∃ r, (outerF dbg ab f a b fuel).2 = embed r ∧ (iter r).Pairwise (fun x y => x.1 < y.1) ∧
      (∀ k v, (k, v) ∈ iter r ↔ get r k = some v) ∧ ∀ k v, get r k = some v → get a k = some v ∨ get b k = some v ∨
        ∃ x y, get a k = some x ∧ get b k = some y ∧ f x y = .ok (some v)) ∧
    (∃ r, (innerF dbg ab f a b fuel).2 = embed r ∧ (iter r).Pairwise (fun x y => x.1 < y.1) ∧
      (∀ k v, (k, v) ∈ iter r ↔ get r k = some v) ∧ ∀ k v, get r k = some v → get a k = some v ∨
        ∃ x y, get a k = some x ∧ get b k = some y ∧ f x y = .ok (some v)) ∧
    (∃ r, (leftF dbg ab f a b fuel).2 = embed r ∧ (iter r).Pairwise (fun x y => x.1 < y.1) ∧
      (∀ k v, (k, v) ∈ iter r ↔ get r k = some v) ∧ ∀ k v, get r k = some v → get a k = some v ∨
        ∃ x y, get a k = some x ∧ get b k = some y ∧ f x y = .ok (some v)) := by
  have oa := reach_ord ha
  have ob := reach_ord hb
  have ia := reach_in ha
  have ib := reach_in hb
  refine ⟨hold_plain ?_, hold_plain ?_, hold_plain ?_⟩
  · exact (outer_hold (e := plainEnv ε dbg ab) (gb := false) (convH_detach (lawfulDetached ε) () false dbg ab fuel) (userF_fh f dbg ab)
      hab fuel (fun _ _ => Or.inl) (fun _ _ h => Or.inr (Or.inl h))
      (fun k x y v h1 h2 h3 => Or.inr (Or.inr ⟨x, y, h1, h2, h3⟩)) _ (.owned (embed b)) _ _ (embed_rep a) oa ia (embed_rep b) ob ib).1
  · exact (inner_hold (e := plainEnv ε dbg ab) (gb := false) (userF_fh f dbg ab)
      hab fuel (fun _ _ => Or.inl)
      (fun k x y v h1 h2 h3 => Or.inr ⟨x, y, h1, h2, h3⟩) _ (.owned (embed b)) _ _ (embed_rep a) oa ia (embed_rep b) ob ib).1
  · exact (left_hold (e := plainEnv ε dbg ab) (gb := false) (userF_fh f dbg ab)
      hab fuel (fun _ _ => Or.inl)
      (fun k x y v h1 h2 h3 => Or.inr ⟨x, y, h1, h2, h3⟩) _ (.owned (embed b)) _ _ (embed_rep a) oa ia (embed_rep b) ob ib).1

/-- A vector that keeps what is done and what is left, and one that keeps only what is done. -/
example : Keeps (fun d s => d ++ s) ∧ Keeps (fun d _ => d) :=
  ⟨fun d s => List.Sublist.refl _, fun d s => List.sublist_append_left d s⟩

end

/-! ### C71 -/

section
variable {σ τ ε : Type} {S : BlobStore σ ε} {T : BlobStore τ ε}

/-- The function of the user fails on some values. -/
def FailsOn (L : Lawful S) (st : σ) (M : Lawful T) (st' : τ) (f : BlobV → BlobV → Res ε BlobV) : Prop :=
  ∃ av bv x y e, IsValue L st av x ∧ IsValue M st' bv y ∧ f av bv = .err e

/-- The function of the user panics on some values. -/
def PanicsOn (L : Lawful S) (st : σ) (M : Lawful T) (st' : τ) (f : BlobV → BlobV → Res ε BlobV) : Prop :=
  ∃ av bv x y, IsValue L st av x ∧ IsValue M st' bv y ∧ f av bv = .panic

/-- The predicate of the user fails on some value. -/
def PredFailsOn (M : Lawful T) (st' : τ) (p : BlobV → Res ε Bool) : Prop := ∃ bv y e, IsValue M st' bv y ∧ p bv = .err e

/-- The predicate of the user panics on some value. -/
def PredPanicsOn (M : Lawful T) (st' : τ) (p : BlobV → Res ε Bool) : Prop := ∃ bv y, IsValue M st' bv y ∧ p bv = .panic

/-- The call returns: it succeeds with a tree as described by `Q`; or it returns an error, and a store cannot be read or the
function of the user fails; or it panics, which it does only if `P`. -/
def Ends (L : Lawful S) (st : σ) (M : Lawful T) (st' : τ) (fails P : Prop) (x : Nat → Res ε Unit × SNode)
    (Q : SNode → Prop) : Prop :=
  ∃ r, Outcome x r ∧ ((∃ a', r = (.ok (), a') ∧ Q a') ∨
    (∃ e a', r = (.err e, a')) ∧ (¬ ReadsSucceed L st ∨ ¬ ReadsSucceed M st' ∨ fails) ∨ (∃ a', r = (.panic, a')) ∧ P)

variable {L : Lawful S} {M : Lawful T} {st : σ} {st' : τ}

theorem ends_of {x : Nat → Res ε Unit × SNode} {fails P : Prop} {Q Q' : SNode → Prop} (hm : ∀ n, LeP (x n) (x (n + 1)))
    {N : Nat} (h : UP (¬ ReadsSucceed L st ∨ ¬ ReadsSucceed M st' ∨ fails) P (x N) fun _ => Q')
    (hQ : ∀ a', Outcome x (.ok (), a') → Q a') : Ends L st M st' fails P x Q := by
  have hd : (x N).1 ≠ .deep := by
    intro e; unfold UP at h; rw [e] at h; exact h
  have ho := outcome_fuelP hm hd
  refine ⟨_, ho, ?_⟩
  rcases hr : x N with ⟨r, y⟩
  rw [hr] at h ho
  cases r with
  | ok u => exact Or.inl ⟨y, rfl, hQ _ ho⟩
  | err e => exact Or.inr (Or.inl ⟨⟨e, y, rfl⟩, h⟩)
  | panic => exact Or.inr (Or.inr ⟨⟨y, rfl⟩, h⟩)
  | deep => exact h.elim

theorem fok_ends {f : BlobV → BlobV → Res ε BlobV} {ff : Bytes → Bytes → Option Bytes} (dbg : Bool) (ab) {P : Prop}
    (hf : Computes L st M st' f fun x y w => w = ff x y) (hP : PanicsOn L st M st' f → P) :
    FOK (e := ⟨S, st, T, st', dbg, ab⟩) L M (¬ ReadsSucceed L st ∨ ¬ ReadsSucceed M st' ∨ FailsOn L st M st' f) P f ff :=
  computes_fokE dbg ab hf (fun av bv x y e h1 h2 h3 => Or.inr (Or.inr ⟨av, bv, x, y, e, h1, h2, h3⟩))
    fun av bv x y h1 h2 h3 => hP ⟨av, bv, x, y, h1, h2, h3⟩

theorem pred_ends {p : BlobV → Res ε Bool} {pp : Bytes → Bool} (dbg : Bool) (ab) {P : Prop} (hf : Decides M st' p pp)
    (hP : PredPanicsOn M st' p → P) :
    PredOK (e := ⟨S, st, T, st', dbg, ab⟩) M (¬ ReadsSucceed L st ∨ ¬ ReadsSucceed M st' ∨ PredFailsOn M st' p) P p pp :=
  decides_predE dbg ab hf (fun bv y e h1 h2 => Or.inr (Or.inr ⟨bv, y, e, h1, h2⟩)) fun bv y h1 h2 => hP ⟨bv, y, h1, h2⟩

theorem uok_ends (dbg : Bool) (ab) {P fails : Prop} (hP : P ∨ Plain M st') :
    UOK (e := ⟨S, st, T, st', dbg, ab⟩) L M (¬ ReadsSucceed L st ∨ ¬ ReadsSucceed M st' ∨ fails) P :=
  ⟨Or.inl, fun h => Or.inr (Or.inl h), hP⟩

variable {a b : SNode} {m m' : Spec.Map} {long : Bool} {f : BlobV → BlobV → Res ε BlobV} {ff : Bytes → Bytes → Option Bytes}
  {p : BlobV → Res ε Bool} {pp : Bytes → Bool}

/-- **C71**, `outer_combine_with`, the other tree detached, with or without debug assertions: it panics only if the function
of the user does, and when it succeeds, the target stands for the union. -/
theorem C71_outer_detached {M : Lawful (detachedStore ε)} (ha : Att S L false st a m)
    (hb : Att (detachedStore ε) M long () b m') (dbg : Bool) (ab) (hf : Computes L st M () f fun x y w => w = ff x y) :
    Ends L st M () (FailsOn L st M () f) (PanicsOn L st M () f)
      (fun fuel => outerCombineWithS ⟨S, st, detachedStore ε, (), dbg, ab⟩ (.downcast ε) f fuel a (.owned b))
      fun a' => Att S L false st a' (m.combine (Spec.outer ff) m') := by
  obtain ⟨t, ho, hs, hr, hd⟩ := att_stands ha
  obtain ⟨u, ho', hs', hr', hd'⟩ := att_stands hb
  exact ends_of (fun n => outerCombineWithS_fuel _ _ n _ _)
    (outerCombineWithS_rep (e := ⟨S, st, detachedStore ε, (), dbg, ab⟩) (uok_ends dbg ab (Or.inr (plain_detached M ())))
      (conv_downcast L (M := M) st false long _ _ dbg ab u.nodes) (fok_ends dbg ab hf id) (Or.inl rfl) _ a (.owned b) t u
      (Nat.le_refl _) (Nat.le_refl _) (Or.inl rfl) hr ⟨hr', Or.inr ⟨_, rfl⟩⟩)
    fun a' hoc => .outerDowncast dbg ab ff rfl ha hb hf hoc

/-- **C71**, `outer_combine_with`, the other tree attached to the same store: when it succeeds, the target stands for the
union. What is missing: it can panic (`C71_false`). -/
theorem C71_outer_attached_partial (ha : Att S L false st a m) (hb : Att S L false st b m') (dbg : Bool) (ab)
    (hf : Computes L st L st f fun x y w => w = ff x y) :
    Ends L st L st (FailsOn L st L st f) True
      (fun fuel => outerCombineWithS ⟨S, st, S, st, dbg, ab⟩ (.identity S st) f fuel a (.owned b))
      fun a' => Att S L false st a' (m.combine (Spec.outer ff) m') := by
  obtain ⟨t, ho, hs, hr, hd⟩ := att_stands ha
  obtain ⟨u, ho', hs', hr', hd'⟩ := att_stands hb
  exact ends_of (fun n => outerCombineWithS_fuel _ _ n _ _)
    (outerCombineWithS_rep (e := ⟨S, st, S, st, dbg, ab⟩) (uok_ends dbg ab (Or.inl trivial))
      (conv_identity st false dbg ab u.nodes Or.inl) (fok_ends dbg ab hf fun _ => trivial) (Or.inl rfl) _ a (.owned b) t u
      (Nat.le_refl _) (Nat.le_refl _) (Or.inl rfl) hr ⟨hr', Or.inl trivial⟩)
    fun a' hoc => .outerIdentity dbg ab ff rfl ha hb hf hoc

/-- **C71**, `outer_combine_with`, the target detached and the other tree attached to any store, also with long keys: when it
succeeds, the target stands for the union. What is missing: it can panic (`C71_false`). -/
theorem C71_outer_detach_partial {L : Lawful (detachedStore ε)} (ha : Att (detachedStore ε) L false () a m)
    (hb : Att T M long st' b m') (dbg : Bool) (ab) (hf : Computes L () M st' f fun x y w => w = ff x y) :
    Ends L () M st' (FailsOn L () M st' f) True
      (fun fuel => outerCombineWithS ⟨detachedStore ε, (), T, st', dbg, ab⟩ (.detach T st' fuel) f fuel a (.owned b))
      fun a' => Att (detachedStore ε) L false () a' (m.combine (Spec.outer ff) m') := by
  obtain ⟨t, ho, hs, hr, hd⟩ := att_stands ha
  obtain ⟨u, ho', hs', hr', hd'⟩ := att_stands hb
  exact ends_of (N := t.nodes + 3 * u.nodes) (fun n => outerDetach_fuel _ _ _ _ _ n)
    (outerCombineWithS_rep (e := ⟨detachedStore ε, (), T, st', dbg, ab⟩) (uok_ends dbg ab (Or.inl trivial))
      (conv_detach L st' long dbg ab (B := u.nodes) (by omega) fun h => Or.inr (Or.inl h)) (fok_ends dbg ab hf fun _ => trivial)
      (Or.inl rfl) _ a (.owned b) t u (by omega) (Nat.le_refl _) (Or.inl rfl) hr ⟨hr', Or.inl trivial⟩)
    fun a' hoc => .outerDetach dbg ab ff rfl ha hb hf hoc

/-- **C71**, `inner_combine_with`, the other tree detached. -/
theorem C71_inner_detached {M : Lawful (detachedStore ε)} (ha : Att S L false st a m)
    (hb : Att (detachedStore ε) M long () b m') (dbg : Bool) (ab) (hf : Computes L st M () f fun x y w => w = ff x y) :
    Ends L st M () (FailsOn L st M () f) (PanicsOn L st M () f)
      (fun fuel => innerCombineWithS ⟨S, st, detachedStore ε, (), dbg, ab⟩ f fuel a (.owned b))
      fun a' => Att S L false st a' (m.combine (Spec.inner ff) m') := by
  obtain ⟨t, ho, hs, hr, hd⟩ := att_stands ha
  obtain ⟨u, ho', hs', hr', hd'⟩ := att_stands hb
  exact ends_of (fun n => innerCombineWithS_fuel _ n _ _)
    (innerCombineWithS_rep (e := ⟨S, st, detachedStore ε, (), dbg, ab⟩) (uok_ends dbg ab (Or.inr (plain_detached M ())))
      (fok_ends dbg ab hf id) _ a (.owned b) t u (Nat.le_refl _) hr ⟨hr', Or.inr ⟨_, rfl⟩⟩)
    fun a' hoc => .innerWith dbg ab ff rfl ha hb hf hoc

/-- **C71**, `inner_combine_with`, both trees attached, to the same or to different stores. What is missing: it can panic
(`C71_false`). -/
theorem C71_inner_attached_partial (ha : Att S L false st a m) (hb : Att T M long st' b m') (dbg : Bool) (ab)
    (hf : Computes L st M st' f fun x y w => w = ff x y) :
    Ends L st M st' (FailsOn L st M st' f) True
      (fun fuel => innerCombineWithS ⟨S, st, T, st', dbg, ab⟩ f fuel a (.owned b))
      fun a' => Att S L false st a' (m.combine (Spec.inner ff) m') := by
  obtain ⟨t, ho, hs, hr, hd⟩ := att_stands ha
  obtain ⟨u, ho', hs', hr', hd'⟩ := att_stands hb
  exact ends_of (fun n => innerCombineWithS_fuel _ n _ _)
    (innerCombineWithS_rep (e := ⟨S, st, T, st', dbg, ab⟩) (uok_ends dbg ab (Or.inl trivial))
      (fok_ends dbg ab hf fun _ => trivial) _ a (.owned b) t u (Nat.le_refl _) hr ⟨hr', Or.inl trivial⟩)
    fun a' hoc => .innerWith dbg ab ff rfl ha hb hf hoc

/-- **C71**, `left_combine_with`, the other tree detached. What is missing: with debug assertions it can panic
(`C71_debug_false`). -/
theorem C71_left_detached_partial {M : Lawful (detachedStore ε)} (ha : Att S L false st a m)
    (hb : Att (detachedStore ε) M long () b m') (dbg : Bool) (ab) (hf : Computes L st M () f fun x y w => w = ff x y) :
    Ends L st M () (FailsOn L st M () f) (PanicsOn L st M () f ∨ dbg = true)
      (fun fuel => leftCombineWithS ⟨S, st, detachedStore ε, (), dbg, ab⟩ f fuel a (.owned b))
      fun a' => Att S L false st a' (m.combine (Spec.left ff) m') := by
  obtain ⟨t, ho, hs, hr, hd⟩ := att_stands ha
  obtain ⟨u, ho', hs', hr', hd'⟩ := att_stands hb
  exact ends_of (fun n => leftCombineWithS_fuel _ n _ _)
    (leftCombineWithS_rep (e := ⟨S, st, detachedStore ε, (), dbg, ab⟩) (uok_ends dbg ab (Or.inr (plain_detached M ())))
      (fun h => Or.inl (Or.inr h)) (fok_ends dbg ab hf Or.inl) _ a (.owned b) t u (Nat.le_refl _) (Or.inl hs) hr
      ⟨hr', Or.inr ⟨_, rfl⟩⟩)
    fun a' hoc => .leftWith dbg ab ff rfl ha hb hf hoc

/-- **C71**, `left_combine_with`, both trees attached. What is missing: it can panic (`C71_false`). -/
theorem C71_left_attached_partial (ha : Att S L false st a m) (hb : Att T M long st' b m') (dbg : Bool) (ab)
    (hf : Computes L st M st' f fun x y w => w = ff x y) :
    Ends L st M st' (FailsOn L st M st' f) True
      (fun fuel => leftCombineWithS ⟨S, st, T, st', dbg, ab⟩ f fuel a (.owned b))
      fun a' => Att S L false st a' (m.combine (Spec.left ff) m') := by
  obtain ⟨t, ho, hs, hr, hd⟩ := att_stands ha
  obtain ⟨u, ho', hs', hr', hd'⟩ := att_stands hb
  exact ends_of (fun n => leftCombineWithS_fuel _ n _ _)
    (leftCombineWithS_rep (e := ⟨S, st, T, st', dbg, ab⟩) (uok_ends dbg ab (Or.inl trivial)) (fun _ => Or.inl trivial)
      (fok_ends dbg ab hf fun _ => trivial) _ a (.owned b) t u (Nat.le_refl _) (Or.inl hs) hr ⟨hr', Or.inl trivial⟩)
    fun a' hoc => .leftWith dbg ab ff rfl ha hb hf hoc

/-- **C71**, `remove_prefix_with`, the other tree detached: the entries below a selected key of the other tree go away. What
is missing: with debug assertions it can panic (`C71_debug_false`). -/
theorem C71_remove_prefix_detached_partial {M : Lawful (detachedStore ε)} (ha : Att S L false st a m)
    (hb : Att (detachedStore ε) M long () b m') (dbg : Bool) (ab) (hf : Decides M () p pp) :
    Ends L st M () (PredFailsOn M () p) (PredPanicsOn M () p ∨ dbg = true)
      (fun fuel => removePrefixWithS ⟨S, st, detachedStore ε, (), dbg, ab⟩ p fuel a (.owned b))
      fun a' => Att S L false st a' (m.removePrefix pp m') := by
  obtain ⟨t, ho, hs, hr, hd⟩ := att_stands ha
  obtain ⟨u, ho', hs', hr', hd'⟩ := att_stands hb
  exact ends_of (fun n => removePrefixWithS_fuel _ n _ _)
    (removePrefixWithS_rep (e := ⟨S, st, detachedStore ε, (), dbg, ab⟩) (uok_ends dbg ab (Or.inr (plain_detached M ())))
      (fun h => Or.inl (Or.inr h)) (pred_ends dbg ab hf Or.inl) _ a (.owned b) t u (Nat.le_refl _) (Or.inl hs) hr
      ⟨hr', Or.inr ⟨_, rfl⟩⟩)
    fun a' hoc => .removeWith dbg ab pp rfl ha hb hf hoc

/-- **C71**, `remove_prefix_with`, both trees attached. What is missing: it can panic (`C71_false`). -/
theorem C71_remove_prefix_attached_partial (ha : Att S L false st a m) (hb : Att T M long st' b m') (dbg : Bool) (ab)
    (hf : Decides M st' p pp) :
    Ends L st M st' (PredFailsOn M st' p) True
      (fun fuel => removePrefixWithS ⟨S, st, T, st', dbg, ab⟩ p fuel a (.owned b))
      fun a' => Att S L false st a' (m.removePrefix pp m') := by
  obtain ⟨t, ho, hs, hr, hd⟩ := att_stands ha
  obtain ⟨u, ho', hs', hr', hd'⟩ := att_stands hb
  exact ends_of (fun n => removePrefixWithS_fuel _ n _ _)
    (removePrefixWithS_rep (e := ⟨S, st, T, st', dbg, ab⟩) (uok_ends dbg ab (Or.inl trivial)) (fun _ => Or.inl trivial)
      (pred_ends dbg ab hf fun _ => trivial) _ a (.owned b) t u (Nat.le_refl _) (Or.inl hs) hr ⟨hr', Or.inl trivial⟩)
    fun a' hoc => .removeWith dbg ab pp rfl ha hb hf hoc

/-- **C71**, `retain_prefix_with`, the other tree detached: the entries below selected keys of the other tree stay, except
those that C20 says are missed (`retainPast`; none if no selected key extends a rejected one). What is missing: with debug
assertions it can panic. -/
theorem C71_retain_prefix_detached_partial {M : Lawful (detachedStore ε)} (ha : Att S L false st a m)
    (hb : Att (detachedStore ε) M long () b m') (dbg : Bool) (ab) (hf : Decides M () p pp) :
    Ends L st M () (PredFailsOn M () p) (PredPanicsOn M () p ∨ dbg = true)
      (fun fuel => retainPrefixWithS ⟨S, st, detachedStore ε, (), dbg, ab⟩ p fuel a (.owned b))
      fun a' => Att S L false st a' (m.retainPast pp m') := by
  obtain ⟨t, ho, hs, hr, hd⟩ := att_stands ha
  obtain ⟨u, ho', hs', hr', hd'⟩ := att_stands hb
  exact ends_of (fun n => retainPrefixWithS_fuel _ n _ _)
    (retainPrefixWithS_rep (e := ⟨S, st, detachedStore ε, (), dbg, ab⟩) (uok_ends dbg ab (Or.inr (plain_detached M ())))
      (fun h => Or.inl (Or.inr h)) (pred_ends dbg ab hf Or.inl) _ a (.owned b) t u (Nat.le_refl _) (Or.inl hs) hr
      ⟨hr', Or.inr ⟨_, rfl⟩⟩)
    fun a' hoc => .retainWith dbg ab pp rfl ha hb hf hoc

/-- **C71**, `retain_prefix_with`, both trees attached. What is missing: it can panic (`C71_false`). -/
theorem C71_retain_prefix_attached_partial (ha : Att S L false st a m) (hb : Att T M long st' b m') (dbg : Bool) (ab)
    (hf : Decides M st' p pp) :
    Ends L st M st' (PredFailsOn M st' p) True
      (fun fuel => retainPrefixWithS ⟨S, st, T, st', dbg, ab⟩ p fuel a (.owned b))
      fun a' => Att S L false st a' (m.retainPast pp m') := by
  obtain ⟨t, ho, hs, hr, hd⟩ := att_stands ha
  obtain ⟨u, ho', hs', hr', hd'⟩ := att_stands hb
  exact ends_of (fun n => retainPrefixWithS_fuel _ n _ _)
    (retainPrefixWithS_rep (e := ⟨S, st, T, st', dbg, ab⟩) (uok_ends dbg ab (Or.inl trivial)) (fun _ => Or.inl trivial)
      (pred_ends dbg ab hf fun _ => trivial) _ a (.owned b) t u (Nat.le_refl _) (Or.inl hs) hr ⟨hr', Or.inl trivial⟩)
    fun a' hoc => .retainWith dbg ab pp rfl ha hb hf hoc

end

/-! ### Concrete cases -/

theorem memTree_short {t : Node} (h : Proper t) (ho : okB (tryAttached memStore t []).1 = true)
    (hs : ((iter t).all fun e => decide (e.1.length < 128)) = true) :
    Att memStore memLawful false (memState t) (memTree t) (get t) :=
  .attach h (fun _ => short_of_iter h.reachable hs) (memTree_eq ho)

/-- A function of the user that loads both values and joins them, or fails when the second one is 7. -/
def joinF (st : MemState) (av bv : BlobV) : Res Unit BlobV :=
  (av.load memStore st).bind fun x => (bv.load memStore st).bind fun y => if y = [7] then .err () else .ok (.data (x ++ y))

/-- The combination of an attached tree with a detached one, with that function. -/
def joinInto (t u : Node) (fuel : Nat) : Res Unit Unit × SNode :=
  outerCombineWithS ⟨memStore, memState t, detachedStore Unit, (), true, fun a _ => a⟩ (.downcast Unit) (joinF (memState t)) fuel
    (memTree t) (.owned (embed u))

theorem joinF_computes (st : MemState) (M : Lawful (detachedStore Unit)) :
    Computes memLawful st M () (joinF st) fun x y w => w = some (x ++ y) := by
  intro av bv x y ha hb
  have hb : bv = .data y := repPlain_val (plain_detached M ()) (isValue_iff.1 hb)
  subst hb
  have h1 := load_rep (S := memStore) (isValue_iff.1 ha)
  have h2 : av.load memStore st = .ok x := by
    cases e : av.load memStore st with
    | ok z => rw [e] at h1; exact congrArg _ h1
    | err _ => rw [e] at h1; exact absurd (mem_readsSucceed st) h1
    | panic => rw [e] at h1; exact h1.elim
    | deep => rw [e] at h1; exact h1.elim
  have h3 : (BlobV.data y).load memStore st = .ok y := rfl
  simp only [joinF, h2, h3, Res.bind]
  split
  · exact ⟨by simp, fun v h => by cases h⟩
  · refine ⟨by simp, fun v h => Or.inr ?_⟩
    cases h
    exact ⟨x ++ y, Or.inl rfl, rfl⟩

/-- C71 applies to the attached tree with the keys 1,1 and 1,2, and the detached one with the keys 1,2 and 1,3, and the
outcome is a success. -/
example : ∃ a', Outcome (joinInto joinA (fromIter [([1, 2], [8]), ([1, 3], [9])])) (.ok (), a') ∧
    Att memStore memLawful false (memState joinA) a'
      (Spec.Map.combine (Spec.outer fun x y => some (x ++ y)) (get joinA) (get (fromIter [([1, 2], [8]), ([1, 3], [9])]))) ∧
    Outcome (fun fuel => getLoadS memStore fuel (memState joinA) a' [1, 2]) (.ok (some [6, 8])) := by
  have ha := memTree_short (t := joinA) (.fromIter _) (by decide +kernel) (by decide +kernel)
  have h : (joinInto joinA (fromIter [([1, 2], [8]), ([1, 3], [9])]) 20).1 = .ok () := by decide +kernel
  have ho := outcome_fuelP (f := joinInto joinA (fromIter [([1, 2], [8]), ([1, 3], [9])]))
    (fun n => outerCombineWithS_fuel _ _ n _ _) (N := 20) (by rw [h]; simp)
  obtain ⟨r, ho', hr⟩ := C71_outer_detached (M := lawfulDetached Unit) (long := false) ha (.plain () (.fromIter _)) true (fun a _ => a)
    (joinF_computes _ _)
  have e := outcome_unique ho ho'
  rcases hr with ⟨a', rfl, hatt⟩ | ⟨⟨e', a', rfl⟩, _⟩ | ⟨⟨a', rfl⟩, _⟩
  · refine ⟨a', ho', hatt, ?_⟩
    have := agrees_success (C33_get hatt [1, 2]) (mem_readsSucceed _)
    rw [show (Spec.Map.combine (Spec.outer fun x y => some (x ++ y)) (get joinA)
      (get (fromIter [([1, 2], [8]), ([1, 3], [9])]))) [1, 2] = some [6, 8] by decide +kernel] at this
    exact this
  · rw [e] at h; cases h
  · rw [e] at h; cases h

/-- C70 applies to a tree after a failed call: the attached tree with the entries 1,1 → 5 and 1,2 → 6 is to be united with
the entries 1,1 → 7 and 1,3 → 8, and the function of the user fails on the key 1,1. -/
example : ∃ a', Outcome (joinInto joinA joinB) (.err (), a') ∧ ∃ A, Touched memStore memLawful (memState joinA) a' A ∧
    A [1, 1] [5] ∧ A [1, 3] [8] ∧ A [1, 1] [5, 7] ∧ ¬ A [1, 1] [6] ∧ ¬ A [1, 2] [5] := by
  have ha := memTree_short (t := joinA) (.fromIter _) (by decide +kernel) (by decide +kernel)
  have h : (joinInto joinA joinB 20).1 = .err () := by decide +kernel
  have ho := outcome_fuelP (f := joinInto joinA joinB) (fun n => outerCombineWithS_fuel _ _ n _ _) (N := 20) (by rw [h]; simp)
  rw [show joinInto joinA joinB 20 = (.err (), (joinInto joinA joinB 20).2) from Prod.ext h rfl] at ho
  refine ⟨_, ho, _, Touched.outerDowncast (M := lawfulDetached Unit) true (fun d s => List.sublist_append_left d s)
    (.start ha) (.start (.plain () (.fromIter _))) (joinF_computes _ _) ho, ?_, ?_, ?_, ?_, ?_⟩
  · exact Or.inl (by decide +kernel)
  · exact Or.inr (Or.inl (by decide +kernel))
  · exact Or.inr (Or.inr ⟨[5], [7], by decide +kernel, by decide +kernel, rfl⟩)
  · rintro (h | h | ⟨x, y, h1, h2, h3⟩)
    · revert h; decide +kernel
    · revert h; decide +kernel
    · have e1 : get joinA [1, 1] = some [5] := by decide +kernel
      have e2 : get (fromIter [([1, 1], [7]), ([1, 3], [8])]) [1, 1] = some [7] := by decide +kernel
      rw [e1] at h1; rw [e2] at h2
      cases h1; cases h2; cases h3
  · rintro (h | h | ⟨x, y, h1, h2, h3⟩)
    · revert h; decide +kernel
    · revert h; decide +kernel
    · have e2 : get (fromIter [([1, 1], [7]), ([1, 3], [8])]) [1, 2] = none := by decide +kernel
      rw [e2] at h2; cases h2

/-! ### What is false -/

/-- **C70** is false if keys are long: removing one of two keys that share their first 128 bytes from an attached tree
succeeds, and afterwards the tree has an entry with a key of ten bytes that nobody ever put there. -/
theorem C70_false : ∃ a st a', Att memStore memLawful true st a (get longTree) ∧
    get longTree [120, 0, 0, 0, 0, 0, 0, 0, 1, 2] = none ∧
    Outcome (fun fuel => removeS memStore st false (fun a _ => a) fuel a (List.replicate 128 120 ++ [1])) (.ok (), a') ∧
    Outcome (fun fuel => getLoadS memStore fuel st a' [120, 0, 0, 0, 0, 0, 0, 0, 1, 2]) (.ok (some [2])) := by
  refine ⟨memTree longTree, memState longTree, (removeS memStore (memState longTree) false (fun a _ => a) 10
    (memTree longTree) (List.replicate 128 120 ++ [1])).2, memTree_att (.fromIter _) (by decide +kernel), by decide +kernel, ?_, ?_⟩
  · have h : (removeS memStore (memState longTree) false (fun a _ => a) 10 (memTree longTree)
      (List.replicate 128 120 ++ [1])).1 = .ok () := by decide +kernel
    have := outcome_fuelP (f := fun fuel => removeS memStore (memState longTree) false (fun a _ => a) fuel
      (memTree longTree) (List.replicate 128 120 ++ [1])) (fun n => leftCombineWithS_fuel _ n _ _) (N := 10)
      (by show _ ≠ _; rw [h]; simp)
    rwa [← h]
  · have h : getLoadS memStore 10 (memState longTree) (removeS memStore (memState longTree) false (fun a _ => a) 10
      (memTree longTree) (List.replicate 128 120 ++ [1])).2 [120, 0, 0, 0, 0, 0, 0, 0, 1, 2] = .ok (some [2]) := by
      decide +kernel
    rw [← h]
    exact outcome_fuel (f := fun fuel => getLoadS memStore fuel _ _ _)
      (fun n => leR_bind (getS_fuel _ _ n) fun _ => leR_refl _) (by show _ ≠ _; rw [h]; simp)

theorem panic_of {f : Nat → Res Unit Unit × SNode} (hm : ∀ n, LeP (f n) (f (n + 1))) {N : Nat}
    (h : panicB (f N).1 = true) : Outcome (fun fuel => (f fuel).1) .panic := by
  have h : (f N).1 = .panic := by cases e : (f N).1 <;> rw [e] at h <;> first | rfl | cases h
  obtain ⟨M, hM⟩ := outcome_fuelP hm (N := N) (by rw [h]; simp)
  exact ⟨M, fun fuel hf => by show (f fuel).1 = _; rw [hM fuel hf, h]⟩

/-- A tree whose nodes below the root have prefixes of more than one byte. -/
def deepTree : Node := fromIter [([1, 1, 1, 5], [5]), ([1, 1, 1, 6], [6]), ([1, 2, 1, 1], [7])]
/-- A tree with keys that end within those prefixes. -/
def flatTree : Node := fromIter [([1, 1], [9]), ([1, 2], [4])]

/-- **C71** is false if the other tree is attached: all five operations panic for these two small trees, without debug
assertions, with a function that always succeeds. -/
theorem C71_false : ∃ t u b s,
    Att memStore memLawful false s b (get u) ∧ Proper t ∧ iter t = [([1, 1], [9]), ([1, 2], [4])] ∧
    iter u = [([1, 1, 1, 5], [5]), ([1, 1, 1, 6], [6]), ([1, 2, 1, 1], [7])] ∧
    Outcome (fun fuel => (outerCombineWithS ⟨memStore, s, memStore, s, false, fun a _ => a⟩ (.identity memStore s) (fun x _ => .ok x)
      fuel (embed t) (.owned b)).1) .panic ∧
    Outcome (fun fuel => (innerCombineWithS ⟨memStore, s, memStore, s, false, fun a _ => a⟩ (fun x _ => .ok x)
      fuel (embed t) (.owned b)).1) .panic ∧
    Outcome (fun fuel => (leftCombineWithS ⟨memStore, s, memStore, s, false, fun a _ => a⟩ (fun x _ => .ok x)
      fuel (embed t) (.owned b)).1) .panic ∧
    Outcome (fun fuel => (retainPrefixWithS ⟨memStore, s, memStore, s, false, fun a _ => a⟩ (fun _ => .ok true)
      fuel (embed t) (.owned b)).1) .panic ∧
    Outcome (fun fuel => (removePrefixWithS ⟨memStore, s, memStore, s, false, fun a _ => a⟩ (fun _ => .ok true)
      fuel (embed t) (.owned b)).1) .panic := by
  refine ⟨flatTree, deepTree, _, _, memTree_short (t := deepTree) (.fromIter _) (by decide +kernel) (by decide +kernel),
    .fromIter _, by decide +kernel, by decide +kernel, ?_, ?_, ?_, ?_, ?_⟩
  · exact panic_of (fun n => outerCombineWithS_fuel _ _ n _ _) (N := 20) (by decide +kernel)
  · exact panic_of (fun n => innerCombineWithS_fuel _ n _ _) (N := 20) (by decide +kernel)
  · exact panic_of (fun n => leftCombineWithS_fuel _ n _ _) (N := 20) (by decide +kernel)
  · exact panic_of (fun n => retainPrefixWithS_fuel _ n _ _) (N := 20) (by decide +kernel)
  · exact panic_of (fun n => removePrefixWithS_fuel _ n _ _) (N := 20) (by decide +kernel)

/-- **C71** is false with debug assertions for `left_combine_with` and `remove_prefix_with`, also if the other tree is
detached. -/
theorem C71_debug_false : ∃ t a s,
    Att memStore memLawful false s a (get t) ∧ iter t = [([1, 1], [5]), ([1, 2], [6])] ∧
    Outcome (fun fuel => (leftCombineWithS ⟨memStore, s, detachedStore Unit, (), true, fun a _ => a⟩ (fun x _ => .ok x)
      fuel a (.owned (embed (single [5] [5])))).1) .panic ∧
    Outcome (fun fuel => (removePrefixWithS ⟨memStore, s, detachedStore Unit, (), true, fun a _ => a⟩ (fun _ => .ok true)
      fuel a (.owned (embed (single [5] [5])))).1) .panic := by
  refine ⟨joinA, _, _, memTree_short (t := joinA) (.fromIter _) (by decide +kernel) (by decide +kernel), by decide +kernel, ?_, ?_⟩
  · exact panic_of (fun n => leftCombineWithS_fuel _ n _ _) (N := 20) (by decide +kernel)
  · exact panic_of (fun n => removePrefixWithS_fuel _ n _ _) (N := 20) (by decide +kernel)

end Radix
