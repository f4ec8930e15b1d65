import Verif.Stored.SelfWritten
import Verif.Proofs.Format
import Verif.Proofs.Touched

/-
In-place operations take over the ids that are in the fields of nodes and make up none. So a property of ids that holds for the fields of a tree, and for those of all blobs of children that
it refers to, holds after every call.
-/

set_option linter.unusedVariables false

namespace Radix.Self
open Radix

/-- Which ids may be in the fields. -/
structure Ids where
  pfx : Bytes → Prop
  val : Bytes → Prop
  ch : Bytes → Prop
  valNil : val []
  chNil : ch []

/-- An id in the field is as said. -/
def OkB (p : Bytes → Prop) : BlobV → Prop
  | .data _ => True
  | .id i => p i

mutual
/-- All ids in the node are as said (the fields of `TreeNode`, src/node/mod.rs 649-667). -/
def Ex (I : Ids) : SNode → Prop
  | .arc p v l => OkB I.pfx p ∧ OkB I.val v ∧ ExL I l
  | .ref p v i => OkB I.pfx p ∧ OkB I.val v ∧ I.ch i
/-- `Ex` for siblings. -/
def ExL (I : Ids) : List SNode → Prop
  | [] => True
  | a :: l => Ex I a ∧ ExL I l
end

section
variable {I : Ids}

theorem exL_iff : ∀ {l : List SNode}, ExL I l ↔ ∀ a ∈ l, Ex I a
  | [] => by simp [ExL]
  | a :: l => by rw [ExL, exL_iff]; simp

/-- `Ex` for the children of a node. -/
def ExC (I : Ids) : List SNode ⊕ Bytes → Prop
  | .inl l => ∀ a ∈ l, Ex I a
  | .inr i => I.ch i

theorem ex_iff {a : SNode} : Ex I a ↔ OkB I.pfx a.pfx ∧ OkB I.val a.val ∧ ExC I a.children := by
  cases a with
  | arc p v l => rw [Ex, exL_iff]; rfl
  | ref p v i => rw [Ex]; rfl

theorem ex_parts {p v : BlobV} {c : List SNode ⊕ Bytes} : Ex I (.ofParts p v c) ↔ OkB I.pfx p ∧ OkB I.val v ∧ ExC I c := by
  cases c with
  | inl l => exact ex_iff
  | inr i => exact ex_iff

theorem ok_none : OkB I.val .none := I.valNil

theorem ex_setVal {a : SNode} {v : BlobV} (h : Ex I a) (hv : OkB I.val v) : Ex I (a.setVal v) := ex_parts.2 ⟨(ex_iff.1 h).1, hv, (ex_iff.1 h).2.2⟩

theorem ex_setArc {a : SNode} {l : List SNode} (h : Ex I a) (hl : ∀ x ∈ l, Ex I x) : Ex I (a.setArc l) := ex_iff.2 ⟨(ex_iff.1 h).1, (ex_iff.1 h).2.1, hl⟩

theorem ex_noChildren {a : SNode} (h : Ex I a) : Ex I a.noChildren := ex_iff.2 ⟨(ex_iff.1 h).1, (ex_iff.1 h).2.1, I.chNil⟩

theorem ex_setPrefix {a : SNode} (h : Ex I a) (p : Bytes) : Ex I (a.setPrefix p) := ex_parts.2 ⟨trivial, (ex_iff.1 h).2⟩

theorem ex_empty : Ex I .empty := ex_iff.2 ⟨trivial, I.valNil, I.chNil⟩

theorem ex_merge {a : SNode} (h : Ex I a) : Ex I a.merge := by
  unfold SNode.merge
  split
  · rename_i c e1 e2
    have hc : Ex I c := by
      have := (ex_iff.1 h).2.2
      rw [e2] at this
      exact this c (by simp)
    exact ex_parts.2 ⟨trivial, (ex_iff.1 hc).2⟩
  · exact h

theorem ok_valueOpt {b v : BlobV} (h : OkB I.val b) (e : b.valueOpt = some v) : OkB I.val v := by
  unfold BlobV.valueOpt at e
  split at e
  · cases e
  · cases e; exact h

theorem ne_valueOpt {b v : BlobV} (e : b.valueOpt = some v) : v ≠ .none := by
  unfold BlobV.valueOpt at e
  split at e
  · cases e
  · rename_i h; cases e; exact h

mutual
theorem ex_embed : ∀ t : Node, Ex I (embed t)
  | .mk p v none => by
    rw [embed]
    exact ex_iff.2 ⟨trivial, by cases v <;> first | exact I.valNil | trivial, I.chNil⟩
  | .mk p v (some l) => by
    rw [embed]
    exact ⟨trivial, by cases v <;> first | exact I.valNil | trivial, exL_embed l⟩
theorem exL_embed : ∀ l : List Node, ExL I (embedL l)
  | [] => trivial
  | t :: l => ⟨ex_embed t, exL_embed l⟩
end

/-- `Ex` for a record that was read. -/
def RecEx (I : Ids) (r : Rec) : Prop := OkB I.pfx r.pfx ∧ OkB I.val r.val ∧ OkB I.ch r.ch

/-- `Ex` for what an operation has of the other tree. -/
def RefEx (I : Ids) : Ref → Prop
  | .owned a => Ex I a
  | .borrowed r => RecEx I r

/-- `Ex` for all records in a blob. -/
inductive RecsEx (I : Ids) : Bytes → Prop
  | mk {bs : Bytes} : (∀ r rest, readOne bs = some (r, rest) → RecEx I r) → (∀ r rest, readOne bs = some (r, rest) → RecsEx I rest) → RecsEx I bs

/-- `Ex` for what is left of an iteration over children. -/
def IterEx (I : Ids) : TIter → Prop
  | .owned l => ∀ a ∈ l, Ex I a
  | .borrowed bs => RecsEx I bs

theorem ref_pfx {r : Ref} (h : RefEx I r) : OkB I.pfx r.pfx := by
  cases r with
  | owned a => exact (ex_iff.1 h).1
  | borrowed r => exact h.1

theorem ref_val {r : Ref} (h : RefEx I r) : OkB I.val r.val := by
  cases r with
  | owned a => exact (ex_iff.1 h).2.1
  | borrowed r => exact h.2.1

theorem iter_next {it it' : TIter} {r : Ref} (h : IterEx I it) (e : it.next = some (r, it')) : RefEx I r ∧ IterEx I it' := by
  cases it with
  | owned l =>
    cases l with
    | nil => cases e
    | cons a l => cases e; exact ⟨h a (by simp), fun x hx => h x (by simp [hx])⟩
  | borrowed bs =>
    simp only [TIter.next, Option.map_eq_some_iff, Prod.exists] at e
    obtain ⟨x, rest, h1, h2⟩ := e
    cases h2
    obtain ⟨ha, hb⟩ := h
    exact ⟨ha _ _ h1, hb _ _ h1⟩

/-! ### Results -/

variable {σ τ ε : Type}

/-- If the call succeeds its result is as said. -/
def Ok {α : Type} (x : Res ε α) (Q : α → Prop) : Prop := ∀ a, x = .ok a → Q a

theorem ok_bind {α β : Type} {x : Res ε α} {f : α → Res ε β} {Q : α → Prop} {R : β → Prop} (h : Ok x Q) (hf : ∀ a, Q a → Ok (f a) R) : Ok (x.bind f) R := by
  cases x with
  | ok a => exact hf a (h a rfl)
  | _ => intro b e; cases e

theorem ok_any {α : Type} (x : Res ε α) : Ok x fun _ => True := fun _ _ => trivial

theorem toOwned_ok {r : Ref} (h : RefEx I r) : Ok (Ref.toOwned r : Res ε SNode) (Ex I) := by
  cases r with
  | owned a => intro b e; cases e; exact h
  | borrowed r =>
    intro b e
    simp only [Ref.toOwned, Rec.toOwned] at e
    split at e
    · rename_i i hi
      cases e
      exact ex_iff.2 ⟨h.1, h.2.1, by have := h.2.2; rw [hi] at this; exact this⟩
    · cases e

/-- The second component is as said whatever the outcome, and the result of a success too. -/
def Both {α β : Type} (P : β → Prop) (x : Res ε α × β) (Q : α → Prop) : Prop := P x.2 ∧ Ok x.1 Q

theorem both_bind {α β γ : Type} {P : β → Prop} {x : Res ε α × β} {f : α → β → Res ε γ × β} {Q : α → Prop} {R : γ → Prop} (h : Both P x Q)
    (hf : ∀ a b, Q a → P b → Both P (f a b) R) : Both P (stBind x f) R := by
  obtain ⟨r, b⟩ := x
  cases r with
  | ok a => exact hf a b (h.2 a rfl) h.1
  | _ => exact ⟨h.1, fun _ e => by cases e⟩

theorem both_ret {α β : Type} {P : β → Prop} {r : Res ε α} {b : β} {Q : α → Prop} (hb : P b) (h : Ok r Q) : Both P (r, b) Q := ⟨hb, h⟩

theorem both_unit {β : Type} {P : β → Prop} {r : Res ε Unit} {b : β} (hb : P b) : Both P (r, b) fun _ => True := ⟨hb, fun _ _ => trivial⟩

theorem both_snd {β : Type} {P : β → Prop} {x : Res ε Unit × β} (h : Both P x fun _ => True) : P x.2 := h.1

theorem canon_both {dbg : Bool} {a : SNode} (h : Ex I a) : Both (Ex I) (canonicalizeS dbg a : Res ε Unit × SNode) fun _ => True := by
  unfold canonicalizeS
  split
  · exact both_unit h
  · refine both_unit ?_
    split
    · exact ex_empty
    · exact ex_merge h

/-! ### Reading -/

/-- What is read from the store for an id of children has only ids as said. -/
def Closed (I : Ids) (S : BlobStore σ ε) (st : σ) : Prop := ∀ s i bs, I.ch (s :: i) → S.read st i = .ok bs → RecsEx I bs

variable {S : BlobStore σ ε} {st : σ}

theorem loadIter_ok (hc : Closed I S st) {i : Bytes} (h : I.ch i) : Ok (loadIter S st i) fun o => ∀ it, o = some it → IterEx I it := by
  cases i with
  | nil => intro o e it h; cases e; cases h
  | cons s i =>
    intro o e it h'
    cases hr : S.read st i with
    | ok bs => simp only [loadIter, hr, Res.bind] at e; cases e; cases h'; exact hc s i bs h hr
    | _ => simp only [loadIter, hr, Res.bind] at e; cases e

theorem fromSlice_ok {l : List SNode} (h : ∀ a ∈ l, Ex I a) {it : TIter} (e : iterFromSlice l = some it) : IterEx I it := by
  unfold iterFromSlice at e
  split at e
  · cases e
  · cases e; exact h

theorem children_ok (hc : Closed I S st) {r : Ref} (h : RefEx I r) : Ok (r.loadChildren S st) fun o => ∀ it, o = some it → IterEx I it := by
  cases r with
  | owned a =>
    show Ok (a.loadChildren S st) _
    have := (ex_iff.1 h).2.2
    unfold SNode.loadChildren
    split
    · rename_i l e
      rw [e] at this
      intro o e it h'
      cases e
      exact fromSlice_ok this h'
    · rename_i i e
      rw [e] at this
      exact loadIter_ok hc this
  | borrowed r =>
    show Ok (r.loadChildren S st) _
    have h3 := h.2.2
    unfold Rec.loadChildren
    split
    · intro o e it h'; cases e; cases h'
    · rename_i i e1 e
      rw [e] at h3
      exact loadIter_ok hc h3
    · intro o e; cases e

theorem collect_ok (it : TIter) (h : IterEx I it) : Ok (collectIter it : Res ε (List SNode)) fun l => ∀ a ∈ l, Ex I a := by
  rw [collectIter]
  split
  · intro l e; cases e; simp
  · rename_i r it' e
    obtain ⟨h1, h2⟩ := iter_next h e
    have := TIter.next_size e
    refine ok_bind (toOwned_ok h1) fun a ha => ok_bind (collect_ok it' h2) fun l hl => ?_
    intro l' e'; cases e'
    intro x hx
    rcases List.mem_cons.1 hx with rfl | hx
    · exact ha
    · exact hl x hx
termination_by it.size

theorem childrenMut_both (hc : Closed I S st) {a : SNode} (h : Ex I a) : Both (Ex I) (loadChildrenMutS S st a) fun l => ∀ x ∈ l, Ex I x := by
  have h3 := (ex_iff.1 h).2.2
  unfold loadChildrenMutS
  split
  · rename_i l e
    rw [e] at h3
    exact both_ret h fun l' e' => by cases e'; exact h3
  · rename_i i e
    rw [e] at h3
    refine both_bind (Q := fun l => ∀ x ∈ l, Ex I x) (both_ret h ?_) fun l a hl ha => both_ret (ex_setArc ha hl) fun l' e' => by cases e'; exact hl
    refine ok_bind (loadIter_ok hc h3) fun o ho => ?_
    cases o with
    | none => intro l e; cases e; simp
    | some it => exact collect_ok it (ho it rfl)

theorem shortened_ok {a : SNode} (h : Ex I a) (n : Nat) : Ok (a.cloneShortened S st n) (Ex I) :=
  ok_bind (ok_any _) fun p _ => by intro b e; cases e; exact ex_setPrefix h _

theorem refShortened_ok {r : Ref} (h : RefEx I r) (n : Nat) : Ok (r.cloneShortened S st n) (Ex I) := by
  cases r with
  | owned a => exact shortened_ok h n
  | borrowed r => intro b e; cases e

theorem split_both {a : SNode} (h : Ex I a) (n : Nat) : Both (Ex I) (splitS S st n a) fun _ => True := by
  refine both_bind (both_ret h (ok_any _)) fun p a _ ha => both_unit (ex_iff.2 ⟨trivial, I.valNil, ?_⟩)
  intro x hx
  simp only [List.mem_singleton] at hx
  subst hx
  exact ex_parts.2 ⟨trivial, (ex_iff.1 ha).2⟩

/-! ### In-place operations -/

/-- What is known about the parts of an operation: `J` is about the fields of the other tree. -/
def RecOk (I J : Ids) (rec : SNode → Ref → Res ε Unit × SNode) : Prop := ∀ a b, Ex I a → RefEx J b → Ex I (rec a b).2

/-- `Ex` for all. -/
abbrev All (I : Ids) (l : List SNode) : Prop := ∀ a ∈ l, Ex I a

theorem all_nil : All I [] := fun a h => by cases h

theorem all_one {a : SNode} (h : Ex I a) : All I [a] := fun x hx => by rw [List.mem_singleton] at hx; subst hx; exact h

theorem all_append {l m : List SNode} (hl : All I l) (hm : All I m) : All I (l ++ m) := fun a h => (List.mem_append.1 h).elim (hl a) (hm a)

theorem all_keeps {ab : List SNode → List SNode → List SNode} (hk : Keeps ab) {l m : List SNode} (hl : All I l) (hm : All I m) : All I (ab l m) :=
  fun a h => all_append hl hm a ((hk l m).mem h)

variable {J : Ids}

theorem loop_ok {rec : SNode → Ref → Res ε Unit × SNode} {keep : Bool} {greater : Ref → Res ε (Option SNode)} {ab} (hk : Keeps ab) (hr : RecOk I J rec)
    (hg : ∀ b, RefEx J b → Ok (greater b) fun o => All I o.toList) (done src : List SNode) (it : TIter) (hd : All I done) (hs : All I src) (hi : IterEx J it) :
    All I (loopS rec keep greater ab done src it).2 := by
  have keepOk : ∀ a (src : List SNode), All I (a :: src) → All I (if keep then done ++ [a] else done) := by
    intro a src hs
    split
    · exact all_append hd (all_one (hs a (by simp)))
    · exact hd
  have step : ∀ {α : Type} (x : Res ε α) (l : List SNode) (f : α → List SNode → Res ε Unit × List SNode) (Q : α → Prop), Ok x Q → All I l →
      (∀ v, Q v → All I (f v l).2) → All I (stBind (x, l) f).2 := by
    intro α x l f Q hx hl hf
    cases x with
    | ok v => exact hf v (hx v rfl)
    | _ => exact hl
  unfold loopS
  split
  · exact hd
  · rename_i a src e
    exact loop_ok hk hr hg _ src it (keepOk a src hs) (fun x hx => hs x (by simp [hx])) hi
  · rename_i b it' e
    obtain ⟨h1, h2⟩ := iter_next hi e
    have := TIter.next_size e
    exact step _ _ _ _ (hg b h1) (all_keeps hk hd all_nil) fun o ho => loop_ok hk hr hg _ [] it' (all_append hd ho) all_nil h2
  · rename_i a src b it' e
    obtain ⟨h1, h2⟩ := iter_next hi e
    have := TIter.next_size e
    have hs' : All I src := fun x hx => hs x (by simp [hx])
    split
    · exact loop_ok hk hr hg _ src it (keepOk a src hs) hs' hi
    split
    · exact step _ _ _ _ (hg b h1) (all_keeps hk hd hs) fun o ho => loop_ok hk hr hg _ (a :: src) it' (all_append hd ho) hs h2
    · have ha := hr a b (hs a (by simp)) h1
      dsimp only
      refine step _ _ _ _ (ok_any _) (all_keeps hk hd ?_) fun _ _ => loop_ok hk hr hg _ src it' ?_ hs' h2
      · intro x hx
        rcases List.mem_cons.1 hx with rfl | hx
        · exact ha
        · exact hs' x hx
      · split
        · exact hd
        · exact all_append hd (all_one ha)
termination_by src.length + it.size
decreasing_by
  all_goals subst_vars
  all_goals simp only [List.length_cons, List.length_nil]; omega

theorem pushAll_ok {c : SConv ε} (hc : ∀ b, RefEx J b → Ok (c.node b) (Ex I)) (done : List SNode) (it : TIter) (hd : All I done) (hi : IterEx J it) :
    All I (pushAll c done it).2 := by
  rw [pushAll]
  split
  · exact hd
  · rename_i b it' e
    obtain ⟨h1, h2⟩ := iter_next hi e
    have := TIter.next_size e
    cases hx : c.node b with
    | ok a => exact pushAll_ok hc _ it' (all_append hd (all_one (hc b h1 a hx))) h2
    | _ => exact hd
termination_by it.size

/-- The operation on the children keeps the property. -/
def KidsOk (I J : Ids) (k : List SNode → Option TIter → Res ε Unit × List SNode) : Prop :=
  ∀ ac bc, All I ac → (∀ it, bc = some it → IterEx J it) → All I (k ac bc).2

theorem outerKids {e : UEnv σ τ ε} {c : SConv ε} {rec} (hk : Keeps e.abandon) (hc : ∀ b, RefEx J b → Ok (c.node b) (Ex I)) (hr : RecOk I J rec) : KidsOk I J (outerChildrenS e c rec) := by
  intro ac bc ha hb
  cases bc with
  | none => exact ha
  | some it =>
    simp only [outerChildrenS]
    split
    · exact pushAll_ok hc _ _ ha (hb it rfl)
    · refine loop_ok hk hr (fun b h => ok_bind (hc b h) fun a ha => ?_) [] ac it all_nil ha (hb it rfl)
      intro o e; cases e; exact all_one ha

theorem innerKids {e : UEnv σ τ ε} {rec} (hk : Keeps e.abandon) (hr : RecOk I J rec) : KidsOk I J (innerChildrenS e rec) := by
  intro ac bc ha hb
  cases bc with
  | none => exact all_nil
  | some it =>
    simp only [innerChildrenS]
    split
    · exact ha
    · exact loop_ok hk hr (fun b h o e => by cases e; exact all_nil) [] ac it all_nil ha (hb it rfl)

theorem leftKids {e : UEnv σ τ ε} {rec} (hk : Keeps e.abandon) (hr : RecOk I J rec) : KidsOk I J (leftChildrenS e rec) := by
  intro ac bc ha hb
  cases bc with
  | none => exact ha
  | some it =>
    simp only [leftChildrenS]
    split
    · exact ha
    · exact loop_ok hk hr (fun b h o e => by cases e; exact all_nil) [] ac it all_nil ha (hb it rfl)

section ops
variable {e : UEnv σ τ ε} (hI : Closed I e.SA e.stA) (hJ : Closed J e.SB e.stB)
include hI hJ

theorem both_kids {k} (hk : KidsOk I J k) {a : SNode} {b : Ref} (ha : Ex I a) (hb : RefEx J b) : Both (Ex I) (childrenBoth e k a b) fun _ => True := by
  refine both_bind (childrenMut_both hI ha) fun ac a hac ha => ?_
  refine both_bind (both_ret ha (children_ok hJ hb)) fun bc a hbc ha => ?_
  exact both_unit (ex_setArc ha (hk ac bc hac hbc))

omit hJ in
theorem short_kids {k} (hk : KidsOk I J k) {n : Nat} {a : SNode} {b : Ref} (ha : Ex I a) (hb : RefEx J b) : Both (Ex I) (childrenShort e k n a b) fun _ => True := by
  refine both_bind (childrenMut_both hI ha) fun ac a hac ha => ?_
  refine both_bind (both_ret ha (refShortened_ok hb n)) fun b' a hb' ha => ?_
  exact both_unit (ex_setArc ha (hk ac _ hac fun it h => fromSlice_ok (by simpa using hb') h))

omit hI hJ in
theorem mem_insertByFirst {x y : SNode} : ∀ {l : List SNode}, y ∈ insertByFirstS x l → y = x ∨ y ∈ l
  | [], h => by simpa [insertByFirstS] using h
  | z :: l, h => by
    unfold insertByFirstS at h
    split at h
    · simpa using h
    · rcases List.mem_cons.1 h with rfl | h
      · simp
      · rcases mem_insertByFirst h with h | h
        · exact .inl h
        · exact .inr (by simp [h])

omit hI hJ in
theorem mem_sortByFirst {y : SNode} : ∀ {l : List SNode}, y ∈ sortByFirstS l → y ∈ l
  | [], h => h
  | x :: l, h => by
    rcases mem_insertByFirst h with rfl | h
    · simp
    · exact List.mem_cons_of_mem _ (mem_sortByFirst h)

theorem outer_ok {c : SConv ε} {f} (hk : Keeps e.abandon) (hn : ∀ b, RefEx J b → Ok (c.node b) (Ex I)) (hs : ∀ b n, RefEx J b → Ok (c.shortened b n) (Ex I))
    (hv : ∀ v, OkB J.val v → Ok (c.value v) (OkB I.val)) (hf : ∀ av bv, av ≠ .none → bv ≠ .none → OkB I.val av → OkB J.val bv → Ok (f av bv) (OkB I.val)) :
    ∀ fuel, RecOk I J (outerCombineWithS e c f fuel)
  | 0, a, b, ha, hb => ha
  | fuel + 1, a, b, ha, hb => by
    have hr := outerKids hk hn (outer_ok hk hn hs hv hf fuel)
    refine both_snd ?_
    rw [outerCombineWithS]
    refine both_bind (both_ret ha (ok_any _)) fun ap a _ ha => ?_
    refine both_bind (both_ret ha (ok_any _)) fun bp a _ ha => ?_
    dsimp only
    refine both_bind (Q := fun _ => True) ?_ fun _ a _ ha => canon_both ha
    split
    · refine both_bind (Q := fun _ => True) ?_ fun _ a _ ha => ?_
      · split
        · exact split_both ha _
        · exact both_unit ha
      refine both_bind (Q := fun _ => True) ?_ fun _ a _ ha => both_kids hI hJ hr ha hb
      split
      · rename_i bv e1
        have hbv := ok_valueOpt (ref_val hb) e1
        split
        · rename_i av e2
          have hav := ok_valueOpt (ex_iff.1 ha).2.1 e2
          exact both_bind (both_ret (ex_setVal ha ok_none) (hf av bv (ne_valueOpt e2) (ne_valueOpt e1) hav hbv)) fun v a hv ha => both_unit (ex_setVal ha hv)
        · exact both_bind (both_ret ha (hv bv hbv)) fun v a hv ha => both_unit (ex_setVal ha hv)
      · exact both_unit ha
    split
    · exact short_kids hI hr ha hb
    · refine both_bind (split_both ha _) fun _ a _ ha => ?_
      refine both_bind (childrenMut_both hI ha) fun ac a hac ha => ?_
      refine both_bind (both_ret ha (hs b _ hb)) fun x a hx ha => both_unit (ex_setArc ha fun y hy => ?_)
      exact all_append hac (all_one hx) y (mem_sortByFirst hy)

theorem inner_ok {f} (hk : Keeps e.abandon) (hf : ∀ av bv, av ≠ .none → bv ≠ .none → OkB I.val av → OkB J.val bv → Ok (f av bv) (OkB I.val)) : ∀ fuel, RecOk I J (innerCombineWithS e f fuel)
  | 0, a, b, ha, hb => ha
  | fuel + 1, a, b, ha, hb => by
    have hr := innerKids hk (inner_ok hk hf fuel)
    refine both_snd ?_
    rw [innerCombineWithS]
    refine both_bind (both_ret ha (ok_any _)) fun ap a _ ha => ?_
    refine both_bind (both_ret ha (ok_any _)) fun bp a _ ha => ?_
    dsimp only
    refine both_bind (Q := fun _ => True) ?_ fun _ a _ ha => canon_both ha
    split
    · refine both_bind (Q := fun _ => True) ?_ fun _ a _ ha => both_kids hI hJ hr ha hb
      split
      · rename_i av bv e2 e1
        have hbv := ok_valueOpt (ref_val hb) e1
        have hav := ok_valueOpt (ex_iff.1 ha).2.1 e2
        exact both_bind (both_ret (ex_setVal ha ok_none) (hf av bv (ne_valueOpt e2) (ne_valueOpt e1) hav hbv)) fun v a hv ha => both_unit (ex_setVal ha hv)
      · exact both_unit (ex_setVal ha ok_none)
    split
    · exact short_kids hI hr (ex_setVal ha ok_none) hb
    split
    · exact both_bind (split_both ha _) fun _ a _ ha => both_kids hI hJ hr ha hb
    · exact both_unit (ex_noChildren (ex_setVal ha ok_none))

theorem left_ok {f} (hk : Keeps e.abandon) (hf : ∀ av bv, av ≠ .none → bv ≠ .none → OkB I.val av → OkB J.val bv → Ok (f av bv) (OkB I.val)) : ∀ fuel, RecOk I J (leftCombineWithS e f fuel)
  | 0, a, b, ha, hb => ha
  | fuel + 1, a, b, ha, hb => by
    have hr := leftKids hk (left_ok hk hf fuel)
    refine both_snd ?_
    rw [leftCombineWithS]
    refine both_bind (both_ret ha (ok_any _)) fun ap a _ ha => ?_
    refine both_bind (both_ret ha (ok_any _)) fun bp a _ ha => ?_
    dsimp only
    refine both_bind (Q := fun _ => True) ?_ fun _ a _ ha => canon_both ha
    split
    · refine both_bind (Q := fun _ => True) ?_ fun _ a _ ha => both_kids hI hJ hr ha hb
      split
      · rename_i bv e1
        have hbv := ok_valueOpt (ref_val hb) e1
        split
        · rename_i av e2
          have hav := ok_valueOpt (ex_iff.1 ha).2.1 e2
          exact both_bind (both_ret (ex_setVal ha ok_none) (hf av bv (ne_valueOpt e2) (ne_valueOpt e1) hav hbv)) fun v a hv ha => both_unit (ex_setVal ha hv)
        · exact both_unit ha
      · exact both_unit ha
    split
    · exact short_kids hI hr ha hb
    split
    · exact both_bind (split_both ha _) fun _ a _ ha => both_kids hI hJ hr ha hb
    · exact both_unit ha

theorem retain_ok {f : BlobV → Res ε Bool} (hk : Keeps e.abandon) : ∀ fuel, RecOk I J (retainPrefixWithS e f fuel)
  | 0, a, b, ha, hb => ha
  | fuel + 1, a, b, ha, hb => by
    have hr := innerKids hk (retain_ok (f := f) hk fuel)
    refine both_snd ?_
    rw [retainPrefixWithS]
    refine both_bind (both_ret ha (ok_any _)) fun ap a _ ha => ?_
    refine both_bind (both_ret ha (ok_any _)) fun bp a _ ha => ?_
    dsimp only
    refine both_bind (Q := fun _ => True) ?_ fun _ a _ ha => canon_both ha
    split
    · refine both_bind (Q := fun _ => True) ?_ fun go a _ ha => ?_
      · split
        · exact both_ret ha (ok_any _)
        · exact both_bind (both_ret ha (ok_any _)) fun x a _ ha => both_ret ha (ok_any _)
      split
      · exact both_kids hI hJ hr (ex_setVal ha ok_none) hb
      · exact both_unit ha
    split
    · split
      · exact both_bind (split_both ha _) fun _ a _ ha => both_kids hI hJ hr ha hb
      · refine both_bind (both_ret ha (ok_any _)) fun x a _ ha => both_unit ?_
        split
        · exact ex_noChildren (ex_setVal ha ok_none)
        · exact ha
    split
    · exact short_kids hI hr (ex_setVal ha ok_none) hb
    · exact both_unit (ex_noChildren (ex_setVal ha ok_none))

theorem remove_ok {f : BlobV → Res ε Bool} (hk : Keeps e.abandon) : ∀ fuel, RecOk I J (removePrefixWithS e f fuel)
  | 0, a, b, ha, hb => ha
  | fuel + 1, a, b, ha, hb => by
    have hr := leftKids hk (remove_ok (f := f) hk fuel)
    refine both_snd ?_
    rw [removePrefixWithS]
    refine both_bind (both_ret ha (ok_any _)) fun ap a _ ha => ?_
    refine both_bind (both_ret ha (ok_any _)) fun bp a _ ha => ?_
    dsimp only
    refine both_bind (Q := fun _ => True) ?_ fun _ a _ ha => canon_both ha
    split
    · refine both_bind (Q := fun _ => True) ?_ fun go a _ ha => ?_
      · split
        · exact both_ret ha (ok_any _)
        · exact both_ret ha (ok_any _)
      split
      · exact both_unit (ex_noChildren (ex_setVal ha ok_none))
      · refine both_bind (Q := fun _ => True) ?_ fun _ a _ ha => both_kids hI hJ hr ha hb
        split
        · exact split_both ha _
        · exact both_unit ha
    split
    · exact short_kids hI hr ha hb
    · exact both_unit ha

end ops

/-! ### `filter_prefix` -/

theorem findBorrowed_ok (bs : Bytes) (c : UInt8) (h : RecsEx I bs) {r : Rec} (e : findBorrowed bs c = some r) : RecEx I r := by
  rw [findBorrowed] at e
  split at e
  · cases e
  · rename_i r' rest e1
    obtain ⟨h1, h2⟩ := h
    have := readOne_lt e1
    split at e
    · exact findBorrowed_ok rest c (h2 _ _ e1) e
    · split at e
      · cases e
      · cases e; exact h1 _ _ e1
termination_by bs.length

theorem iter_find {it : TIter} {c : UInt8} {r : Ref} (hi : IterEx I it) (h : it.find c = some r) : RefEx I r := by
  cases it with
  | owned l =>
    simp only [TIter.find, Option.map_eq_some_iff] at h
    obtain ⟨a, h, rfl⟩ := h
    refine hi a ?_
    unfold findOwned at h
    split at h
    · exact List.mem_of_getElem? h
    · simp only [Option.bind_eq_some_iff] at h
      obtain ⟨i, _, h⟩ := h
      exact List.mem_of_getElem? h
  | borrowed bs =>
    simp only [TIter.find, Option.map_eq_some_iff] at h
    obtain ⟨a, h, rfl⟩ := h
    exact findBorrowed_ok bs c hi h

/-- `Ex` for the result of a search. -/
def FindEx (I : Ids) : SFind → Prop
  | .found t => RefEx I t
  | .pre t _ => RefEx I t
  | .notFound => True

theorem ok_ret {α : Type} {a : α} {Q : α → Prop} (h : Q a) : Ok (.ok a : Res ε α) Q := fun b e => by cases e; exact h

theorem find_ok (hc : Closed I S st) : ∀ (fuel : Nat) (t : Ref) (p : Bytes), RefEx I t → Ok (findS S st fuel t p) (FindEx I)
  | 0, t, p, h => by rw [findS]; intro a e; cases e
  | fuel + 1, t, p, h => by
    rw [findS]
    refine ok_bind (ok_any _) fun tp _ => ?_
    dsimp only
    split
    · exact ok_ret h
    split
    · exact ok_ret h
    split
    · split
      · intro a e; cases e
      · refine ok_bind (children_ok hc h) fun o ho => ?_
        cases o with
        | none => exact ok_ret trivial
        | some cs =>
          dsimp only
          split
          · exact ok_ret trivial
          · rename_i child e
            exact find_ok hc fuel child _ (iter_find (ho cs rfl) e)
    · exact ok_ret trivial

theorem filter_ok (hc : Closed I S st) {a : SNode} (h : Ex I a) (fuel : Nat) (p s : Bytes) : Ok (filterPrefixS S fuel st a p s) (Ex I) := by
  unfold filterPrefixS
  refine ok_bind (find_ok hc fuel (.owned a) p h) fun x hx => ?_
  cases x with
  | found u => exact ok_bind (toOwned_ok hx) fun r hr => ok_ret (ex_setPrefix hr _)
  | pre u n => exact ok_bind (ok_any _) fun tp _ => ok_bind (toOwned_ok hx) fun r hr => ok_ret (ex_setPrefix hr _)
  | notFound => exact ok_ret ex_empty

end

end Radix.Self

/-! ### Rules for writers -/

namespace Radix.Self
open Radix
open Radix.Spec.Format (Doc IsNode IsNodes IsKids IsPrefix IsVal Rules literal reference)

section
variable {ex : Bool} {σ ε : Type} {S : BlobStore σ ε} {L : Lawful S}

/-- Ids that may be in fields of what this library writes. -/
def ids (ex : Bool) (L : Lawful S) (st : σ) : Ids where
  pfx i := i.length ≤ 127 ∧ ∃ p, IsPrefix ⟨true, ex⟩ (L.Has st) p (reference i)
  val i := i = [] ∨ i.length ≤ 127 ∧ ∃ d, L.Has st i d ∧ (ex = true → 127 < d.length)
  ch i := i.length ≤ 127 ∧ ∃ l, IsKids ⟨true, ex⟩ (L.Has st) l (reference i)
  valNil := .inl rfl
  chNil := ⟨by simp, [], by simp [IsKids]⟩

theorem okB_val {st : σ} {v : BlobV} : OkB (ids ex L st).val v ↔ HandOrStored ex L st v := by
  cases v with
  | data d => exact ⟨fun _ i e => (by cases e), fun _ => trivial⟩
  | id i => exact ⟨fun h j e => by cases e; exact h, fun h => h i rfl⟩

theorem ref_inj {i j : Bytes} (h : reference i = reference j) : i = j := by
  simp only [reference, List.cons.injEq] at h; exact h.2

/-- Nothing is stored. -/
def noIds : Ids := ⟨fun _ => False, fun i => i = [], fun i => i = [], rfl, rfl⟩

theorem okB_imp {p q : Bytes → Prop} (h : ∀ i, p i → q i) {b : BlobV} (hb : OkB p b) : OkB q b := by
  cases b with
  | data d => trivial
  | id i => exact h i hb

mutual
theorem ex_imp {I I' : Ids} (h1 : ∀ i, I.pfx i → I'.pfx i) (h2 : ∀ i, I.val i → I'.val i) (h3 : ∀ i, I.ch i → I'.ch i) : ∀ a, Ex I a → Ex I' a
  | .arc p v l, h => ⟨okB_imp h1 h.1, okB_imp h2 h.2.1, exL_imp h1 h2 h3 l h.2.2⟩
  | .ref p v i, h => ⟨okB_imp h1 h.1, okB_imp h2 h.2.1, h3 i h.2.2⟩
theorem exL_imp {I I' : Ids} (h1 : ∀ i, I.pfx i → I'.pfx i) (h2 : ∀ i, I.val i → I'.val i) (h3 : ∀ i, I.ch i → I'.ch i) : ∀ l, ExL I l → ExL I' l
  | [], _ => trivial
  | a :: l, h => ⟨ex_imp h1 h2 h3 a h.1, exL_imp h1 h2 h3 l h.2⟩
end

theorem ex_mono {st st' : σ} (hm : Mono L st st') {a : SNode} (h : Ex (ids ex L st) a) : Ex (ids ex L st') a := by
  refine ex_imp (I := ids ex L st) (I' := ids ex L st') (fun i ⟨h1, p, h2⟩ => ⟨h1, p, isPrefix_mono hm h2⟩) (fun i h => ?_) (fun i ⟨h1, l, h2⟩ => ⟨h1, l, isKids_mono hm l _ h2⟩) a h
  rcases h with h | ⟨h1, d, h2, h3⟩
  · exact .inl h
  · exact .inr ⟨h1, d, hm _ _ h2, h3⟩

theorem ex_noIds {I : Ids} {a : SNode} (h : Ex noIds a) : Ex I a :=
  ex_imp (I := noIds) (fun i h => h.elim) (fun i h => by cases (h : i = []); exact I.valNil) (fun i h => by cases (h : i = []); exact I.chNil) a h

/-! ### What follows the rules has only such ids -/

theorem node_rec {st : σ} {d : Doc} {bs : Bytes} (h : IsNode ⟨true, ex⟩ (L.Has st) d bs) : ∃ q : Rec, bs = q.enc ∧ q.Fits ∧ RecEx (ids ex L st) q := by
  cases d with
  | node p v l =>
    simp only [IsNode] at h
    obtain ⟨f1, f2, f3, rfl, h1, h2, h3⟩ := h
    have k1 : ∃ b : BlobV, f1 = b.enc ∧ b.Fits ∧ OkB (ids ex L st).pfx b := by
      rcases id h1 with ⟨hl, rfl⟩ | ⟨-, -, c, i, -, hl, -, rfl⟩
      · exact ⟨.data p, literal_enc hl, by show p.length < 128; omega, trivial⟩
      · exact ⟨.id (c :: i), reference_enc (by simp; omega), by show (c :: i).length < 128; simp; omega, by simp; omega, p, h1⟩
    have k2 : ∃ b : BlobV, f2 = b.enc ∧ b.Fits ∧ OkB (ids ex L st).val b := by
      cases v with
      | none => cases (show f2 = reference [] from h2); exact ⟨.id [], reference_enc (by simp), by show ([] : Bytes).length < 128; simp, .inl rfl⟩
      | some v =>
        rcases h2 with ⟨hl, rfl⟩ | ⟨hx, i, hn, hl, hh, rfl⟩
        · exact ⟨.data v, literal_enc hl, by show v.length < 128; omega, trivial⟩
        · exact ⟨.id i, reference_enc hl, by show i.length < 128; omega, .inr ⟨hl, v, hh, hx⟩⟩
    have k3 : ∃ i : Bytes, f3 = reference i ∧ i.length ≤ 127 := by
      cases l with
      | nil => simp only [IsKids] at h3; exact ⟨[], h3, by simp⟩
      | cons d l =>
        simp only [IsKids] at h3
        obtain ⟨s, i, r, rs, hl, e, -⟩ := h3
        exact ⟨s :: i, e, by simp; omega⟩
    obtain ⟨b1, rfl, c1, o1⟩ := k1
    obtain ⟨b2, rfl, c2, o2⟩ := k2
    obtain ⟨i, rfl, hl⟩ := k3
    exact ⟨⟨b1, b2, .id i⟩, by rw [Rec.enc, reference_enc hl], ⟨c1, c2, by show i.length < 128; omega⟩, o1, o2, hl, l, h3⟩

theorem recs_of {st : σ} : ∀ (l : List Doc) (rs : List Bytes), IsNodes ⟨true, ex⟩ (L.Has st) l rs → RecsEx (ids ex L st) rs.flatten
  | [], rs, h => by
    simp only [IsNodes] at h
    subst h
    exact ⟨fun r rest e => by simp [readOne, readBlob] at e, fun r rest e => by simp [readOne, readBlob] at e⟩
  | d :: l, rs, h => by
    simp only [IsNodes] at h
    obtain ⟨r, rs', rfl, h1, h2⟩ := h
    obtain ⟨q, rfl, hf, hq⟩ := node_rec h1
    have e : readOne (q.enc :: rs').flatten = some (q, rs'.flatten) := by rw [List.flatten_cons]; exact readOne_enc hf _
    exact ⟨fun r rest e' => by rw [e] at e'; cases e'; exact hq, fun r rest e' => by rw [e] at e'; cases e'; exact recs_of l rs' h2⟩

theorem closed_ids (st : σ) : Closed (ids ex L st) S st := by
  rintro s i bs ⟨hl, l, h⟩ hr
  cases l with
  | nil => simp only [IsKids] at h; cases ref_inj h
  | cons d l =>
    simp only [IsKids] at h
    obtain ⟨s', i', r, rs, -, e, hh, -, h1, h2⟩ := h
    cases ref_inj e
    have : bs = (r :: rs).flatten := by
      rcases L.read_has hh with e | ⟨x, e⟩ <;> rw [e] at hr <;> cases hr
      rfl
    rw [this]
    exact recs_of (d :: l) (r :: rs) (by simp only [IsNodes]; exact ⟨r, rs, rfl, h1, h2⟩)

theorem closed_detached (I : Ids) : Closed I (detachedStore ε) () := fun s i bs _ h => by cases h

theorem deserialize_ok {st : σ} {d : Doc} {bs : Bytes} (h : IsNode ⟨true, ex⟩ (L.Has st) d bs) : Ok (deserialize S bs) (Ex (ids ex L st)) := by
  obtain ⟨q, rfl, hf, hq⟩ := node_rec h
  have e : readOne q.enc = some (q, []) := by simpa using readOne_enc hf []
  unfold deserialize
  rw [e]
  exact toOwned_ok (r := .borrowed q) hq

/-! ### Writing -/

/-- A success keeps what the store has, and is as said. -/
def WP (L : Lawful S) {α : Type} (st : σ) (x : Res ε α × σ) (Q : α → σ → Prop) : Prop := ∀ a st', x = (.ok a, st') → Mono L st st' ∧ Q a st'

theorem wp_bind {α β : Type} {st : σ} {x : Res ε α × σ} {f : α → σ → Res ε β × σ} {Q : α → σ → Prop} {R : β → σ → Prop} (h : WP L st x Q)
    (hf : ∀ a st1, Mono L st st1 → Q a st1 → WP L st1 (f a st1) R) : WP L st (stBind x f) R := by
  obtain ⟨r, st1⟩ := x
  cases r with
  | ok a =>
    obtain ⟨hm, hq⟩ := h a st1 rfl
    intro b st2 e
    obtain ⟨h1, h2⟩ := hf a st1 hm hq b st2 e
    exact ⟨hm.trans h1, h2⟩
  | _ => intro b st2 e; cases e

theorem wp_post {α : Type} {n : Nat} {st : σ} {x : Res ε α × σ} {Q : α → σ → Prop} (h : Post L n st x Q) : WP L st x Q := fun a st' e => post_of_ok h e

theorem wp_ok {α : Type} {st : σ} {a : α} {Q : α → σ → Prop} (h : Q a st) : WP L st (.ok a, st) Q := fun b st' e => by cases e; exact ⟨Mono.refl L st, h⟩

theorem isPrefix_ex {g : Bool} {has : Bytes → Bytes → Prop} {p f : Bytes} (h : IsPrefix ⟨g, true⟩ has p f) : IsPrefix ⟨g, ex⟩ has p f := by
  rcases h with h | ⟨h1, h2, h3⟩
  · exact .inl h
  · exact .inr ⟨h1, fun _ => h2 rfl, h3⟩

theorem isVal_ex {g : Bool} {has : Bytes → Bytes → Prop} {v : Option Bytes} {f : Bytes} (h : IsVal ⟨g, true⟩ has v f) : IsVal ⟨g, ex⟩ has v f := by
  cases v with
  | none => exact h
  | some v =>
    rcases h with h | ⟨h2, h3⟩
    · exact .inl h
    · exact .inr ⟨fun _ => h2 rfl, h3⟩

theorem ser_pfx {st : σ} {b : BlobV} (h : OkB (ids ex L st).pfx b) : WP L st (b.serialize S 1 st) fun bs st' => ∃ p, IsPrefix ⟨true, ex⟩ (L.Has st') p bs := by
  cases b with
  | data d => exact fun a st' e => (wp_post (serialize_isPrefix (L := L) st d) a st' e).imp id fun h => ⟨d, isPrefix_ex h⟩
  | id i =>
    obtain ⟨hl, p, hp⟩ := h
    exact wp_ok ⟨p, by rw [reference_enc hl] at hp; exact hp⟩

theorem ser_val {st : σ} {b : BlobV} (h : OkB (ids ex L st).val b) : WP L st (b.serialize S 0 st) fun bs st' => ∃ v, IsVal ⟨true, ex⟩ (L.Has st') v bs := by
  cases b with
  | data d => exact fun a st' e => (wp_post (serialize_isVal (L := L) st (some d)) a st' e).imp id fun h => ⟨some d, isVal_ex h⟩
  | id i =>
    rcases h with rfl | ⟨hl, d, hh, hd⟩
    · exact wp_ok ⟨none, (reference_enc (by simp)).symm⟩
    · by_cases hi : i = []
      · subst hi; exact wp_ok ⟨none, (reference_enc (by simp)).symm⟩
      · exact wp_ok ⟨some d, .inr ⟨hd, i, hi, hl, hh, (reference_enc hl).symm⟩⟩

mutual
theorem ser_node : ∀ (a : SNode) (st : σ), Ex (ids ex L st) a → WP L st (a.serialize S st) fun bs st' => ∃ d, IsNode ⟨true, ex⟩ (L.Has st') d bs
  | .ref p v i, st, h => by
    simp only [SNode.serialize]
    refine wp_bind (ser_pfx h.1) fun pb st1 m1 ⟨p', h1⟩ => ?_
    refine wp_bind (ser_val (ex_iff.1 (ex_mono m1 h)).2.1) fun vb st2 m2 ⟨v', h2⟩ => ?_
    obtain ⟨hl, l, hk⟩ := (ex_iff.1 (ex_mono (m1.trans m2) h)).2.2
    refine wp_ok ⟨.node p' v' l, ?_⟩
    simp only [IsNode]
    exact ⟨pb, vb, _, rfl, isPrefix_mono m2 h1, h2, by rw [reference_enc hl] at hk; exact hk⟩
  | .arc p v [], st, h => by
    simp only [SNode.serialize]
    refine wp_bind (ser_pfx h.1) fun pb st1 m1 ⟨p', h1⟩ => ?_
    refine wp_bind (ser_val (ex_iff.1 (ex_mono m1 h)).2.1) fun vb st2 m2 ⟨v', h2⟩ => ?_
    rw [List.isEmpty_nil, if_pos rfl]
    refine wp_ok ⟨.node p' v' [], ?_⟩
    simp only [IsNode, IsKids]
    exact ⟨pb, vb, _, rfl, isPrefix_mono m2 h1, h2, rfl⟩
  | .arc p v (a :: l), st, h => by
    simp only [SNode.serialize]
    refine wp_bind (ser_pfx h.1) fun pb st1 m1 ⟨p', h1⟩ => ?_
    have h' := ex_mono m1 h
    refine wp_bind (ser_val h'.2.1) fun vb st2 m2 ⟨v', h2⟩ => ?_
    rw [if_neg (by simp)]
    have h'' : Ex (ids ex L st2) (.arc p v (a :: l)) := ex_mono m2 h'
    have hs := ser_nodes (a :: l) [] [] 0 st2 rfl (Or.inl ⟨rfl, rfl⟩) h''.2.2
    refine wp_bind hs fun ⟨data, k⟩ st3 m3 ⟨rs, ds, e3, h3, h4, h7⟩ => ?_
    refine wp_bind (wp_post (post_write st3 data)) fun i st4 m4 ⟨hh, l1, l2⟩ => ?_
    have hid : Hdr.id? (i.length + 1) = some (UInt8.ofNat (i.length + 1) ||| 0x80) := hdr_id_lt (by omega)
    rw [hid]
    dsimp only
    cases ds with
    | nil => cases h7
    | cons d ds =>
      have h4' := isNodes_mono m4 _ _ h4
      simp only [IsNodes] at h4'
      obtain ⟨r, rs, rfl, h5, h6⟩ := h4'
      simp only [List.nil_append] at e3 h3
      subst e3
      refine wp_ok ⟨.node p' v' (d :: ds), ?_⟩
      simp only [IsNode, IsKids]
      refine ⟨pb, vb, _, rfl, isPrefix_mono (m2.trans (m3.trans m4)) h1, isVal_mono (m3.trans m4) h2, recordSizeByte k, i, r, rs, l2, ?_, hh, fun _ => sizeAcc_byte h3 (by simp), h5, h6⟩
      rw [reference_enc (by simp; omega)]
      rfl
theorem ser_nodes : ∀ (l : List SNode) (data : Bytes) (before : List Bytes) (k : Nat) (st : σ), data = before.flatten → SizeAcc k before → ExL (ids ex L st) l →
    WP L st (serializeL S l data k st) fun out st' =>
      ∃ rs ds, out.1 = (before ++ rs).flatten ∧ SizeAcc out.2 (before ++ rs) ∧ IsNodes ⟨true, ex⟩ (L.Has st') ds rs ∧ ds.length = l.length
  | [], data, before, k, st, e, h, _ => by
    simp only [serializeL]
    exact wp_ok ⟨[], [], by simp [e], by simpa using h, by simp [IsNodes], rfl⟩
  | a :: l, data, before, k, st, e, h, hx => by
    simp only [serializeL]
    refine wp_bind (ser_node a st hx.1) fun b st1 m1 ⟨d, h1⟩ => ?_
    have hl := isNode_len h1
    have hx1 : ExL (ids ex L st1) l := exL_iff.2 fun x hm => ex_mono m1 (exL_iff.1 hx.2 x hm)
    intro out st2 e2
    obtain ⟨m2, rs, ds, e3, h2, h3, h4⟩ := ser_nodes l (data ++ b) (before ++ [b]) _ st1 (by simp [e]) (sizeAcc_next h hl.1 hl.2) hx1 out st2 e2
    refine ⟨m2, b :: rs, d :: ds, by simpa using e3, by simpa using h2, ?_, by simp [h4]⟩
    simp only [IsNodes]
    exact ⟨b, rs, rfl, isNode_mono m2 _ _ h1, h3⟩
end

theorem reattach_ok {st st' : σ} {a a' : SNode} {i : Bytes} (h : Ex (ids ex L st) a) (e : tryReattach S a st = (.ok (a', i), st')) :
    Ex (ids ex L st') a' ∧ ∃ bs d, L.Has st' i bs ∧ IsNode ⟨true, ex⟩ (L.Has st') d bs := by
  have key : WP L st (tryReattach S a st) fun x st' => Ex (ids ex L st') x.1 ∧ ∃ bs d, L.Has st' x.2 bs ∧ IsNode ⟨true, ex⟩ (L.Has st') d bs := by
    unfold tryReattach
    refine wp_bind (ser_node a st h) fun bs st1 m1 ⟨d, h1⟩ => ?_
    refine wp_bind (wp_post (post_write st1 bs)) fun i st2 m2 ⟨hh, l1, l2⟩ => ?_
    have h1 := isNode_mono m2 _ _ h1
    cases hd : deserialize S bs with
    | ok a1 => exact wp_ok ⟨deserialize_ok h1 a1 hd, bs, d, hh, h1⟩
    | _ => intro x st' e; cases e
  exact (key _ _ e).2

theorem attached_ok {st st' : σ} {t : Node} {a : SNode} (e : tryAttached S t st = (.ok a, st')) : Ex (ids ex L st') a := by
  have key : WP L st (tryAttached S t st) fun x st' => Ex (ids ex L st') x := by
    unfold tryAttached
    refine wp_bind (ser_node (ex := ex) (L := L) (embed t) st (ex_embed t)) fun bs st1 m1 ⟨d, h1⟩ => ?_
    obtain ⟨q, rfl, hf, hq⟩ := node_rec h1
    have e : readOne q.enc = some (q, []) := by simpa using readOne_enc hf []
    rw [e]
    simp only [List.isEmpty_nil, if_true]
    cases hd : (q.toOwned : Res ε SNode) with
    | ok a1 => exact wp_ok (toOwned_ok (r := .borrowed q) hq a1 hd)
    | _ => intro x st' e; cases e
  exact (key _ _ e).2

theorem load_ok {st : σ} {i bs : Bytes} {d : Doc} {a : SNode} (hh : L.Has st i bs) (h : IsNode ⟨true, ex⟩ (L.Has st) d bs) (e : tryLoad S st i = .ok a) : Ex (ids ex L st) a := by
  unfold tryLoad at e
  rcases L.read_has hh with hr | ⟨x, hr⟩ <;> rw [hr] at e
  · exact deserialize_ok h a e
  · cases e

end

/-! ### What stands for a tree in memory -/

section
variable {σ ε : Type} {S : BlobStore σ ε} {L : Lawful S}

mutual
theorem isNode_ids {g : Bool} {has : Bytes → Bytes → Prop} : ∀ (d : Doc) (b : Bytes), IsNode ⟨g, false⟩ has d b → IsNode ⟨true, false⟩ has d b
  | .node p v l, b, h => by
    simp only [IsNode] at h ⊢
    obtain ⟨f1, f2, f3, rfl, h1, h2, h3⟩ := h
    refine ⟨f1, f2, f3, rfl, ?_, ?_, isKids_ids l f3 h3⟩
    · rcases h1 with h | ⟨-, h2, h3⟩
      · exact .inl h
      · exact .inr ⟨rfl, h2, h3⟩
    · cases v <;> exact h2
theorem isKids_ids {g : Bool} {has : Bytes → Bytes → Prop} : ∀ (l : List Doc) (f : Bytes), IsKids ⟨g, false⟩ has l f → IsKids ⟨true, false⟩ has l f
  | [], f, h => by simp only [IsKids] at h ⊢; exact h
  | d :: l, f, h => by
    simp only [IsKids] at h ⊢
    obtain ⟨s, i, r, rs, h1, h2, h3, h4, h5, h6⟩ := h
    exact ⟨s, i, r, rs, h1, h2, h3, fun e => (by cases e), isNode_ids d r h5, isNodes_ids l rs h6⟩
theorem isNodes_ids {g : Bool} {has : Bytes → Bytes → Prop} : ∀ (l : List Doc) (rs : List Bytes), IsNodes ⟨g, false⟩ has l rs → IsNodes ⟨true, false⟩ has l rs
  | [], rs, h => by simp only [IsNodes] at h ⊢; exact h
  | d :: l, rs, h => by
    simp only [IsNodes] at h ⊢
    obtain ⟨r, rs', h1, h2, h3⟩ := h
    exact ⟨r, rs', h1, isNode_ids d r h2, isNodes_ids l rs' h3⟩
end

mutual
theorem rep_ex {g : Bool} {st : σ} : ∀ (n : Node) {a : SNode}, Rep L g st a n → Ex (ids false L st) a
  | .mk p v c, a, h => by
    obtain ⟨h1, h2, h3⟩ := rep_iff.1 h
    refine ex_iff.2 ⟨?_, ?_, repC_ex c h3⟩
    · rcases h1 with e | ⟨-, x, i, e, hl, hp, hh⟩ <;> rw [e]
      · trivial
      · exact ⟨by simp; omega, p, .inr ⟨rfl, fun e => (by cases e), x, i, hp, by omega, hh, rfl⟩⟩
    · cases v with
      | none => rw [show a.val = .none from h2]; exact .inl rfl
      | some v =>
        rcases h2 with e | ⟨i, e, hn, hl, hh⟩ <;> rw [e]
        · trivial
        · exact .inr ⟨by omega, v, hh, fun e => (by cases e)⟩
theorem repC_ex {g : Bool} {st : σ} : ∀ (c : Option (List Node)) {ch : List SNode ⊕ Bytes}, RepC L g st ch c → ExC (ids false L st) ch
  | none, ch, h => by simp only [RepC] at h; subst h; exact (ids false L st).chNil
  | some l, ch, h => by
    have h' := h
    simp only [RepC] at h
    rcases h with ⟨as, rfl, h⟩ | ⟨rs, i, bs, rfl, hl, hr⟩
    · exact repL_ex l h
    · have := rep_isKids _ _ h'
      rw [← reference_enc (by simp; omega)] at this
      exact ⟨by simp; omega, _, isKids_ids _ _ this⟩
theorem repL_ex {g : Bool} {st : σ} : ∀ (l : List Node) {as : List SNode}, RepL L g st as l → All (ids false L st) as
  | [], as, h => by simp only [RepL] at h; subst h; exact all_nil
  | n :: l, as, h => by
    simp only [RepL] at h
    obtain ⟨a, as', rfl, h1, h2⟩ := h
    exact all_append (l := [a]) (all_one (rep_ex n h1)) (repL_ex l h2)
end

end

theorem single_ex {k v : Bytes} : RefEx noIds (singleRef k v) := ex_iff.2 ⟨trivial, trivial, rfl⟩

theorem no_val {ex : Bool} {ε τ : Type} {T : BlobStore τ ε} {M : Lawful T} {st : τ} {v : BlobV} (h : OkB noIds.val v) : HandOrStored ex M st v := by
  cases v with
  | data d => intro i e; cases e
  | id i => intro j e; cases e; exact .inl h

theorem lit_lit {d d' x y : Bytes} (hd : d.length ≤ 127) (hd' : d'.length ≤ 127) (h : literal d ++ x = literal d' ++ y) : d = d' ∧ x = y := by
  simp only [literal, List.cons_append, List.cons.injEq] at h
  have h1 := congrArg UInt8.toNat h.1
  simp only [UInt8.toNat_ofNat'] at h1
  exact List.append_inj h.2 (by omega)

theorem ref_ref {d d' x y : Bytes} (hd : d.length ≤ 127) (hd' : d'.length ≤ 127) (h : reference d ++ x = reference d' ++ y) : d = d' ∧ x = y := by
  simp only [reference, List.cons_append, List.cons.injEq] at h
  have h1 := congrArg UInt8.toNat h.1
  simp only [UInt8.toNat_ofNat'] at h1
  exact List.append_inj h.2 (by omega)

theorem lit_ref {d d' x y : Bytes} (hd : d.length ≤ 127) (hd' : d'.length ≤ 127) (h : literal d ++ x = reference d' ++ y) : False := by
  simp only [reference, literal, List.cons_append, List.cons.injEq] at h
  have h1 := congrArg UInt8.toNat h.1
  simp only [UInt8.toNat_ofNat'] at h1
  omega

/-- Nothing is in the store of trees in memory. -/
theorem has_detached {ε : Type} {M : Lawful (detachedStore ε)} {i d : Bytes} (h : M.Has () i d) : False := by
  rcases M.read_has h with e | ⟨x, e⟩ <;> cases e

theorem det_noIds {ex : Bool} {ε : Type} {M : Lawful (detachedStore ε)} {a : SNode} (h : Ex (ids ex M ()) a) : Ex noIds a := by
  refine ex_imp (I := ids ex M ()) (I' := noIds) (fun i ⟨h1, p, h2⟩ => ?_) (fun i h => ?_) (fun i ⟨h1, l, h2⟩ => ?_) a h
  · rcases h2 with ⟨hl, e⟩ | ⟨_, _, c, j, _, _, hh, _⟩
    · exact (lit_ref hl h1 (x := []) (y := []) (by rw [e])).elim
    · exact has_detached hh
  · rcases h with h | ⟨_, d, hh, _⟩
    · exact h
    · exact (has_detached hh).elim
  · cases l with
    | nil => simp only [IsKids] at h2; exact ref_inj h2
    | cons d l =>
      simp only [IsKids] at h2
      obtain ⟨s, j, r, rs, _, _, hh, _⟩ := h2
      exact (has_detached hh).elim

theorem self_ex {ex : Bool} {σ ε : Type} {S : BlobStore σ ε} {L : Lawful S} {st : σ} {a : SNode} (h : FromDocs ex S L st a) : Ex (ids ex L st) a := by
  induction h with
  | empty st => exact ex_empty
  | plain t st => exact ex_embed t
  | attach e => exact attached_ok e
  | foreign hh h e => exact load_ok hh h e
  | att he h =>
    subst he
    obtain ⟨t, ho, hs, hr, hd⟩ := att_stands h
    exact rep_ex _ hr
  | later _ hm ih => exact ex_mono hm ih
  | reattach _ e ih => exact (reattach_ok ih e).1
  | load _ e hm e' ih =>
    obtain ⟨_, bs, d, hh, h⟩ := reattach_ok ih e
    exact load_ok (hm _ _ hh) (isNode_mono hm _ _ h) e'
  | @insert σ S L st a a' r dbg ab k v hk _ ho ih =>
    obtain ⟨fuel, e⟩ := outcome_at ho
    have := outer_ok (e := singleEnv S st dbg ab) (I := ids ex L st) (J := noIds) (c := .downcast ε) (f := fun _ r => .ok r) (closed_ids st) (closed_detached noIds) hk
      (fun b hb x e => by cases b <;> cases e; exact ex_noIds hb) (fun b n hb x e => ex_noIds (refShortened_ok hb n x e))
      (fun v hv x e => by cases e; exact okB_val.2 (no_val hv)) (fun av bv _ _ _ hb x e => by cases e; exact okB_val.2 (no_val hb)) fuel a (singleRef k v) ih single_ex
    rwa [show (outerCombineWithS (singleEnv S st dbg ab) (.downcast ε) (fun _ r => .ok r) fuel a (singleRef k v)) = (r, a') from e] at this
  | @remove σ S L st a a' r dbg ab k hk _ ho ih =>
    obtain ⟨fuel, e⟩ := outcome_at ho
    have := left_ok (e := singleEnv S st dbg ab) (I := ids ex L st) (J := noIds) (f := fun _ _ => .ok .none) (closed_ids st) (closed_detached noIds) hk
      (fun av bv _ _ _ hb x e => by cases e; exact ok_none) fuel a (singleRef k []) ih single_ex
    rwa [show (leftCombineWithS (singleEnv S st dbg ab) (fun _ _ => .ok .none) fuel a (singleRef k [])) = (r, a') from e] at this
  | @removePrefix σ S L st a a' r dbg ab p hk _ ho ih =>
    obtain ⟨fuel, e⟩ := outcome_at ho
    have := remove_ok (e := singleEnv S st dbg ab) (I := ids ex L st) (J := noIds) (f := fun _ => .ok true) (closed_ids st) (closed_detached noIds) hk fuel a (singleRef p []) ih single_ex
    rwa [show (removePrefixWithS (singleEnv S st dbg ab) (fun _ => .ok true) fuel a (singleRef p [])) = (r, a') from e] at this
  | filterPrefix p s _ ho ih =>
    obtain ⟨fuel, e⟩ := outcome_at ho
    exact filter_ok (closed_ids _) ih fuel p s _ e
  | @outerDowncast σ S L M st a a' b r dbg ab f hk _ _ hf ho iha ihb =>
    obtain ⟨fuel, e⟩ := outcome_at ho
    have := outer_ok (e := ⟨S, st, detachedStore ε, (), dbg, ab⟩) (I := ids ex L st) (J := noIds) (c := .downcast ε) (f := f) (closed_ids st) (closed_detached noIds) hk
      (fun b hb x e => by cases b <;> cases e; exact ex_noIds hb) (fun b n hb x e => ex_noIds (refShortened_ok hb n x e))
      (fun v hv x e => by cases e; exact okB_val.2 (no_val hv)) (fun av bv h1 h2 ha hb x e => okB_val.2 (hf av bv x h1 h2 (okB_val.1 ha) (no_val hb) e)) fuel a (.owned b) iha (det_noIds ihb)
    rwa [e] at this
  | @outerIdentity σ S L st a a' b r dbg ab f hk _ _ hf ho iha ihb =>
    obtain ⟨fuel, e⟩ := outcome_at ho
    have := outer_ok (e := ⟨S, st, S, st, dbg, ab⟩) (I := ids ex L st) (J := ids ex L st) (c := .identity S st) (f := f) (closed_ids st) (closed_ids st) hk
      (fun b hb => toOwned_ok hb) (fun b n hb => refShortened_ok hb n)
      (fun v hv x e => by cases e; exact hv) (fun av bv h1 h2 ha hb x e => okB_val.2 (hf av bv x h1 h2 (okB_val.1 ha) (okB_val.1 hb) e)) fuel a (.owned b) iha ihb
    rwa [e] at this
  | @innerWith σ τ S T L M st st' a a' b r dbg ab f hk _ _ hf ho iha ihb =>
    obtain ⟨fuel, e⟩ := outcome_at ho
    have := inner_ok (e := ⟨S, st, T, st', dbg, ab⟩) (I := ids ex L st) (J := ids ex M st') (f := f) (closed_ids st) (closed_ids st') hk
      (fun av bv h1 h2 ha hb x e => okB_val.2 (hf av bv x h1 h2 (okB_val.1 ha) (okB_val.1 hb) e)) fuel a (.owned b) iha ihb
    rwa [e] at this
  | @leftWith σ τ S T L M st st' a a' b r dbg ab f hk _ _ hf ho iha ihb =>
    obtain ⟨fuel, e⟩ := outcome_at ho
    have := left_ok (e := ⟨S, st, T, st', dbg, ab⟩) (I := ids ex L st) (J := ids ex M st') (f := f) (closed_ids st) (closed_ids st') hk
      (fun av bv h1 h2 ha hb x e => okB_val.2 (hf av bv x h1 h2 (okB_val.1 ha) (okB_val.1 hb) e)) fuel a (.owned b) iha ihb
    rwa [e] at this
  | @removeWith σ τ S T L M st st' a a' b r dbg ab p hk _ _ ho iha ihb =>
    obtain ⟨fuel, e⟩ := outcome_at ho
    have := remove_ok (e := ⟨S, st, T, st', dbg, ab⟩) (I := ids ex L st) (J := ids ex M st') (f := p) (closed_ids st) (closed_ids st') hk fuel a (.owned b) iha ihb
    rwa [e] at this
  | @retainWith σ τ S T L M st st' a a' b r dbg ab p hk _ _ ho iha ihb =>
    obtain ⟨fuel, e⟩ := outcome_at ho
    have := retain_ok (e := ⟨S, st, T, st', dbg, ab⟩) (I := ids ex L st) (J := ids ex M st') (f := p) (closed_ids st) (closed_ids st') hk fuel a (.owned b) iha ihb
    rwa [e] at this

/-! ### Bytes stand for one tree only -/

section
variable {has : Bytes → Bytes → Prop} (hu : ∀ i d d', has i d → has i d' → d = d') {R R' : Rules}
include hu

theorem joint_pfx {p p' f f' x y : Bytes} (h : IsPrefix R has p f) (h' : IsPrefix R' has p' f') (e : f ++ x = f' ++ y) :
    p = p' ∧ f = f' ∧ x = y ∧ IsPrefix ⟨R.prefixIds, R'.exact⟩ has p f := by
  rcases h with ⟨hl, rfl⟩ | ⟨hp, hx, c, i, hc, hl, hh, rfl⟩ <;> rcases h' with ⟨hl', rfl⟩ | ⟨hp', hx', c', i', hc', hl', hh', rfl⟩
  · obtain ⟨rfl, rfl⟩ := lit_lit hl hl' e
    exact ⟨rfl, rfl, rfl, .inl ⟨hl, rfl⟩⟩
  · exact (lit_ref hl (by simp; omega) e).elim
  · exact (lit_ref hl' (by simp; omega) e.symm).elim
  · obtain ⟨e1, rfl⟩ := ref_ref (by simp; omega) (by simp; omega) e
    cases e1
    cases hu _ _ _ hh hh'
    exact ⟨rfl, rfl, rfl, .inr ⟨hp, hx', c, i, hc, hl, hh, rfl⟩⟩

theorem joint_val {v v' : Option Bytes} {f f' x y : Bytes} (h : IsVal R has v f) (h' : IsVal R' has v' f') (e : f ++ x = f' ++ y) :
    v = v' ∧ f = f' ∧ x = y ∧ IsVal ⟨R.prefixIds, R'.exact⟩ has v f := by
  cases v with
  | none =>
    cases (show f = reference [] from h)
    cases v' with
    | none =>
      cases (show f' = reference [] from h')
      exact ⟨rfl, rfl, (ref_ref (by simp) (by simp) e).2, rfl⟩
    | some v' =>
      rcases h' with ⟨hl', rfl⟩ | ⟨hx', i', hn', hl', hh', rfl⟩
      · exact (lit_ref hl' (by simp) e.symm).elim
      · exact absurd (ref_ref (by simp) hl' e).1.symm hn'
  | some v =>
    cases v' with
    | none =>
      cases (show f' = reference [] from h')
      rcases h with ⟨hl', rfl⟩ | ⟨hx', i', hn', hl', hh', rfl⟩
      · exact (lit_ref hl' (by simp) e).elim
      · exact absurd (ref_ref hl' (by simp) e).1 hn'
    | some v' =>
      rcases h with ⟨hl, rfl⟩ | ⟨hx, i, hn, hl, hh, rfl⟩ <;> rcases h' with ⟨hl', rfl⟩ | ⟨hx', i', hn', hl', hh', rfl⟩
      · obtain ⟨rfl, rfl⟩ := lit_lit hl hl' e
        exact ⟨rfl, rfl, rfl, .inl ⟨hl, rfl⟩⟩
      · exact (lit_ref hl hl' e).elim
      · exact (lit_ref hl' hl e.symm).elim
      · obtain ⟨rfl, rfl⟩ := ref_ref hl hl' e
        cases hu _ _ _ hh hh'
        exact ⟨rfl, rfl, rfl, .inr ⟨hx', i, hn, hl, hh, rfl⟩⟩

mutual
theorem joint_node : ∀ (d d' : Doc) (b b' x y : Bytes), IsNode R has d b → IsNode R' has d' b' → b ++ x = b' ++ y →
    d = d' ∧ b = b' ∧ x = y ∧ IsNode ⟨R.prefixIds, R'.exact⟩ has d b
  | .node p v l, .node p' v' l', b, b', x, y, h, h', e => by
    simp only [IsNode] at h h' ⊢
    obtain ⟨f1, f2, f3, rfl, h1, h2, h3⟩ := h
    obtain ⟨g1, g2, g3, rfl, k1, k2, k3⟩ := h'
    simp only [List.append_assoc] at e
    obtain ⟨rfl, rfl, e, j1⟩ := joint_pfx hu h1 k1 e
    obtain ⟨rfl, rfl, e, j2⟩ := joint_val hu h2 k2 e
    obtain ⟨rfl, rfl, rfl, j3⟩ := joint_kids l l' f3 g3 x y h3 k3 e
    exact ⟨rfl, rfl, rfl, f1, f2, f3, rfl, j1, j2, j3⟩
theorem joint_kids : ∀ (l l' : List Doc) (f f' x y : Bytes), IsKids R has l f → IsKids R' has l' f' → f ++ x = f' ++ y →
    l = l' ∧ f = f' ∧ x = y ∧ IsKids ⟨R.prefixIds, R'.exact⟩ has l f
  | [], [], f, f', x, y, h, h', e => by
    simp only [IsKids] at h h' ⊢
    subst h h'
    exact ⟨trivial, rfl, (ref_ref (by simp) (by simp) e).2, rfl⟩
  | [], d' :: l', f, f', x, y, h, h', e => by
    simp only [IsKids] at h h'
    obtain ⟨s, i, r, rs, hl, rfl, -⟩ := h'
    subst h
    exact absurd (ref_ref (by simp) (by simp; omega) e).1 (by simp)
  | d :: l, [], f, f', x, y, h, h', e => by
    simp only [IsKids] at h h'
    obtain ⟨s, i, r, rs, hl, rfl, -⟩ := h
    subst h'
    exact absurd (ref_ref (by simp; omega) (by simp) e).1 (by simp)
  | d :: l, d' :: l', f, f', x, y, h, h', e => by
    simp only [IsKids] at h h' ⊢
    obtain ⟨s, i, r, rs, hl, rfl, hh, hs, h1, h2⟩ := h
    obtain ⟨s', i', r', rs', hl', rfl, hh', hs', h1', h2'⟩ := h'
    obtain ⟨e1, rfl⟩ := ref_ref (by simp; omega) (by simp; omega) e
    cases e1
    have e2 := hu _ _ _ hh hh'
    simp only [List.flatten_cons] at e2
    obtain ⟨rfl, rfl, e3, j1⟩ := joint_node d d' r r' _ _ h1 h1' e2
    obtain ⟨rfl, rfl, j2⟩ := joint_nodes l l' rs rs' h2 h2' e3
    exact ⟨rfl, rfl, rfl, s, i, r, rs, hl, rfl, hh, hs', j1, j2⟩
theorem joint_nodes : ∀ (l l' : List Doc) (rs rs' : List Bytes), IsNodes R has l rs → IsNodes R' has l' rs' → rs.flatten = rs'.flatten →
    l = l' ∧ rs = rs' ∧ IsNodes ⟨R.prefixIds, R'.exact⟩ has l rs
  | [], [], rs, rs', h, h', e => by
    simp only [IsNodes] at h h' ⊢
    subst h h'
    exact ⟨trivial, rfl, rfl⟩
  | [], d' :: l', rs, rs', h, h', e => by
    simp only [IsNodes] at h h'
    obtain ⟨r', rs', rfl, h1, h2⟩ := h'
    subst h
    have := isNode_len h1
    have e := congrArg List.length e
    simp only [List.flatten_cons, List.length_append, List.flatten_nil, List.length_nil] at e; omega
  | d :: l, [], rs, rs', h, h', e => by
    simp only [IsNodes] at h h'
    obtain ⟨r', rs, rfl, h1, h2⟩ := h
    subst h'
    have := isNode_len h1
    have e := congrArg List.length e
    simp only [List.flatten_cons, List.length_append, List.flatten_nil, List.length_nil] at e; omega
  | d :: l, d' :: l', rs, rs', h, h', e => by
    simp only [IsNodes] at h h' ⊢
    obtain ⟨r, rs, rfl, h1, h2⟩ := h
    obtain ⟨r', rs', rfl, h1', h2'⟩ := h'
    simp only [List.flatten_cons] at e
    obtain ⟨rfl, rfl, e3, j1⟩ := joint_node d d' r r' _ _ h1 h1' e
    obtain ⟨rfl, rfl, j2⟩ := joint_nodes l l' rs rs' h2 h2' e3
    exact ⟨rfl, rfl, r, rs, rfl, j1, j2⟩
end

end

end Radix.Self
