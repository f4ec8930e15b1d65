import Verif.Stored.Combine
import Verif.Proofs.Group

/-
Proof-internal: the copying combinations and the predicates on stored nodes agree with those on plain nodes.
-/

set_option linter.unusedVariables false

namespace Radix
open Node

/-- An environment in which a stored tree is the other operand. -/
def sideEnv {σ ε : Type} (S : BlobStore σ ε) (st : σ) : UEnv σ σ ε := ⟨S, st, S, st, false, fun a _ => a⟩

section
variable {σ τ ε : Type} {S : BlobStore σ ε} {st : σ} {T : BlobStore τ ε} {st' : τ} {L : Lawful S} {M : Lawful T}
  {g gb : Bool} {E P : Prop}

/-- A reference to a node of an operand. -/
def RefS (L : Lawful S) (st : σ) (g : Bool) (P : Prop) (r : Ref) (n : Node) : Prop := RefOK (e := sideEnv S st) L g P r n

/-- An iterator over nodes of an operand. -/
def IterS (L : Lawful S) (st : σ) (g : Bool) (P : Prop) (it : TIter) (l : List Node) : Prop :=
  IterOK (e := sideEnv S st) L g P it l

/-- An optional iterator over nodes of an operand. -/
def OIterS (L : Lawful S) (st : σ) (g : Bool) (P : Prop) (it : Option TIter) (l : Option (List Node)) : Prop :=
  OIterOK (e := sideEnv S st) L g P it l

/-- What is known about an operand. -/
structure SideOK (L : Lawful S) (st : σ) (E P : Prop) : Prop where
  e : ¬ ReadsSucceed L st → E
  plain : P ∨ Plain L st

theorem SideOK.uok (u : SideOK L st E P) : UOK (e := sideEnv S st) L L E P := ⟨u.e, u.e, u.plain⟩

theorem RefS.kids (u : SideOK L st E P) {b : Ref} {m : Node} (h : RefS L st g P b m) :
    RP E P (b.loadChildren S st) fun o => OIterS L st g P o m.loadChildren := RefOK.loadChildren u.uok h

theorem RefS.short (u : SideOK L st E P) {b : Ref} {m : Node} (h : RefS L st g P b m) (k : Nat) :
    RP E P (b.cloneShortened S st k) fun a => Rep L g st a (m.cloneShortened k) ∧ a.pfx.isId = false :=
  RefOK.cloneShortened u.uok h k

theorem RefS.prefix (u : SideOK L st E P) {b : Ref} {m : Node} (h : RefS L st g P b m) :
    RP E P (loadPrefix S st b.pfx) (· = m.pfx) := RefOK.loadPrefix u.uok h

theorem RefS.rank {b : Ref} {m : Node} (h : RefS L st g P b m) : rank b.pfx.firstByte = Node.rank m.firstByte :=
  rank_firstByte (RefRep.pfx h.1)

theorem oiterS_single {a : SNode} {m : Node} (h : Rep L g st a m) : OIterS L st g P (iterFromSlice [a]) (some [m]) :=
  singleIter_ok (e := sideEnv S st) h

theorem refS_owned {a : SNode} {m : Node} (h : Rep L g st a m) : RefS L st g P (.owned a) m := ⟨h, Or.inr ⟨a, rfl⟩⟩

theorem RefS.detached (u : SideOK L st E P) {b : Ref} {m : Node} (h : RefS L st g P b m) {fuel : Nat}
    (hf : m.height ≤ fuel) : RP E P (b.detached S st fuel) (· = m.detached) :=
  rp_of_rpost u.e (rpost_bind (RefRep.toOwned h.1) fun a ha => detachedS_repH.1 ha hf)

theorem RefS.shortDetached (u : SideOK L st E P) {b : Ref} {m : Node} (h : RefS L st g P b m) {fuel : Nat}
    (hf : m.height ≤ fuel) (k : Nat) :
    RP E P (b.shortDetached S st fuel k) (· = (m.cloneShortened k).detached) :=
  rp_bind (h.short u k) fun a ha => rp_of_rpost u.e (detachedS_repH.1 ha.1 (by rw [height_cloneShortened]; exact hf))

theorem IterS.detached (u : SideOK L st E P) {it : TIter} {l : List Node} (h : IterS L st g P it l) {fuel : Nat}
    (hf : heightL l ≤ fuel) : RP E P (it.detached S st fuel) (· = detachedO (some l)) := by
  obtain ⟨h1, h2⟩ := h
  cases it with
  | owned as =>
    have h1' : RepL L g st as l := h1
    cases l with
    | nil => cases (repL_nil (L := L) (g := g)).1 h1'; exact rfl
    | cons n l =>
      obtain ⟨a, as, rfl, _, _⟩ := (repL_cons (L := L) (g := g)).1 h1'
      simp only [TIter.detached]
      refine rp_bind (rp_of_rpost u.e ((detachedS_repH (L := L) (g := g)).2 h1 hf)) ?_
      rintro _ rfl
      exact rfl
  | borrowed bs =>
    rcases h2 with hP | ⟨_, h2⟩
    · cases bs with
      | cons b bs => exact hP
      | nil =>
        cases l with
        | nil => exact rfl
        | cons n l =>
          obtain ⟨r, it', e, _⟩ := IterRep.next_cons h1
          simp [TIter.next, readOne, readBlob] at e
    · cases h2

theorem valueOptDetached_rep (u : SideOK L st E P) {b : BlobV} {v : Option Bytes} (h : ValRep L st b v) :
    RP E P (valueOptDetached b : Res ε _) (· = v) := by
  unfold valueOptDetached
  cases v with
  | none => cases h; exact rfl
  | some v =>
    rcases h with rfl | ⟨i, rfl, hi, _, hh⟩
    · simp [BlobV.valueOpt, BlobV.none, RP]
    · have : (BlobV.id i).valueOpt = some (.id i) := by simp [BlobV.valueOpt, BlobV.none, hi]
      rw [this]
      rcases u.plain with hP | hp
      · exact hP
      · exact absurd hh (hp _ _)

/-! ### The loops -/

section
variable {step : Option Ref → Option Ref → Res ε (Option Node)}

theorem joinMapS_nn {a b : TIter} (ha : a.next = none) (hb : b.next = none) : joinMapS step a b = .ok [] := by
  rw [joinMapS.eq_def]; split <;> simp_all

theorem joinMapS_sn {a b a' : TIter} {x : Ref} (ha : a.next = some (x, a')) (hb : b.next = none) :
    joinMapS step a b = (step (some x) none).bind fun o => (joinMapS step a' b).bind fun l => .ok (o.toList ++ l) := by
  rw [joinMapS.eq_def]; split <;> simp_all

theorem joinMapS_ns {a b b' : TIter} {y : Ref} (ha : a.next = none) (hb : b.next = some (y, b')) :
    joinMapS step a b = (step none (some y)).bind fun o => (joinMapS step a b').bind fun l => .ok (o.toList ++ l) := by
  rw [joinMapS.eq_def]; split <;> simp_all

theorem joinMapS_ss {a b a' b' : TIter} {x y : Ref} (ha : a.next = some (x, a')) (hb : b.next = some (y, b')) :
    joinMapS step a b =
    if rank x.pfx.firstByte < rank y.pfx.firstByte then
      (step (some x) none).bind fun o => (joinMapS step a' b).bind fun l => .ok (o.toList ++ l)
    else if rank y.pfx.firstByte < rank x.pfx.firstByte then
      (step none (some y)).bind fun o => (joinMapS step a b').bind fun l => .ok (o.toList ++ l)
    else
      (step (some x) (some y)).bind fun o => (joinMapS step a' b').bind fun l => .ok (o.toList ++ l) := by
  rw [joinMapS.eq_def]; split <;> simp_all

end

section
variable {step : Option Ref → Option Ref → Res ε Bool}

theorem joinAnyS_nn {a b : TIter} (ha : a.next = none) (hb : b.next = none) : joinAnyS step a b = .ok false := by
  rw [joinAnyS.eq_def]; split <;> simp_all

theorem joinAnyS_sn {a b a' : TIter} {x : Ref} (ha : a.next = some (x, a')) (hb : b.next = none) :
    joinAnyS step a b = (step (some x) none).bind fun o => if o then .ok true else joinAnyS step a' b := by
  rw [joinAnyS.eq_def]; split <;> simp_all

theorem joinAnyS_ns {a b b' : TIter} {y : Ref} (ha : a.next = none) (hb : b.next = some (y, b')) :
    joinAnyS step a b = (step none (some y)).bind fun o => if o then .ok true else joinAnyS step a b' := by
  rw [joinAnyS.eq_def]; split <;> simp_all

theorem joinAnyS_ss {a b a' b' : TIter} {x y : Ref} (ha : a.next = some (x, a')) (hb : b.next = some (y, b')) :
    joinAnyS step a b =
    if rank x.pfx.firstByte < rank y.pfx.firstByte then
      (step (some x) none).bind fun o => if o then .ok true else joinAnyS step a' b
    else if rank y.pfx.firstByte < rank x.pfx.firstByte then
      (step none (some y)).bind fun o => if o then .ok true else joinAnyS step a b'
    else (step (some x) (some y)).bind fun o => if o then .ok true else joinAnyS step a' b' := by
  rw [joinAnyS.eq_def]; split <;> simp_all

theorem anyIterS_nil {f : Ref → Res ε Bool} {it : TIter} (h : it.next = none) : anyIterS f it = .ok false := by
  rw [anyIterS.eq_def]; split <;> simp_all

theorem anyIterS_cons {f : Ref → Res ε Bool} {it it' : TIter} {c : Ref} (h : it.next = some (c, it')) :
    anyIterS f it = (f c).bind fun o => if o then .ok true else anyIterS f it' := by
  rw [anyIterS.eq_def]; split <;> simp_all

end

theorem IterS.next_nil {it : TIter} (h : IterS L st g P it []) : it.next = none := IterOK.next_nil h

theorem IterS.next_cons {it : TIter} {m : Node} {l : List Node} (h : IterS L st g P it (m :: l)) :
    ∃ r it', it.next = some (r, it') ∧ RefS L st g P r m ∧ IterS L st g P it' l := IterOK.next_cons h

theorem rp_cons {x : Res ε (Option Node)} {y : Res ε (List Node)} {o : Option Node} {l : List Node}
    (hx : RP E P x (· = o)) (hy : RP E P y (· = l)) :
    RP E P (x.bind fun o => y.bind fun l => .ok (o.toList ++ l)) (· = o.toList ++ l) := by
  refine rp_bind hx ?_
  rintro _ rfl
  refine rp_bind hy ?_
  rintro _ rfl
  exact rfl

theorem joinMapS_rep {step : Option Ref → Option Ref → Res ε (Option Node)} {h : Option Node × Option Node → Option Node}
    {l ml : List Node}
    (hab : ∀ a n b m, n ∈ l → m ∈ ml → RefS L st g P a n → RefS M st' gb P b m →
      RP E P (step (some a) (some b)) (· = h (some n, some m)))
    (ha : ∀ a n, n ∈ l → RefS L st g P a n → RP E P (step (some a) none) (· = h (some n, none)))
    (hb : ∀ b m, m ∈ ml → RefS M st' gb P b m → RP E P (step none (some b)) (· = h (none, some m)))
    {ia ib : TIter} (ia_ok : IterS L st g P ia l) (ib_ok : IterS M st' gb P ib ml) :
    RP E P (joinMapS step ia ib) (· = (join l ml).filterMap h) := by
  fun_induction join l ml generalizing ia ib with
  | case1 => rw [joinMapS_nn ia_ok.next_nil ib_ok.next_nil]; exact rfl
  | case2 n l ih =>
    obtain ⟨a, ia', e1, h1, h2⟩ := ia_ok.next_cons
    rw [joinMapS_sn e1 ib_ok.next_nil, filterMap_cons_toList]
    exact rp_cons (ha a n List.mem_cons_self h1)
      (ih (fun a n b m hn hm => hab a n b m (List.mem_cons_of_mem _ hn) hm)
        (fun a n hn => ha a n (List.mem_cons_of_mem _ hn)) hb h2 ib_ok)
  | case3 m ml ih =>
    obtain ⟨b, ib', e1, h1, h2⟩ := ib_ok.next_cons
    rw [joinMapS_ns ia_ok.next_nil e1, filterMap_cons_toList]
    exact rp_cons (hb b m List.mem_cons_self h1)
      (ih (fun a n b m hn hm => hab a n b m hn (List.mem_cons_of_mem _ hm)) ha
        (fun b m hm => hb b m (List.mem_cons_of_mem _ hm)) ia_ok h2)
  | case4 n l m ml hlt ih =>
    obtain ⟨a, ia', e1, h1, h2⟩ := ia_ok.next_cons
    obtain ⟨b, ib', e2, h3, h4⟩ := ib_ok.next_cons
    rw [joinMapS_ss e1 e2, h1.rank, h3.rank, if_pos hlt, filterMap_cons_toList]
    exact rp_cons (ha a n List.mem_cons_self h1)
      (ih (fun a n b m hn hm => hab a n b m (List.mem_cons_of_mem _ hn) hm)
        (fun a n hn => ha a n (List.mem_cons_of_mem _ hn)) hb h2 ib_ok)
  | case5 n l m ml hlt hgt ih =>
    obtain ⟨a, ia', e1, h1, h2⟩ := ia_ok.next_cons
    obtain ⟨b, ib', e2, h3, h4⟩ := ib_ok.next_cons
    rw [joinMapS_ss e1 e2, h1.rank, h3.rank, if_neg hlt, if_pos hgt, filterMap_cons_toList]
    exact rp_cons (hb b m List.mem_cons_self h3)
      (ih (fun a n b m hn hm => hab a n b m hn (List.mem_cons_of_mem _ hm)) ha
        (fun b m hm => hb b m (List.mem_cons_of_mem _ hm)) ia_ok h4)
  | case6 n l m ml hlt hgt ih =>
    obtain ⟨a, ia', e1, h1, h2⟩ := ia_ok.next_cons
    obtain ⟨b, ib', e2, h3, h4⟩ := ib_ok.next_cons
    rw [joinMapS_ss e1 e2, h1.rank, h3.rank, if_neg hlt, if_neg hgt, filterMap_cons_toList]
    exact rp_cons (hab a n b m List.mem_cons_self List.mem_cons_self h1 h3)
      (ih (fun a n b m hn hm => hab a n b m (List.mem_cons_of_mem _ hn) (List.mem_cons_of_mem _ hm))
        (fun a n hn => ha a n (List.mem_cons_of_mem _ hn))
        (fun b m hm => hb b m (List.mem_cons_of_mem _ hm)) h2 h4)

theorem rp_or {x y : Res ε Bool} {p q : Bool} (hx : RP E P x (· = p)) (hy : RP E P y (· = q)) :
    RP E P (x.bind fun o => if o then .ok true else y) (· = (p || q)) := by
  refine rp_bind hx fun o ho => ?_
  subst ho
  cases o
  · simpa using hy
  · exact rfl

theorem joinAnyS_rep {step : Option Ref → Option Ref → Res ε Bool} {h : Option Node × Option Node → Bool}
    {l ml : List Node}
    (hab : ∀ a n b m, n ∈ l → m ∈ ml → RefS L st g P a n → RefS M st' gb P b m →
      RP E P (step (some a) (some b)) (· = h (some n, some m)))
    (ha : ∀ a n, n ∈ l → RefS L st g P a n → RP E P (step (some a) none) (· = h (some n, none)))
    (hb : ∀ b m, m ∈ ml → RefS M st' gb P b m → RP E P (step none (some b)) (· = h (none, some m)))
    {ia ib : TIter} (ia_ok : IterS L st g P ia l) (ib_ok : IterS M st' gb P ib ml) :
    RP E P (joinAnyS step ia ib) (· = (join l ml).any h) := by
  fun_induction join l ml generalizing ia ib with
  | case1 => rw [joinAnyS_nn ia_ok.next_nil ib_ok.next_nil]; exact rfl
  | case2 n l ih =>
    obtain ⟨a, ia', e1, h1, h2⟩ := ia_ok.next_cons
    rw [joinAnyS_sn e1 ib_ok.next_nil, List.any_cons]
    exact rp_or (ha a n List.mem_cons_self h1)
      (ih (fun a n b m hn hm => hab a n b m (List.mem_cons_of_mem _ hn) hm)
        (fun a n hn => ha a n (List.mem_cons_of_mem _ hn)) hb h2 ib_ok)
  | case3 m ml ih =>
    obtain ⟨b, ib', e1, h1, h2⟩ := ib_ok.next_cons
    rw [joinAnyS_ns ia_ok.next_nil e1, List.any_cons]
    exact rp_or (hb b m List.mem_cons_self h1)
      (ih (fun a n b m hn hm => hab a n b m hn (List.mem_cons_of_mem _ hm)) ha
        (fun b m hm => hb b m (List.mem_cons_of_mem _ hm)) ia_ok h2)
  | case4 n l m ml hlt ih =>
    obtain ⟨a, ia', e1, h1, h2⟩ := ia_ok.next_cons
    obtain ⟨b, ib', e2, h3, h4⟩ := ib_ok.next_cons
    rw [joinAnyS_ss e1 e2, h1.rank, h3.rank, if_pos hlt, List.any_cons]
    exact rp_or (ha a n List.mem_cons_self h1)
      (ih (fun a n b m hn hm => hab a n b m (List.mem_cons_of_mem _ hn) hm)
        (fun a n hn => ha a n (List.mem_cons_of_mem _ hn)) hb h2 ib_ok)
  | case5 n l m ml hlt hgt ih =>
    obtain ⟨a, ia', e1, h1, h2⟩ := ia_ok.next_cons
    obtain ⟨b, ib', e2, h3, h4⟩ := ib_ok.next_cons
    rw [joinAnyS_ss e1 e2, h1.rank, h3.rank, if_neg hlt, if_pos hgt, List.any_cons]
    exact rp_or (hb b m List.mem_cons_self h3)
      (ih (fun a n b m hn hm => hab a n b m hn (List.mem_cons_of_mem _ hm)) ha
        (fun b m hm => hb b m (List.mem_cons_of_mem _ hm)) ia_ok h4)
  | case6 n l m ml hlt hgt ih =>
    obtain ⟨a, ia', e1, h1, h2⟩ := ia_ok.next_cons
    obtain ⟨b, ib', e2, h3, h4⟩ := ib_ok.next_cons
    rw [joinAnyS_ss e1 e2, h1.rank, h3.rank, if_neg hlt, if_neg hgt, List.any_cons]
    exact rp_or (hab a n b m List.mem_cons_self List.mem_cons_self h1 h3)
      (ih (fun a n b m hn hm => hab a n b m (List.mem_cons_of_mem _ hn) (List.mem_cons_of_mem _ hm))
        (fun a n hn => ha a n (List.mem_cons_of_mem _ hn))
        (fun b m hm => hb b m (List.mem_cons_of_mem _ hm)) h2 h4)

theorem anyIterS_rep {f : Ref → Res ε Bool} {h : Node → Bool} : ∀ {l : List Node} {it : TIter}, IterS L st g P it l →
    (∀ c n, n ∈ l → RefS L st g P c n → RP E P (f c) (· = h n)) → RP E P (anyIterS f it) (· = l.any h)
  | [], it, hi, hf => by rw [anyIterS_nil hi.next_nil]; exact rfl
  | n :: l, it, hi, hf => by
    obtain ⟨c, it', e1, h1, h2⟩ := hi.next_cons
    rw [anyIterS_cons e1, List.any_cons]
    exact rp_or (hf c n List.mem_cons_self h1) (anyIterS_rep h2 fun c n hn => hf c n (List.mem_cons_of_mem _ hn))

/-! ### Children -/

/-- The user function of a copying combination, on stored and on plain values. -/
def CFOK (L : Lawful S) (st : σ) (M : Lawful T) (st' : τ) (E P : Prop) {α : Type} (f : BlobV → BlobV → Res ε α)
    (ff : Bytes → Bytes → α) : Prop :=
  ∀ av bv x y, ValRep L st av (some x) → ValRep M st' bv (some y) → RP E P (f av bv) (· = ff x y)

/-- The step of `outer_combine_children`. -/
def outerStep (h : Node → Node → Node) : Option Node × Option Node → Option Node
  | (some a, some b) => keepNonEmpty (h a b)
  | (some a, none) => keepNonEmpty a.detached
  | (none, some b) => keepNonEmpty b.detached
  | (none, none) => none

/-- The step of `inner_combine_children`. -/
def innerStep (h : Node → Node → Node) : Option Node × Option Node → Option Node
  | (some a, some b) => keepNonEmpty (h a b)
  | _ => none

/-- The step of `left_combine_children`. -/
def leftStep (h : Node → Node → Node) : Option Node × Option Node → Option Node
  | (some a, some b) => keepNonEmpty (h a b)
  | (some a, none) => some a.detached
  | _ => none

/-- The step of `inner_combine_children_pred`. -/
def innerPStep (h : Node → Node → Bool) : Option Node × Option Node → Bool
  | (some a, some b) => h a b
  | _ => false

/-- The step of `left_combine_children_pred`. -/
def leftPStep (h : Node → Node → Bool) : Option Node × Option Node → Bool
  | (some a, some b) => h a b
  | (some _, none) => true
  | _ => false

theorem outerChildren_eq (f) (ac bc : List Node) : outerCombineChildren f (some ac) (some bc) =
    arcOpt ((join ac bc).filterMap (outerStep (outerCombine f))) := by
  rw [outerCombineChildren]
  exact congrArg _ (attach_filterMap_eq _ _ _ (by rintro ⟨_ | a, _ | b⟩ hx <;> rfl))

theorem innerChildren_eq (f) (ac bc : List Node) : innerCombineChildren f (some ac) (some bc) =
    arcOpt ((join ac bc).filterMap (innerStep (innerCombine f))) := by
  rw [innerCombineChildren]
  exact congrArg _ (attach_filterMap_eq _ _ _ (by rintro ⟨_ | a, _ | b⟩ hx <;> rfl))

theorem leftChildren_eq (f) (ac bc : List Node) : leftCombineChildren f (some ac) (some bc) =
    arcOpt ((join ac bc).filterMap (leftStep (leftCombine f))) := by
  rw [leftCombineChildren]
  exact congrArg _ (attach_filterMap_eq _ _ _ (by rintro ⟨_ | a, _ | b⟩ hx <;> rfl))

theorem innerChildrenPred_eq (f) (ac bc : List Node) : innerCombineChildrenPred f (some ac) (some bc) =
    (join ac bc).any (innerPStep (innerCombinePred f)) := by
  rw [innerCombineChildrenPred]
  exact attach_any_eq _ _ _ (by rintro ⟨_ | a, _ | b⟩ hx <;> rfl)

theorem leftChildrenPred_eq (f) (ac bc : List Node) : leftCombineChildrenPred f (some ac) (some bc) =
    (join ac bc).any (leftPStep (leftCombinePred f)) := by
  rw [leftCombineChildrenPred]
  exact attach_any_eq _ _ _ (by rintro ⟨_ | a, _ | b⟩ hx <;> rfl)

theorem rp_ok {α} {x y : α} (h : x = y) : RP E P (.ok x : Res ε α) (· = y) := h

theorem rp_map {α β} {x : Res ε α} {y : α} (h : α → β) (hx : RP E P x (· = y)) :
    RP E P (x.bind fun a => .ok (h a)) (· = h y) := by
  refine rp_bind hx ?_
  rintro _ rfl
  exact rfl

theorem oiterS_cases {o : Option TIter} {l : Option (List Node)} (h : OIterS L st g P o l) :
    (o = none ∧ l = none) ∨ ∃ it l', o = some it ∧ l = some l' ∧ IterS L st g P it l' := by
  cases o <;> cases l
  · exact Or.inl ⟨rfl, rfl⟩
  · exact h.elim
  · exact h.elim
  · exact Or.inr ⟨_, _, rfl, rfl, h⟩

theorem height_memO {l : Option (List Node)} {n : Node} (h : n ∈ l.getD []) : n.height ≤ heightO l := by
  cases l with
  | none => cases h
  | some l => exact height_le_of_mem h

theorem outerCombineChildrenS_rep (ua : SideOK L st E P) (ub : SideOK M st' E P) {f : Bytes → Bytes → Option Bytes}
    {fuel : Nat} {rec : Ref → Ref → Res ε Node} {ac bc : Option TIter} {l ml : Option (List Node)}
    (hf : heightO l + heightO ml ≤ fuel)
    (hrec : ∀ a n b m, n ∈ l.getD [] → m ∈ ml.getD [] → RefS L st g P a n → RefS M st' gb P b m →
      RP E P (rec a b) (· = outerCombine f n m))
    (ha : OIterS L st g P ac l) (hb : OIterS M st' gb P bc ml) :
    RP E P (outerCombineChildrenS S st T st' fuel rec ac bc) (· = outerCombineChildren f l ml) := by
  rcases oiterS_cases ha with ⟨rfl, rfl⟩ | ⟨ia, l, rfl, rfl, ha⟩ <;>
    rcases oiterS_cases hb with ⟨rfl, rfl⟩ | ⟨ib, ml, rfl, rfl, hb⟩
  · rw [outerCombineChildren]; exact rfl
  · rw [outerCombineChildren]; exact IterS.detached ub hb (by simp only [heightO] at hf; omega)
  · rw [outerCombineChildren]; exact IterS.detached ua ha (by simp only [heightO] at hf; omega)
  · rw [outerChildren_eq]
    simp only [heightO] at hf
    exact rp_map arcOpt (joinMapS_rep (h := outerStep (outerCombine f))
      (fun a n b m hn hm h1 h2 => rp_map keepNonEmpty (hrec a n b m hn hm h1 h2))
      (fun a n hn h1 => rp_map keepNonEmpty (h1.detached ua (by have : n.height ≤ heightL l := height_le_of_mem hn; omega)))
      (fun b m hm h1 => rp_map keepNonEmpty (h1.detached ub (by have : m.height ≤ heightL ml := height_le_of_mem hm; omega))) ha hb)

theorem innerCombineChildrenS_rep {f : Bytes → Bytes → Option Bytes}
    {rec : Ref → Ref → Res ε Node} {ac bc : Option TIter} {l ml : Option (List Node)}
    (hrec : ∀ a n b m, n ∈ l.getD [] → m ∈ ml.getD [] → RefS L st g P a n → RefS M st' gb P b m →
      RP E P (rec a b) (· = innerCombine f n m))
    (ha : OIterS L st g P ac l) (hb : OIterS M st' gb P bc ml) :
    RP E P (innerCombineChildrenS rec ac bc) (· = innerCombineChildren f l ml) := by
  rcases oiterS_cases ha with ⟨rfl, rfl⟩ | ⟨ia, l, rfl, rfl, ha⟩ <;>
    rcases oiterS_cases hb with ⟨rfl, rfl⟩ | ⟨ib, ml, rfl, rfl, hb⟩
  · simp [innerCombineChildren, innerCombineChildrenS, RP]
  · simp [innerCombineChildren, innerCombineChildrenS, RP]
  · simp [innerCombineChildren, innerCombineChildrenS, RP]
  · rw [innerChildren_eq]
    exact rp_map arcOpt (joinMapS_rep (h := innerStep (innerCombine f))
      (fun a n b m hn hm h1 h2 => rp_map keepNonEmpty (hrec a n b m hn hm h1 h2))
      (fun a n hn h1 => rp_ok rfl) (fun b m hm h1 => rp_ok rfl) ha hb)

theorem leftCombineChildrenS_rep (ua : SideOK L st E P) {f : Bytes → Bytes → Option Bytes}
    {fuel : Nat} {rec : Ref → Ref → Res ε Node} {ac bc : Option TIter} {l ml : Option (List Node)}
    (hf : heightO l ≤ fuel)
    (hrec : ∀ a n b m, n ∈ l.getD [] → m ∈ ml.getD [] → RefS L st g P a n → RefS M st' gb P b m →
      RP E P (rec a b) (· = leftCombine f n m))
    (ha : OIterS L st g P ac l) (hb : OIterS M st' gb P bc ml) :
    RP E P (leftCombineChildrenS S st fuel rec ac bc) (· = leftCombineChildren f l ml) := by
  rcases oiterS_cases ha with ⟨rfl, rfl⟩ | ⟨ia, l, rfl, rfl, ha⟩ <;>
    rcases oiterS_cases hb with ⟨rfl, rfl⟩ | ⟨ib, ml, rfl, rfl, hb⟩
  · simp [leftCombineChildren, leftCombineChildrenS, RP]
  · simp [leftCombineChildren, leftCombineChildrenS, RP]
  · rw [leftCombineChildren]; exact IterS.detached ua ha (by simp only [heightO] at hf; omega)
  · rw [leftChildren_eq]
    simp only [heightO] at hf
    exact rp_map arcOpt (joinMapS_rep (h := leftStep (leftCombine f))
      (fun a n b m hn hm h1 h2 => rp_map keepNonEmpty (hrec a n b m hn hm h1 h2))
      (fun a n hn h1 => rp_map some (h1.detached ua (by have : n.height ≤ heightL l := height_le_of_mem hn; omega)))
      (fun b m hm h1 => rp_ok rfl) ha hb)

theorem innerChildrenPredS_rep {f : Bytes → Bytes → Bool}
    {rec : Ref → Ref → Res ε Bool} {ac bc : Option TIter} {l ml : Option (List Node)}
    (hrec : ∀ a n b m, n ∈ l.getD [] → m ∈ ml.getD [] → RefS L st g P a n → RefS M st' gb P b m →
      RP E P (rec a b) (· = innerCombinePred f n m))
    (ha : OIterS L st g P ac l) (hb : OIterS M st' gb P bc ml) :
    RP E P (innerChildrenPredS rec ac bc) (· = innerCombineChildrenPred f l ml) := by
  rcases oiterS_cases ha with ⟨rfl, rfl⟩ | ⟨ia, l, rfl, rfl, ha⟩ <;>
    rcases oiterS_cases hb with ⟨rfl, rfl⟩ | ⟨ib, ml, rfl, rfl, hb⟩
  · simp [innerCombineChildrenPred, innerChildrenPredS, RP]
  · simp [innerCombineChildrenPred, innerChildrenPredS, RP]
  · simp [innerCombineChildrenPred, innerChildrenPredS, RP]
  · rw [innerChildrenPred_eq]
    exact joinAnyS_rep (h := innerPStep (innerCombinePred f)) (fun a n b m hn hm h1 h2 => hrec a n b m hn hm h1 h2)
      (fun a n hn h1 => rp_ok rfl) (fun b m hm h1 => rp_ok rfl) ha hb

theorem leftChildrenPredS_rep {f : Bytes → Bytes → Bool}
    {rec : Ref → Ref → Res ε Bool} {ac bc : Option TIter} {l ml : Option (List Node)}
    (hrec : ∀ a n b m, n ∈ l.getD [] → m ∈ ml.getD [] → RefS L st g P a n → RefS M st' gb P b m →
      RP E P (rec a b) (· = leftCombinePred f n m))
    (ha : OIterS L st g P ac l) (hb : OIterS M st' gb P bc ml) :
    RP E P (leftChildrenPredS rec ac bc) (· = leftCombineChildrenPred f l ml) := by
  rcases oiterS_cases ha with ⟨rfl, rfl⟩ | ⟨ia, l, rfl, rfl, ha⟩ <;>
    rcases oiterS_cases hb with ⟨rfl, rfl⟩ | ⟨ib, ml, rfl, rfl, hb⟩
  · simp [leftCombineChildrenPred, leftChildrenPredS, RP]
  · simp [leftCombineChildrenPred, leftChildrenPredS, RP]
  · simp [leftCombineChildrenPred, leftChildrenPredS, RP]
  · rw [leftChildrenPred_eq]
    exact joinAnyS_rep (h := leftPStep (leftCombinePred f)) (fun a n b m hn hm h1 h2 => hrec a n b m hn hm h1 h2)
      (fun a n hn h1 => rp_ok rfl) (fun b m hm h1 => rp_ok rfl) ha hb

/-! ### Nodes -/

theorem RefS.val {b : Ref} {m : Node} (h : RefS L st g P b m) : ValRep L st b.val m.val := RefRep.val h.1

theorem height_loadO {n c : Node} (h : c ∈ n.loadChildren.getD []) : c.height + 1 ≤ n.height := height_load h

theorem mem_short {n c : Node} {k : Nat} (h : c ∈ (some [n.cloneShortened k]).getD []) :
    c = n.cloneShortened k := by simpa using h

theorem valRep_some {b : BlobV} {v : Option Bytes} (h : ValRep L st b v) :
    (b.valueOpt = none ∧ v = none) ∨ ∃ c x, b.valueOpt = some c ∧ v = some x ∧ ValRep L st c (some x) :=
  oval_cases (valueOpt_rep h)

theorem outerCombineS_repH (ua : SideOK L st E P) (ub : SideOK M st' E P) {f : BlobV → BlobV → Res ε (Option Bytes)}
    {ff : Bytes → Bytes → Option Bytes} (hf : CFOK L st M st' E P f ff) :
    ∀ (fuel : Nat) (a b : Ref) (n m : Node), n.height + m.height ≤ fuel → RefS L st g P a n → RefS M st' gb P b m →
      RP E P (outerCombineS S st T st' f fuel a b) (· = outerCombine ff n m) := by
  intro fuel
  induction fuel with
  | zero => intro a b n m h; have := height_pos n; omega
  | succ fuel ih =>
    intro a b n m hfl ha hb
    have hna := heightO_loadChildren n
    have hnb := heightO_loadChildren m
    rw [outerCombine]
    simp only [outerCombineS]
    refine rp_bind (ha.prefix ua) ?_
    rintro _ rfl
    refine rp_bind (hb.prefix ub) ?_
    rintro _ rfl
    split
    · refine rp_bind (Q := (· = match m.val with
        | some bv => match n.val with | some av => ff av bv | none => some bv
        | none => n.val)) ?_ ?_
      · rcases valRep_some hb.val with ⟨e1, e2⟩ | ⟨bv, y, e1, e2, hy⟩
        · rw [e1, e2]; exact valueOptDetached_rep ua ha.val
        · rw [e1, e2]
          rcases valRep_some ha.val with ⟨e3, e4⟩ | ⟨av, x, e3, e4, hx⟩
          · rw [e3, e4]; exact valueOptDetached_rep ub hy
          · rw [e3, e4]; exact hf _ _ _ _ hx hy
      · rintro _ rfl
        refine rp_bind (ha.kids ua) fun ac hac => rp_bind (hb.kids ub) fun bc hbc => ?_
        refine rp_map (fun c => canonicalize (mk _ _ c)) (outerCombineChildrenS_rep ua ub (by omega)
          (fun a' n' b' m' hn hm h1 h2 => ih a' b' n' m' ?_ h1 h2) hac hbc)
        have := height_loadO hn; have := height_loadO hm; omega
    · split
      · refine rp_bind (valueOptDetached_rep ua ha.val) ?_
        rintro _ rfl
        refine rp_bind (ha.kids ua) fun ac hac => rp_bind (hb.short ub _) fun b' hb' => ?_
        refine rp_map (fun c => canonicalize (mk _ _ c)) (outerCombineChildrenS_rep ua ub
          (by rw [heightO_single, height_cloneShortened]; omega)
          (fun a' n' b' m' hn hm h1 h2 => ih a' b' n' m' ?_ h1 h2) hac (oiterS_single hb'.1))
        have := height_loadO hn; rw [mem_short hm, height_cloneShortened]; omega
      · split
        · refine rp_bind (valueOptDetached_rep ub hb.val) ?_
          rintro _ rfl
          refine rp_bind (ha.short ua _) fun a' ha' => rp_bind (hb.kids ub) fun bc hbc => ?_
          refine rp_map (fun c => canonicalize (mk _ _ c)) (outerCombineChildrenS_rep ua ub
            (by rw [heightO_single, height_cloneShortened]; omega)
            (fun a' n' b' m' hn hm h1 h2 => ih a' b' n' m' ?_ h1 h2) (oiterS_single ha'.1) hbc)
          have := height_loadO hm; rw [mem_short hn, height_cloneShortened]; omega
        · refine rp_bind (ha.shortDetached ua (by have := height_pos m; omega) _) ?_
          rintro _ rfl
          refine rp_bind (hb.shortDetached ub (by have := height_pos n; omega) _) ?_
          rintro _ rfl
          exact rp_ok rfl

theorem innerCombineS_repH (ua : SideOK L st E P) (ub : SideOK M st' E P) {f : BlobV → BlobV → Res ε (Option Bytes)}
    {ff : Bytes → Bytes → Option Bytes} (hf : CFOK L st M st' E P f ff) :
    ∀ (fuel : Nat) (a b : Ref) (n m : Node), n.height + m.height ≤ fuel → RefS L st g P a n → RefS M st' gb P b m →
      RP E P (innerCombineS S st T st' f fuel a b) (· = innerCombine ff n m) := by
  intro fuel
  induction fuel with
  | zero => intro a b n m h; have := height_pos n; omega
  | succ fuel ih =>
    intro a b n m hfl ha hb
    have hna := heightO_loadChildren n
    have hnb := heightO_loadChildren m
    rw [innerCombine]
    simp only [innerCombineS]
    refine rp_bind (ha.prefix ua) ?_
    rintro _ rfl
    refine rp_bind (hb.prefix ub) ?_
    rintro _ rfl
    split
    · refine rp_bind (Q := (· = match m.val with
        | some bv => match n.val with | some av => ff av bv | none => none
        | none => none)) ?_ ?_
      · rcases valRep_some hb.val with ⟨e1, e2⟩ | ⟨bv, y, e1, e2, hy⟩
        · rw [e1, e2]; exact rp_ok rfl
        · rw [e1, e2]
          rcases valRep_some ha.val with ⟨e3, e4⟩ | ⟨av, x, e3, e4, hx⟩
          · rw [e3, e4]; exact rp_ok rfl
          · rw [e3, e4]; exact hf _ _ _ _ hx hy
      · rintro _ rfl
        refine rp_bind (ha.kids ua) fun ac hac => rp_bind (hb.kids ub) fun bc hbc => ?_
        refine rp_map (fun c => canonicalize (mk _ _ c)) (innerCombineChildrenS_rep
          (fun a' n' b' m' hn hm h1 h2 => ih a' b' n' m' ?_ h1 h2) hac hbc)
        have := height_loadO hn; have := height_loadO hm; omega
    · split
      · refine rp_bind (ha.kids ua) fun ac hac => rp_bind (hb.short ub _) fun b' hb' => ?_
        refine rp_map (fun c => canonicalize (mk _ _ c)) (innerCombineChildrenS_rep
          (fun a' n' b' m' hn hm h1 h2 => ih a' b' n' m' ?_ h1 h2) hac (oiterS_single hb'.1))
        have := height_loadO hn; rw [mem_short hm, height_cloneShortened]; omega
      · split
        · refine rp_bind (ha.short ua _) fun a' ha' => rp_bind (hb.kids ub) fun bc hbc => ?_
          refine rp_map (fun c => canonicalize (mk _ _ c)) (innerCombineChildrenS_rep
            (fun a' n' b' m' hn hm h1 h2 => ih a' b' n' m' ?_ h1 h2) (oiterS_single ha'.1) hbc)
          have := height_loadO hm; rw [mem_short hn, height_cloneShortened]; omega
        · exact rp_ok rfl

theorem leftCombineS_repH (ua : SideOK L st E P) (ub : SideOK M st' E P) {f : BlobV → BlobV → Res ε (Option Bytes)}
    {ff : Bytes → Bytes → Option Bytes} (hf : CFOK L st M st' E P f ff) :
    ∀ (fuel : Nat) (a b : Ref) (n m : Node), n.height + m.height ≤ fuel → RefS L st g P a n → RefS M st' gb P b m →
      RP E P (leftCombineS S st T st' f fuel a b) (· = leftCombine ff n m) := by
  intro fuel
  induction fuel with
  | zero => intro a b n m h; have := height_pos n; omega
  | succ fuel ih =>
    intro a b n m hfl ha hb
    have hna := heightO_loadChildren n
    have hnb := heightO_loadChildren m
    have hpm := height_pos m
    rw [leftCombine]
    simp only [leftCombineS]
    refine rp_bind (ha.prefix ua) ?_
    rintro _ rfl
    refine rp_bind (hb.prefix ub) ?_
    rintro _ rfl
    split
    · refine rp_bind (Q := (· = match n.val with
        | some av => match m.val with | some bv => ff av bv | none => some av
        | none => none)) ?_ ?_
      · rcases valRep_some ha.val with ⟨e1, e2⟩ | ⟨av, x, e1, e2, hx⟩
        · rw [e1, e2]; exact rp_ok rfl
        · rw [e1, e2]
          rcases valRep_some hb.val with ⟨e3, e4⟩ | ⟨bv, y, e3, e4, hy⟩
          · rw [e3, e4]; exact valueOptDetached_rep ua hx
          · rw [e3, e4]; exact hf _ _ _ _ hx hy
      · rintro _ rfl
        refine rp_bind (ha.kids ua) fun ac hac => rp_bind (hb.kids ub) fun bc hbc => ?_
        refine rp_map (fun c => canonicalize (mk _ _ c)) (leftCombineChildrenS_rep ua (by omega)
          (fun a' n' b' m' hn hm h1 h2 => ih a' b' n' m' ?_ h1 h2) hac hbc)
        have := height_loadO hn; have := height_loadO hm; omega
    · split
      · refine rp_bind (valueOptDetached_rep ua ha.val) ?_
        rintro _ rfl
        refine rp_bind (ha.kids ua) fun ac hac => rp_bind (hb.short ub _) fun b' hb' => ?_
        refine rp_map (fun c => canonicalize (mk _ _ c)) (leftCombineChildrenS_rep ua (by omega)
          (fun a' n' b' m' hn hm h1 h2 => ih a' b' n' m' ?_ h1 h2) hac (oiterS_single hb'.1))
        have := height_loadO hn; rw [mem_short hm, height_cloneShortened]; omega
      · split
        · refine rp_bind (ha.short ua _) fun a' ha' => rp_bind (hb.kids ub) fun bc hbc => ?_
          refine rp_map (fun c => canonicalize (mk _ _ c)) (leftCombineChildrenS_rep ua
            (by rw [heightO_single, height_cloneShortened]; omega)
            (fun a' n' b' m' hn hm h1 h2 => ih a' b' n' m' ?_ h1 h2) (oiterS_single ha'.1) hbc)
          have := height_loadO hm; rw [mem_short hn, height_cloneShortened]; omega
        · exact ha.detached ua (by omega)

/-- What `inner_combine_pred` asks of the two values. -/
def hitI (ff : Bytes → Bytes → Bool) : Option Bytes → Option Bytes → Bool
  | some x, some y => ff x y
  | _, _ => false

/-- What `left_combine_pred` asks of the two values. -/
def hitL (ff : Bytes → Bytes → Bool) : Option Bytes → Option Bytes → Bool
  | some x, some y => ff x y
  | some _, none => true
  | _, _ => false

theorem innerCombinePred_eq (f) (a b : Node) : innerCombinePred f a b =
    if commonPrefix a.pfx b.pfx = a.pfx.length ∧ commonPrefix a.pfx b.pfx = b.pfx.length then
      if hitI f a.val b.val then true else innerCombineChildrenPred f a.loadChildren b.loadChildren
    else if commonPrefix a.pfx b.pfx = a.pfx.length then
      (a.loadChildren.getD []).any fun x => innerCombinePred f x (b.cloneShortened (commonPrefix a.pfx b.pfx))
    else if commonPrefix a.pfx b.pfx = b.pfx.length then
      (b.loadChildren.getD []).any fun x => innerCombinePred f (a.cloneShortened (commonPrefix a.pfx b.pfx)) x
    else false := by
  conv => lhs; rw [innerCombinePred]
  have h1 : (match h : a.loadChildren with
      | some ac => ac.attach.any fun x => innerCombinePred f x.1 (b.cloneShortened (commonPrefix a.pfx b.pfx))
      | none => false) =
      (a.loadChildren.getD []).any fun x => innerCombinePred f x (b.cloneShortened (commonPrefix a.pfx b.pfx)) := by
    split
    · rename_i h; rw [h, any_attach_val (fun x => innerCombinePred f x (b.cloneShortened _))]; rfl
    · rename_i h; rw [h]; rfl
  have h2 : (match h : b.loadChildren with
      | some ac => ac.attach.any fun x => innerCombinePred f (a.cloneShortened (commonPrefix a.pfx b.pfx)) x.1
      | none => false) =
      (b.loadChildren.getD []).any fun x => innerCombinePred f (a.cloneShortened (commonPrefix a.pfx b.pfx)) x := by
    split
    · rename_i h; rw [h, any_attach_val (fun x => innerCombinePred f (a.cloneShortened _) x)]; rfl
    · rename_i h; rw [h]; rfl
  simp only [← h1, ← h2]
  rfl

theorem leftCombinePred_eq (f) (a b : Node) : leftCombinePred f a b =
    if commonPrefix a.pfx b.pfx = a.pfx.length ∧ commonPrefix a.pfx b.pfx = b.pfx.length then
      if hitL f a.val b.val then true else leftCombineChildrenPred f a.loadChildren b.loadChildren
    else if commonPrefix a.pfx b.pfx = a.pfx.length then
      if a.val.isSome then true
      else leftCombineChildrenPred f a.loadChildren (some [b.cloneShortened (commonPrefix a.pfx b.pfx)])
    else if commonPrefix a.pfx b.pfx = b.pfx.length then
      leftCombineChildrenPred f (some [a.cloneShortened (commonPrefix a.pfx b.pfx)]) b.loadChildren
    else true := by
  conv => lhs; rw [leftCombinePred]
  rfl

theorem rp_hit {h : Bool} {x : Res ε Bool} {y : Bool} (hx : h = false → RP E P x (· = y)) :
    RP E P (if h then .ok true else x) (· = if h then true else y) := by
  cases h
  · exact hx rfl
  · exact rp_ok rfl

theorem innerCombinePredS_repH (ua : SideOK L st E P) (ub : SideOK M st' E P) {f : BlobV → BlobV → Res ε Bool}
    {ff : Bytes → Bytes → Bool} (hf : CFOK L st M st' E P f ff) :
    ∀ (fuel : Nat) (a b : Ref) (n m : Node), n.height + m.height ≤ fuel → RefS L st g P a n → RefS M st' gb P b m →
      RP E P (innerCombinePredS S st T st' f fuel a b) (· = innerCombinePred ff n m) := by
  intro fuel
  induction fuel with
  | zero => intro a b n m h; have := height_pos n; omega
  | succ fuel ih =>
    intro a b n m hfl ha hb
    have hpn := height_pos n
    have hpm := height_pos m
    rw [innerCombinePred_eq]
    simp only [innerCombinePredS]
    refine rp_bind (ha.prefix ua) ?_
    rintro _ rfl
    refine rp_bind (hb.prefix ub) ?_
    rintro _ rfl
    split
    · refine rp_bind (Q := (· = hitI ff n.val m.val)) ?_ ?_
      · rcases valRep_some ha.val with ⟨e1, e2⟩ | ⟨av, x, e1, e2, hx⟩ <;>
          rcases valRep_some hb.val with ⟨e3, e4⟩ | ⟨bv, y, e3, e4, hy⟩ <;> rw [e1, e2, e3, e4]
        · exact rp_ok rfl
        · exact rp_ok rfl
        · exact rp_ok rfl
        · exact hf _ _ _ _ hx hy
      · rintro _ rfl
        refine rp_hit fun _ => ?_
        · refine rp_bind (ha.kids ua) fun ac hac => rp_bind (hb.kids ub) fun bc hbc => ?_
          refine innerChildrenPredS_rep (fun a' n' b' m' hn hm h1 h2 => ih a' b' n' m' ?_ h1 h2) hac hbc
          have := height_loadO hn; have := height_loadO hm; omega
    · split
      · refine rp_bind (hb.short ub _) fun b' hb' => rp_bind (ha.kids ua) fun ac hac => ?_
        rcases oiterS_cases hac with ⟨rfl, e⟩ | ⟨it, l, rfl, e, hi⟩
        · rw [e]; exact rp_ok rfl
        · rw [e]
          refine anyIterS_rep hi fun c n' hn h1 => ih _ _ _ _ ?_ h1 (refS_owned hb'.1)
          have : n' ∈ n.loadChildren.getD [] := by rw [e]; exact hn
          have := height_loadO this
          rw [height_cloneShortened]; omega
      · split
        · refine rp_bind (ha.short ua _) fun a' ha' => rp_bind (hb.kids ub) fun bc hbc => ?_
          rcases oiterS_cases hbc with ⟨rfl, e⟩ | ⟨it, l, rfl, e, hi⟩
          · rw [e]; exact rp_ok rfl
          · rw [e]
            refine anyIterS_rep hi fun c n' hn h1 => ih _ _ _ _ ?_ (refS_owned ha'.1) h1
            have : n' ∈ m.loadChildren.getD [] := by rw [e]; exact hn
            have := height_loadO this
            rw [height_cloneShortened]; omega
        · exact rp_ok rfl

theorem leftCombinePredS_repH (ua : SideOK L st E P) (ub : SideOK M st' E P) {f : BlobV → BlobV → Res ε Bool}
    {ff : Bytes → Bytes → Bool} (hf : CFOK L st M st' E P f ff) :
    ∀ (fuel : Nat) (a b : Ref) (n m : Node), n.height + m.height ≤ fuel → RefS L st g P a n → RefS M st' gb P b m →
      RP E P (leftCombinePredS S st T st' f fuel a b) (· = leftCombinePred ff n m) := by
  intro fuel
  induction fuel with
  | zero => intro a b n m h; have := height_pos n; omega
  | succ fuel ih =>
    intro a b n m hfl ha hb
    have hpn := height_pos n
    have hpm := height_pos m
    rw [leftCombinePred_eq]
    simp only [leftCombinePredS]
    refine rp_bind (ha.prefix ua) ?_
    rintro _ rfl
    refine rp_bind (hb.prefix ub) ?_
    rintro _ rfl
    split
    · refine rp_bind (Q := (· = hitL ff n.val m.val)) ?_ ?_
      · rcases valRep_some ha.val with ⟨e1, e2⟩ | ⟨av, x, e1, e2, hx⟩ <;>
          rcases valRep_some hb.val with ⟨e3, e4⟩ | ⟨bv, y, e3, e4, hy⟩ <;> rw [e1, e2, e3, e4]
        · exact rp_ok rfl
        · exact rp_ok rfl
        · exact rp_ok rfl
        · exact hf _ _ _ _ hx hy
      · rintro _ rfl
        refine rp_hit fun _ => ?_
        · refine rp_bind (ha.kids ua) fun ac hac => rp_bind (hb.kids ub) fun bc hbc => ?_
          refine leftChildrenPredS_rep (fun a' n' b' m' hn hm h1 h2 => ih a' b' n' m' ?_ h1 h2) hac hbc
          have := height_loadO hn; have := height_loadO hm; omega
    · split
      · have e : a.val.valueOpt.isSome = n.val.isSome := by
          rcases valRep_some ha.val with ⟨e1, e2⟩ | ⟨av, x, e1, e2, hx⟩ <;> rw [e1, e2] <;> rfl
        rw [e]
        refine rp_hit fun _ => ?_
        · refine rp_bind (ha.kids ua) fun ac hac => rp_bind (hb.short ub _) fun b' hb' => ?_
          refine leftChildrenPredS_rep (fun a' n' b' m' hn hm h1 h2 => ih a' b' n' m' ?_ h1 h2) hac (oiterS_single hb'.1)
          have := height_loadO hn; rw [mem_short hm, height_cloneShortened]; omega
      · split
        · refine rp_bind (ha.short ua _) fun a' ha' => rp_bind (hb.kids ub) fun bc hbc => ?_
          refine leftChildrenPredS_rep (fun a' n' b' m' hn hm h1 h2 => ih a' b' n' m' ?_ h1 h2) (oiterS_single ha'.1) hbc
          have := height_loadO hm; rw [mem_short hn, height_cloneShortened]; omega
        · exact rp_ok rfl

/-! ### Bounds by the number of nodes -/

theorem outerCombineS_rep (ua : SideOK L st E P) (ub : SideOK M st' E P) {f : BlobV → BlobV → Res ε (Option Bytes)}
    {ff : Bytes → Bytes → Option Bytes} (hf : CFOK L st M st' E P f ff) :
    ∀ (fuel : Nat) (a b : Ref) (n m : Node), 3 * (n.nodes + m.nodes) ≤ fuel → RefS L st g P a n → RefS M st' gb P b m →
      RP E P (outerCombineS S st T st' f fuel a b) (· = outerCombine ff n m) :=
  fun fuel a b n m h => outerCombineS_repH ua ub hf fuel a b n m (by have := height_le_nodes n; have := height_le_nodes m; omega)

theorem innerCombineS_rep (ua : SideOK L st E P) (ub : SideOK M st' E P) {f : BlobV → BlobV → Res ε (Option Bytes)}
    {ff : Bytes → Bytes → Option Bytes} (hf : CFOK L st M st' E P f ff) :
    ∀ (fuel : Nat) (a b : Ref) (n m : Node), 3 * (n.nodes + m.nodes) ≤ fuel → RefS L st g P a n → RefS M st' gb P b m →
      RP E P (innerCombineS S st T st' f fuel a b) (· = innerCombine ff n m) :=
  fun fuel a b n m h => innerCombineS_repH ua ub hf fuel a b n m (by have := height_le_nodes n; have := height_le_nodes m; omega)

theorem leftCombineS_rep (ua : SideOK L st E P) (ub : SideOK M st' E P) {f : BlobV → BlobV → Res ε (Option Bytes)}
    {ff : Bytes → Bytes → Option Bytes} (hf : CFOK L st M st' E P f ff) :
    ∀ (fuel : Nat) (a b : Ref) (n m : Node), 3 * (n.nodes + m.nodes) ≤ fuel → RefS L st g P a n → RefS M st' gb P b m →
      RP E P (leftCombineS S st T st' f fuel a b) (· = leftCombine ff n m) :=
  fun fuel a b n m h => leftCombineS_repH ua ub hf fuel a b n m (by have := height_le_nodes n; have := height_le_nodes m; omega)

theorem innerCombinePredS_rep (ua : SideOK L st E P) (ub : SideOK M st' E P) {f : BlobV → BlobV → Res ε Bool}
    {ff : Bytes → Bytes → Bool} (hf : CFOK L st M st' E P f ff) :
    ∀ (fuel : Nat) (a b : Ref) (n m : Node), 3 * (n.nodes + m.nodes) ≤ fuel → RefS L st g P a n → RefS M st' gb P b m →
      RP E P (innerCombinePredS S st T st' f fuel a b) (· = innerCombinePred ff n m) :=
  fun fuel a b n m h => innerCombinePredS_repH ua ub hf fuel a b n m (by have := height_le_nodes n; have := height_le_nodes m; omega)

theorem leftCombinePredS_rep (ua : SideOK L st E P) (ub : SideOK M st' E P) {f : BlobV → BlobV → Res ε Bool}
    {ff : Bytes → Bytes → Bool} (hf : CFOK L st M st' E P f ff) :
    ∀ (fuel : Nat) (a b : Ref) (n m : Node), 3 * (n.nodes + m.nodes) ≤ fuel → RefS L st g P a n → RefS M st' gb P b m →
      RP E P (leftCombinePredS S st T st' f fuel a b) (· = leftCombinePred ff n m) :=
  fun fuel a b n m h => leftCombinePredS_repH ua ub hf fuel a b n m (by have := height_le_nodes n; have := height_le_nodes m; omega)

end

end Radix
