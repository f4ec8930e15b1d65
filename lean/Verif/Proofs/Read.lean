import Verif.Stored.Read
import Verif.Proofs.Record
import Verif.Proofs.Find
import Verif.Tree.Height

/-
Proof-internal: reading operations on stored nodes agree with those on the nodes they stand for.
-/

set_option linter.unusedVariables false

namespace Radix
open Node

section
variable {σ ε : Type} {S : BlobStore σ ε} {L : Lawful S} {g : Bool}

theorem rep_iff {st : σ} {a : SNode} {n : Node} :
    Rep L g st a n ↔ PfxRep L g st a.pfx n.pfx ∧ ValRep L st a.val n.val ∧ RepC L g st a.children n.ch := by
  cases n; simp only [Rep, Node.pfx, Node.val, Node.ch]

/-- The outcome of a read: a success satisfies `Q`, an error can only come from a failing read, there are no panics. -/
def RPost (L : Lawful S) {α} (st : σ) (x : Res ε α) (Q : α → Prop) : Prop :=
  match x with
  | .ok a => Q a
  | .err _ => ¬ ReadsSucceed L st
  | _ => False

theorem rpost_ok {α} {st : σ} {a : α} {Q : α → Prop} (h : Q a) : RPost L st (.ok a : Res ε α) Q := h

theorem rpost_bind {α β} {st : σ} {x : Res ε α} {f : α → Res ε β} {Q : α → Prop} {Q' : β → Prop}
    (h : RPost L st x Q) (hf : ∀ a, Q a → RPost L st (f a) Q') : RPost L st (x.bind f) Q' := by
  cases x with
  | ok a => exact hf a h
  | err e => exact h
  | panic => exact h
  | deep => exact h

theorem rpost_imp {α} {st : σ} {x : Res ε α} {Q Q' : α → Prop} (h : RPost L st x Q) (hq : ∀ a, Q a → Q' a) :
    RPost L st x Q' := by
  cases x with
  | ok a => exact hq a h
  | err e => exact h
  | panic => exact h
  | deep => exact h

theorem rpost_success {α} {st : σ} {x : Res ε α} {Q : α → Prop} (h : RPost L st x Q) (hr : ReadsSucceed L st) :
    ∃ a, x = .ok a ∧ Q a := by
  cases x with
  | ok a => exact ⟨a, rfl, h⟩
  | err e => exact absurd hr h
  | panic => exact h.elim
  | deep => exact h.elim

theorem rpost_read {st : σ} {i d : Bytes} (h : L.Has st i d) : RPost L st (S.read st i) (· = d) := by
  rcases L.read_has h with e | ⟨x, e⟩
  · rw [e]; exact rfl
  · rw [e]; intro hr; rw [hr _ _ h] at e; cases e

theorem loadPrefix_rep {st : σ} {b : BlobV} {p : Bytes} (h : PfxRep L g st b p) :
    RPost L st (loadPrefix S st b) (· = p) := by
  rcases h with rfl | ⟨_, c, i, rfl, _, _, hh⟩
  · exact rfl
  · exact rpost_read hh

theorem load_rep {st : σ} {b : BlobV} {v : Bytes} (h : ValRep L st b (some v)) :
    RPost L st (b.load S st) (· = v) := by
  rcases h with rfl | ⟨i, rfl, _, _, hh⟩
  · exact rfl
  · exact rpost_read hh

theorem loadValue_rep {st : σ} {b : BlobV} {v : Option Bytes} (h : ValRep L st b v) :
    RPost L st (loadValue S st b) (· = v) := by
  cases v with
  | none => cases h; exact rfl
  | some v =>
    rcases h with rfl | ⟨i, rfl, hn, _, hh⟩
    · exact rfl
    · cases i with
      | nil => exact absurd rfl hn
      | cons c i => exact rpost_bind (rpost_read hh) fun d hd => by subst hd; exact rfl

/-- An optional stored value stands for an optional value. -/
def OValRep (L : Lawful S) (st : σ) : Option BlobV → Option Bytes → Prop
  | none, none => True
  | some b, some v => ValRep L st b (some v)
  | _, _ => False

theorem valueOpt_rep {st : σ} {b : BlobV} {v : Option Bytes} (h : ValRep L st b v) : OValRep L st b.valueOpt v := by
  cases v with
  | none => cases h; simp [BlobV.valueOpt, OValRep]
  | some v =>
    have hn : b ≠ .none := by
      rcases h with rfl | ⟨i, rfl, hn, _, hh⟩
      · simp [BlobV.none]
      · simp [BlobV.none, hn]
    simp only [BlobV.valueOpt, if_neg hn, OValRep]
    exact h

theorem OValRep.isSome {st : σ} {o : Option BlobV} {v : Option Bytes} (h : OValRep L st o v) : o.isSome = v.isSome := by
  cases o <;> cases v <;> simp_all [OValRep]

/-- A reference to a node stands for a node. -/
def RefRep (L : Lawful S) (g : Bool) (st : σ) : Ref → Node → Prop
  | .owned a, n => Rep L g st a n
  | .borrowed r, n => ∃ i, r.ch = .id i ∧ Rep L g st (.ref r.pfx r.val i) n

/-- An iterator stands for the remaining nodes. -/
def IterRep (L : Lawful S) (g : Bool) (st : σ) : TIter → List Node → Prop
  | .owned as, l => RepL L g st as l
  | .borrowed bs, l => RepR L g st bs l

/-- An optional iterator. -/
def OIterRep (L : Lawful S) (g : Bool) (st : σ) : Option TIter → Option (List Node) → Prop
  | none, none => True
  | some it, some l => IterRep L g st it l
  | _, _ => False

theorem RefRep.pfx {st : σ} {r : Ref} {n : Node} (h : RefRep L g st r n) : PfxRep L g st r.pfx n.pfx := by
  cases r with
  | owned a => exact (rep_iff.1 h).1
  | borrowed r => obtain ⟨i, _, h⟩ := h; exact (rep_iff.1 h).1

theorem RefRep.val {st : σ} {r : Ref} {n : Node} (h : RefRep L g st r n) : ValRep L st r.val n.val := by
  cases r with
  | owned a => exact (rep_iff.1 h).2.1
  | borrowed r => obtain ⟨i, _, h⟩ := h; exact (rep_iff.1 h).2.1

theorem RefRep.toOwned {st : σ} {r : Ref} {n : Node} (h : RefRep L g st r n) :
    RPost L st (Ref.toOwned r : Res ε SNode) fun a => Rep L g st a n := by
  cases r with
  | owned a => exact h
  | borrowed r =>
    obtain ⟨i, e, h⟩ := h
    simp only [Ref.toOwned, Rec.toOwned, e]; exact h

theorem loadIter_rep {st : σ} {i : Bytes} {c : Option (List Node)} (h : RepC L g st (.inr i) c) :
    RPost L st (loadIter S st i) fun o => OIterRep L g st o c := by
  cases c with
  | none => simp only [RepC] at h; cases h; exact trivial
  | some l =>
    simp only [RepC] at h
    rcases h with ⟨as, e, _⟩ | ⟨rs, j, bs, e, hl, hn, hh, hr⟩
    · cases e
    · cases e
      exact rpost_bind (rpost_read hh) fun d hd => by subst hd; exact hr

theorem loadChildrenOwned_owned {st : σ} {a : SNode} {n : Node} (h : Rep L g st a n) :
    RPost L st (a.loadChildrenOwned S st) fun o => OIterRep L g st o n.loadChildrenOwned := by
  have hc := (rep_iff.1 h).2.2
  unfold SNode.loadChildrenOwned Node.loadChildrenOwned
  generalize a.children = ch at hc
  rcases ch with as | i
  · cases e : n.ch with
    | none => rw [e] at hc; simp [RepC] at hc
    | some l =>
      rw [e] at hc; simp only [RepC] at hc
      rcases hc with ⟨as', e, hr⟩ | ⟨_, _, _, e, _⟩
      · cases e; exact hr
      · cases e
  · exact loadIter_rep hc

theorem loadChildren_owned {st : σ} {a : SNode} {n : Node} (h : Rep L g st a n) :
    RPost L st (a.loadChildren S st) fun o => OIterRep L g st o n.loadChildren := by
  have hc := (rep_iff.1 h).2.2
  unfold SNode.loadChildren Node.loadChildren
  generalize a.children = ch at hc
  rcases ch with as | i
  · cases e : n.ch with
    | none => rw [e] at hc; simp [RepC] at hc
    | some l =>
      rw [e] at hc; simp only [RepC] at hc
      rcases hc with ⟨as', e, hr⟩ | ⟨_, _, _, e, _⟩
      · cases e
        cases l with
        | nil => simp only [RepL] at hr; subst hr; exact trivial
        | cons m l =>
          obtain ⟨x, xs, e, _⟩ := (by simpa only [RepL] using hr :
            ∃ a as', as = a :: as' ∧ Rep L g st a m ∧ RepL L g st as' l)
          subst e; exact hr
      · cases e
  · refine rpost_imp (loadIter_rep hc) fun o ho => ?_
    cases e : n.ch with
    | none => rw [e] at ho; exact ho
    | some l =>
      rw [e] at ho
      cases l with
      | nil => rw [e] at hc; simp [RepC, RepL] at hc
      | cons m l => exact ho

theorem rec_loadChildren {st : σ} {r : Rec} {i : Bytes} (e : r.ch = .id i) :
    r.loadChildren S st = loadIter S st i := by
  unfold Rec.loadChildren
  rw [e]
  cases i <;> rfl

theorem RefRep.loadChildren {st : σ} {r : Ref} {n : Node} (h : RefRep L g st r n) :
    RPost L st (r.loadChildren S st) fun o => OIterRep L g st o n.loadChildren := by
  cases r with
  | owned a => exact loadChildren_owned h
  | borrowed r =>
    obtain ⟨i, e, h⟩ := h
    simp only [Ref.loadChildren]
    rw [rec_loadChildren e]
    exact loadChildren_owned h

theorem RefRep.loadChildrenOwned {st : σ} {r : Ref} {n : Node} (h : RefRep L g st r n) :
    RPost L st (r.loadChildrenOwned S st) fun o => OIterRep L g st o n.loadChildrenOwned := by
  cases r with
  | owned a => exact loadChildrenOwned_owned h
  | borrowed r =>
    obtain ⟨i, e, h⟩ := h
    simp only [Ref.loadChildrenOwned]
    rw [rec_loadChildren e]
    exact loadIter_rep (rep_iff.1 h).2.2

theorem repL_nil {st : σ} {as : List SNode} : RepL L g st as [] ↔ as = [] := by simp only [RepL]
theorem repL_cons {st : σ} {as : List SNode} {n : Node} {l : List Node} :
    RepL L g st as (n :: l) ↔ ∃ a as', as = a :: as' ∧ Rep L g st a n ∧ RepL L g st as' l := by simp only [RepL]

theorem IterRep.next_nil {st : σ} {it : TIter} (h : IterRep L g st it []) : it.next = none := by
  cases it with
  | owned as => cases (repL_nil (L := L) (g := g) (st := st)).1 h; rfl
  | borrowed bs => simp only [IterRep, RepR] at h; subst h; rfl

theorem IterRep.next_cons {st : σ} {it : TIter} {n : Node} {l : List Node} (h : IterRep L g st it (n :: l)) :
    ∃ r it', it.next = some (r, it') ∧ RefRep L g st r n ∧ IterRep L g st it' l := by
  cases it with
  | owned as =>
    obtain ⟨a, as', rfl, h1, h2⟩ := (repL_cons (L := L) (g := g) (st := st)).1 h
    exact ⟨.owned a, .owned as', rfl, h1, h2⟩
  | borrowed bs =>
    simp only [IterRep, RepR] at h
    obtain ⟨r, i, rest, e1, e2, e3, e4⟩ := h
    exact ⟨.borrowed r, .borrowed rest, by simp [TIter.next, e1], ⟨i, e2, e3⟩, e4⟩

theorem pfxRep_firstByte {st : σ} {b : BlobV} {p : Bytes} (h : PfxRep L g st b p) : b.firstByte = p.head? := by
  rcases h with rfl | ⟨_, c, i, rfl, _, hc, _⟩
  · rfl
  · rw [hc]; rfl

theorem repL_getElem {st : σ} {as : List SNode} {l : List Node} (h : RepL L g st as l) (i : Nat) :
    (as[i]? = none ∧ l[i]? = none) ∨ ∃ a n, as[i]? = some a ∧ l[i]? = some n ∧ Rep L g st a n := by
  induction l generalizing as i with
  | nil => cases (repL_nil.1 h); simp
  | cons n l ih =>
    obtain ⟨a, as', rfl, h1, h2⟩ := repL_cons.1 h
    cases i with
    | zero => exact Or.inr ⟨a, n, rfl, rfl, h1⟩
    | succ i => simpa using ih h2 i

theorem repL_length {st : σ} {as : List SNode} {l : List Node} (h : RepL L g st as l) : as.length = l.length := by
  induction l generalizing as with
  | nil => cases (repL_nil.1 h); rfl
  | cons n l ih => obtain ⟨a, as', rfl, h1, h2⟩ := repL_cons.1 h; simp [ih h2]

theorem bsearchS_eq {st : σ} {as : List SNode} {l : List Node} (h : RepL L g st as l) (t a b : Nat) :
    bsearchS as t a b = bsearch l t a b := by
  fun_induction bsearch l t a b with
  | case1 a b hab mid hn =>
    rw [bsearchS.eq_def, dif_pos hab]
    rcases repL_getElem h mid with ⟨e1, e2⟩ | ⟨x, n, e1, e2, _⟩
    · simp only [mid] at e1; simp only [e1]
    · rw [hn] at e2; cases e2
  | case2 a b hab mid x hx hlt ih =>
    rw [bsearchS.eq_def, dif_pos hab]
    rcases repL_getElem h mid with ⟨e1, e2⟩ | ⟨y, n, e1, e2, hr⟩
    · rw [hx] at e2; cases e2
    · rw [hx] at e2; cases e2
      simp only [mid] at e1
      simp only [e1, pfxRep_firstByte (rep_iff.1 hr).1]
      rw [if_pos (by exact hlt)]; exact ih
  | case3 a b hab mid x hx hlt hgt ih =>
    rw [bsearchS.eq_def, dif_pos hab]
    rcases repL_getElem h mid with ⟨e1, e2⟩ | ⟨y, n, e1, e2, hr⟩
    · rw [hx] at e2; cases e2
    · rw [hx] at e2; cases e2
      simp only [mid] at e1
      simp only [e1, pfxRep_firstByte (rep_iff.1 hr).1]
      rw [if_neg (by exact hlt), if_pos (by exact hgt)]; exact ih
  | case4 a b hab mid x hx hlt hgt =>
    rw [bsearchS.eq_def, dif_pos hab]
    rcases repL_getElem h mid with ⟨e1, e2⟩ | ⟨y, n, e1, e2, hr⟩
    · rw [hx] at e2; cases e2
    · rw [hx] at e2; cases e2
      simp only [mid] at e1
      simp only [e1, pfxRep_firstByte (rep_iff.1 hr).1]
      rw [if_neg (by exact hlt), if_neg (by exact hgt)]
  | case5 a b hab => rw [bsearchS.eq_def, dif_neg hab]

/-- An optional reference. -/
def ORefRep (L : Lawful S) (g : Bool) (st : σ) : Option Ref → Option Node → Prop
  | none, none => True
  | some r, some n => RefRep L g st r n
  | _, _ => False

theorem getElem_oref {st : σ} {as : List SNode} {l : List Node} (h : RepL L g st as l) (i : Nat) :
    ORefRep L g st (as[i]?.map .owned) l[i]? := by
  rcases repL_getElem h i with ⟨e1, e2⟩ | ⟨x, n, e1, e2, hr⟩
  · rw [e1, e2]; exact trivial
  · rw [e1, e2]; exact hr

theorem findOwned_rep {st : σ} {as : List SNode} {l : List Node} (h : RepL L g st as l) (c : UInt8) :
    ORefRep L g st ((findOwned as c).map .owned) (findChild l c) := by
  unfold findOwned findChild
  rw [repL_length h, bsearchS_eq h]
  split
  · exact getElem_oref h _
  · cases bsearch l (rank (some c)) 0 l.length with
    | none => exact trivial
    | some i => exact getElem_oref h i

theorem findBorrowed_rep {st : σ} {bs : Bytes} {l : List Node} (h : RepR L g st bs l) (ho : OrdK l) (c : UInt8) :
    ORefRep L g st ((findBorrowed bs c).map .borrowed) (childAt l c) := by
  induction l generalizing bs with
  | nil => simp only [RepR] at h; subst h; rw [findBorrowed.eq_def]; exact trivial
  | cons n l ih =>
    simp only [RepR] at h
    obtain ⟨r, i, rest, e1, e2, e3, e4⟩ := h
    rw [findBorrowed.eq_def]
    have hf : r.pfx.firstByte = n.firstByte := pfxRep_firstByte (rep_iff.1 e3).1
    split
    · rename_i e; rw [e1] at e; cases e
    · rename_i r' rest' e
      rw [e1] at e; cases e
      rw [hf]
      have hch : childAt (n :: l) c = if n.firstByte = some c then some n else childAt l c := by
        unfold childAt
        rw [List.find?_cons]
        by_cases e : n.firstByte = some c
        · simp [e]
        · have : (n.firstByte == some c) = false := by simpa using e
          rw [this, if_neg e]
      rw [hch]
      by_cases e : n.firstByte = some c
      · rw [e, if_neg (Nat.lt_irrefl _), if_neg (Nat.lt_irrefl _), if_pos rfl]
        exact ⟨i, e2, e3⟩
      · rw [if_neg e]
        by_cases hlt : rank n.firstByte < rank (some c)
        · rw [if_pos hlt]
          exact ih e4 ((ordK_iff _).2 ⟨fun m hm => ((ordK_iff _).1 ho).1 m (List.mem_cons_of_mem _ hm),
            (List.pairwise_cons.1 ((ordK_iff _).1 ho).2).2⟩)
        · have hne : rank n.firstByte ≠ rank (some c) := fun h => e (rank_inj h)
          rw [if_neg hlt, if_pos (by omega)]
          cases hc : childAt l c with
          | none => exact trivial
          | some m =>
            have hm := childAt_mem hc
            have := (List.pairwise_cons.1 ((ordK_iff _).1 ho).2).1 m hm.1
            rw [hm.2] at this; omega

theorem IterRep.find {st : σ} {it : TIter} {l : List Node} (h : IterRep L g st it l) (ho : OrdK l) (c : UInt8) :
    ORefRep L g st (it.find c) (findChild l c) := by
  cases it with
  | owned as => exact findOwned_rep h c
  | borrowed bs => rw [findChild_eq ho]; exact findBorrowed_rep h ho c

theorem lastBorrowed_rep {st : σ} {bs : Bytes} {l : List Node} (h : RepR L g st bs l) (acc : Option Rec) (m : Option Node)
    (hm : ORefRep L g st (acc.map .borrowed) m) :
    ORefRep L g st ((lastBorrowed bs acc).map .borrowed) (l.getLast?.or m) := by
  induction l generalizing bs acc m with
  | nil => simp only [RepR] at h; subst h; rw [lastBorrowed.eq_def]; simpa [readOne, readBlob] using hm
  | cons n l ih =>
    simp only [RepR] at h
    obtain ⟨r, i, rest, e1, e2, e3, e4⟩ := h
    rw [lastBorrowed.eq_def]
    split
    · rename_i e; rw [e1] at e; cases e
    · rename_i r' rest' e
      rw [e1] at e; cases e
      have := ih e4 (some r) (some n) ⟨i, e2, e3⟩
      rw [List.getLast?_cons]
      cases hl : l.getLast? with
      | none => rw [hl] at this; simpa using this
      | some x => rw [hl] at this; simpa using this

theorem repL_getLast {st : σ} {as : List SNode} {l : List Node} (h : RepL L g st as l) :
    ORefRep L g st (as.getLast?.map .owned) l.getLast? := by
  rw [List.getLast?_eq_getElem?, List.getLast?_eq_getElem?, repL_length h]
  exact getElem_oref h _

theorem IterRep.last {st : σ} {it : TIter} {l : List Node} (h : IterRep L g st it l) :
    ORefRep L g st it.last l.getLast? := by
  cases it with
  | owned as => exact repL_getLast h
  | borrowed bs => simpa [TIter.last] using lastBorrowed_rep h none none trivial

/-- The result of `find`. -/
def FindRep (L : Lawful S) (g : Bool) (st : σ) : SFind → FindResult → Prop
  | .found r, .found n => RefRep L g st r n
  | .pre r k, .pre n k' => RefRep L g st r n ∧ k = k'
  | .notFound, .notFound => True
  | _, _ => False

theorem ord_loadChildren {n : Node} (h : Ord n) {l : List Node} (e : n.loadChildren = some l) : OrdK l := by
  have := loadChildren_some e
  rw [ord_iff] at h
  simpa [kids, this] using h

/-- Levels of recursion that are enough to look up `p` in `n`. -/
def Enough (n : Node) (p : Bytes) (fuel : Nat) : Prop :=
  n.height ≤ fuel ∨ p.length + 1 ≤ fuel ∨ (n.pfx ≠ [] ∧ p ≠ [] ∧ p.length ≤ fuel)

theorem Enough.pos {n : Node} {p : Bytes} {fuel : Nat} (h : Enough n p fuel) : ∃ f, fuel = f + 1 := by
  refine ⟨fuel - 1, ?_⟩
  rcases h with h | h | ⟨_, h, h'⟩
  · have := height_pos n; omega
  · omega
  · have := List.length_pos_iff.2 h; omega

theorem Enough.child {n c : Node} {cs : List Node} {p : Bytes} {x : UInt8} {rest : Bytes} {k fuel : Nat}
    (h : Enough n p (fuel + 1)) (hc : n.kids = cs) (hm : c ∈ cs) (hp : c.pfx ≠ []) (hd : p.drop k = x :: rest)
    (hk : n.pfx.length ≤ k) : Enough c (x :: rest) fuel := by
  have hl := congrArg List.length hd
  simp only [List.length_drop, List.length_cons] at hl
  rcases h with h | h | ⟨h1, h2, h3⟩
  · subst hc; have := height_kids hm; exact Or.inl (by omega)
  · exact Or.inr (Or.inr ⟨hp, by simp, by simp only [List.length_cons]; omega⟩)
  · have := List.length_pos_iff.2 h1
    exact Or.inr (Or.inr ⟨hp, by simp, by simp only [List.length_cons]; omega⟩)

theorem enough_nodes {n : Node} {p : Bytes} {fuel : Nat} (h : n.nodes ≤ fuel) : Enough n p fuel :=
  Or.inl (Nat.le_trans (height_le_nodes n) h)

theorem findS_repH {st : σ} (n : Node) (p : Bytes) (ho : Ord n) {r : Ref} (h : RefRep L g st r n) {fuel : Nat}
    (hf : Enough n p fuel) : RPost L st (findS S st fuel r p) fun x => FindRep L g st x (find n p) := by
  fun_induction find n p generalizing r fuel with
  | case1 =>
    rename_i n p k rt rp hc
    obtain ⟨fuel, rfl⟩ : ∃ f, fuel = f + 1 := hf.pos
    simp only [findS]
    refine rpost_bind (loadPrefix_rep h.pfx) fun tp e => ?_
    subst e
    rw [if_pos (by exact hc)]
    exact h
  | case2 =>
    rename_i n p k rt rp hc hp
    obtain ⟨fuel, rfl⟩ : ∃ f, fuel = f + 1 := hf.pos
    simp only [findS]
    refine rpost_bind (loadPrefix_rep h.pfx) fun tp e => ?_
    subst e
    rw [if_neg (by exact hc), if_pos (by exact hp)]
    exact ⟨h, rfl⟩
  | case3 =>
    rename_i n p k rt rp hc hp ht hd
    simp only [List.drop_eq_nil_iff] at hd; simp only [rp] at hp; omega
  | case4 =>
    rename_i n p k rt rp hc hp ht c rest hd hl
    obtain ⟨fuel, rfl⟩ : ∃ f, fuel = f + 1 := hf.pos
    simp only [findS]
    refine rpost_bind (loadPrefix_rep h.pfx) fun tp e => ?_
    subst e
    rw [if_neg (by exact hc), if_neg (by exact hp), if_pos (by exact ht)]
    simp only [k] at hd
    rw [hd]
    refine rpost_bind h.loadChildren fun o ho' => ?_
    rw [hl] at ho'
    cases o with
    | none => exact trivial
    | some it => exact ho'.elim
  | case5 =>
    rename_i n p k rt rp hc hp ht c rest hd cs hl hfc
    obtain ⟨fuel, rfl⟩ : ∃ f, fuel = f + 1 := hf.pos
    simp only [findS]
    refine rpost_bind (loadPrefix_rep h.pfx) fun tp e => ?_
    subst e
    rw [if_neg (by exact hc), if_neg (by exact hp), if_pos (by exact ht)]
    simp only [k] at hd
    rw [hd]
    refine rpost_bind h.loadChildren fun o ho' => ?_
    rw [hl] at ho'
    cases o with
    | none => exact ho'.elim
    | some it =>
      have := IterRep.find ho' (ord_loadChildren ho hl) c
      rw [hfc] at this
      simp only
      cases hx : it.find c with
      | none => exact trivial
      | some y => rw [hx] at this; exact this.elim
  | case6 =>
    rename_i n p k rt rp hc hp ht c rest hd cs hl child hfc ih
    obtain ⟨fuel, rfl⟩ : ∃ f, fuel = f + 1 := hf.pos
    simp only [findS]
    refine rpost_bind (loadPrefix_rep h.pfx) fun tp e => ?_
    subst e
    rw [if_neg (by exact hc), if_neg (by exact hp), if_pos (by exact ht)]
    simp only [k] at hd
    rw [hd]
    refine rpost_bind h.loadChildren fun o ho' => ?_
    rw [hl] at ho'
    cases o with
    | none => exact ho'.elim
    | some it =>
      have hok := ord_loadChildren ho hl
      have := IterRep.find ho' hok c
      rw [hfc] at this
      simp only
      cases hx : it.find c with
      | none => rw [hx] at this; exact this.elim
      | some y =>
        rw [hx] at this
        refine ih (hok.mem (findChild_mem hfc)).2 this ?_
        exact hf.child (by simp [kids, loadChildren_some hl]) (findChild_mem hfc) (hok.mem (findChild_mem hfc)).1 hd (by simp only [rt] at ht; omega)
  | case7 =>
    rename_i n p k rt rp hc hp ht
    obtain ⟨fuel, rfl⟩ : ∃ f, fuel = f + 1 := hf.pos
    simp only [findS]
    refine rpost_bind (loadPrefix_rep h.pfx) fun tp e => ?_
    subst e
    rw [if_neg (by exact hc), if_neg (by exact hp), if_neg (by exact ht)]
    exact trivial

theorem findS_rep {st : σ} (n : Node) (p : Bytes) (ho : Ord n) {r : Ref} (h : RefRep L g st r n) {fuel : Nat}
    (hf : n.nodes ≤ fuel) : RPost L st (findS S st fuel r p) fun x => FindRep L g st x (find n p) :=
  findS_repH n p ho h (enough_nodes hf)

theorem getS_repH {st : σ} {n : Node} (ho : Ord n) {a : SNode} (h : Rep L g st a n) {fuel : Nat} (k : Bytes) (hf : Enough n k fuel) : RPost L st (getS S fuel st a k) fun o => OValRep L st o (get n k) := by
  unfold getS Radix.get
  refine rpost_bind (findS_repH n k ho (r := .owned a) h hf) fun x hx => ?_
  cases e : find n k <;> rw [e] at hx <;> cases x <;> first | exact hx.elim | exact trivial | skip
  exact valueOpt_rep (RefRep.val hx)

theorem getS_rep {st : σ} {n : Node} (ho : Ord n) {a : SNode} (h : Rep L g st a n) {fuel : Nat} (hf : n.nodes ≤ fuel)
    (k : Bytes) : RPost L st (getS S fuel st a k) fun o => OValRep L st o (get n k) :=
  getS_repH ho h k (enough_nodes hf)

theorem containsKeyS_repH {st : σ} {n : Node} (ho : Ord n) {a : SNode} (h : Rep L g st a n) {fuel : Nat}
    (k : Bytes) (hf : Enough n k fuel) : RPost L st (containsKeyS S fuel st a k) (· = containsKey n k) := by
  unfold containsKeyS containsKey
  refine rpost_bind (findS_repH n k ho (r := .owned a) h hf) fun x hx => ?_
  cases e : find n k <;> rw [e] at hx <;> cases x <;> first | exact hx.elim | exact rfl | skip
  exact (valueOpt_rep (RefRep.val hx)).isSome

theorem containsKeyS_rep {st : σ} {n : Node} (ho : Ord n) {a : SNode} (h : Rep L g st a n) {fuel : Nat}
    (hf : n.nodes ≤ fuel) (k : Bytes) : RPost L st (containsKeyS S fuel st a k) (· = containsKey n k) :=
  containsKeyS_repH ho h k (enough_nodes hf)

theorem hasPrefixS_repH {st : σ} {n : Node} (ho : Ord n) {a : SNode} (h : Rep L g st a n) {fuel : Nat}
    (k : Bytes) (hf : Enough n k fuel) : RPost L st (hasPrefixS S fuel st a k) (· = hasPrefix n k) := by
  unfold hasPrefixS hasPrefix
  refine rpost_bind (findS_repH n k ho (r := .owned a) h hf) fun x hx => ?_
  cases e : find n k <;> rw [e] at hx <;> cases x <;> first | exact hx.elim | exact rfl

theorem hasPrefixS_rep {st : σ} {n : Node} (ho : Ord n) {a : SNode} (h : Rep L g st a n) {fuel : Nat}
    (hf : n.nodes ≤ fuel) (k : Bytes) : RPost L st (hasPrefixS S fuel st a k) (· = hasPrefix n k) :=
  hasPrefixS_repH ho h k (enough_nodes hf)

theorem setPrefix_rep {st : σ} {a : SNode} {n : Node} (h : Rep L g st a n) (p : Bytes) :
    Rep L g st (a.setPrefix p) (n.setPrefix p) := by
  have := rep_iff.1 h
  refine rep_iff.2 ?_
  cases a <;> exact ⟨Or.inl rfl, this.2⟩

theorem empty_rep (st : σ) : Rep L g st SNode.empty Node.empty := by
  simp only [SNode.empty, Node.empty, Rep, SNode.pfx, SNode.val, SNode.children, RepC]
  exact ⟨Or.inl rfl, rfl, trivial⟩

theorem filterPrefixS_repH {st : σ} {n : Node} (ho : Ord n) {a : SNode} (h : Rep L g st a n) {fuel : Nat}
    (p s : Bytes) (hf : Enough n p fuel) :
    RPost L st (filterPrefixS S fuel st a p s) fun b => Rep L g st b (filterPrefix n p s) := by
  unfold filterPrefixS filterPrefix
  refine rpost_bind (findS_repH n p ho (r := .owned a) h hf) fun x hx => ?_
  cases e : find n p <;> rw [e] at hx <;> cases x <;> first | exact hx.elim | skip
  · exact rpost_bind (RefRep.toOwned hx) fun b hb => setPrefix_rep hb s
  · obtain ⟨hx, rfl⟩ := hx
    refine rpost_bind (loadPrefix_rep hx.pfx) fun tp e => ?_
    subst e
    exact rpost_bind (RefRep.toOwned hx) fun b hb => setPrefix_rep hb _
  · exact empty_rep st

theorem filterPrefixS_rep {st : σ} {n : Node} (ho : Ord n) {a : SNode} (h : Rep L g st a n) {fuel : Nat}
    (hf : n.nodes ≤ fuel) (p s : Bytes) :
    RPost L st (filterPrefixS S fuel st a p s) fun b => Rep L g st b (filterPrefix n p s) :=
  filterPrefixS_repH ho h p s (enough_nodes hf)

theorem iterRep_ne {st : σ} {it : TIter} {n : Node} (h : OIterRep L g st (some it) n.loadChildren) :
    ∃ c l, n.loadChildren = some (c :: l) := by
  cases e : n.loadChildren with
  | none => rw [e] at h; exact h.elim
  | some l =>
    cases l with
    | nil => unfold Node.loadChildren at e; split at e <;> cases e
    | cons c l => exact ⟨c, l, rfl⟩

theorem nodes_child {n c : Node} {l : List Node} (h : n.loadChildren = some l) (hc : c ∈ l) : c.nodes < n.nodes := by
  have h1 := nodes_le_of_mem hc
  have h2 := loadChildren_some h
  cases n with
  | mk q v ch => simp only [Node.ch] at h2; subst h2; simp only [nodes, nodesO]; omega

theorem height_child {n c : Node} {l : List Node} (h : n.loadChildren = some l) (hc : c ∈ l) : c.height < n.height := by
  have h2 := loadChildren_some h
  refine height_kids ?_
  simpa [kids, h2] using hc

/-- An optional entry. -/
def OEntRep (L : Lawful S) (st : σ) : Option (Bytes × BlobV) → Option (Bytes × Bytes) → Prop
  | none, none => True
  | some e, some e' => e.1 = e'.1 ∧ ValRep L st e.2 (some e'.2)
  | _, _ => False

theorem oval_cases {st : σ} {o : Option BlobV} {v : Option Bytes} (h : OValRep L st o v) :
    (o = none ∧ v = none) ∨ ∃ b w, o = some b ∧ v = some w ∧ ValRep L st b (some w) := by
  cases o <;> cases v <;> first | exact h.elim | exact Or.inl ⟨rfl, rfl⟩ | exact Or.inr ⟨_, _, rfl, rfl, h⟩

theorem oiter_cases {st : σ} {o : Option TIter} {n : Node} (h : OIterRep L g st o n.loadChildren) :
    (o = none ∧ n.loadChildren = none) ∨ ∃ it c l, o = some it ∧ n.loadChildren = some (c :: l) ∧
      IterRep L g st it (c :: l) := by
  cases o with
  | none =>
    cases e : n.loadChildren with
    | none => exact Or.inl ⟨rfl, rfl⟩
    | some l => rw [e] at h; exact h.elim
  | some it =>
    obtain ⟨c, l, e⟩ := iterRep_ne h
    rw [e] at h
    exact Or.inr ⟨it, c, l, rfl, e, h⟩

theorem firstEntryS_repH {st : σ} {fuel : Nat} : ∀ {pre : Bytes} {r : Ref} {n : Node}, RefRep L g st r n →
    n.height ≤ fuel → RPost L st (firstEntryS S st fuel pre r) fun o => OEntRep L st o (firstEntry pre n) := by
  induction fuel with
  | zero => intro pre r n _ hf; have := height_pos n; omega
  | succ fuel ih =>
    intro pre r n h hf
    rw [firstEntry.eq_def]
    simp only [firstEntryS]
    refine rpost_bind (loadPrefix_rep h.pfx) fun tp e => ?_
    subst e
    rcases oval_cases (valueOpt_rep h.val) with ⟨e1, e2⟩ | ⟨b, w, e1, e2, hv⟩
    · rw [e1, e2]
      refine rpost_bind h.loadChildren fun o ho => ?_
      rcases oiter_cases ho with ⟨rfl, e⟩ | ⟨it, c, l, rfl, e, hi⟩
      · rw [e]; exact trivial
      · rw [e]
        obtain ⟨y, it', e3, h1, h2⟩ := hi.next_cons
        simp only [e3]
        exact ih h1 (by have := height_child e (List.mem_cons_self); omega)
    · rw [e1, e2]; exact ⟨rfl, hv⟩

theorem firstEntryS_rep {st : σ} {fuel : Nat} : ∀ {pre : Bytes} {r : Ref} {n : Node}, RefRep L g st r n →
    n.nodes ≤ fuel → RPost L st (firstEntryS S st fuel pre r) fun o => OEntRep L st o (firstEntry pre n) :=
  fun h hf => firstEntryS_repH h (Nat.le_trans (height_le_nodes _) hf)

theorem lastEntry_some {pre : Bytes} {n m : Node} {cl : List Node} (e : n.loadChildren = some cl)
    (hg : cl.getLast? = some m) : lastEntry pre n = lastEntry (pre ++ n.pfx) m := by
  rw [lastEntry.eq_def]
  split
  · rename_i cs e'
    rw [e] at e'; cases e'
    split
    · rename_i c hc; rw [hg] at hc; cases hc; rfl
    · rename_i hc; rw [hg] at hc; cases hc
  · rename_i e'; rw [e] at e'; cases e'

theorem lastValue_some {n m : Node} {cl : List Node} (e : n.loadChildren = some cl)
    (hg : cl.getLast? = some m) : lastValue n = lastValue m := by
  rw [lastValue.eq_def]
  split
  · rename_i cs e'
    rw [e] at e'; cases e'
    split
    · rename_i c hc; rw [hg] at hc; cases hc; rfl
    · rename_i hc; rw [hg] at hc; cases hc
  · rename_i e'; rw [e] at e'; cases e'

theorem lastEntry_none {pre : Bytes} {n : Node} (e : n.loadChildren = none) :
    lastEntry pre n = n.val.map fun v => (pre ++ n.pfx, v) := by
  rw [lastEntry.eq_def]
  split
  · rename_i cs e'; rw [e] at e'; cases e'
  · rfl

theorem lastValue_none {n : Node} (e : n.loadChildren = none) : lastValue n = n.val := by
  rw [lastValue.eq_def]
  split
  · rename_i cs e'; rw [e] at e'; cases e'
  · rfl

theorem lastEntryS_repH {st : σ} {fuel : Nat} : ∀ {pre : Bytes} {r : Ref} {n : Node}, RefRep L g st r n →
    n.height ≤ fuel → RPost L st (lastEntryS S st fuel pre r) fun o => OEntRep L st o (lastEntry pre n) := by
  induction fuel with
  | zero => intro pre r n _ hf; have := height_pos n; omega
  | succ fuel ih =>
    intro pre r n h hf
    simp only [lastEntryS]
    refine rpost_bind (loadPrefix_rep h.pfx) fun tp e => ?_
    subst e
    refine rpost_bind h.loadChildren fun o ho => ?_
    rcases oiter_cases ho with ⟨rfl, e⟩ | ⟨it, c, l, rfl, e, hi⟩
    · rw [lastEntry_none e]
      rcases oval_cases (valueOpt_rep h.val) with ⟨e1, e2⟩ | ⟨b, w, e1, e2, hv⟩
      · rw [e1, e2]; exact trivial
      · rw [e1, e2]; exact ⟨rfl, hv⟩
    · generalize hcl : c :: l = cl at e hi
      have hl := hi.last
      cases hg : cl.getLast? with
      | none => subst hcl; simp at hg
      | some m =>
        rw [hg] at hl
        rw [lastEntry_some e hg]
        simp only
        cases hx : it.last with
        | none => rw [hx] at hl; exact hl.elim
        | some y =>
          rw [hx] at hl
          exact ih hl (by have := height_child e (List.mem_of_getLast? hg); omega)

theorem lastEntryS_rep {st : σ} {fuel : Nat} : ∀ {pre : Bytes} {r : Ref} {n : Node}, RefRep L g st r n →
    n.nodes ≤ fuel → RPost L st (lastEntryS S st fuel pre r) fun o => OEntRep L st o (lastEntry pre n) :=
  fun h hf => lastEntryS_repH h (Nat.le_trans (height_le_nodes _) hf)

theorem firstValueS_repH {st : σ} {fuel : Nat} : ∀ {r : Ref} {n : Node}, RefRep L g st r n →
    n.height ≤ fuel → RPost L st (firstValueS S st fuel r) fun o => OValRep L st o (firstValue n) := by
  induction fuel with
  | zero => intro r n _ hf; have := height_pos n; omega
  | succ fuel ih =>
    intro r n h hf
    rw [firstValue.eq_def]
    simp only [firstValueS]
    rcases oval_cases (valueOpt_rep h.val) with ⟨e1, e2⟩ | ⟨b, w, e1, e2, hv⟩
    · rw [e1, e2]
      refine rpost_bind h.loadChildren fun o ho => ?_
      rcases oiter_cases ho with ⟨rfl, e⟩ | ⟨it, c, l, rfl, e, hi⟩
      · rw [e]; exact trivial
      · rw [e]
        obtain ⟨y, it', e3, h1, h2⟩ := hi.next_cons
        simp only [e3]
        exact ih h1 (by have := height_child e (List.mem_cons_self); omega)
    · rw [e1, e2]; exact hv

theorem firstValueS_rep {st : σ} {fuel : Nat} : ∀ {r : Ref} {n : Node}, RefRep L g st r n →
    n.nodes ≤ fuel → RPost L st (firstValueS S st fuel r) fun o => OValRep L st o (firstValue n) :=
  fun h hf => firstValueS_repH h (Nat.le_trans (height_le_nodes _) hf)

theorem lastValueS_repH {st : σ} {fuel : Nat} : ∀ {r : Ref} {n : Node}, RefRep L g st r n →
    n.height ≤ fuel → RPost L st (lastValueS S st fuel r) fun o => OValRep L st o (lastValue n) := by
  induction fuel with
  | zero => intro r n _ hf; have := height_pos n; omega
  | succ fuel ih =>
    intro r n h hf
    simp only [lastValueS]
    refine rpost_bind h.loadChildren fun o ho => ?_
    rcases oiter_cases ho with ⟨rfl, e⟩ | ⟨it, c, l, rfl, e, hi⟩
    · rw [lastValue_none e]; exact valueOpt_rep h.val
    · generalize hcl : c :: l = cl at e hi
      have hl := hi.last
      cases hg : cl.getLast? with
      | none => subst hcl; simp at hg
      | some m =>
        rw [hg] at hl
        rw [lastValue_some e hg]
        simp only
        cases hx : it.last with
        | none => rw [hx] at hl; exact hl.elim
        | some y =>
          rw [hx] at hl
          exact ih hl (by have := height_child e (List.mem_of_getLast? hg); omega)

theorem lastValueS_rep {st : σ} {fuel : Nat} : ∀ {r : Ref} {n : Node}, RefRep L g st r n →
    n.nodes ≤ fuel → RPost L st (lastValueS S st fuel r) fun o => OValRep L st o (lastValue n) :=
  fun h hf => lastValueS_repH h (Nat.le_trans (height_le_nodes _) hf)

theorem detached_of {n : Node} : n.detached = mk n.pfx n.val (n.loadChildren.map detachedL) := by
  cases n with
  | mk p v c =>
    simp only [detached, Node.pfx, Node.val, Node.loadChildren, Node.ch]
    rcases c with _ | (_ | ⟨x, c⟩) <;> rfl

theorem detachedLoop_rep {st : σ} {f : SNode → Res ε Node} : ∀ {l : List Node} {it : TIter},
    (∀ (a : SNode) (n : Node), n ∈ l → Rep L g st a n → RPost L st (f a) (· = n.detached)) → IterRep L g st it l →
    RPost L st (detachedLoop f it) (· = detachedL l)
  | [], it, hf, h => by
    rw [detachedLoop.eq_def]
    split
    · exact rfl
    · rename_i e; rw [h.next_nil] at e; cases e
  | c :: l, it, hf, h => by
    obtain ⟨y, it', e3, h1, h2⟩ := h.next_cons
    rw [detachedLoop.eq_def]
    split
    · rename_i e; rw [e3] at e; cases e
    · rename_i y' it2 e
      rw [e3] at e
      cases e
      refine rpost_bind (RefRep.toOwned h1) fun a ha => ?_
      refine rpost_bind (hf a c (by simp) ha) fun m e => ?_
      subst e
      refine rpost_bind (detachedLoop_rep (fun a n hn => hf a n (by simp [hn])) h2) fun l' e => ?_
      subst e; exact rfl

theorem detachedS_repH {st : σ} {fuel : Nat} :
    (∀ {a : SNode} {n : Node}, Rep L g st a n → n.height ≤ fuel → RPost L st (detachedS S st fuel a) (· = n.detached)) ∧
    (∀ {it : TIter} {l : List Node}, IterRep L g st it l → heightL l ≤ fuel →
      RPost L st (detachedIterS S st fuel it) (· = detachedL l)) := by
  have key : ∀ {a : SNode} {n : Node}, Rep L g st a n → n.height ≤ fuel →
      RPost L st (detachedS S st fuel a) (· = n.detached) := by
    induction fuel with
    | zero => intro a n _ hf; have := height_pos n; omega
    | succ fuel ih =>
      intro a n h hf
      rw [detached_of]
      simp only [detachedS]
      have hr := rep_iff.1 h
      refine rpost_bind (loadPrefix_rep hr.1) fun tp e => ?_
      subst e
      refine rpost_bind (loadValue_rep hr.2.1) fun v e => ?_
      subst e
      refine rpost_bind (loadChildren_owned h) fun o ho => ?_
      rcases oiter_cases ho with ⟨rfl, e⟩ | ⟨it, c, l, rfl, e, hi⟩
      · rw [e]; exact rfl
      · rw [e]
        refine rpost_bind (detachedLoop_rep (fun a n hn ha => ih ha ?_) hi) fun l' e' => by subst e'; exact rfl
        have := height_child e hn
        omega
  exact ⟨key, fun {it l} h hf => detachedLoop_rep (fun a n hn ha => key ha (by have := height_le_of_mem hn; omega)) h⟩

theorem detachedS_rep {st : σ} {fuel : Nat} :
    (∀ {a : SNode} {n : Node}, Rep L g st a n → 3 * n.nodes ≤ fuel → RPost L st (detachedS S st fuel a) (· = n.detached)) ∧
    (∀ {it : TIter} {l : List Node}, IterRep L g st it l → 3 * nodesL l + 1 ≤ fuel →
      RPost L st (detachedIterS S st fuel it) (· = detachedL l)) :=
  ⟨fun {_ n} h hf => detachedS_repH.1 h (by have := height_le_nodes n; omega),
    fun {_ l} h hf => detachedS_repH.2 h (by have := heightL_le_nodesL l; omega)⟩

end

end Radix
