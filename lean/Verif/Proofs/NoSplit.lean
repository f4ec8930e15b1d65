import Verif.Proofs.CombineFuel
import Verif.Proofs.Unique
import Verif.Proofs.Depth
import Verif.Proofs.Find
import Verif.Spec.Stops

/-
Proof-internal: combinations of stored trees that do not panic.
-/

set_option linter.unusedVariables false

namespace Radix
open Node
open Spec (Stop Fits)

/-! ### Stops -/

theorem den_pfx_val (t : Node) : den t t.pfx = t.val := by
  have := strip_append_self t.pfx []
  rw [List.append_nil] at this
  rw [den_eq, this]

theorem den_kid_ne {n c : Node} (ho : Ord n) (hc : c ∈ n.kids) {k : Bytes} (h : den c k ≠ none) :
    den n (n.pfx ++ k) ≠ none := by
  obtain ⟨v, hv⟩ := Option.ne_none_iff_exists'.1 h
  rw [den_kid ho hc hv]; simp

theorem pfx_of_den {t : Node} {k : Bytes} (h : den t k ≠ none) : t.pfx <+: k := by
  obtain ⟨v, hv⟩ := Option.ne_none_iff_exists'.1 h
  exact cmp_keys_pfx hv

theorem stop_pfx {t : Node} (h : Cmp t) (ho : Ord t) : Stop (den t) t.pfx := by
  rw [cmp_iff] at h
  rcases h.1 with hv | hk
  · left
    rw [den_pfx_val]
    intro e; rw [e] at hv; cases hv
  · right
    cases hk1 : t.kids with
    | nil => simp [hk1] at hk
    | cons c l =>
      cases l with
      | nil => simp [hk1] at hk
      | cons d l =>
        have ho' := (ord_iff t).1 ho
        have hc : c ∈ t.kids := by simp [hk1]
        have hd : d ∈ t.kids := by simp [hk1]
        have key : ∀ c ∈ t.kids, ∃ x r, c.firstByte = some x ∧ den t (t.pfx ++ x :: r) ≠ none := by
          intro c hc
          obtain ⟨k, v, hden⟩ := cmp_exists (h.2 c hc) (ho'.mem hc).2
          obtain ⟨x, hx⟩ := firstByte_of_ne_nil (ho'.mem hc).1
          have hh := den_firstByte hx hden
          cases k with
          | nil => cases hh
          | cons y ys =>
            simp at hh; subst hh
            exact ⟨y, ys, hx, by rw [den_kid ho hc hden]; simp⟩
        obtain ⟨x, r, hx, h1⟩ := key c hc
        obtain ⟨y, s, hy, h2⟩ := key d hd
        refine ⟨x, y, r, s, ?_, h1, h2⟩
        rw [hk1] at ho'
        simp only [OrdK] at ho'
        have := ho'.2.2.1 d (by simp)
        rw [hx, hy] at this
        rintro rfl; omega

theorem stop_inside {t : Node} {p : Bytes} (h : Stop (den t) p) : t.pfx <+: p := by
  rcases h with h | ⟨x, y, r, s, hne, h1, h2⟩
  · exact pfx_of_den h
  · have h1 := pfx_of_den h1
    have h2 := pfx_of_den h2
    by_cases hl : t.pfx.length ≤ p.length
    · exact List.prefix_of_prefix_length_le h1 (List.prefix_append _ _) hl
    · exfalso
      obtain ⟨q, e⟩ : p <+: t.pfx := List.prefix_of_prefix_length_le (List.prefix_append _ _) h1 (by omega)
      rw [← e] at h1 h2 hl
      have h1 := (List.prefix_append_right_inj _).1 h1
      have h2 := (List.prefix_append_right_inj _).1 h2
      cases q with
      | nil => simp at hl
      | cons z q =>
        rw [List.cons_prefix_cons] at h1 h2
        exact hne (h1.1.symm.trans h2.1)

theorem stop_child {t c : Node} (ho : Ord t) (hc : c ∈ t.kids) {p : Bytes} (h : Stop (den c) p) :
    Stop (den t) (t.pfx ++ p) := by
  rcases h with h | ⟨x, y, r, s, hne, h1, h2⟩
  · exact Or.inl (den_kid_ne ho hc h)
  · refine Or.inr ⟨x, y, r, s, hne, ?_, ?_⟩ <;> rw [List.append_assoc] <;> exact den_kid_ne ho hc ‹_›

theorem den_kid_eq {t c : Node} (ho : Ord t) (hc : c ∈ t.kids) {x : UInt8} {k : Bytes} (hx : c.firstByte = some x) :
    den t (t.pfx ++ x :: k) = den c (x :: k) := by
  rw [den_eq, strip_append_self]
  show denK t.kids (x :: k) = _
  rw [denK_cons_eq, childAt_of_mem ((ord_iff t).1 ho) hc hx]
  rfl

theorem child_stop {t c : Node} (ho : Ord t) (hc : c ∈ t.kids) {p k : Bytes} (hp : p ≠ []) (hk : den c (p ++ k) ≠ none)
    (h : Stop (den t) (t.pfx ++ p)) : Stop (den c) p := by
  obtain ⟨x, hx⟩ := firstByte_of_ne_nil (((ord_iff t).1 ho).mem hc).1
  obtain ⟨v, hv⟩ := Option.ne_none_iff_exists'.1 hk
  have hh := den_firstByte hx hv
  cases p with
  | nil => exact absurd rfl hp
  | cons y p =>
    simp at hh; subst hh
    rcases h with h | ⟨b, b', r, s, hne, h1, h2⟩
    · left; rwa [den_kid_eq ho hc hx] at h
    · right
      rw [List.append_assoc, List.cons_append, den_kid_eq ho hc hx] at h1 h2
      exact ⟨b, b', r, s, hne, h1, h2⟩

theorem den_short (u : Node) {n : Nat} (k : Bytes) :
    den (u.cloneShortened n) k = den u (u.pfx.take n ++ k) := by
  have h := den_setPrefix_append u (u.pfx.take n) (u.pfx.drop n) k
  rw [List.take_append_drop, den_setPrefix_self] at h
  exact h.symm

theorem stop_short {u : Node} {n : Nat} {p : Bytes} (h : Stop (den (u.cloneShortened n)) p) :
    Stop (den u) (u.pfx.take n ++ p) := by
  rcases h with h | ⟨x, y, r, s, hne, h1, h2⟩
  · left; rwa [den_short] at h
  · right
    rw [den_short] at h1 h2
    exact ⟨x, y, r, s, hne, by rwa [List.append_assoc], by rwa [List.append_assoc]⟩

theorem cmp_cut {u : Node} {n : Nat} : Cmp (u.cloneShortened n) ↔ Cmp u := cmp_of_eq rfl rfl

theorem ord_short {u : Node} {n : Nat} : Ord (u.cloneShortened n) ↔ Ord u := by rw [ord_iff, ord_iff]; rfl

theorem fits_kids {t u c d : Node} (ho : Ord t) (ho' : Ord u) (h : Fits (den t) (den u)) (he : t.pfx = u.pfx)
    (hc : c ∈ t.kids) (hd : d ∈ u.kids) : Fits (den c) (den d) := by
  intro p k hp hk
  have hne : p ≠ [] := by
    rintro rfl
    have := stop_inside hp
    exact (((ord_iff u).1 ho').mem hd).1 (List.prefix_nil.1 this)
  refine child_stop ho hc hne hk (h _ k ?_ ?_)
  · rw [he]; exact stop_child ho' hd hp
  · rw [List.append_assoc]; exact den_kid_ne ho hc hk

theorem fits_short {t u c : Node} {n : Nat} (ho : Ord t) (h : Fits (den t) (den u)) (he : u.pfx.take n = t.pfx)
    (hn : n < u.pfx.length) (hc : c ∈ t.kids) : Fits (den c) (den (u.cloneShortened n)) := by
  intro p k hp hk
  have hne : p ≠ [] := by
    rintro rfl
    have e : (u.cloneShortened n).pfx = [] := List.prefix_nil.1 (stop_inside hp)
    have e : u.pfx.drop n = [] := e
    have := congrArg List.length e
    simp at this; omega
  refine child_stop ho hc hne hk (h _ k ?_ ?_)
  · rw [← he]; exact stop_short hp
  · rw [List.append_assoc]; exact den_kid_ne ho hc hk

theorem no_split {t u : Node} {n : Nat} (ho : Ord t) (ho' : Ord u) (hc : Cmp t) (hc' : Cmp u) (h : Fits (den u) (den t))
    (he : u.pfx.take n = t.pfx) (hn : n < u.pfx.length) : False := by
  obtain ⟨k, v, hk⟩ := cmp_exists hc' ho'
  obtain ⟨r, rfl⟩ := cmp_keys_pfx hk
  have := stop_inside (h t.pfx (u.pfx.drop n ++ r) (stop_pfx hc ho)
    (by rw [← he, ← List.append_assoc, List.take_append_drop, hk]; simp))
  have h1 := this.length_le
  have h2 := congrArg List.length he
  simp at h2; omega

/-! ### Calls that do not panic -/

section
variable {σ τ ε : Type} {S : BlobStore σ ε} {st : σ} {T : BlobStore τ ε} {st' : τ} {L : Lawful S} {M : Lawful T}
  {g gb : Bool} {PA PB : Prop}

/-- The call returns, and does not panic. -/
def NP {α : Type} (x : Res ε α) : Prop := RP True False x fun _ => True

theorem rp_and {α} {P : Prop} {x : Res ε α} {Q Q' : α → Prop} (h : RP True P x Q) (h' : RP True False x Q') :
    RP True False x Q := by
  cases x <;> first | exact h | exact h'

theorem rpost_np {α} {x : Res ε α} {Q : α → Prop} (h : RPost L st x Q) : RP True False x Q :=
  rp_of_rpost (fun _ => trivial) h

theorem np_any {α} {x : Res ε α} {Q : α → Prop} (h : RP True False x Q) : NP x := rp_imp h fun _ _ => trivial

theorem np_bind {α β} {x : Res ε α} {f : α → Res ε β} {Q : α → Prop} (h : RP True False x Q) (hf : ∀ a, Q a → NP (f a)) :
    NP (x.bind f) := rp_bind h hf

theorem np_ok {α} (a : α) : NP (.ok a : Res ε α) := trivial

theorem np_map {α β} {x : Res ε α} {f : α → β} (h : NP x) : NP (x.bind fun a => .ok (f a)) := np_bind h fun _ _ => trivial

theorem RefS.prefix_np {b : Ref} {m : Node} (h : RefS L st g PA b m) : RP True False (loadPrefix S st b.pfx) (· = m.pfx) :=
  rpost_np (loadPrefix_rep (RefRep.pfx h.1))

theorem RefS.kids_np (u : PA ∨ Plain L st) {b : Ref} {m : Node} (h : RefS L st g PA b m) :
    RP True False (b.loadChildren S st) fun o => OIterS L st g PA o m.loadChildren :=
  rp_and (RefS.kids ⟨fun _ => trivial, u⟩ h) (rpost_np (RefRep.loadChildren h.1))

theorem RefS.short_np {b : Ref} {m : Node} (h : RefS L st g PA b m) (ho : ¬ PA ∨ ∃ a, b = .owned a) (k : Nat) :
    RP True False (b.cloneShortened S st k) fun a => Rep L g st a (m.cloneShortened k) ∧ a.pfx.isId = false := by
  have : ∃ a, b = .owned a := ho.elim (fun hp => h.2.resolve_left hp) id
  obtain ⟨a, rfl⟩ := this
  exact cloneShortened_rep (fun _ => trivial) h.1 k

theorem RefS.detached_np {b : Ref} {m : Node} (h : RefS L st g PA b m) {fuel : Nat} (hf : m.height ≤ fuel) :
    NP (b.detached S st fuel) :=
  np_any (rpost_np (rpost_bind (RefRep.toOwned h.1) fun a ha => detachedS_repH.1 ha hf))

theorem joinMapS_np {step : Option Ref → Option Ref → Res ε (Option Node)} {l ml : List Node}
    (hab : ∀ a n b m, n ∈ l → m ∈ ml → rank n.firstByte = rank m.firstByte → RefS L st g PA a n → RefS M st' gb PB b m →
      NP (step (some a) (some b)))
    (ha : ∀ a n, n ∈ l → RefS L st g PA a n → NP (step (some a) none))
    (hb : ∀ b m, m ∈ ml → RefS M st' gb PB b m → NP (step none (some b)))
    {ia ib : TIter} (ia_ok : IterS L st g PA ia l) (ib_ok : IterS M st' gb PB ib ml) : NP (joinMapS step ia ib) := by
  fun_induction join l ml generalizing ia ib with
  | case1 => rw [joinMapS_nn ia_ok.next_nil ib_ok.next_nil]; exact trivial
  | case2 n l ih =>
    obtain ⟨a, ia', e1, h1, h2⟩ := ia_ok.next_cons
    rw [joinMapS_sn e1 ib_ok.next_nil]
    exact np_bind (ha a n List.mem_cons_self h1) fun _ _ => np_map
      (ih (fun a n b m hn hm => hab a n b m (List.mem_cons_of_mem _ hn) hm)
        (fun a n hn => ha a n (List.mem_cons_of_mem _ hn)) hb h2 ib_ok)
  | case3 m ml ih =>
    obtain ⟨b, ib', e1, h1, h2⟩ := ib_ok.next_cons
    rw [joinMapS_ns ia_ok.next_nil e1]
    exact np_bind (hb b m List.mem_cons_self h1) fun _ _ => np_map
      (ih (fun a n b m hn hm => hab a n b m hn (List.mem_cons_of_mem _ hm)) ha
        (fun b m hm => hb b m (List.mem_cons_of_mem _ hm)) ia_ok h2)
  | case4 n l m ml hlt ih =>
    obtain ⟨a, ia', e1, h1, h2⟩ := ia_ok.next_cons
    obtain ⟨b, ib', e2, h3, h4⟩ := ib_ok.next_cons
    rw [joinMapS_ss e1 e2, h1.rank, h3.rank, if_pos hlt]
    exact np_bind (ha a n List.mem_cons_self h1) fun _ _ => np_map
      (ih (fun a n b m hn hm => hab a n b m (List.mem_cons_of_mem _ hn) hm)
        (fun a n hn => ha a n (List.mem_cons_of_mem _ hn)) hb h2 ib_ok)
  | case5 n l m ml hlt hgt ih =>
    obtain ⟨a, ia', e1, h1, h2⟩ := ia_ok.next_cons
    obtain ⟨b, ib', e2, h3, h4⟩ := ib_ok.next_cons
    rw [joinMapS_ss e1 e2, h1.rank, h3.rank, if_neg hlt, if_pos hgt]
    exact np_bind (hb b m List.mem_cons_self h3) fun _ _ => np_map
      (ih (fun a n b m hn hm => hab a n b m hn (List.mem_cons_of_mem _ hm)) ha
        (fun b m hm => hb b m (List.mem_cons_of_mem _ hm)) ia_ok h4)
  | case6 n l m ml hlt hgt ih =>
    obtain ⟨a, ia', e1, h1, h2⟩ := ia_ok.next_cons
    obtain ⟨b, ib', e2, h3, h4⟩ := ib_ok.next_cons
    rw [joinMapS_ss e1 e2, h1.rank, h3.rank, if_neg hlt, if_neg hgt]
    exact np_bind (hab a n b m List.mem_cons_self List.mem_cons_self (by omega) h1 h3) fun _ _ => np_map
      (ih (fun a n b m hn hm => hab a n b m (List.mem_cons_of_mem _ hn) (List.mem_cons_of_mem _ hm))
        (fun a n hn => ha a n (List.mem_cons_of_mem _ hn))
        (fun b m hm => hb b m (List.mem_cons_of_mem _ hm)) h2 h4)

theorem np_or {x y : Res ε Bool} (hx : NP x) (hy : NP y) : NP (x.bind fun o => if o then .ok true else y) := by
  refine np_bind hx fun o _ => ?_
  cases o
  · exact hy
  · exact trivial

theorem joinAnyS_np {step : Option Ref → Option Ref → Res ε Bool} {l ml : List Node}
    (hab : ∀ a n b m, n ∈ l → m ∈ ml → RefS L st g PA a n → RefS M st' gb PB b m → NP (step (some a) (some b)))
    (ha : ∀ a, NP (step (some a) none)) (hb : ∀ b, NP (step none (some b)))
    {ia ib : TIter} (ia_ok : IterS L st g PA ia l) (ib_ok : IterS M st' gb PB ib ml) : NP (joinAnyS step ia ib) := by
  fun_induction join l ml generalizing ia ib with
  | case1 => rw [joinAnyS_nn ia_ok.next_nil ib_ok.next_nil]; exact trivial
  | case2 n l ih =>
    obtain ⟨a, ia', e1, h1, h2⟩ := ia_ok.next_cons
    rw [joinAnyS_sn e1 ib_ok.next_nil]
    exact np_or (ha a) (ih (fun a n b m hn hm => hab a n b m (List.mem_cons_of_mem _ hn) hm) h2 ib_ok)
  | case3 m ml ih =>
    obtain ⟨b, ib', e1, h1, h2⟩ := ib_ok.next_cons
    rw [joinAnyS_ns ia_ok.next_nil e1]
    exact np_or (hb b) (ih (fun a n b m hn hm => hab a n b m hn (List.mem_cons_of_mem _ hm)) ia_ok h2)
  | case4 n l m ml hlt ih =>
    obtain ⟨a, ia', e1, h1, h2⟩ := ia_ok.next_cons
    obtain ⟨b, ib', e2, h3, h4⟩ := ib_ok.next_cons
    rw [joinAnyS_ss e1 e2, h1.rank, h3.rank, if_pos hlt]
    exact np_or (ha a) (ih (fun a n b m hn hm => hab a n b m (List.mem_cons_of_mem _ hn) hm) h2 ib_ok)
  | case5 n l m ml hlt hgt ih =>
    obtain ⟨a, ia', e1, h1, h2⟩ := ia_ok.next_cons
    obtain ⟨b, ib', e2, h3, h4⟩ := ib_ok.next_cons
    rw [joinAnyS_ss e1 e2, h1.rank, h3.rank, if_neg hlt, if_pos hgt]
    exact np_or (hb b) (ih (fun a n b m hn hm => hab a n b m hn (List.mem_cons_of_mem _ hm)) ia_ok h4)
  | case6 n l m ml hlt hgt ih =>
    obtain ⟨a, ia', e1, h1, h2⟩ := ia_ok.next_cons
    obtain ⟨b, ib', e2, h3, h4⟩ := ib_ok.next_cons
    rw [joinAnyS_ss e1 e2, h1.rank, h3.rank, if_neg hlt, if_neg hgt]
    exact np_or (hab a n b m List.mem_cons_self List.mem_cons_self h1 h3)
      (ih (fun a n b m hn hm => hab a n b m (List.mem_cons_of_mem _ hn) (List.mem_cons_of_mem _ hm)) h2 h4)

theorem anyIterS_np {f : Ref → Res ε Bool} : ∀ {l : List Node} {it : TIter}, IterS L st g PA it l →
    (∀ c n, n ∈ l → RefS L st g PA c n → NP (f c)) → NP (anyIterS f it)
  | [], it, hi, hf => by rw [anyIterS_nil hi.next_nil]; exact trivial
  | n :: l, it, hi, hf => by
    obtain ⟨c, it', e1, h1, h2⟩ := hi.next_cons
    rw [anyIterS_cons e1]
    exact np_or (hf c n List.mem_cons_self h1) (anyIterS_np h2 fun c n hn => hf c n (List.mem_cons_of_mem _ hn))

/-- Where two nodes meet: what is known about them. -/
structure Meet (PA PB : Prop) (a b : Ref) (t u : Node) : Prop where
  ot : Ord t
  ou : Ord u
  st : Shape t
  su : Shape u
  fa : PA → Fits (den t) (den u)
  fb : PB → Fits (den u) (den t)
  here : Cmp t ∧ Cmp u ∨ (∃ a', a = .owned a') ∧ ∃ b', b = .owned b'

theorem Meet.symm {a b : Ref} {t u : Node} (h : Meet PA PB a b t u) : Meet PB PA b a u t :=
  ⟨h.ou, h.ot, h.su, h.st, h.fb, h.fa, h.here.imp And.symm And.symm⟩

theorem mem_loadO {n c : Node} : c ∈ n.loadChildren.getD [] ↔ c ∈ n.kids := by rw [loadChildren_getD]

theorem Meet.kids {a b : Ref} {t u c d : Node} (h : Meet PA PB a b t u) (he : t.pfx = u.pfx)
    (hc : c ∈ t.loadChildren.getD []) (hd : d ∈ u.loadChildren.getD []) (a' b' : Ref) : Meet PA PB a' b' c d := by
  rw [mem_loadO] at hc hd
  exact ⟨(((ord_iff t).1 h.ot).mem hc).2, (((ord_iff u).1 h.ou).mem hd).2, Or.inr (h.st.kids c hc), Or.inr (h.su.kids d hd),
    fun p => fits_kids h.ot h.ou (h.fa p) he hc hd, fun p => fits_kids h.ou h.ot (h.fb p) he.symm hd hc,
    Or.inl ⟨h.st.kids c hc, h.su.kids d hd⟩⟩

theorem shape_kid {t c : Node} (h : Shape t) (hc : c ∈ t.kids) : Cmp t := by
  rcases h with rfl | h
  · cases hc
  · exact h

theorem shape_pfx {t : Node} (h : Shape t) {n : Nat} (hn : n < t.pfx.length) : Cmp t := by
  rcases h with rfl | h
  · simp at hn
  · exact h

/-- The second node is cut: it does not have to be a node in a stored block. -/
theorem Meet.owned {a b : Ref} {t u : Node} {n : Nat} (h : Meet PA PB a b t u) (he : u.pfx.take n = t.pfx)
    (hn : n < u.pfx.length) : ¬ PB ∨ ∃ b', b = .owned b' := by
  rcases h.here with ⟨h1, h2⟩ | h1
  · exact Or.inl fun p => no_split h.ot h.ou h1 h2 (h.fb p) he hn
  · exact Or.inr h1.2

theorem Meet.cut {a b : Ref} {t u c : Node} {n : Nat} (h : Meet PA PB a b t u) (he : u.pfx.take n = t.pfx)
    (hn : n < u.pfx.length) (hc : c ∈ t.loadChildren.getD []) (a' b' : Ref) : Meet PA PB a' b' c (u.cloneShortened n) := by
  rw [mem_loadO] at hc
  have hcu := shape_pfx h.su hn
  exact ⟨(((ord_iff t).1 h.ot).mem hc).2, ord_short.2 h.ou, Or.inr (h.st.kids c hc), Or.inr (cmp_cut.2 hcu),
    fun p => fits_short h.ot (h.fa p) he hn hc,
    fun p => (no_split h.ot h.ou (shape_kid h.st hc) hcu (h.fb p) he hn).elim,
    Or.inl ⟨h.st.kids c hc, cmp_cut.2 hcu⟩⟩

theorem commonPrefix_le (a b : Bytes) : commonPrefix a b ≤ a.length ∧ commonPrefix a b ≤ b.length := by
  obtain ⟨p, a', b', rfl, rfl, h, _⟩ := commonPrefix_spec a b
  rw [h]; simp

theorem take_common (a b : Bytes) : a.take (commonPrefix a b) = b.take (commonPrefix a b) := by
  obtain ⟨p, a', b', rfl, rfl, h, _⟩ := commonPrefix_spec a b
  rw [h]; simp

theorem common_left {a b : Bytes} (h : commonPrefix a b = a.length) : b.take (commonPrefix a b) = a := by
  rw [← take_common, h, List.take_length]

theorem common_right {a b : Bytes} (h : commonPrefix a b = b.length) : a.take (commonPrefix a b) = b := by
  rw [take_common, h, List.take_length]

theorem common_both {a b : Bytes} (h : commonPrefix a b = a.length ∧ commonPrefix a b = b.length) : a = b := by
  have h1 := common_left h.1
  rwa [h.2, List.take_length, eq_comm] at h1

theorem common_lt_right {a b : Bytes} (h : ¬ (commonPrefix a b = a.length ∧ commonPrefix a b = b.length))
    (h1 : commonPrefix a b = a.length) : commonPrefix a b < b.length := by
  have h2 : commonPrefix a b ≤ b.length := (commonPrefix_le a b).2
  have h3 : commonPrefix a b ≠ b.length := fun e => h ⟨h1, e⟩
  omega

theorem common_lt_left {a b : Bytes} (h1 : ¬ commonPrefix a b = a.length) : commonPrefix a b < a.length := by
  have h2 : commonPrefix a b ≤ a.length := (commonPrefix_le a b).1
  omega

/-- The user function does not panic. -/
def FNP {α : Type} (L : Lawful S) (st : σ) (M : Lawful T) (st' : τ) (f : BlobV → BlobV → Res ε α) : Prop :=
  ∀ av bv x y, ValRep L st av (some x) → ValRep M st' bv (some y) → NP (f av bv)

theorem innerCombineChildrenS_np {rec : Ref → Ref → Res ε Node} {ac bc : Option TIter} {l ml : Option (List Node)}
    (hrec : ∀ a n b m, n ∈ l.getD [] → m ∈ ml.getD [] → RefS L st g PA a n → RefS M st' gb PB b m → NP (rec a b))
    (ha : OIterS L st g PA ac l) (hb : OIterS M st' gb PB bc ml) : NP (innerCombineChildrenS rec ac bc) := by
  rcases oiterS_cases ha with ⟨rfl, rfl⟩ | ⟨ia, l, rfl, rfl, ha⟩ <;>
    rcases oiterS_cases hb with ⟨rfl, rfl⟩ | ⟨ib, ml, rfl, rfl, hb⟩
  · exact trivial
  · exact trivial
  · exact trivial
  · refine np_map (joinMapS_np ?_ ?_ ?_ ha hb)
    · exact fun a n b m hn hm _ h1 h2 => np_map (hrec a n b m hn hm h1 h2)
    · exact fun _ _ _ _ => trivial
    · exact fun _ _ _ _ => trivial

theorem innerCombineS_np (pa : PA ∨ Plain L st) (pb : PB ∨ Plain M st') {f : BlobV → BlobV → Res ε (Option Bytes)}
    (hf : FNP L st M st' f) :
    ∀ (fuel : Nat) (a b : Ref) (t u : Node), t.height + u.height ≤ fuel → RefS L st g PA a t → RefS M st' gb PB b u →
      Meet PA PB a b t u → NP (innerCombineS S st T st' f fuel a b) := by
  intro fuel
  induction fuel with
  | zero => intro a b n m h; have := height_pos n; omega
  | succ fuel ih =>
    intro a b n m hfl ha hb hm
    simp only [innerCombineS]
    refine np_bind ha.prefix_np ?_
    rintro _ rfl
    refine np_bind hb.prefix_np ?_
    rintro _ rfl
    split
    · rename_i h
      refine np_bind (Q := fun _ => True) ?_ fun _ _ => ?_
      · rcases valRep_some hb.val with ⟨e1, e2⟩ | ⟨bv, y, e1, e2, hy⟩
        · rw [e1]; exact trivial
        · rw [e1]
          rcases valRep_some ha.val with ⟨e3, e4⟩ | ⟨av, x, e3, e4, hx⟩
          · rw [e3]; exact trivial
          · rw [e3]; exact hf _ _ _ _ hx hy
      · refine np_bind (ha.kids_np pa) fun ac hac => np_bind (hb.kids_np pb) fun bc hbc => ?_
        refine np_map (innerCombineChildrenS_np (fun a' n' b' m' hn hm' h1 h2 => ih a' b' n' m' ?_ h1 h2
          (hm.kids (common_both h) hn hm' _ _)) hac hbc)
        have := height_loadO hn; have := height_loadO hm'; omega
    · rename_i hnb
      split
      · rename_i h
        have hlt := common_lt_right hnb h
        refine np_bind (ha.kids_np pa) fun ac hac => np_bind (hb.short_np (hm.owned (common_left h) hlt) _) fun b' hb' => ?_
        refine np_map (innerCombineChildrenS_np (fun a' n' b' m' hn hm' h1 h2 => ?_) hac (oiterS_single (P := PB) hb'.1))
        cases mem_short hm'
        refine ih a' b' n' _ ?_ h1 h2 (hm.cut (common_left h) hlt hn _ _)
        have := height_loadO hn; rw [height_cloneShortened]; omega
      · rename_i hna
        split
        · rename_i h
          have hlt := common_lt_left hna
          refine np_bind (ha.short_np (hm.symm.owned (common_right h) hlt) _) fun a' ha' => np_bind (hb.kids_np pb) fun bc hbc => ?_
          refine np_map (innerCombineChildrenS_np (fun a' n' b' m' hn hm' h1 h2 => ?_) (oiterS_single (P := PA) ha'.1) hbc)
          cases mem_short hn
          refine ih a' b' _ m' ?_ h1 h2 (hm.symm.cut (common_right h) hlt hm' _ _).symm
          have := height_loadO hm'; rw [height_cloneShortened]; omega
        · exact trivial

theorem innerChildrenPredS_np {rec : Ref → Ref → Res ε Bool} {ac bc : Option TIter} {l ml : Option (List Node)}
    (hrec : ∀ a n b m, n ∈ l.getD [] → m ∈ ml.getD [] → RefS L st g PA a n → RefS M st' gb PB b m → NP (rec a b))
    (ha : OIterS L st g PA ac l) (hb : OIterS M st' gb PB bc ml) : NP (innerChildrenPredS rec ac bc) := by
  rcases oiterS_cases ha with ⟨rfl, rfl⟩ | ⟨ia, l, rfl, rfl, ha⟩ <;>
    rcases oiterS_cases hb with ⟨rfl, rfl⟩ | ⟨ib, ml, rfl, rfl, hb⟩
  · exact trivial
  · exact trivial
  · exact trivial
  · refine joinAnyS_np ?_ ?_ ?_ ha hb
    · exact fun a n b m hn hm h1 h2 => hrec a n b m hn hm h1 h2
    · exact fun _ => trivial
    · exact fun _ => trivial

theorem leftChildrenPredS_np {rec : Ref → Ref → Res ε Bool} {ac bc : Option TIter} {l ml : Option (List Node)}
    (hrec : ∀ a n b m, n ∈ l.getD [] → m ∈ ml.getD [] → RefS L st g PA a n → RefS M st' gb PB b m → NP (rec a b))
    (ha : OIterS L st g PA ac l) (hb : OIterS M st' gb PB bc ml) : NP (leftChildrenPredS rec ac bc) := by
  rcases oiterS_cases ha with ⟨rfl, rfl⟩ | ⟨ia, l, rfl, rfl, ha⟩ <;>
    rcases oiterS_cases hb with ⟨rfl, rfl⟩ | ⟨ib, ml, rfl, rfl, hb⟩
  · exact trivial
  · exact trivial
  · exact trivial
  · refine joinAnyS_np ?_ ?_ ?_ ha hb
    · exact fun a n b m hn hm h1 h2 => hrec a n b m hn hm h1 h2
    · exact fun _ => trivial
    · exact fun _ => trivial

theorem np_hit {h : Bool} {x : Res ε Bool} (hx : NP x) : NP (if h then .ok true else x) := by
  cases h
  · exact hx
  · exact trivial

theorem innerCombinePredS_np (pa : PA ∨ Plain L st) (pb : PB ∨ Plain M st') {f : BlobV → BlobV → Res ε Bool}
    (hf : FNP L st M st' f) :
    ∀ (fuel : Nat) (a b : Ref) (t u : Node), t.height + u.height ≤ fuel → RefS L st g PA a t → RefS M st' gb PB b u →
      Meet PA PB a b t u → NP (innerCombinePredS S st T st' f fuel a b) := by
  intro fuel
  induction fuel with
  | zero => intro a b n m h; have := height_pos n; omega
  | succ fuel ih =>
    intro a b n m hfl ha hb hm
    simp only [innerCombinePredS]
    refine np_bind ha.prefix_np ?_
    rintro _ rfl
    refine np_bind hb.prefix_np ?_
    rintro _ rfl
    split
    · rename_i h
      refine np_bind (Q := fun _ => True) ?_ fun _ _ => np_hit ?_
      · rcases valRep_some ha.val with ⟨e1, e2⟩ | ⟨av, x, e1, e2, hx⟩ <;>
          rcases valRep_some hb.val with ⟨e3, e4⟩ | ⟨bv, y, e3, e4, hy⟩ <;> rw [e1, e3]
        · exact trivial
        · exact trivial
        · exact trivial
        · exact hf _ _ _ _ hx hy
      · refine np_bind (ha.kids_np pa) fun ac hac => np_bind (hb.kids_np pb) fun bc hbc => ?_
        refine innerChildrenPredS_np (fun a' n' b' m' hn hm' h1 h2 => ih a' b' n' m' ?_ h1 h2
          (hm.kids (common_both h) hn hm' _ _)) hac hbc
        have := height_loadO hn; have := height_loadO hm'; omega
    · rename_i hnb
      split
      · rename_i h
        have hlt := common_lt_right hnb h
        refine np_bind (hb.short_np (hm.owned (common_left h) hlt) _) fun b' hb' => np_bind (ha.kids_np pa) fun ac hac => ?_
        rcases oiterS_cases hac with ⟨rfl, e⟩ | ⟨it, l, rfl, e, hi⟩
        · exact trivial
        · refine anyIterS_np hi fun c n' hn h1 => ?_
          have hn : n' ∈ n.loadChildren.getD [] := by rw [e]; exact hn
          refine ih _ _ _ _ ?_ h1 (refS_owned hb'.1) (hm.cut (common_left h) hlt hn _ _)
          have := height_loadO hn
          rw [height_cloneShortened]; omega
      · rename_i hna
        split
        · rename_i h
          have hlt := common_lt_left hna
          refine np_bind (ha.short_np (hm.symm.owned (common_right h) hlt) _) fun a' ha' => np_bind (hb.kids_np pb) fun bc hbc => ?_
          rcases oiterS_cases hbc with ⟨rfl, e⟩ | ⟨it, l, rfl, e, hi⟩
          · exact trivial
          · refine anyIterS_np hi fun c n' hn h1 => ?_
            have hn : n' ∈ m.loadChildren.getD [] := by rw [e]; exact hn
            refine ih _ _ _ _ ?_ (refS_owned ha'.1) h1 (hm.symm.cut (common_right h) hlt hn _ _).symm
            have := height_loadO hn
            rw [height_cloneShortened]; omega
        · exact trivial

theorem leftCombinePredS_np (pa : PA ∨ Plain L st) (pb : PB ∨ Plain M st') {f : BlobV → BlobV → Res ε Bool}
    (hf : FNP L st M st' f) :
    ∀ (fuel : Nat) (a b : Ref) (t u : Node), t.height + u.height ≤ fuel → RefS L st g PA a t → RefS M st' gb PB b u →
      Meet PA PB a b t u → NP (leftCombinePredS S st T st' f fuel a b) := by
  intro fuel
  induction fuel with
  | zero => intro a b n m h; have := height_pos n; omega
  | succ fuel ih =>
    intro a b n m hfl ha hb hm
    simp only [leftCombinePredS]
    refine np_bind ha.prefix_np ?_
    rintro _ rfl
    refine np_bind hb.prefix_np ?_
    rintro _ rfl
    split
    · rename_i h
      refine np_bind (Q := fun _ => True) ?_ fun _ _ => np_hit ?_
      · rcases valRep_some ha.val with ⟨e1, e2⟩ | ⟨av, x, e1, e2, hx⟩ <;>
          rcases valRep_some hb.val with ⟨e3, e4⟩ | ⟨bv, y, e3, e4, hy⟩ <;> rw [e1, e3]
        · exact trivial
        · exact trivial
        · exact trivial
        · exact hf _ _ _ _ hx hy
      · refine np_bind (ha.kids_np pa) fun ac hac => np_bind (hb.kids_np pb) fun bc hbc => ?_
        refine leftChildrenPredS_np (fun a' n' b' m' hn hm' h1 h2 => ih a' b' n' m' ?_ h1 h2
          (hm.kids (common_both h) hn hm' _ _)) hac hbc
        have := height_loadO hn; have := height_loadO hm'; omega
    · rename_i hnb
      split
      · rename_i h
        have hlt := common_lt_right hnb h
        refine np_hit (np_bind (ha.kids_np pa) fun ac hac =>
          np_bind (hb.short_np (hm.owned (common_left h) hlt) _) fun b' hb' => ?_)
        refine leftChildrenPredS_np (fun a' n' b' m' hn hm' h1 h2 => ?_) hac (oiterS_single (P := PB) hb'.1)
        cases mem_short hm'
        refine ih a' b' n' _ ?_ h1 h2 (hm.cut (common_left h) hlt hn _ _)
        have := height_loadO hn; rw [height_cloneShortened]; omega
      · rename_i hna
        split
        · rename_i h
          have hlt := common_lt_left hna
          refine np_bind (ha.short_np (hm.symm.owned (common_right h) hlt) _) fun a' ha' => np_bind (hb.kids_np pb) fun bc hbc => ?_
          refine leftChildrenPredS_np (fun a' n' b' m' hn hm' h1 h2 => ?_) (oiterS_single (P := PA) ha'.1) hbc
          cases mem_short hn
          refine ih a' b' _ m' ?_ h1 h2 (hm.symm.cut (common_right h) hlt hm' _ _).symm
          have := height_loadO hm'; rw [height_cloneShortened]; omega
        · exact trivial

theorem commonPrefix_self (p : Bytes) : commonPrefix p p = p.length := by
  induction p with
  | nil => rfl
  | cons x p ih => rw [commonPrefix_cons, if_pos rfl, ih]; rfl

end

end Radix
