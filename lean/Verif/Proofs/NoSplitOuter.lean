import Verif.Proofs.NoSplit

/-
Proof-internal: combinations of stored trees that keep what is in one tree only, and do not panic.
-/

set_option linter.unusedVariables false

namespace Radix
open Node
open Spec (Stop Fits Shared Within)

/-! ### Parts of trees -/

/-- `c` is the part of `t` after `q` that begins with a certain byte. -/
structure View (t c : Node) (q : Bytes) : Prop where
  ne : den c [] = none
  inn : ∀ k, den c k ≠ none → den t (q ++ k) ≠ none
  out : ∀ x k k', den c (x :: k) ≠ none → den t (q ++ x :: k') ≠ none → den c (x :: k') ≠ none

theorem view_kid {t c : Node} (ho : Ord t) (hc : c ∈ t.kids) : View t c t.pfx where
  ne := den_nil_of_ne (((ord_iff t).1 ho).mem hc).1
  inn k hk := den_kid_ne ho hc hk
  out x k k' h h' := by
    obtain ⟨y, hy⟩ := firstByte_of_ne_nil (((ord_iff t).1 ho).mem hc).1
    obtain ⟨v, hv⟩ := Option.ne_none_iff_exists'.1 h
    have := den_firstByte hy hv
    simp at this; subst this
    rwa [den_kid_eq ho hc hy] at h'

theorem view_short {u : Node} {n : Nat} {q : Bytes} (hq : u.pfx.take n = q) (hn : n < u.pfx.length) : View u (u.cloneShortened n) q where
  ne := by
    have : (u.cloneShortened n).pfx ≠ [] := by
      intro e
      have e : u.pfx.drop n = [] := e
      have := congrArg List.length e
      simp at this; omega
    exact den_nil_of_ne this
  inn k hk := by rw [den_short, hq] at hk; exact hk
  out x k k' h h' := by rw [den_short, hq]; exact h'

theorem View.cons {t c : Node} {q p : Bytes} (h : View t c q) (hp : den c p ≠ none) : ∃ x k, p = x :: k := by
  cases p with
  | nil => exact absurd h.ne hp
  | cons x k => exact ⟨x, k, rfl⟩

theorem View.stop {t c : Node} {q p k : Bytes} (h : View t c q) (hp : p ≠ []) (hk : den c (p ++ k) ≠ none) (hs : Stop (den t) (q ++ p)) :
    Stop (den c) p := by
  cases p with
  | nil => exact absurd rfl hp
  | cons x p =>
    rcases hs with hs | ⟨b, b', r, s, hne, h1, h2⟩
    · exact Or.inl (h.out _ _ _ hk hs)
    · rw [List.append_assoc] at h1 h2
      exact Or.inr ⟨b, b', r, s, hne, h.out _ _ _ hk h1, h.out _ _ _ hk h2⟩

theorem View.shared {t c u d : Node} {q : Bytes} (h : View t c q) (h' : View u d q) (hs : Shared (den t) (den u)) : Shared (den c) (den d) := by
  intro p hp hk
  obtain ⟨x, k, rfl⟩ := h.cons hp
  rcases hk with hk | ⟨k', hk⟩
  · cases hk
  · refine h'.out _ _ _ hk (hs _ (h.inn _ hp) (Or.inr ⟨k', ?_⟩))
    rw [List.append_assoc]; exact h'.inn _ hk

theorem View.within {t c u d : Node} {q : Bytes} (h : View t c q) (h' : View u d q) (hd : ∃ k, den d k ≠ none) (hs : Within (den t) (den u)) :
    Within (den c) (den d) := by
  intro p x k hp hk
  rcases hk with rfl | hk
  · obtain ⟨k, hk⟩ := hd
    obtain ⟨y, r, rfl⟩ := h'.cons hk
    exact ⟨y, r, hk⟩
  · obtain ⟨z, p', rfl⟩ := h'.cons hk
    obtain ⟨y, r, hr⟩ := hs (q ++ z :: p') x k (by rw [List.append_assoc]; exact h.inn _ hp) (Or.inr (h'.inn _ hk))
    rw [List.append_assoc] at hr
    exact ⟨y, r, h'.out _ _ _ hk hr⟩

/-- Where a key of the one map leaves a key of the other map, the other map stops. -/
def Parts (m m' : Spec.Map) : Prop := ∀ p x y r s, x ≠ y → m (p ++ x :: r) ≠ none → m' (p ++ y :: s) ≠ none → Stop m p

theorem View.parts {t c u d : Node} {q : Bytes} (h : View t c q) (h' : View u d q) (hr : rank c.firstByte = rank d.firstByte)
    (hc : c.pfx ≠ []) (hd : d.pfx ≠ []) (hs : Parts (den t) (den u)) : Parts (den c) (den d) := by
  intro p x y r s hne h1 h2
  cases p with
  | nil =>
    exfalso
    obtain ⟨a, ha⟩ := firstByte_of_ne_nil hc
    obtain ⟨b, hb⟩ := firstByte_of_ne_nil hd
    obtain ⟨v, hv⟩ := Option.ne_none_iff_exists'.1 h1
    obtain ⟨w, hw⟩ := Option.ne_none_iff_exists'.1 h2
    have e1 := den_firstByte ha hv
    have e2 := den_firstByte hb hw
    simp at e1 e2
    have := rank_inj hr
    rw [ha, hb] at this
    simp at this
    exact hne (e1.trans (this.trans e2.symm))
  | cons z p =>
    refine h.stop (by simp) h1 (hs _ x y r s hne ?_ ?_)
    · rw [List.append_assoc]; exact h.inn _ h1
    · rw [List.append_assoc]; exact h'.inn _ h2

theorem both_ne {m m' : Spec.Map} {k : Bytes} : m.both m' k ≠ none ↔ m k ≠ none ∨ m' k ≠ none := by
  unfold Spec.Map.both
  cases m k <;> cases m' k <;> simp

theorem fits_both {m m' : Spec.Map} (h : Fits m (m.both m')) : Fits m m' ∧ Parts m m' := by
  refine ⟨fun p k hp hk => h p k ?_ hk, fun p x y r s hne h1 h2 => h p (x :: r) (Or.inr ⟨x, y, r, s, hne, ?_, ?_⟩) h1⟩
  · rcases hp with hp | ⟨x, y, r, s, hne, h1, h2⟩
    · exact Or.inl (both_ne.2 (Or.inr hp))
    · exact Or.inr ⟨x, y, r, s, hne, both_ne.2 (Or.inr h1), both_ne.2 (Or.inr h2)⟩
  · exact both_ne.2 (Or.inl h1)
  · exact both_ne.2 (Or.inr h2)

theorem commonPrefix_comm (a b : Bytes) : commonPrefix a b = commonPrefix b a := by
  induction a generalizing b with
  | nil => rw [commonPrefix_nil_left, commonPrefix_nil_right]
  | cons x a ih =>
    cases b with
    | nil => rw [commonPrefix_nil_left, commonPrefix_nil_right]
    | cons y b =>
      rw [commonPrefix_cons, commonPrefix_cons, ih]
      by_cases h : x = y
      · rw [if_pos h, if_pos h.symm]
      · rw [if_neg h, if_neg (Ne.symm h)]

/-- Two nodes whose prefixes part are the same node, or the first one stops before. -/
theorem no_part {t u : Node} (ho : Ord t) (ho' : Ord u) (hc : Cmp t) (hc' : Cmp u) (h : Parts (den t) (den u))
    (h1 : ¬ commonPrefix t.pfx u.pfx = t.pfx.length) (h2 : ¬ commonPrefix t.pfx u.pfx = u.pfx.length) : False := by
  obtain ⟨k, v, hk⟩ := cmp_exists hc ho
  obtain ⟨k', v', hk'⟩ := cmp_exists hc' ho'
  obtain ⟨r, rfl⟩ := cmp_keys_pfx hk
  obtain ⟨r', rfl⟩ := cmp_keys_pfx hk'
  obtain ⟨p, a, b, e1, e2, e3, e4⟩ := commonPrefix_spec t.pfx u.pfx
  rw [e3] at h1 h2
  cases a with
  | nil => rw [e1] at h1; simp at h1
  | cons x a =>
    cases b with
    | nil => rw [e2] at h2; simp at h2
    | cons y b =>
      have hne : x ≠ y := by
        intro e
        subst e
        simp at e4
      have := stop_inside (h p x y (a ++ r) (b ++ r') hne
        (by rw [e1, List.append_assoc, List.cons_append] at hk; rw [hk]; simp)
        (by rw [e2, List.append_assoc, List.cons_append] at hk'; rw [hk']; simp))
      have := this.length_le
      rw [e1] at this
      simp at this
      omega

theorem shared_val {t u : Node} (hs : Shared (den t) (den u)) (ou : Ord u) (su : Shape u) (he : t.pfx = u.pfx) (hu : u.val = none) :
    t.val = none := by
  cases hv : t.val with
  | none => rfl
  | some x =>
    exfalso
    refine hs t.pfx (by rw [den_pfx_val, hv]; simp) ?_ (by rw [he, den_pfx_val, hu])
    rcases su with rfl | hc
    · exact Or.inl he
    · obtain ⟨k, v, hk⟩ := cmp_exists hc ou
      obtain ⟨r, rfl⟩ := cmp_keys_pfx hk
      exact Or.inr ⟨r, by rw [he, hk]; simp⟩

theorem shared_cut {t u : Node} {n : Nat} (hs : Shared (den t) (den u)) (ou : Ord u) (su : Shape u) (he : u.pfx.take n = t.pfx)
    (hn : n < u.pfx.length) : t.val = none := by
  cases hv : t.val with
  | none => rfl
  | some x =>
    exfalso
    obtain ⟨k, v, hk⟩ := cmp_exists (shape_pfx su hn) ou
    obtain ⟨r, rfl⟩ := cmp_keys_pfx hk
    have := pfx_of_den (hs t.pfx (by rw [den_pfx_val, hv]; simp) (Or.inr ⟨u.pfx.drop n ++ r, by
      rw [← he, ← List.append_assoc, List.take_append_drop, hk]; simp⟩))
    have := this.length_le
    have h2 := congrArg List.length he
    simp at h2; omega

theorem within_kids {t u : Node} {l : List Node} (hw : Within (den t) (den u)) (ot : Ord t) (ht : Shape t) (su : Shape u) (he : t.pfx = u.pfx)
    (hl : t.loadChildren = some l) (hu : u.loadChildren = none) : False := by
  have hu : u.kids = [] := by rw [← loadChildren_getD, hu]; rfl
  have hl0 : t.kids ≠ [] := by
    intro e
    rw [loadChildren_eq, e] at hl
    cases hl
  obtain ⟨c, hc⟩ := List.exists_mem_of_ne_nil _ hl0
  obtain ⟨k, v, hk⟩ := cmp_exists (ht.kids c hc) (((ord_iff t).1 ot).mem hc).2
  obtain ⟨x, r, rfl⟩ := (view_kid ot hc).cons (p := k) (by rw [hk]; simp)
  obtain ⟨y, s, hs⟩ := hw t.pfx x r (by rw [den_kid ot hc hk]; simp) (by
    rcases su with rfl | hc
    · exact Or.inl he
    · right
      rw [he, den_pfx_val]
      rw [cmp_iff, hu] at hc
      rcases hc.1 with h | h
      · intro e; rw [e] at h; cases h
      · simp at h)
  rw [he, den_eq, strip_append_self] at hs
  refine hs ?_
  show denK u.kids _ = _
  rw [hu]; rfl

/-! ### Values and children -/

section
variable {σ τ ε : Type} {S : BlobStore σ ε} {st : σ} {T : BlobStore τ ε} {st' : τ} {L : Lawful S} {M : Lawful T}
  {g gb : Bool} {PA PB : Prop}

theorem valueDet_np (pa : PA ∨ Plain L st) {b : BlobV} {v : Option Bytes} (h : ValRep L st b v) (hn : PA → v = none) :
    NP (valueOptDetached b : Res ε _) := by
  rcases pa with hp | hp
  · rw [hn hp] at h
    cases h
    exact trivial
  · exact np_any (valueOptDetached_rep (E := True) (P := False) ⟨fun _ => trivial, Or.inr hp⟩ h)

theorem IterS.detached_np {it : TIter} {l : List Node} (h : IterS L st g PA it l) (hn : PA → False) {fuel : Nat} (hf : heightL l ≤ fuel) :
    NP (it.detached S st fuel) := by
  obtain ⟨h1, h2⟩ := h
  obtain ⟨as, rfl⟩ := h2.resolve_left hn
  have h1' : RepL L g st as l := h1
  cases l with
  | nil => cases (repL_nil (L := L) (g := g)).1 h1'; exact trivial
  | cons n l =>
    obtain ⟨a, as, rfl, _, _⟩ := (repL_cons (L := L) (g := g)).1 h1'
    simp only [TIter.detached]
    exact np_map (np_any (rpost_np ((detachedS_repH (L := L) (g := g)).2 h1 hf)))

theorem single_detached_np {a : SNode} {m : Node} (h : Rep L g st a m) {fuel : Nat} (hf : m.height ≤ fuel) :
    ∀ it, iterFromSlice [a] = some it → NP (it.detached S st fuel) := by
  rintro _ ⟨⟩
  simp only [TIter.detached]
  refine np_map (np_any (rpost_np ((detachedS_repH (L := L) (g := g)).2 (it := .owned [a]) (l := [m]) ?_ ?_)))
  · exact repL_single h
  · simp only [heightL]; omega

theorem RefS.shortDetached_np {b : Ref} {m : Node} (h : RefS L st g PA b m) (ho : ¬ PA ∨ ∃ a, b = .owned a) {fuel : Nat}
    (hf : m.height ≤ fuel) (k : Nat) : NP (b.shortDetached S st fuel k) :=
  np_bind (h.short_np ho k) fun a ha => np_any (rpost_np (detachedS_repH.1 ha.1 (by rw [height_cloneShortened]; exact hf)))

/-! ### Left -/

/-- Where two nodes meet in a combination that keeps what is only in the first tree. -/
structure MeetL (PA PB : Prop) (a b : Ref) (t u : Node) : Prop extends Meet PA PB a b t u where
  sa : PA → Shared (den t) (den u)
  wa : PA → Within (den t) (den u)

theorem shape_key {d : Node} (h : Cmp d) (ho : Ord d) : ∃ k, den d k ≠ none := by
  obtain ⟨k, v, hk⟩ := cmp_exists h ho
  exact ⟨k, by rw [hk]; simp⟩

theorem MeetL.kids {a b : Ref} {t u c d : Node} (h : MeetL PA PB a b t u) (he : t.pfx = u.pfx)
    (hc : c ∈ t.loadChildren.getD []) (hd : d ∈ u.loadChildren.getD []) (a' b' : Ref) : MeetL PA PB a' b' c d := by
  have h1 := mem_loadO.1 hc
  have h2 := mem_loadO.1 hd
  have v1 := view_kid h.ot h1
  have v2 := view_kid h.ou h2
  rw [← he] at v2
  exact ⟨h.toMeet.kids he hc hd _ _, fun p => v1.shared v2 (h.sa p),
    fun p => v1.within v2 (shape_key (h.su.kids d h2) (((ord_iff u).1 h.ou).mem h2).2) (h.wa p)⟩

theorem MeetL.cut {a b : Ref} {t u c : Node} {n : Nat} (h : MeetL PA PB a b t u) (he : u.pfx.take n = t.pfx)
    (hn : n < u.pfx.length) (hc : c ∈ t.loadChildren.getD []) (a' b' : Ref) : MeetL PA PB a' b' c (u.cloneShortened n) := by
  have v1 := view_kid h.ot (mem_loadO.1 hc)
  have v2 := view_short he hn
  exact ⟨h.toMeet.cut he hn hc _ _, fun p => v1.shared v2 (h.sa p),
    fun p => v1.within v2 (shape_key (cmp_cut.2 (shape_pfx h.su hn)) (ord_short.2 h.ou)) (h.wa p)⟩

theorem MeetL.cut' {a b : Ref} {t u d : Node} {n : Nat} (h : MeetL PA PB a b t u) (he : t.pfx.take n = u.pfx)
    (hn : n < t.pfx.length) (hd : d ∈ u.loadChildren.getD []) (a' b' : Ref) : MeetL PA PB a' b' (t.cloneShortened n) d := by
  have h2 := mem_loadO.1 hd
  have v1 := view_short he hn
  have v2 := view_kid h.ou h2
  exact ⟨(h.toMeet.symm.cut he hn hd _ _).symm, fun p => v1.shared v2 (h.sa p),
    fun p => v1.within v2 (shape_key (h.su.kids d h2) (((ord_iff u).1 h.ou).mem h2).2) (h.wa p)⟩

theorem leftCombineChildrenS_np {fuel : Nat} {rec : Ref → Ref → Res ε Node} {ac bc : Option TIter} {l ml : Option (List Node)}
    (hrec : ∀ a n b m, n ∈ l.getD [] → m ∈ ml.getD [] → RefS L st g PA a n → RefS M st' gb PB b m → NP (rec a b))
    (hf : ∀ n ∈ l.getD [], n.height ≤ fuel) (hd : ∀ it, ac = some it → bc = none → NP (it.detached S st fuel))
    (ha : OIterS L st g PA ac l) (hb : OIterS M st' gb PB bc ml) : NP (leftCombineChildrenS S st fuel rec ac bc) := by
  rcases oiterS_cases ha with ⟨rfl, rfl⟩ | ⟨ia, l, rfl, rfl, ha⟩ <;>
    rcases oiterS_cases hb with ⟨rfl, rfl⟩ | ⟨ib, ml, rfl, rfl, hb⟩
  · exact trivial
  · exact trivial
  · exact hd _ rfl rfl
  · refine np_map (joinMapS_np ?_ ?_ ?_ ha hb)
    · exact fun a n b m hn hm _ h1 h2 => np_map (hrec a n b m hn hm h1 h2)
    · exact fun a n hn h1 => np_map (h1.detached_np (hf n hn))
    · exact fun _ _ _ _ => trivial

theorem heightL_kids {t : Node} {l : List Node} {fuel : Nat} (h : t.loadChildren = some l) (hf : t.height ≤ fuel + 1) : heightL l ≤ fuel := by
  have := heightO_loadChildren t
  rw [h] at this
  simp only [heightO] at this
  omega

theorem leftCombineS_np (pa : PA ∨ Plain L st) (pb : PB ∨ Plain M st') {f : BlobV → BlobV → Res ε (Option Bytes)}
    (hf : FNP L st M st' f) :
    ∀ (fuel : Nat) (a b : Ref) (t u : Node), t.height + u.height ≤ fuel → RefS L st g PA a t → RefS M st' gb PB b u →
      MeetL PA PB a b t u → NP (leftCombineS S st T st' f fuel a b) := by
  intro fuel
  induction fuel with
  | zero => intro a b n m h; have := height_pos n; omega
  | succ fuel ih =>
    intro a b n m hfl ha hb hm
    have hpn := height_pos n
    have hpm := height_pos m
    simp only [leftCombineS]
    refine np_bind ha.prefix_np ?_
    rintro _ rfl
    refine np_bind hb.prefix_np ?_
    rintro _ rfl
    split
    · rename_i h
      have he := common_both h
      refine np_bind (Q := fun _ => True) ?_ fun _ _ => ?_
      · rcases valRep_some ha.val with ⟨e1, e2⟩ | ⟨av, x, e1, e2, hx⟩ <;>
          rcases valRep_some hb.val with ⟨e3, e4⟩ | ⟨bv, y, e3, e4, hy⟩ <;> rw [e1]
        · exact trivial
        · exact trivial
        · rw [e3]
          exact valueDet_np pa hx fun p => by rw [shared_val (hm.sa p) hm.ou hm.su he e4] at e2; cases e2
        · rw [e3]; exact hf _ _ _ _ hx hy
      · refine np_bind (ha.kids_np pa) fun ac hac => np_bind (hb.kids_np pb) fun bc hbc => ?_
        refine np_map (leftCombineChildrenS_np (fun a' n' b' m' hn hm' h1 h2 => ih a' b' n' m' ?_ h1 h2
          (hm.kids he hn hm' _ _)) (fun n' hn => ?_) (fun it e1 e2 => ?_) hac hbc)
        · have := height_loadO hn; have := height_loadO hm'; omega
        · have := height_loadO hn; omega
        · subst e1 e2
          rcases oiterS_cases hac with ⟨e, _⟩ | ⟨ia, l, e, e1, hac⟩
          · cases e
          · cases e
            rcases oiterS_cases hbc with ⟨_, e2⟩ | ⟨_, _, e, _⟩
            · exact hac.detached_np (fun p => within_kids (hm.wa p) hm.ot hm.st hm.su he e1 e2) (heightL_kids e1 (by omega))
            · cases e
    · rename_i hnb
      split
      · rename_i h
        have hlt := common_lt_right hnb h
        refine np_bind (np_any (valueDet_np pa ha.val fun p => shared_cut (hm.sa p) hm.ou hm.su (common_left h) hlt)) fun _ _ => ?_
        refine np_bind (ha.kids_np pa) fun ac hac => np_bind (hb.short_np (hm.owned (common_left h) hlt) _) fun b' hb' => ?_
        refine np_map (leftCombineChildrenS_np (fun a' n' b' m' hn hm' h1 h2 => ?_) (fun n' hn => ?_) (fun it e1 e2 => by cases e2) hac
          (oiterS_single (P := PB) hb'.1))
        · cases mem_short hm'
          refine ih a' b' n' _ ?_ h1 h2 (hm.cut (common_left h) hlt hn _ _)
          have := height_loadO hn; rw [height_cloneShortened]; omega
        · have := height_loadO hn; omega
      · rename_i hna
        split
        · rename_i h
          have hlt := common_lt_left hna
          refine np_bind (ha.short_np (hm.symm.owned (common_right h) hlt) _) fun a' ha' => np_bind (hb.kids_np pb) fun bc hbc => ?_
          refine np_map (leftCombineChildrenS_np (fun a' n' b' m' hn hm' h1 h2 => ?_) (fun n' hn => ?_) (fun it e1 e2 => ?_)
            (oiterS_single (P := PA) ha'.1) hbc)
          · cases mem_short hn
            refine ih a' b' _ m' ?_ h1 h2 (hm.cut' (common_right h) hlt hm' _ _)
            have := height_loadO hm'; rw [height_cloneShortened]; omega
          · cases mem_short hn
            rw [height_cloneShortened]; omega
          · exact single_detached_np ha'.1 (by rw [height_cloneShortened]; omega) it e1
        · exact ha.detached_np (by omega)

/-! ### Outer -/

/-- Where two nodes meet in a combination that keeps what is in one of the trees. -/
structure MeetO (PA PB : Prop) (a b : Ref) (t u : Node) : Prop extends Meet PA PB a b t u where
  sa : PA → Shared (den t) (den u)
  wa : PA → Within (den t) (den u)
  ja : PA → Parts (den t) (den u)
  sb : PB → Shared (den u) (den t)
  wb : PB → Within (den u) (den t)
  jb : PB → Parts (den u) (den t)

theorem MeetO.symm {a b : Ref} {t u : Node} (h : MeetO PA PB a b t u) : MeetO PB PA b a u t :=
  ⟨h.toMeet.symm, h.sb, h.wb, h.jb, h.sa, h.wa, h.ja⟩

theorem MeetO.kids {a b : Ref} {t u c d : Node} (h : MeetO PA PB a b t u) (he : t.pfx = u.pfx)
    (hc : c ∈ t.loadChildren.getD []) (hd : d ∈ u.loadChildren.getD []) (hr : rank c.firstByte = rank d.firstByte) (a' b' : Ref) :
    MeetO PA PB a' b' c d := by
  have h1 := mem_loadO.1 hc
  have h2 := mem_loadO.1 hd
  have v1 := view_kid h.ot h1
  have v2 := view_kid h.ou h2
  rw [← he] at v2
  have o1 := ((ord_iff t).1 h.ot).mem h1
  have o2 := ((ord_iff u).1 h.ou).mem h2
  have k1 := shape_key (h.st.kids c h1) o1.2
  have k2 := shape_key (h.su.kids d h2) o2.2
  exact ⟨h.toMeet.kids he hc hd _ _, fun p => v1.shared v2 (h.sa p), fun p => v1.within v2 k2 (h.wa p), fun p => v1.parts v2 hr o1.1 o2.1 (h.ja p),
    fun p => v2.shared v1 (h.sb p), fun p => v2.within v1 k1 (h.wb p), fun p => v2.parts v1 hr.symm o2.1 o1.1 (h.jb p)⟩

theorem short_pfx {u : Node} {n : Nat} (hn : n < u.pfx.length) : (u.cloneShortened n).pfx ≠ [] := by
  intro e
  have e : u.pfx.drop n = [] := e
  have := congrArg List.length e
  simp at this; omega

theorem MeetO.cut {a b : Ref} {t u c : Node} {n : Nat} (h : MeetO PA PB a b t u) (he : u.pfx.take n = t.pfx)
    (hn : n < u.pfx.length) (hc : c ∈ t.loadChildren.getD []) (hr : rank c.firstByte = rank (u.cloneShortened n).firstByte) (a' b' : Ref) :
    MeetO PA PB a' b' c (u.cloneShortened n) := by
  have h1 := mem_loadO.1 hc
  have v1 := view_kid h.ot h1
  have v2 := view_short he hn
  have o1 := ((ord_iff t).1 h.ot).mem h1
  have k1 := shape_key (h.st.kids c h1) o1.2
  have k2 := shape_key (cmp_cut.2 (shape_pfx h.su hn)) (ord_short (n := n).2 h.ou)
  have o2 := short_pfx hn
  exact ⟨h.toMeet.cut he hn hc _ _, fun p => v1.shared v2 (h.sa p), fun p => v1.within v2 k2 (h.wa p), fun p => v1.parts v2 hr o1.1 o2 (h.ja p),
    fun p => v2.shared v1 (h.sb p), fun p => v2.within v1 k1 (h.wb p), fun p => v2.parts v1 hr.symm o2 o1.1 (h.jb p)⟩

theorem outerCombineChildrenS_np {fuel : Nat} {rec : Ref → Ref → Res ε Node} {ac bc : Option TIter} {l ml : Option (List Node)}
    (hrec : ∀ a n b m, n ∈ l.getD [] → m ∈ ml.getD [] → rank n.firstByte = rank m.firstByte → RefS L st g PA a n → RefS M st' gb PB b m → NP (rec a b))
    (hf : ∀ n ∈ l.getD [], n.height ≤ fuel) (hf' : ∀ n ∈ ml.getD [], n.height ≤ fuel)
    (hd : ∀ it, ac = some it → bc = none → NP (it.detached S st fuel))
    (hd' : ∀ it, ac = none → bc = some it → NP (it.detached T st' fuel))
    (ha : OIterS L st g PA ac l) (hb : OIterS M st' gb PB bc ml) : NP (outerCombineChildrenS S st T st' fuel rec ac bc) := by
  rcases oiterS_cases ha with ⟨rfl, rfl⟩ | ⟨ia, l, rfl, rfl, ha⟩ <;>
    rcases oiterS_cases hb with ⟨rfl, rfl⟩ | ⟨ib, ml, rfl, rfl, hb⟩
  · exact trivial
  · exact hd' _ rfl rfl
  · exact hd _ rfl rfl
  · refine np_map (joinMapS_np ?_ ?_ ?_ ha hb)
    · exact fun a n b m hn hm hr h1 h2 => np_map (hrec a n b m hn hm hr h1 h2)
    · exact fun a n hn h1 => np_map (h1.detached_np (hf n hn))
    · exact fun a n hn h1 => np_map (h1.detached_np (hf' n hn))

theorem kids_detached_np {it : TIter} {t u : Node} {fuel : Nat} (h : OIterS L st g PA (some it) t.loadChildren) (hf : t.height ≤ fuel + 1)
    (hn : PA → u.loadChildren = none → False) (hu : u.loadChildren = none) : NP (it.detached S st fuel) := by
  rcases oiterS_cases h with ⟨e, _⟩ | ⟨ia, l, e, e1, hac⟩
  · cases e
  · cases e
    exact hac.detached_np (fun p => hn p hu) (heightL_kids e1 hf)

theorem oiterS_none {l : Option (List Node)} (h : OIterS L st g PA none l) : l = none := by
  rcases oiterS_cases h with ⟨_, e⟩ | ⟨_, _, e, _⟩
  · exact e
  · cases e

theorem oiterS_some {it : TIter} {l : Option (List Node)} (h : OIterS L st g PA (some it) l) : ∃ l', l = some l' := by
  rcases oiterS_cases h with ⟨e, _⟩ | ⟨_, l', _, e, _⟩
  · cases e
  · exact ⟨l', e⟩

theorem outerCombineS_np (pa : PA ∨ Plain L st) (pb : PB ∨ Plain M st') {f : BlobV → BlobV → Res ε (Option Bytes)}
    (hf : FNP L st M st' f) :
    ∀ (fuel : Nat) (a b : Ref) (t u : Node), t.height + u.height ≤ fuel → RefS L st g PA a t → RefS M st' gb PB b u →
      MeetO PA PB a b t u → NP (outerCombineS S st T st' f fuel a b) := by
  intro fuel
  induction fuel with
  | zero => intro a b n m h; have := height_pos n; omega
  | succ fuel ih =>
    intro a b n m hfl ha hb hm
    have hpn := height_pos n
    have hpm := height_pos m
    simp only [outerCombineS]
    refine np_bind ha.prefix_np ?_
    rintro _ rfl
    refine np_bind hb.prefix_np ?_
    rintro _ rfl
    split
    · rename_i h
      have he := common_both h
      refine np_bind (Q := fun _ => True) ?_ fun _ _ => ?_
      · rcases valRep_some hb.val with ⟨e1, e2⟩ | ⟨bv, y, e1, e2, hy⟩ <;>
          rcases valRep_some ha.val with ⟨e3, e4⟩ | ⟨av, x, e3, e4, hx⟩ <;> rw [e1]
        · exact valueDet_np pa ha.val fun p => e4
        · exact valueDet_np pa ha.val fun p => shared_val (hm.sa p) hm.ou hm.su he e2
        · rw [e3]
          exact valueDet_np pb hy fun p => by rw [shared_val (hm.sb p) hm.ot hm.st he.symm e4] at e2; cases e2
        · rw [e3]; exact hf _ _ _ _ hx hy
      · refine np_bind (ha.kids_np pa) fun ac hac => np_bind (hb.kids_np pb) fun bc hbc => ?_
        refine np_map (outerCombineChildrenS_np (fun a' n' b' m' hn hm' hr h1 h2 => ih a' b' n' m' ?_ h1 h2
          (hm.kids he hn hm' hr _ _)) (fun n' hn => ?_) (fun n' hn => ?_) (fun it e1 e2 => ?_) (fun it e1 e2 => ?_) hac hbc)
        · have := height_loadO hn; have := height_loadO hm'; omega
        · have := height_loadO hn; omega
        · have := height_loadO hn; omega
        · subst e1 e2
          obtain ⟨l, e⟩ := oiterS_some hac
          exact kids_detached_np hac (by omega) (fun p e' => within_kids (hm.wa p) hm.ot hm.st hm.su he e e') (oiterS_none hbc)
        · subst e1 e2
          obtain ⟨l, e⟩ := oiterS_some hbc
          exact kids_detached_np hbc (by omega) (fun p e' => within_kids (hm.wb p) hm.ou hm.su hm.st he.symm e e') (oiterS_none hac)
    · rename_i hnb
      split
      · rename_i h
        have hlt := common_lt_right hnb h
        refine np_bind (np_any (valueDet_np pa ha.val fun p => shared_cut (hm.sa p) hm.ou hm.su (common_left h) hlt)) fun _ _ => ?_
        refine np_bind (ha.kids_np pa) fun ac hac => np_bind (hb.short_np (hm.owned (common_left h) hlt) _) fun b' hb' => ?_
        refine np_map (outerCombineChildrenS_np (fun a' n' b' m' hn hm' hr h1 h2 => ?_) (fun n' hn => ?_) (fun n' hn => ?_) (fun it e1 e2 => by cases e2)
          (fun it e1 e2 => ?_) hac (oiterS_single (P := PB) hb'.1))
        · cases mem_short hm'
          refine ih a' b' n' _ ?_ h1 h2 (hm.cut (common_left h) hlt hn hr _ _)
          have := height_loadO hn; rw [height_cloneShortened]; omega
        · have := height_loadO hn; omega
        · cases mem_short hn
          rw [height_cloneShortened]; omega
        · exact single_detached_np hb'.1 (by rw [height_cloneShortened]; omega) it e2
      · rename_i hna
        split
        · rename_i h
          have hlt := common_lt_left hna
          refine np_bind (np_any (valueDet_np pb hb.val fun p => shared_cut (hm.sb p) hm.ot hm.st (common_right h) hlt)) fun _ _ => ?_
          refine np_bind (ha.short_np (hm.symm.owned (common_right h) hlt) _) fun a' ha' => np_bind (hb.kids_np pb) fun bc hbc => ?_
          refine np_map (outerCombineChildrenS_np (fun a' n' b' m' hn hm' hr h1 h2 => ?_) (fun n' hn => ?_) (fun n' hn => ?_) (fun it e1 e2 => ?_)
            (fun it e1 e2 => by cases e1) (oiterS_single (P := PA) ha'.1) hbc)
          · cases mem_short hn
            refine ih a' b' _ m' ?_ h1 h2 (hm.symm.cut (common_right h) hlt hm' hr.symm _ _).symm
            have := height_loadO hm'; rw [height_cloneShortened]; omega
          · cases mem_short hn
            rw [height_cloneShortened]; omega
          · have := height_loadO hn; omega
          · exact single_detached_np ha'.1 (by rw [height_cloneShortened]; omega) it e1
        · rename_i hnb'
          have oa : ¬ PA ∨ ∃ a', a = .owned a' := by
            rcases hm.here with ⟨h1, h2⟩ | h1
            · exact Or.inl fun p => no_part hm.ot hm.ou h1 h2 (hm.ja p) hna hnb'
            · exact Or.inr h1.1
          have ob : ¬ PB ∨ ∃ b', b = .owned b' := by
            rcases hm.here with ⟨h1, h2⟩ | h1
            · refine Or.inl fun p => no_part hm.ou hm.ot h2 h1 (hm.jb p) ?_ ?_ <;> rw [commonPrefix_comm] <;> assumption
            · exact Or.inr h1.2
          exact np_bind (np_any (ha.shortDetached_np oa (by omega) _)) fun _ _ => np_map (hb.shortDetached_np ob (by omega) _)

end

end Radix
