import Verif.Proofs.NoSplitOuter
import Verif.Proofs.UpdateMain

/-
Proof-internal: combinations in place that do not panic.
-/

set_option linter.unusedVariables false

namespace Radix
open Node
open Spec (Stop Fits Shared)

section
variable {σ τ ε : Type} {e : UEnv σ τ ε} {L : Lawful e.SA} {M : Lawful e.SB} {g gb : Bool} {PB P : Prop}

/-- The call returns, and panics only if `P`. -/
def UN {α τ : Type} (P : Prop) (x : Res ε α × τ) : Prop := UP True P x fun _ _ => True

theorem rp_weak {α} {x : Res ε α} {Q : α → Prop} (h : RP True False x Q) : RP True P x Q := by
  cases x <;> first | exact h | exact h.elim

theorem un_any {α τ} {x : Res ε α × τ} {Q : α → τ → Prop} (h : UP True P x Q) : UN P x := up_imp h fun _ _ _ => trivial

theorem un_ok {α τ} (a : α) (t : τ) : UN (ε := ε) P (.ok a, t) := trivial

theorem un_canon {dbg : Bool} (hd : dbg = true → P) (a : SNode) : UN (ε := ε) P (canonicalizeS dbg a) := by
  unfold canonicalizeS
  split
  · rename_i h
    cases dbg
    · cases h
    · exact hd rfl
  · exact trivial

theorem loopS_np {R : SNode → Prop} (hR : ∀ a n, Rep L g e.stA a n → R a) {rec : SNode → Ref → Res ε Unit × SNode} {keep : Bool}
    {greater : Ref → Res ε (Option SNode)} {ab : List SNode → List SNode → List SNode} {l ml : List Node}
    (hrec : ∀ a n b m, n ∈ l → m ∈ ml → rank n.firstByte = rank m.firstByte → Rep L g e.stA a n → RefS M e.stB gb PB b m →
      UP True P (rec a b) fun _ a' => R a')
    (hgr : ∀ b m, m ∈ ml → RefS M e.stB gb PB b m → RP True P (greater b) fun o => ∀ a ∈ o, R a)
    {done src : List SNode} {it : TIter} (hdn : ∀ a ∈ done, R a) (hs : RepL L g e.stA src l) (hi : IterS M e.stB gb PB it ml) :
    UP True P (loopS rec keep greater ab done src it) fun _ r => ∀ a ∈ r, R a := by
  have happ : ∀ {done : List SNode} {a : SNode}, (∀ a ∈ done, R a) → R a → ∀ x ∈ done ++ [a], R x := by
    intro done a h1 h2 x hx
    rcases List.mem_append.1 hx with hx | hx
    · exact h1 x hx
    · rw [List.mem_singleton] at hx; exact hx ▸ h2
  have hkeep : ∀ {done : List SNode} {a : SNode}, (∀ a ∈ done, R a) → R a → ∀ x ∈ (if keep then done ++ [a] else done), R x := by
    intro done a h1 h2
    cases keep
    · exact h1
    · exact happ h1 h2
  have hopt : ∀ {done : List SNode} {o : Option SNode}, (∀ a ∈ done, R a) → (∀ a ∈ o, R a) → ∀ x ∈ done ++ o.toList, R x := by
    intro done o h1 h2
    cases o with
    | none => simpa using h1
    | some a => exact happ h1 (h2 a rfl)
  fun_induction join l ml generalizing done src it with
  | case1 =>
    cases (repL_nil (L := L) (g := g)).1 hs
    rw [loopS_nn hi.next_nil]
    exact up_ok hdn
  | case2 n l ih =>
    obtain ⟨a, src, rfl, h1, h2⟩ := (repL_cons (L := L) (g := g)).1 hs
    rw [loopS_sn hi.next_nil]
    exact ih (fun a n b m hn hm => hrec a n b m (List.mem_cons_of_mem _ hn) hm) hgr (hkeep hdn (hR _ _ h1)) h2 hi
  | case3 m ml ih =>
    cases (repL_nil (L := L) (g := g)).1 hs
    obtain ⟨b, it', e1, h1, h2⟩ := hi.next_cons
    rw [loopS_ns e1]
    refine up_read (hgr b m List.mem_cons_self h1) fun o ho => ?_
    exact ih (fun a n b m hn hm => hrec a n b m hn (List.mem_cons_of_mem _ hm))
      (fun b m hm => hgr b m (List.mem_cons_of_mem _ hm)) (hopt hdn ho) hs h2
  | case4 n l m ml hlt ih =>
    obtain ⟨a, src, rfl, h1, h2⟩ := (repL_cons (L := L) (g := g)).1 hs
    obtain ⟨b, it', e1, h3, h4⟩ := hi.next_cons
    rw [loopS_ss e1, rank_firstByte (rep_iff.1 h1).1, h3.rank, if_pos hlt]
    exact ih (fun a n b m hn hm => hrec a n b m (List.mem_cons_of_mem _ hn) hm) hgr (hkeep hdn (hR _ _ h1)) h2 hi
  | case5 n l m ml hlt hgt ih =>
    obtain ⟨a, src, rfl, h1, h2⟩ := (repL_cons (L := L) (g := g)).1 hs
    obtain ⟨b, it', e1, h3, h4⟩ := hi.next_cons
    rw [loopS_ss e1, rank_firstByte (rep_iff.1 h1).1, h3.rank, if_neg hlt, if_pos hgt]
    refine up_read (hgr b m List.mem_cons_self h3) fun o ho => ?_
    exact ih (fun a n b m hn hm => hrec a n b m hn (List.mem_cons_of_mem _ hm))
      (fun b m hm => hgr b m (List.mem_cons_of_mem _ hm)) (hopt hdn ho) hs h4
  | case6 n l m ml hlt hgt ih =>
    obtain ⟨a, src, rfl, h1, h2⟩ := (repL_cons (L := L) (g := g)).1 hs
    obtain ⟨b, it', e1, h3, h4⟩ := hi.next_cons
    rw [loopS_ss e1, rank_firstByte (rep_iff.1 h1).1, h3.rank, if_neg hlt, if_neg hgt]
    have hr := hrec a n b m List.mem_cons_self List.mem_cons_self (by omega) h1 h3
    unfold UP at hr
    refine up_read (Q := fun _ => R (rec a b).2) hr fun _ hr => ?_
    refine ih (fun a n b m hn hm => hrec a n b m (List.mem_cons_of_mem _ hn) (List.mem_cons_of_mem _ hm))
      (fun b m hm => hgr b m (List.mem_cons_of_mem _ hm)) ?_ h2 h4
    split
    · exact hdn
    · exact happ hdn hr

theorem repL_all {R : SNode → Prop} (hR : ∀ a n, Rep L g e.stA a n → R a) : ∀ {l : List Node} {as : List SNode},
    RepL L g e.stA as l → ∀ a ∈ as, R a
  | [], as, h, a, ha => by cases (repL_nil (L := L) (g := g)).1 h; cases ha
  | n :: l, as, h, a, ha => by
    obtain ⟨b, as', rfl, h1, h2⟩ := (repL_cons (L := L) (g := g)).1 h
    rcases List.mem_cons.1 ha with rfl | ha
    · exact hR _ _ h1
    · exact repL_all hR h2 a ha

theorem innerChildrenS_np {R : SNode → Prop} (hR : ∀ a n, Rep L g e.stA a n → R a) {rec : SNode → Ref → Res ε Unit × SNode}
    {ac : List SNode} {bc : Option TIter} {l : List Node} {ml : Option (List Node)}
    (hrec : ∀ a n b m, n ∈ l → m ∈ ml.getD [] → Rep L g e.stA a n → RefS M e.stB gb PB b m →
      UP True P (rec a b) fun _ a' => R a')
    (ha : RepL L g e.stA ac l) (hb : OIterS M e.stB gb PB bc ml) :
    UP True P (innerChildrenS e rec ac bc) fun _ r => ∀ a ∈ r, R a := by
  rcases oiterS_cases hb with ⟨rfl, rfl⟩ | ⟨ib, ml, rfl, rfl, hb⟩
  · exact up_ok fun a h => by cases h
  · simp only [innerChildrenS]
    split
    · exact up_ok (repL_all hR ha)
    · refine loopS_np hR ?_ ?_ (fun a h => by cases h) ha hb
      · exact fun a n b m hn hm _ => hrec a n b m hn hm
      · exact fun _ _ _ _ a h => by cases h

theorem leftChildrenS_np {R : SNode → Prop} (hR : ∀ a n, Rep L g e.stA a n → R a) {rec : SNode → Ref → Res ε Unit × SNode}
    {ac : List SNode} {bc : Option TIter} {l : List Node} {ml : Option (List Node)}
    (hrec : ∀ a n b m, n ∈ l → m ∈ ml.getD [] → Rep L g e.stA a n → RefS M e.stB gb PB b m →
      UP True P (rec a b) fun _ a' => R a')
    (ha : RepL L g e.stA ac l) (hb : OIterS M e.stB gb PB bc ml) :
    UP True P (leftChildrenS e rec ac bc) fun _ r => ∀ a ∈ r, R a := by
  rcases oiterS_cases hb with ⟨rfl, rfl⟩ | ⟨ib, ml, rfl, rfl, hb⟩
  · exact up_ok (repL_all hR ha)
  · simp only [leftChildrenS]
    split
    · exact up_ok (repL_all hR ha)
    · refine loopS_np hR ?_ ?_ (fun a h => by cases h) ha hb
      · exact fun a n b m hn hm _ => hrec a n b m hn hm
      · exact fun _ _ _ _ a h => by cases h

theorem childrenBoth_np (pb : PB ∨ Plain M e.stB) {k : List SNode → Option TIter → Res ε Unit × List SNode} {a : SNode} {n : Node}
    {b : Ref} {m : Node} (ha : Rep L g e.stA a n) (hb : RefS M e.stB gb PB b m) {Q : List SNode → Prop}
    (hk : ∀ ac it, RepL L g e.stA ac n.kids → OIterS M e.stB gb PB it m.loadChildren → UP True P (k ac it) fun _ r => Q r) :
    UP True P (childrenBoth e k a b) fun _ a' => ∃ l, a' = .arc a.pfx a.val l ∧ Q l := by
  unfold childrenBoth
  refine up_bind (loadChildrenMut_rep (fun _ => trivial) ha) fun ac a' ⟨h1, h2, h3, h4⟩ => ?_
  refine up_read (rp_weak (hb.kids_np pb)) fun it hit => ?_
  refine rp_imp (hk ac it h1 hit) fun _ hq => ⟨_, ?_, hq⟩
  simp only [onChildren, SNode.setArc, h2, h3]

theorem childrenShort_np {k : List SNode → Option TIter → Res ε Unit × List SNode} {a : SNode} {n : Node} {b : Ref} {m : Node}
    {j : Nat} (ha : Rep L g e.stA a n) (hb : RefS M e.stB gb PB b m) (ho : ¬ PB ∨ ∃ b', b = .owned b') {Q : List SNode → Prop}
    (hk : ∀ ac it, RepL L g e.stA ac n.kids → OIterS M e.stB gb PB it (some [m.cloneShortened j]) →
      UP True P (k ac it) fun _ r => Q r) :
    UP True P (childrenShort e k j a b) fun _ a' => ∃ l, a' = .arc a.pfx a.val l ∧ Q l := by
  unfold childrenShort
  refine up_bind (loadChildrenMut_rep (fun _ => trivial) ha) fun ac a' ⟨h1, h2, h3, h4⟩ => ?_
  refine up_read (rp_weak (hb.short_np ho j)) fun b' hb' => ?_
  refine rp_imp (hk ac _ h1 (oiterS_single (P := PB) hb'.1)) fun _ hq => ⟨_, ?_, hq⟩
  simp only [onChildren, SNode.setArc, h2, h3]

/-- The node stands for something. -/
def SomeRep (L : Lawful e.SA) (a : SNode) : Prop := ∃ n, Rep L false e.stA a n

theorem some_list : ∀ {l : List SNode}, (∀ a ∈ l, SomeRep L a) → ∃ rs, RepL L false e.stA l rs
  | [], h => ⟨[], (repL_nil (L := L) (g := false)).2 rfl⟩
  | a :: l, h => by
    obtain ⟨n, hn⟩ := h a List.mem_cons_self
    obtain ⟨rs, hrs⟩ := some_list fun b hb => h b (List.mem_cons_of_mem _ hb)
    exact ⟨n :: rs, (repL_cons (L := L) (g := false)).2 ⟨a, l, rfl, hn, hrs⟩⟩

/-- The node stands for something, and its children are loaded. -/
def OpenRep (L : Lawful e.SA) (a : SNode) : Prop :=
  ∃ p v l q w, a = .arc p v l ∧ PfxRep L false e.stA p q ∧ ValRep L e.stA v w ∧ ∀ x ∈ l, SomeRep L x

theorem OpenRep.canon {dbg : Bool} {a : SNode} (h : OpenRep L a) : UP True P (canonicalizeS (ε := ε) dbg a) fun _ a' => SomeRep L a' := by
  obtain ⟨p, v, l, q, w, rfl, h1, h2, h3⟩ := h
  obtain ⟨rs, hrs⟩ := some_list h3
  exact up_imp (canon_arc h1 h2 hrs (Or.inl rfl)) fun _ _ h => ⟨_, h⟩

theorem open_of {a : SNode} {n : Node} (ha : Rep L false e.stA a n) {a' : SNode}
    (h : ∃ l, a' = .arc a.pfx a.val l ∧ ∀ x ∈ l, SomeRep L x) : OpenRep L a' := by
  obtain ⟨l, rfl, hl⟩ := h
  exact ⟨_, _, l, _, _, rfl, (rep_iff.1 ha).1, (rep_iff.1 ha).2.1, hl⟩

theorem mem_split {n c : Node} {k : Nat} (h : c ∈ (n.split k).kids) : c = n.cloneShortened k := by
  have h : c ∈ [n.cloneShortened k] := h
  simpa using h

/-- The three ways in which the children of two nodes that meet are combined. -/
theorem meet_both {a : SNode} {b : Ref} {n m : Node} (hm : Meet False PB (.owned a) b n m) (he : n.pfx = m.pfx)
    {c d : Node} (hc : c ∈ n.kids) (hd : d ∈ m.loadChildren.getD []) (a' : SNode) (b' : Ref) :
    Meet False PB (.owned a') b' c d := hm.kids he (mem_loadO.2 hc) hd _ _

theorem meet_cut {a : SNode} {b : Ref} {n m : Node} (hm : Meet False PB (.owned a) b n m) {k : Nat} (he : m.pfx.take k = n.pfx)
    (hk : k < m.pfx.length) {c d : Node} (hc : c ∈ n.kids) (hd : d ∈ (some [m.cloneShortened k]).getD []) (a' : SNode) (b' : Ref) :
    Meet False PB (.owned a') b' c d := by
  cases mem_short hd
  exact hm.cut he hk (mem_loadO.2 hc) _ _

theorem meet_split {a : SNode} {b : Ref} {n m : Node} (hm : Meet False PB (.owned a) b n m) {k : Nat} (he : n.pfx.take k = m.pfx)
    (hk : k < n.pfx.length) {c d : Node} (hc : c ∈ (n.split k).kids) (hd : d ∈ m.loadChildren.getD []) (a' : SNode) (b' : Ref) :
    Meet False PB (.owned a') b' c d := by
  cases mem_split hc
  exact (hm.symm.cut he hk hd _ _).symm

theorem innerCombineWithS_np (pb : PB ∨ Plain M e.stB) {f : BlobV → BlobV → Res ε BlobV}
    {ff : Bytes → Bytes → Option Bytes} (hf : FOK L M True P f ff) :
    ∀ (fuel : Nat) (a : SNode) (b : Ref) (n m : Node), n.height + m.height ≤ fuel → Rep L false e.stA a n →
      RefS M e.stB gb PB b m → Meet False PB (.owned a) b n m → UP True P (innerCombineWithS e f fuel a b) fun _ a' => SomeRep L a' := by
  intro fuel
  induction fuel with
  | zero => intro a b n m hfu; have := height_pos n; omega
  | succ fuel ih =>
    intro a b n m hfu ha hb hm
    have hr := rep_iff.1 ha
    simp only [innerCombineWithS]
    refine up_read (rp_of_rpost (fun _ => trivial) (loadPrefix_rep hr.1)) fun ap eap => ?_
    subst eap
    refine up_read (rp_weak hb.prefix_np) fun bp ebp => ?_
    subst ebp
    refine up_bind (Q := fun _ a' => OpenRep L a' ∨ a' = (a.setVal .none).noChildren) ?_ fun _ a' h => ?_
    rotate_left
    · rcases h with h | rfl
      · exact h.canon
      · exact up_imp (canon_nuke [] hr.1) fun _ _ h => ⟨_, h⟩
    split
    · rename_i h
      refine up_bind (Q := fun _ a' => ∃ w, Rep L false e.stA a' (mk n.pfx w n.ch)) ?_ ?_
      · rcases oval_cases (valueOpt_rep hr.2.1) with ⟨e1, e2⟩ | ⟨av, x, e1, e2, hv'⟩
        · rw [e1]; exact up_ok ⟨none, rep_setVal ha rfl⟩
        · rcases oval_cases (valueOpt_rep hb.val) with ⟨e3, e4⟩ | ⟨bv, y, e3, e4, hv⟩
          · rw [e1, e3]; exact up_ok ⟨none, rep_setVal ha rfl⟩
          · rw [e1, e3]
            refine up_read (hf _ _ _ _ hv' hv) fun v hv => up_ok ⟨ff x y, ?_⟩
            rw [setVal_setVal]; exact rep_setVal ha hv
      · rintro _ a1 ⟨w, h1⟩
        refine up_imp (childrenBoth_np pb h1 hb fun ac it hac hit => innerChildrenS_np (R := SomeRep L) (fun _ _ h => ⟨_, h⟩) (fun a' n' b' m' hn hm' h1 h2 => ?_) hac hit) fun _ _ h => Or.inl (open_of h1 h)
        refine ih a' b' n' m' ?_ h1 h2 (meet_both hm (common_both h) hn hm' _ _)
        have := height_kids (n := n) hn; have := height_loadO hm'; omega
    · rename_i hnb
      split
      · rename_i h
        have hlt := common_lt_right hnb h
        refine up_imp (childrenShort_np (rep_noVal ha) hb (hm.owned (common_left h) hlt) fun ac it hac hit =>
          innerChildrenS_np (R := SomeRep L) (fun _ _ h => ⟨_, h⟩) (fun a' n' b' m' hn hm' h1 h2 => ?_) hac hit) fun _ _ h => Or.inl (open_of (rep_noVal ha) h)
        refine ih a' b' n' m' ?_ h1 h2 (meet_cut hm (common_left h) hlt hn hm' _ _)
        cases mem_short hm'
        have := height_kids (n := n) hn; rw [height_cloneShortened]; omega
      · rename_i hna
        split
        · rename_i h
          have hlt := common_lt_left hna
          refine up_bind (split_rep (fun _ => trivial) ha _) fun _ a1 ⟨h3, _⟩ => ?_
          refine up_imp (childrenBoth_np pb h3 hb fun ac it hac hit => innerChildrenS_np (R := SomeRep L) (fun _ _ h => ⟨_, h⟩) (fun a' n' b' m' hn hm' h1 h2 => ?_) hac hit) fun _ _ h => Or.inl (open_of h3 h)
          refine ih a' b' n' m' ?_ h1 h2 (meet_split hm (common_right h) hlt hn hm' _ _)
          cases mem_split hn
          have := height_loadO hm'; rw [height_cloneShortened]; omega
        · exact up_ok (Or.inr rfl)

theorem leftCombineWithS_np (pb : PB ∨ Plain M e.stB) (hd : e.dbg = true → P) {f : BlobV → BlobV → Res ε BlobV}
    {ff : Bytes → Bytes → Option Bytes} (hf : FOK L M True P f ff) :
    ∀ (fuel : Nat) (a : SNode) (b : Ref) (n m : Node), n.height + m.height ≤ fuel → Rep L g e.stA a n →
      RefS M e.stB gb PB b m → Meet False PB (.owned a) b n m → UN P (leftCombineWithS e f fuel a b) := by
  intro fuel
  induction fuel with
  | zero => intro a b n m hfu; have := height_pos n; omega
  | succ fuel ih =>
    intro a b n m hfu ha hb hm
    have hr := rep_iff.1 ha
    simp only [leftCombineWithS]
    refine up_read (rp_of_rpost (fun _ => trivial) (loadPrefix_rep hr.1)) fun ap eap => ?_
    subst eap
    refine up_read (rp_weak hb.prefix_np) fun bp ebp => ?_
    subst ebp
    refine up_bind (Q := fun _ _ => True) ?_ fun _ a' _ => un_canon hd a'
    split
    · rename_i h
      refine up_bind (Q := fun _ a' => ∃ w, Rep L g e.stA a' (mk n.pfx w n.ch)) ?_ ?_
      · have hself : Rep L g e.stA a (mk n.pfx n.val n.ch) := by cases n; exact ha
        rcases oval_cases (valueOpt_rep hb.val) with ⟨e3, e4⟩ | ⟨bv, y, e3, e4, hv⟩
        · rw [e3]; exact up_ok ⟨_, hself⟩
        · rcases oval_cases (valueOpt_rep hr.2.1) with ⟨e1, e2⟩ | ⟨av, x, e1, e2, hv'⟩
          · rw [e1, e3]; exact up_ok ⟨_, hself⟩
          · rw [e1, e3]
            refine up_read (hf _ _ _ _ hv' hv) fun v hv => up_ok ⟨ff x y, ?_⟩
            rw [setVal_setVal]; exact rep_setVal ha hv
      · rintro _ a1 ⟨w, h1⟩
        refine un_any (childrenBoth_np pb h1 hb fun ac it hac hit => leftChildrenS_np (R := fun _ => True) (fun _ _ _ => trivial) (fun a' n' b' m' hn hm' h1 h2 => ?_) hac hit)
        refine ih a' b' n' m' ?_ h1 h2 (meet_both hm (common_both h) hn hm' _ _)
        have := height_kids (n := n) hn; have := height_loadO hm'; omega
    · rename_i hnb
      split
      · rename_i h
        have hlt := common_lt_right hnb h
        refine un_any (childrenShort_np ha hb (hm.owned (common_left h) hlt) fun ac it hac hit =>
          leftChildrenS_np (R := fun _ => True) (fun _ _ _ => trivial) (fun a' n' b' m' hn hm' h1 h2 => ?_) hac hit)
        refine ih a' b' n' m' ?_ h1 h2 (meet_cut hm (common_left h) hlt hn hm' _ _)
        cases mem_short hm'
        have := height_kids (n := n) hn; rw [height_cloneShortened]; omega
      · rename_i hna
        split
        · rename_i h
          have hlt := common_lt_left hna
          refine up_bind (split_rep (fun _ => trivial) ha _) fun _ a1 ⟨h3, _⟩ => ?_
          refine un_any (childrenBoth_np pb h3 hb fun ac it hac hit => leftChildrenS_np (R := fun _ => True) (fun _ _ _ => trivial) (fun a' n' b' m' hn hm' h1 h2 => ?_) hac hit)
          refine ih a' b' n' m' ?_ h1 h2 (meet_split hm (common_right h) hlt hn hm' _ _)
          cases mem_split hn
          have := height_loadO hm'; rw [height_cloneShortened]; omega
        · exact trivial

theorem retainPrefixWithS_np (pb : PB ∨ Plain M e.stB) (hd : e.dbg = true → P) {f : BlobV → Res ε Bool} {ff : Bytes → Bool}
    (hf : PredOK M True P f ff) :
    ∀ (fuel : Nat) (a : SNode) (b : Ref) (n m : Node), n.height + m.height ≤ fuel → Rep L g e.stA a n →
      RefS M e.stB gb PB b m → Meet False PB (.owned a) b n m → UN P (retainPrefixWithS e f fuel a b) := by
  intro fuel
  induction fuel with
  | zero => intro a b n m hfu; have := height_pos n; omega
  | succ fuel ih =>
    intro a b n m hfu ha hb hm
    have hr := rep_iff.1 ha
    simp only [retainPrefixWithS]
    refine up_read (rp_of_rpost (fun _ => trivial) (loadPrefix_rep hr.1)) fun ap eap => ?_
    subst eap
    refine up_read (rp_weak hb.prefix_np) fun bp ebp => ?_
    subst ebp
    refine up_bind (Q := fun _ _ => True) ?_ fun _ a' _ => un_canon hd a'
    split
    · rename_i h
      refine up_bind (Q := fun _ a' => a' = a) ?_ ?_
      · rcases oval_cases (valueOpt_rep hb.val) with ⟨e3, e4⟩ | ⟨bv, y, e3, e4, hv⟩
        · rw [e3]; exact up_ok rfl
        · rw [e3]; exact up_read (hf _ _ hv) fun _ _ => up_ok rfl
      · rintro go _ rfl
        split
        · refine un_any (childrenBoth_np pb (rep_noVal ha) hb fun ac it hac hit =>
            innerChildrenS_np (R := fun _ => True) (fun _ _ _ => trivial) (fun a' n' b' m' hn hm' h1 h2 => ?_) hac hit)
          refine ih a' b' n' m' ?_ h1 h2 (meet_both hm (common_both h) hn hm' _ _)
          have := height_kids (n := n) hn; have := height_loadO hm'; omega
        · exact trivial
    · rename_i hnb
      split
      · rename_i h
        have hlt : commonPrefix n.pfx m.pfx < n.pfx.length := by
          have := (commonPrefix_le n.pfx m.pfx).1
          have : commonPrefix n.pfx m.pfx ≠ n.pfx.length := fun e => hnb ⟨e, h⟩
          omega
        rcases oval_cases (valueOpt_rep hb.val) with ⟨e3, e4⟩ | ⟨bv, y, e3, e4, hv⟩
        · rw [e3]
          refine up_bind (split_rep (fun _ => trivial) ha _) fun _ a1 ⟨h3, _⟩ => ?_
          refine un_any (childrenBoth_np pb h3 hb fun ac it hac hit => innerChildrenS_np (R := fun _ => True) (fun _ _ _ => trivial) (fun a' n' b' m' hn hm' h1 h2 => ?_) hac hit)
          refine ih a' b' n' m' ?_ h1 h2 (meet_split hm (common_right h) hlt hn hm' _ _)
          cases mem_split hn
          have := height_loadO hm'; rw [height_cloneShortened]; omega
        · rw [e3]; exact up_read (hf _ _ hv) fun _ _ => up_ok trivial
      · split
        · rename_i h
          have hlt := common_lt_right hnb h
          refine un_any (childrenShort_np (rep_noVal ha) hb (hm.owned (common_left h) hlt) fun ac it hac hit =>
            innerChildrenS_np (R := fun _ => True) (fun _ _ _ => trivial) (fun a' n' b' m' hn hm' h1 h2 => ?_) hac hit)
          refine ih a' b' n' m' ?_ h1 h2 (meet_cut hm (common_left h) hlt hn hm' _ _)
          cases mem_short hm'
          have := height_kids (n := n) hn; rw [height_cloneShortened]; omega
        · exact trivial

theorem removePrefixWithS_np (pb : PB ∨ Plain M e.stB) (hd : e.dbg = true → P) {f : BlobV → Res ε Bool} {ff : Bytes → Bool}
    (hf : PredOK M True P f ff) :
    ∀ (fuel : Nat) (a : SNode) (b : Ref) (n m : Node), n.height + m.height ≤ fuel → Rep L g e.stA a n →
      RefS M e.stB gb PB b m → Meet False PB (.owned a) b n m → UN P (removePrefixWithS e f fuel a b) := by
  intro fuel
  induction fuel with
  | zero => intro a b n m hfu; have := height_pos n; omega
  | succ fuel ih =>
    intro a b n m hfu ha hb hm
    have hr := rep_iff.1 ha
    simp only [removePrefixWithS]
    refine up_read (rp_of_rpost (fun _ => trivial) (loadPrefix_rep hr.1)) fun ap eap => ?_
    subst eap
    refine up_read (rp_weak hb.prefix_np) fun bp ebp => ?_
    subst ebp
    refine up_bind (Q := fun _ _ => True) ?_ fun _ a' _ => un_canon hd a'
    split
    · rename_i h
      refine up_bind (Q := fun _ a' => a' = a) ?_ ?_
      · rcases oval_cases (valueOpt_rep hb.val) with ⟨e3, e4⟩ | ⟨bv, y, e3, e4, hv⟩
        · rw [e3]; exact up_ok rfl
        · rw [e3]; exact rp_imp (hf _ _ hv) fun _ _ => rfl
      · rintro nuke _ rfl
        split
        · exact trivial
        · by_cases h1 : commonPrefix n.pfx m.pfx = n.pfx.length
          · rw [if_neg (not_not_intro h1)]
            refine up_bind (Q := fun _ a1 => a1 = _) (up_ok rfl) ?_
            rintro _ _ rfl
            refine un_any (childrenBoth_np pb ha hb fun ac it hac hit => leftChildrenS_np (R := fun _ => True) (fun _ _ _ => trivial) (fun a' n' b' m' hn hm' h1 h2 => ?_) hac hit)
            refine ih a' b' n' m' ?_ h1 h2 (meet_both hm (common_both ⟨‹_›, h⟩) hn hm' _ _)
            have := height_kids (n := n) hn; have := height_loadO hm'; omega
          · rw [if_pos h1]
            have hlt : commonPrefix n.pfx m.pfx < n.pfx.length := by
              have := (commonPrefix_le n.pfx m.pfx).1
              omega
            refine up_bind (split_rep (fun _ => trivial) ha _) fun _ a1 ⟨h3, _⟩ => ?_
            refine un_any (childrenBoth_np pb h3 hb fun ac it hac hit => leftChildrenS_np (R := fun _ => True) (fun _ _ _ => trivial) (fun a' n' b' m' hn hm' h1 h2 => ?_) hac hit)
            refine ih a' b' n' m' ?_ h1 h2 (meet_split hm (common_right h) hlt hn hm' _ _)
            cases mem_split hn
            have := height_loadO hm'; rw [height_cloneShortened]; omega
    · rename_i hnb
      split
      · rename_i h
        have hlt := common_lt_right (fun h => hnb h.2) h
        refine un_any (childrenShort_np ha hb (hm.owned (common_left h) hlt) fun ac it hac hit =>
          leftChildrenS_np (R := fun _ => True) (fun _ _ _ => trivial) (fun a' n' b' m' hn hm' h1 h2 => ?_) hac hit)
        refine ih a' b' n' m' ?_ h1 h2 (meet_cut hm (common_left h) hlt hn hm' _ _)
        cases mem_short hm'
        have := height_kids (n := n) hn; rw [height_cloneShortened]; omega
      · exact trivial

/-! ### Union -/

/-- A converter that panics only if `P`, except on values unless `V`. -/
structure ConvNP (L : Lawful e.SA) (M : Lawful e.SB) (gb : Bool) (PB V P : Prop) (B : Nat) (c : SConv ε) : Prop where
  node : ∀ b m, m.height ≤ B → RefS M e.stB gb PB b m → RP True P (c.node b) (SomeRep L)
  short : ∀ b m k, m.height ≤ B → RefS M e.stB gb PB b m → (¬ PB ∨ ∃ b', b = .owned b') → RP True P (c.shortened b k) (SomeRep L)
  value : V → ∀ v y, ValRep M e.stB v (some y) → RP True P (c.value v) fun v' => ValRep L e.stA v' (some y)

theorem pushAll_np {V : Prop} {B : Nat} {c : SConv ε} (hc : ConvNP L M gb PB V P B c) {ml : List Node}
    (hB : ∀ m ∈ ml, m.height ≤ B) {done : List SNode} {it : TIter} (hdn : ∀ a ∈ done, SomeRep L a)
    (hi : IterS M e.stB gb PB it ml) : UP True P (pushAll c done it) fun _ r => ∀ a ∈ r, SomeRep L a := by
  induction ml generalizing done it with
  | nil => rw [pushAll_nil hi.next_nil]; exact up_ok hdn
  | cons m ml ih =>
    obtain ⟨b, it', e1, h1, h2⟩ := hi.next_cons
    rw [pushAll_cons e1]
    refine up_read (hc.node b m (hB m List.mem_cons_self) h1) fun a ha =>
      ih (fun m hm => hB m (List.mem_cons_of_mem _ hm)) (fun x hx => ?_) h2
    rcases List.mem_append.1 hx with hx | hx
    · exact hdn x hx
    · rw [List.mem_singleton] at hx; exact hx ▸ ha

theorem outerChildrenS_np {V : Prop} {B : Nat} {c : SConv ε} (hc : ConvNP L M gb PB V P B c)
    {rec : SNode → Ref → Res ε Unit × SNode} {ac : List SNode} {bc : Option TIter} {l : List Node} {ml : Option (List Node)}
    (hB : ∀ m ∈ ml.getD [], m.height ≤ B)
    (hrec : ∀ a n b m, n ∈ l → m ∈ ml.getD [] → rank n.firstByte = rank m.firstByte → Rep L false e.stA a n →
      RefS M e.stB gb PB b m → UP True P (rec a b) fun _ a' => SomeRep L a')
    (ha : RepL L false e.stA ac l) (hb : OIterS M e.stB gb PB bc ml) :
    UP True P (outerChildrenS e c rec ac bc) fun _ r => ∀ a ∈ r, SomeRep L a := by
  rcases oiterS_cases hb with ⟨rfl, rfl⟩ | ⟨ib, ml, rfl, rfl, hb⟩
  · exact up_ok (repL_all (fun _ _ h => ⟨_, h⟩) ha)
  · simp only [outerChildrenS]
    split
    · exact pushAll_np hc hB (repL_all (fun _ _ h => ⟨_, h⟩) ha) hb
    · refine loopS_np (fun _ _ h => ⟨_, h⟩) ?_ ?_ (fun a h => by cases h) ha hb
      · exact fun a n b m hn hm hr => hrec a n b m hn hm hr
      · exact fun b m hm h => rp_bind (hc.node b m (hB m hm) h) fun x hx a ha => by cases ha; exact hx

theorem mem_sortByFirstS {l : List SNode} {y : SNode} (h : y ∈ sortByFirstS l) : y ∈ l := by
  have ins : ∀ (x : SNode) (l : List SNode), y ∈ insertByFirstS x l → y = x ∨ y ∈ l := by
    intro x l
    induction l with
    | nil => intro h; exact Or.inl (by simpa [insertByFirstS] using h)
    | cons z l ih =>
      intro h
      simp only [insertByFirstS] at h
      split at h
      · exact List.mem_cons.1 h
      · rcases List.mem_cons.1 h with h | h
        · exact Or.inr (by rw [h]; exact List.mem_cons_self)
        · exact (ih h).imp id (List.mem_cons_of_mem _)
  induction l with
  | nil => exact h
  | cons x l ih =>
    rcases ins x _ h with h | h
    · rw [h]; exact List.mem_cons_self
    · exact List.mem_cons_of_mem _ (ih h)

/-- Where two nodes meet in a union in place. -/
structure MeetW (PB V : Prop) (a b : Ref) (t u : Node) : Prop extends Meet False PB a b t u where
  jb : PB → Parts (den u) (den t)
  sv : V ∨ Shared (den u) (den t)

theorem MeetW.kids {V : Prop} {a b : Ref} {t u c d : Node} (h : MeetW PB V a b t u) (he : t.pfx = u.pfx) (hc : c ∈ t.kids)
    (hd : d ∈ u.loadChildren.getD []) (hr : rank c.firstByte = rank d.firstByte) (a' b' : Ref) : MeetW PB V a' b' c d := by
  have h2 := mem_loadO.1 hd
  have v1 := view_kid h.ot hc
  have v2 := view_kid h.ou h2
  rw [← he] at v2
  exact ⟨h.toMeet.kids he (mem_loadO.2 hc) hd _ _,
    fun p => v2.parts v1 hr.symm (((ord_iff u).1 h.ou).mem h2).1 (((ord_iff t).1 h.ot).mem hc).1 (h.jb p), h.sv.imp id fun h => v2.shared v1 h⟩

theorem MeetW.cut {V : Prop} {a b : Ref} {t u c : Node} {n : Nat} (h : MeetW PB V a b t u) (he : u.pfx.take n = t.pfx)
    (hn : n < u.pfx.length) (hc : c ∈ t.kids) (hr : rank c.firstByte = rank (u.cloneShortened n).firstByte) (a' b' : Ref) :
    MeetW PB V a' b' c (u.cloneShortened n) := by
  have v1 := view_kid h.ot hc
  have v2 := view_short he hn
  exact ⟨h.toMeet.cut he hn (mem_loadO.2 hc) _ _,
    fun p => v2.parts v1 hr.symm (short_pfx hn) (((ord_iff t).1 h.ot).mem hc).1 (h.jb p), h.sv.imp id fun h => v2.shared v1 h⟩

theorem MeetW.cut' {V : Prop} {a b : Ref} {t u d : Node} {n : Nat} (h : MeetW PB V a b t u) (he : t.pfx.take n = u.pfx)
    (hn : n < t.pfx.length) (hd : d ∈ u.loadChildren.getD []) (hr : rank (t.cloneShortened n).firstByte = rank d.firstByte) (a' b' : Ref) :
    MeetW PB V a' b' (t.cloneShortened n) d := by
  have h2 := mem_loadO.1 hd
  have v1 := view_short he hn
  have v2 := view_kid h.ou h2
  exact ⟨(h.toMeet.symm.cut he hn hd _ _).symm,
    fun p => v2.parts v1 hr.symm (((ord_iff u).1 h.ou).mem h2).1 (short_pfx hn) (h.jb p), h.sv.imp id fun h => v2.shared v1 h⟩

theorem outerCombineWithS_np {V : Prop} (pb : PB ∨ Plain M e.stB) {B : Nat} {c : SConv ε}
    (hc : ConvNP L M gb PB V P B c) {f : BlobV → BlobV → Res ε BlobV} {ff : Bytes → Bytes → Option Bytes}
    (hf : FOK L M True P f ff) :
    ∀ (fuel : Nat) (a : SNode) (b : Ref) (n m : Node), n.height + m.height ≤ fuel → m.height ≤ B → Rep L false e.stA a n →
      RefS M e.stB gb PB b m → MeetW PB V (.owned a) b n m →
      UP True P (outerCombineWithS e c f fuel a b) fun _ a' => SomeRep L a' := by
  intro fuel
  induction fuel with
  | zero => intro a b n m hfu; have := height_pos n; omega
  | succ fuel ih =>
    intro a b n m hfu hB ha hb hm
    have hr := rep_iff.1 ha
    have hBk : ∀ x ∈ m.loadChildren.getD [], x.height ≤ B := fun x hx => by have := height_loadO hx; omega
    simp only [outerCombineWithS]
    refine up_read (rp_of_rpost (fun _ => trivial) (loadPrefix_rep hr.1)) fun ap eap => ?_
    subst eap
    refine up_read (rp_weak hb.prefix_np) fun bp ebp => ?_
    subst ebp
    refine up_bind (Q := fun _ a' => OpenRep L a') ?_ fun _ a' h => h.canon
    by_cases h : commonPrefix n.pfx m.pfx = m.pfx.length
    · rw [if_pos h]
      by_cases h1 : commonPrefix n.pfx m.pfx = n.pfx.length
      · -- identical prefixes
        have he := common_both ⟨h1, h⟩
        rw [if_neg (not_not_intro h1)]
        refine up_bind (Q := fun _ a1 => a1 = a) (up_ok rfl) ?_
        rintro _ a0 rfl
        refine up_bind (Q := fun _ a' => ∃ w, Rep L false e.stA a' (mk n.pfx w n.ch)) ?_ ?_
        · have hself : Rep L false e.stA a0 (mk n.pfx n.val n.ch) := by cases n; exact ha
          rcases oval_cases (valueOpt_rep hb.val) with ⟨e3, e4⟩ | ⟨bv, y, e3, e4, hv1⟩
          · rw [e3]; exact up_ok ⟨_, hself⟩
          · rw [e3]
            rcases oval_cases (valueOpt_rep hr.2.1) with ⟨e1, e2⟩ | ⟨av, x, e1, e2, hv'⟩
            · rw [e1]
              rcases hm.sv with hV | hk
              · exact up_read (hc.value hV _ _ hv1) fun v h => up_ok ⟨some y, rep_setVal ha h⟩
              · rw [shared_val hk hm.ot hm.st he.symm e2] at e4; cases e4
            · rw [e1]
              refine up_read (hf _ _ _ _ hv' hv1) fun v hv => up_ok ⟨ff x y, ?_⟩
              rw [setVal_setVal]; exact rep_setVal ha hv
        · rintro _ a1 ⟨w, h1⟩
          refine up_imp (childrenBoth_np pb h1 hb fun ac it hac hit => outerChildrenS_np hc hBk
            (fun a' n' b' m' hn hm' hrk h1 h2 => ?_) hac hit) fun _ _ h => open_of h1 h
          have hn : n' ∈ n.kids := hn
          refine ih a' b' n' m' ?_ (hBk _ hm') h1 h2 (hm.kids he hn hm' hrk _ _)
          have := height_kids (n := n) hn; have := height_loadO hm'; omega
      · -- the target is split
        rw [if_pos h1]
        have hlt := common_lt_left h1
        refine up_bind (split_rep (fun _ => trivial) ha _) fun _ a1 ⟨h3, _⟩ => ?_
        refine up_bind (Q := fun _ a' => ∃ w, Rep L false e.stA a' (mk (n.split (commonPrefix n.pfx m.pfx)).pfx w
          (n.split (commonPrefix n.pfx m.pfx)).ch)) ?_ ?_
        · have hr1 := rep_iff.1 h3
          rcases oval_cases (valueOpt_rep hb.val) with ⟨e3, e4⟩ | ⟨bv, y, e3, e4, hv1⟩
          · rw [e3]; exact up_ok ⟨none, h3⟩
          · rw [e3]
            rcases oval_cases (valueOpt_rep hr1.2.1) with ⟨e1, e2⟩ | ⟨av, x, e1, e2, hv'⟩
            · rw [e1]
              rcases hm.sv with hV | hk
              · exact up_read (hc.value hV _ _ hv1) fun v h => up_ok ⟨some y, rep_setVal h3 h⟩
              · rw [shared_cut hk hm.ot hm.st (common_right h) hlt] at e4; cases e4
            · cases e2
        · rintro _ a1 ⟨w, h1⟩
          refine up_imp (childrenBoth_np pb h1 hb fun ac it hac hit => outerChildrenS_np hc hBk
            (fun a' n' b' m' hn hm' hrk h1 h2 => ?_) hac hit) fun _ _ h => open_of h1 h
          cases mem_split hn
          refine ih a' b' _ m' ?_ (hBk _ hm') h1 h2 (hm.cut' (common_right h) hlt hm' hrk _ _)
          have := height_loadO hm'; rw [height_cloneShortened]; omega
    · rw [if_neg h]
      by_cases h1 : commonPrefix n.pfx m.pfx = n.pfx.length
      · -- the other tree is cut
        rw [if_pos h1]
        have hlt := common_lt_right (fun e => h e.2) h1
        refine up_imp (childrenShort_np ha hb (hm.owned (common_left h1) hlt) fun ac it hac hit => outerChildrenS_np hc ?_
            (fun a' n' b' m' hn hm' hrk h1' h2 => ?_) hac hit) fun _ _ h => open_of ha h
        · intro x hx
          cases mem_short hx
          rw [height_cloneShortened]; exact hB
        · cases mem_short hm'
          refine ih a' b' n' _ ?_ (by rw [height_cloneShortened]; exact hB) h1' h2 (hm.cut (common_left h1) hlt hn hrk _ _)
          have := height_kids (n := n) hn; rw [height_cloneShortened]; omega
      · -- both are cut
        rw [if_neg h1]
        have ob : ¬ PB ∨ ∃ b', b = .owned b' := by
          rcases hm.here with ⟨h3, h4⟩ | h3
          · refine Or.inl fun p => no_part hm.ou hm.ot h4 h3 (hm.jb p) ?_ ?_ <;> rw [commonPrefix_comm] <;> assumption
          · exact Or.inr h3.2
        refine up_bind (split_rep (fun _ => trivial) ha _) fun _ a1 ⟨h3, _⟩ => ?_
        refine up_bind (loadChildrenMut_rep (fun _ => trivial) h3) fun ac a2 ⟨h4, h5, h6, h7⟩ => ?_
        refine up_read (hc.short b m _ hB hb ob) fun x hx => up_ok ?_
        refine open_of h3 ⟨sortByFirstS (ac ++ [x]), by simp only [SNode.setArc, h5, h6], fun y hy => ?_⟩
        rcases List.mem_append.1 (mem_sortByFirstS hy) with hy | hy
        · exact repL_all (fun _ _ h => ⟨_, h⟩) h4 y hy
        · cases List.mem_singleton.1 hy; exact hx

end

section
variable {σ τ ε : Type} {S : BlobStore σ ε} {T : BlobStore τ ε} {PB P : Prop}

theorem conv_identity_np (L : Lawful S) (st : σ) (dbg : Bool) (ab) (B : Nat) :
    ConvNP (e := ⟨S, st, S, st, dbg, ab⟩) L L false PB True P B (.identity S st) where
  node b m _ h := rp_weak (rp_imp (rpost_np (RefRep.toOwned h.1)) fun _ h => ⟨_, h⟩)
  short b m k _ h ho := rp_weak (rp_imp (h.short_np ho k) fun _ h => ⟨_, h.1⟩)
  value _ v y hv := hv

theorem conv_detach_np (L : Lawful S) (st : σ) (M : Lawful T) (st' : τ) (gb : Bool) (dbg : Bool) (ab) {B fuel : Nat}
    (hB : B ≤ fuel) :
    ConvNP (e := ⟨S, st, T, st', dbg, ab⟩) L M gb PB False P B (.detach T st' fuel) where
  node b m hm h := rp_weak (rp_bind (h.detached_np (by omega)) fun n _ => ⟨n, embed_rep n⟩)
  short b m k hm h ho := rp_weak (rp_bind (h.short_np ho k) fun a ha =>
    rp_bind (rpost_np (detachedS_repH.1 ha.1 (by rw [height_cloneShortened]; omega))) fun n _ => ⟨n, embed_rep n⟩)
  value h := h.elim

end

end Radix
