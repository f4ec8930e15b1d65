import Verif.Proofs.SelfWritten
import Verif.Stored.Changed
import Verif.Proofs.Edited

/-
Proof-internal: how much an in-place operation adds to the number of writes that a tree still needs, if nothing is known of the tree but that the ids in it are ids of blobs in the documented
format. (In `Verif/Proofs/Cost.lean` the tree stands for a tree in memory.)
-/

set_option linter.unusedVariables false

namespace Radix.Self
open Radix Radix.Node

section
variable {σ τ ε : Type} {e : UEnv σ τ ε} {I : Ids} {LB : Lawful e.SB} {gb : Bool}

/-- What is known of the recursive calls. -/
def RecC (I : Ids) (LB : Lawful e.SB) (gb : Bool) (rec : SNode → Ref → Res ε Unit × SNode) : Prop :=
  ∀ a b m, Ex I a → RefRep LB gb e.stB b m → cost (rec a b).2 ≤ cost a + W m ∧
    (a.pfx.firstByte = m.firstByte → cost (rec a b).2 ≤ cost a + W1 m)

theorem loop_cost {rec : SNode → Ref → Res ε Unit × SNode} {keep : Bool} {greater : Ref → Res ε (Option SNode)}
    {ab : List SNode → List SNode → List SNode} (hab : Keeps ab) (hrec : RecC I LB gb rec)
    (hgr : ∀ b m, RefRep LB gb e.stB b m → OkP (greater b) fun o => ∀ x, o = some x → cost x ≤ W1 m)
    {mn : List Node} {done src : List SNode} {it : TIter} (hs : All I src) (hi : IterRep LB gb e.stB it mn) :
    costL (loopS rec keep greater ab done src it).2 ≤ costL done + costL src + W1L mn := by
  have hk : ∀ d s, costL (ab d s) ≤ costL d + costL s := fun d s => by
    rw [← costL_append]; exact costL_sublist (hab d s)
  generalize hm : src.length + mn.length = k
  induction k using Nat.strongRecOn generalizing mn done src it with
  | ind k ih =>
    have hpush : ∀ {b : Ref} {m : Node} {mn' : List Node} {it' : TIter} {src : List SNode}, RefRep LB gb e.stB b m → IterRep LB gb e.stB it' mn' →
        All I src → src.length + mn'.length < k →
        costL (stBind (greater b, ab done src) fun o _ => loopS rec keep greater ab (done ++ o.toList) src it').2 ≤
          costL done + costL src + (W1 m + W1L mn') := by
      intro b m mn' it' src hb hi hs hl
      have hg := hgr b m hb
      cases e1 : greater b with
      | ok o =>
        rw [e1] at hg
        have := ih _ hl (done := done ++ o.toList) hs hi rfl
        rw [costL_append] at this
        have ho : costL o.toList ≤ W1 m := by
          cases o with
          | none => exact Nat.zero_le _
          | some x => have := hg x rfl; simp only [Option.toList, costL]; omega
        simp only [stBind]
        omega
      | _ => have := hk done src; simp only [stBind]; omega
    cases src with
    | nil =>
      cases mn with
      | nil =>
        rw [loopS_nn (IterRep.next_nil hi)]
        simp only [costL, W1L]; omega
      | cons m mn =>
        obtain ⟨b, it', e1, hb, hi'⟩ := IterRep.next_cons hi
        rw [loopS_ns e1]
        exact hpush (src := []) hb hi' all_nil (by simp only [List.length_cons, List.length_nil] at *; omega)
    | cons a src =>
      have ha : Ex I a := hs a (by simp)
      have hs' : All I src := fun x hx => hs x (by simp [hx])
      have hkeep : costL (if keep = true then done ++ [a] else done) ≤ costL done + cost a := by
        split
        · rw [costL_append]; simp [costL]
        · omega
      cases mn with
      | nil =>
        rw [loopS_sn (IterRep.next_nil hi)]
        have := ih (src.length + 0) (by simp only [List.length_cons, List.length_nil] at *; omega)
          (done := if keep = true then done ++ [a] else done) hs' hi rfl
        simp only [costL] at *; omega
      | cons m mn =>
        obtain ⟨b, it', e1, hb, hi'⟩ := IterRep.next_cons hi
        rw [loopS_ss e1]
        split
        · have := ih (src.length + (mn.length + 1)) (by simp only [List.length_cons] at *; omega)
            (done := if keep = true then done ++ [a] else done) hs' hi rfl
          simp only [costL, W1L] at *; omega
        split
        · exact hpush hb hi' hs (by simp only [List.length_cons] at *; omega)
        · rename_i h1 h2
          have hf : a.pfx.firstByte = m.firstByte := by
            rw [rank_firstByte hb.pfx] at h1 h2
            exact rank_inj (by omega)
          have hr := (hrec a b m ha hb).2 hf
          cases e2 : (rec a b).1 with
          | ok u =>
            have := ih (src.length + mn.length) (by simp only [List.length_cons] at *; omega)
              (done := if (rec a b).2.isEmpty = true then done else done ++ [(rec a b).2]) hs' hi' rfl
            have h3 : costL (if (rec a b).2.isEmpty = true then done else done ++ [(rec a b).2]) ≤ costL done + cost (rec a b).2 := by
              split
              · omega
              · rw [costL_append]; simp [costL]
            simp only [stBind, costL, W1L] at *; omega
          | _ =>
            have := hk done ((rec a b).2 :: src)
            simp only [stBind, costL, W1L] at *; omega

/-- What is known of the loops over children. -/
def KidsC (I : Ids) (LB : Lawful e.SB) (gb : Bool) (k : List SNode → Option TIter → Res ε Unit × List SNode) : Prop :=
  ∀ ac it mo, All I ac → OIterRep LB gb e.stB it mo → costL (k ac it).2 ≤ costL ac + W1L (mo.getD [])

theorem innerKidsC {rec : SNode → Ref → Res ε Unit × SNode} (hab : Keeps e.abandon) (hrec : RecC I LB gb rec) :
    KidsC I LB gb (innerChildrenS e rec) := by
  intro ac it mo hs hi
  unfold innerChildrenS
  cases it with
  | none => exact Nat.zero_le _
  | some it =>
    cases mo with
    | none => exact hi.elim
    | some ml =>
      dsimp only
      split
      · exact Nat.le_add_right _ _
      · have := loop_cost (keep := false) (greater := fun _ => .ok none) (done := []) hab hrec
          (fun b m hb x hx => by cases hx) hs hi
        simpa [costL] using this

theorem leftKidsC {rec : SNode → Ref → Res ε Unit × SNode} (hab : Keeps e.abandon) (hrec : RecC I LB gb rec) :
    KidsC I LB gb (leftChildrenS e rec) := by
  intro ac it mo hs hi
  unfold leftChildrenS
  cases it with
  | none => exact Nat.le_add_right _ _
  | some it =>
    cases mo with
    | none => exact hi.elim
    | some ml =>
      dsimp only
      split
      · exact Nat.le_add_right _ _
      · have := loop_cost (keep := true) (greater := fun _ => .ok none) (done := []) hab hrec
          (fun b m hb x hx => by cases hx) hs hi
        simpa [costL] using this

theorem outerKidsC {cs : SConv ε} (hc : ConvC (e := e) LB gb cs) {rec : SNode → Ref → Res ε Unit × SNode} (hab : Keeps e.abandon)
    (hrec : RecC I LB gb rec) : KidsC I LB gb (outerChildrenS e cs rec) := by
  intro ac it mo hs hi
  unfold outerChildrenS
  cases it with
  | none => exact Nat.le_add_right _ _
  | some it =>
    cases mo with
    | none => exact hi.elim
    | some ml =>
      dsimp only
      split
      · exact pushAll_cost hc hi
      · have := loop_cost (keep := true) (greater := fun b => (cs.node b).bind fun a => .ok (some a)) (done := []) hab hrec
          (fun b m hb => okP_bind (hc.node b m hb) fun x hx y hy => by
            cases hy
            have := three_le m
            have : cost x ≤ 3 * m.nodes := hx
            omega) hs hi
        simpa [costL] using this

/-- `Ex` for the children only. -/
def ExC' (I : Ids) (a : SNode) : Prop := ExC I a.children

theorem kids_of {a : SNode} (h : Ex I a) : ExC' I a := (ex_iff.1 h).2.2

theorem setVal_kids {a : SNode} (h : ExC' I a) (v : BlobV) : ExC' I (a.setVal v) := by
  have : (a.setVal v).children = a.children := by cases a <;> rfl
  rw [ExC', this]; exact h

theorem load_kids (hI : Closed I e.SA e.stA) {a : SNode} (h : ExC' I a) {ac : List SNode} (e1 : (loadChildrenMutS e.SA e.stA a).1 = .ok ac) : All I ac := by
  rw [← load_fst a (.data []) .none] at e1
  exact (childrenMut_both hI (ex_parts (p := .data []) (v := .none).2 ⟨trivial, I.valNil, h⟩)).2 ac e1

theorem both_cost (hI : Closed I e.SA e.stA) {k : List SNode → Option TIter → Res ε Unit × List SNode} (hk : KidsC I LB gb k) {a : SNode}
    {b : Ref} {m : Node} (ha : ExC' I a) (hb : RefRep LB gb e.stB b m) {B : Nat} (hB : base a + WL m.kids ≤ B) :
    Costs (childrenBoth e k a b) B := by
  have hl := loadChildren_cost (S := e.SA) (st := e.stA) a
  have hr := fun ac => load_kids hI ha (ac := ac)
  unfold childrenBoth
  generalize loadChildrenMutS e.SA e.stA a = x at hl hr
  obtain ⟨r, a'⟩ := x
  cases r with
  | ok ac =>
    obtain ⟨h1, h2, h3, h4⟩ := hl
    have hr := hr ac rfl
    show Costs (stBind (b.loadChildren e.SB e.stB, a') fun bc a => onChildren a (k ac bc)) B
    refine costs_read (by omega) (okP_of_rpost hb.loadChildren) fun it hi => ?_
    have := hk ac it _ hr hi
    have h5 := cost_setArc_le a' (k ac it).2
    have h6 : W1L (m.loadChildren.getD []) ≤ WL m.kids := by
      cases e1 : m.loadChildren with
      | none => exact Nat.zero_le _
      | some l =>
        rw [show m.kids = l by simp [kids, loadChildren_some e1]]
        exact W1L_le l
    rw [h1, h2] at h5
    show cost (onChildren a' (k ac it)).2 ≤ B
    simp only [onChildren]
    omega
  | err e => have : cost a' ≤ base a := hl; show cost a' ≤ B; omega
  | panic => have : cost a' ≤ base a := hl; show cost a' ≤ B; omega
  | deep => have : cost a' ≤ base a := hl; show cost a' ≤ B; omega

theorem short_cost (hI : Closed I e.SA e.stA) {k : List SNode → Option TIter → Res ε Unit × List SNode} (hk : KidsC I LB gb k) {a : SNode}
    {b : Ref} {m : Node} {j : Nat} (ha : ExC' I a) (hb : RefRep LB gb e.stB b m) {B : Nat}
    (hB : base a + W1 (m.cloneShortened j) ≤ B) : Costs (childrenShort e k j a b) B := by
  have hl := loadChildren_cost (S := e.SA) (st := e.stA) a
  have hr := fun ac => load_kids hI ha (ac := ac)
  unfold childrenShort
  generalize loadChildrenMutS e.SA e.stA a = x at hl hr
  obtain ⟨r, a'⟩ := x
  cases r with
  | ok ac =>
    obtain ⟨h1, h2, h3, h4⟩ := hl
    have hr := hr ac rfl
    show Costs (stBind (b.cloneShortened e.SB e.stB j, a') fun b' a => onChildren a (k ac (iterFromSlice [b']))) B
    refine costs_read (by omega) (short_rep hb j) fun b' hb' => ?_
    have := hk ac (iterFromSlice [b']) (some [m.cloneShortened j]) hr (repL_single hb')
    have h5 := cost_setArc_le a' (k ac (iterFromSlice [b'])).2
    simp only [Option.getD, W1L] at this
    rw [h1, h2] at h5
    show cost (onChildren a' (k ac (iterFromSlice [b']))).2 ≤ B
    simp only [onChildren]
    omega
  | err e => have : cost a' ≤ base a := hl; show cost a' ≤ B; omega
  | panic => have : cost a' ≤ base a := hl; show cost a' ≤ B; omega
  | deep => have : cost a' ≤ base a := hl; show cost a' ≤ B; omega

/-- The first byte of a prefix field is the first byte of the prefix. -/
def First (I : Ids) (S : BlobStore σ ε) (st : σ) : Prop := ∀ i, I.pfx i → ∀ p, loadPrefix S st (.id i) = .ok p → p.head? = i.head?

theorem recC_of (h1 : First I e.SA e.stA) {rec : SNode → Ref → Res ε Unit × SNode}
    (h : ∀ a b m B, Ex I a → RefRep LB gb e.stB b m → (cost a + m.pfx.length + 5 + WL m.kids ≤ B) →
      (∀ p, loadPrefix e.SA e.stA a.pfx = .ok p → commonPrefix p m.pfx < m.pfx.length → cost a + 1 + W1 (m.cloneShortened (commonPrefix p m.pfx)) ≤ B) → Costs (rec a b) B) :
    RecC I LB gb rec := by
  intro a b m ha hb
  have hs : ∀ j, j < m.pfx.length → W1 (m.cloneShortened j) + j + 1 = W m := by
    intro j hj
    have h1 : (m.cloneShortened j).pfx = m.pfx.drop j := rfl
    have h2 : (m.cloneShortened j).kids = m.kids := rfl
    rw [W1, W_eq, W_eq, h1, h2, if_neg (by intro h; have := congrArg List.length h; rw [List.length_drop, List.length_nil] at this; omega), List.length_drop]
    omega
  have hw := W_eq m
  refine ⟨h a b m _ ha hb (by omega) fun p _ hj => ?_, fun hf => h a b m _ ha hb ?_ fun p hp hj => ?_⟩
  · have := hs _ hj; omega
  · unfold W1; split <;> omega
  · have := hs _ hj
    have hf' : p.head? = m.firstByte := by
      rw [← hf]
      have hx := (ex_iff.1 ha).1
      generalize a.pfx = b at hx hp
      cases b with
      | data d => cases hp; rfl
      | id i => exact h1 i hx p hp
    have hj1 : 1 ≤ commonPrefix p m.pfx := by
      simp only [Node.firstByte] at hf'
      cases e1 : m.pfx with
      | nil => rw [e1] at hj; simp at hj
      | cons c q =>
        cases p with
        | nil => rw [e1] at hf'; cases hf'
        | cons d q' =>
          rw [e1] at hf'
          cases hf'
          simp [commonPrefix_cons]
    have h3 : W1 m = W m - 1 := by rw [W1, if_neg (by intro h; rw [h] at hj; simp at hj)]
    omega

theorem start_cost {m : Node} {a : SNode} {b : Ref} {B : Nat} (hb : RefRep LB gb e.stB b m)
    (hB : cost a ≤ B) {x : Bytes → Bytes → SNode → Res ε Unit × SNode} (hx : ∀ p, loadPrefix e.SA e.stA a.pfx = .ok p → Costs (x p m.pfx a) B) :
    Costs (stBind (loadPrefix e.SA e.stA a.pfx, a) fun ap a => stBind (loadPrefix e.SB e.stB b.pfx, a) fun bp a => x ap bp a) B :=
  costs_read hB (Q := fun p => loadPrefix e.SA e.stA a.pfx = .ok p) (by cases e1 : loadPrefix e.SA e.stA a.pfx <;> first | rfl | trivial) fun ap h1 =>
    costs_read hB (okP_of_rpost (loadPrefix_rep hb.pfx)) fun bp h2 => by rw [h2]; exact hx ap h1

theorem splitC {k : Nat} {a : SNode} (ha : Ex I a) :
    UA (splitS e.SA e.stA k a) (fun _ a' => ExC' I a' ∧ base a' ≤ cost a + 3 ∧ cost a' ≤ cost a + 3) fun a' => cost a' ≤ cost a := by
  have h1 := split_cost (S := e.SA) (st := e.stA) k a
  have h2 := split_both (S := e.SA) (st := e.stA) ha k
  generalize splitS e.SA e.stA k a = x at h1 h2
  obtain ⟨r, a'⟩ := x
  cases r with
  | ok u =>
    obtain ⟨h3, l, h4, h5⟩ := h1
    have := base_arc h4 h5
    exact ⟨kids_of h2.1, by omega, h3⟩
  | err e => exact h1
  | panic => exact h1
  | deep => exact h1

theorem setC {x : Res ε BlobV} {a : SNode} {C B : Nat} (h : ExC' I a) (hb : base a ≤ C) (hc : cost a ≤ B) :
    UA (stBind (x, a) fun v a => (.ok (), a.setVal v)) (fun (_ : Unit) a' => ExC' I a' ∧ base a' ≤ C + 1) fun a' => cost a' ≤ B := by
  cases x with
  | ok v =>
    have := base_setVal a v
    have := big_le v
    exact ⟨setVal_kids h v, by omega⟩
  | err e => exact hc
  | panic => exact hc
  | deep => exact hc

theorem outer_cost (hI : Closed I e.SA e.stA) (h0 : First I e.SA e.stA) {cs : SConv ε} (hc : ConvC (e := e) LB gb cs) {f : BlobV → BlobV → Res ε BlobV} (hab : Keeps e.abandon) :
    ∀ fuel, RecC I LB gb (outerCombineWithS e cs f fuel)
  | 0 => recC_of h0 fun a b m B ha hb hB hS => by show cost a ≤ B; omega
  | fuel + 1 => recC_of h0 fun a b m B ha hb h1 hS => by
    have hk := outerKidsC hc hab (outer_cost hI h0 hc (f := f) hab fuel)
    rw [outerCombineWithS]
    refine start_cost (x := fun ap bp a => _) hb (by omega) fun p hp => costs_canon ?_
    obtain ⟨j, hj, hj1, hj2, hj3⟩ := commonPrefix_cut (Node.mk p none none) m
    have hS := hS p hp
    rw [show (Node.mk p none none).pfx = p from rfl] at hj hj1
    have := base_le a
    split
    · rename_i hn
      refine costs_bind (Q := fun _ a' => ExC' I a' ∧ base a' ≤ cost a + 3 ∧ cost a' ≤ cost a + 3) ?_ fun _ a1 h2 => ?_
      · split
        · exact ua_imp (splitC ha) (fun _ _ h => h) fun a' h => by have : cost a' ≤ cost a := h; omega
        · exact ⟨kids_of ha, by omega, by omega⟩
      · refine costs_bind (Q := fun _ a' => ExC' I a' ∧ base a' ≤ cost a + 4) ?_ fun _ a2 h3 =>
          both_cost hI hk h3.1 hb (by omega)
        have := cost_noVal a1
        have := base_noVal a1
        split
        · split
          · exact setC (setVal_kids h2.1 _) (by omega) (by omega)
          · exact setC h2.1 (by omega) (by omega)
        · exact ⟨h2.1, by omega⟩
    · rename_i hn
      split
      · refine short_cost hI hk (kids_of ha) hb ?_
        have := hS (by omega)
        omega
      · rename_i hn'
        refine costs_bind (Q := fun _ a' => ExC' I a' ∧ base a' ≤ cost a + 3 ∧ cost a' ≤ cost a + 3) ?_ fun _ a1 h2 => ?_
        · exact ua_imp (splitC ha) (fun _ _ h => h) fun a' h => by have : cost a' ≤ cost a := h; omega
        · have hl := loadChildren_cost (S := e.SA) (st := e.stA) a1
          generalize loadChildrenMutS e.SA e.stA a1 = x at hl
          obtain ⟨r, a2⟩ := x
          cases r with
          | ok ac =>
            obtain ⟨h3, h4, h5, h6⟩ := hl
            show Costs (stBind (cs.shortened b _, a2) fun x a => (.ok (), a.setArc (sortByFirstS (ac ++ [x])))) B
            refine costs_read (by omega) (hc.short b m _ hb) fun x hx => ?_
            have hx' : cost x ≤ 3 * m.nodes := hx
            have h7 := cost_setArc_le a2 (sortByFirstS (ac ++ [x]))
            rw [sort_cost, costL_append, h3, h4] at h7
            have h8 : nodesL m.kids + 1 = m.nodes := by
              cases m with
              | mk p v c => cases c <;> simp [nodes, nodesO, Node.kids, Node.ch, nodesL]; omega
            have h9 := six_leL m.kids
            show cost (a2.setArc (sortByFirstS (ac ++ [x]))) ≤ B
            simp only [costL] at h7
            omega
          | err e => have h3 : cost a2 ≤ base a1 := hl; show cost a2 ≤ B; omega
          | panic => have h3 : cost a2 ≤ base a1 := hl; show cost a2 ≤ B; omega
          | deep => have h3 : cost a2 ≤ base a1 := hl; show cost a2 ≤ B; omega

theorem inner_cost (hI : Closed I e.SA e.stA) (h0 : First I e.SA e.stA) {f : BlobV → BlobV → Res ε BlobV} (hab : Keeps e.abandon) :
    ∀ fuel, RecC I LB gb (innerCombineWithS e f fuel)
  | 0 => recC_of h0 fun a b m B ha hb hB hS => by show cost a ≤ B; omega
  | fuel + 1 => recC_of h0 fun a b m B ha hb h1 hS => by
    have hk := innerKidsC hab (inner_cost hI h0 (f := f) hab fuel)
    have h2 := cost_noVal a
    have h3 := base_noVal a
    have h4 := base_le a
    have h5 := base_le (a.setVal .none)
    rw [innerCombineWithS]
    refine start_cost (x := fun ap bp a => _) hb (by omega) fun p hp => costs_canon ?_
    obtain ⟨j, hj, hj1, hj2, hj3⟩ := commonPrefix_cut (Node.mk p none none) m
    have hS := hS p hp
    rw [show (Node.mk p none none).pfx = p from rfl] at hj hj1
    split
    · refine costs_bind (Q := fun _ a' => ExC' I a' ∧ base a' ≤ cost a + 2) ?_ fun _ a2 h3 =>
          both_cost hI hk h3.1 hb (by omega)
      split
      · exact setC (setVal_kids (kids_of ha) _) (by omega) (by omega)
      · exact ⟨setVal_kids (kids_of ha) _, by omega⟩
    · rename_i hn
      split
      · refine short_cost hI hk (setVal_kids (kids_of ha) _) hb ?_
        have := hS (by omega)
        omega
      split
      · refine costs_bind (Q := fun _ a' => ExC' I a' ∧ base a' ≤ cost a + 3 ∧ cost a' ≤ cost a + 3) ?_ fun _ a1 h2 =>
          both_cost hI hk h2.1 hb (by omega)
        exact ua_imp (splitC ha) (fun _ _ h => h) fun a' h => by have : cost a' ≤ cost a := h; omega
      · have := nothing_cost a
        show cost ((a.setVal .none).noChildren) ≤ B
        omega

theorem left_cost (hI : Closed I e.SA e.stA) (h0 : First I e.SA e.stA) {f : BlobV → BlobV → Res ε BlobV} (hab : Keeps e.abandon) :
    ∀ fuel, RecC I LB gb (leftCombineWithS e f fuel)
  | 0 => recC_of h0 fun a b m B ha hb hB hS => by show cost a ≤ B; omega
  | fuel + 1 => recC_of h0 fun a b m B ha hb h1 hS => by
    have hk := leftKidsC hab (left_cost hI h0 (f := f) hab fuel)
    have h2 := cost_noVal a
    have h3 := base_noVal a
    have h4 := base_le a
    rw [leftCombineWithS]
    refine start_cost (x := fun ap bp a => _) hb (by omega) fun p hp => costs_canon ?_
    obtain ⟨j, hj, hj1, hj2, hj3⟩ := commonPrefix_cut (Node.mk p none none) m
    have hS := hS p hp
    rw [show (Node.mk p none none).pfx = p from rfl] at hj hj1
    split
    · refine costs_bind (Q := fun _ a' => ExC' I a' ∧ base a' ≤ cost a + 2) ?_ fun _ a2 h3 =>
          both_cost hI hk h3.1 hb (by omega)
      split
      · split
        · exact setC (setVal_kids (kids_of ha) _) (by omega) (by omega)
        · exact ⟨kids_of ha, by omega⟩
      · exact ⟨kids_of ha, by omega⟩
    · rename_i hn
      split
      · refine short_cost hI hk (kids_of ha) hb ?_
        have := hS (by omega)
        omega
      split
      · refine costs_bind (Q := fun _ a' => ExC' I a' ∧ base a' ≤ cost a + 3 ∧ cost a' ≤ cost a + 3) ?_ fun _ a1 h2 =>
          both_cost hI hk h2.1 hb (by omega)
        exact ua_imp (splitC ha) (fun _ _ h => h) fun a' h => by have : cost a' ≤ cost a := h; omega
      · show cost a ≤ B
        omega

theorem retain_cost (hI : Closed I e.SA e.stA) (h0 : First I e.SA e.stA) {f : BlobV → Res ε Bool} (hab : Keeps e.abandon) :
    ∀ fuel, RecC I LB gb (retainPrefixWithS e f fuel)
  | 0 => recC_of h0 fun a b m B ha hb hB hS => by show cost a ≤ B; omega
  | fuel + 1 => recC_of h0 fun a b m B ha hb h1 hS => by
    have hk := innerKidsC hab (retain_cost hI h0 (f := f) hab fuel)
    have h2 := cost_noVal a
    have h3 := base_noVal a
    have h4 := base_le a
    have h5 := base_le (a.setVal .none)
    have h6 := nothing_cost a
    rw [retainPrefixWithS]
    refine start_cost (x := fun ap bp a => _) hb (by omega) fun p hp => costs_canon ?_
    obtain ⟨j, hj, hj1, hj2, hj3⟩ := commonPrefix_cut (Node.mk p none none) m
    have hS := hS p hp
    rw [show (Node.mk p none none).pfx = p from rfl] at hj hj1
    split
    · refine costs_bind (Q := fun _ a' => a' = a) ?_ fun go a' h => ?_
      · split
        · exact rfl
        · rename_i bv _
          cases f bv with
          | ok x => exact rfl
          | err e => show cost a ≤ B; omega
          | panic => show cost a ≤ B; omega
          | deep => show cost a ≤ B; omega
      · subst h
        split
        · exact both_cost hI hk (setVal_kids (kids_of ha) _) hb (by omega)
        · show cost a' ≤ B; omega
    · rename_i hn
      split
      · split
        · refine costs_bind (Q := fun _ a' => ExC' I a' ∧ base a' ≤ cost a + 3 ∧ cost a' ≤ cost a + 3) ?_ fun _ a1 h2 =>
            both_cost hI hk h2.1 hb (by omega)
          exact ua_imp (splitC ha) (fun _ _ h => h) fun a' h => by have : cost a' ≤ cost a := h; omega
        · rename_i bv _
          cases f bv with
          | ok x =>
            show cost (if !x then (a.setVal .none).noChildren else a) ≤ B
            split <;> omega
          | err e => show cost a ≤ B; omega
          | panic => show cost a ≤ B; omega
          | deep => show cost a ≤ B; omega
      split
      · refine short_cost hI hk (setVal_kids (kids_of ha) _) hb ?_
        have := hS (by omega)
        omega
      · show cost ((a.setVal .none).noChildren) ≤ B
        omega

theorem remove_cost (hI : Closed I e.SA e.stA) (h0 : First I e.SA e.stA) {f : BlobV → Res ε Bool} (hab : Keeps e.abandon) :
    ∀ fuel, RecC I LB gb (removePrefixWithS e f fuel)
  | 0 => recC_of h0 fun a b m B ha hb hB hS => by show cost a ≤ B; omega
  | fuel + 1 => recC_of h0 fun a b m B ha hb h1 hS => by
    have hk := leftKidsC hab (remove_cost hI h0 (f := f) hab fuel)
    have h4 := base_le a
    have h6 := nothing_cost a
    rw [removePrefixWithS]
    refine start_cost (x := fun ap bp a => _) hb (by omega) fun p hp => costs_canon ?_
    obtain ⟨j, hj, hj1, hj2, hj3⟩ := commonPrefix_cut (Node.mk p none none) m
    have hS := hS p hp
    rw [show (Node.mk p none none).pfx = p from rfl] at hj hj1
    split
    · refine costs_bind (Q := fun _ a' => a' = a) ?_ fun nuke a' h => ?_
      · split
        · exact rfl
        · rename_i bv _
          cases f bv with
          | ok x => exact rfl
          | err e => show cost a ≤ B; omega
          | panic => show cost a ≤ B; omega
          | deep => show cost a ≤ B; omega
      · subst h
        split
        · show cost ((a'.setVal .none).noChildren) ≤ B; omega
        · refine costs_bind (Q := fun _ a1 => ExC' I a1 ∧ base a1 ≤ cost a' + 3) ?_ fun _ a1 h2 =>
            both_cost hI hk h2.1 hb (by omega)
          split
          · exact ua_imp (splitC ha) (fun _ _ h => ⟨h.1, h.2.1⟩) fun x h => by have : cost x ≤ cost a' := h; omega
          · exact ⟨kids_of ha, by omega⟩
    · rename_i hn
      split
      · refine short_cost hI hk (kids_of ha) hb ?_
        have := hS (by omega)
        omega
      · show cost a ≤ B
        omega

end

/-! ### Changed trees -/

theorem first_ids {ex : Bool} {σ ε : Type} {S : BlobStore σ ε} {L : Lawful S} (st : σ) : First (ids ex L st) S st := by
  rintro i ⟨hl, p', h⟩ p hp
  rcases h with ⟨hl', e⟩ | ⟨_, _, c, j, hc, _, hh, e⟩
  · exact (lit_ref hl' hl (x := []) (y := []) (by rw [e])).elim
  · cases ref_inj e
    have hp : S.read st j = .ok p := hp
    rcases L.read_has hh with e | ⟨x, e⟩ <;> rw [e] at hp <;> cases hp
    exact hc

theorem cost_of {σ τ ε : Type} {e : UEnv σ τ ε} {I : Ids} {LB : Lawful e.SB} {gb : Bool} {op : Nat → SNode → Ref → Res ε Unit × SNode} {a a' : SNode} {b : Ref} {m : Node} {r} {N K : Nat}
    (hrec : ∀ fuel, RecC I LB gb (op fuel)) (ha : Ex I a) (hb : RefRep LB gb e.stB b m) (hc : cost a ≤ N) (hm : W m ≤ K) (ho : ∃ fuel, op fuel a b = (r, a')) : cost a' ≤ N + K := by
  obtain ⟨fuel, ho⟩ := ho
  have := (hrec fuel a b m ha hb).1
  rw [ho] at this
  exact Nat.le_trans this (by omega)

theorem changed_cost {σ ε : Type} {S : BlobStore σ ε} {L : Lawful S} {st : σ} {a : SNode} {N : Nat} (h : Changed S L st a N) : FromDocs false S L st a ∧ cost a ≤ N := by
  have other : ∀ {τ : Type} {T : BlobStore τ ε} {M : Lawful T} {long : Bool} {st' : τ} {b : SNode} {m' : Spec.Map} {ks : List Bytes},
      Att T M long st' b m' → (∀ k v, m' k = some v → k ∈ ks) → ∃ u, RefRep M long st' (.owned b) u ∧ W u ≤ sizeOfKeys ks := fun h hk => by
    obtain ⟨u, ho, hs, hr, hd⟩ := att_stands h
    exact ⟨u, hr, size_le ho hs fun k v h => hk k v (by rw [← hd, h])⟩
  induction h with
  | attached he => exact ⟨.attach he, Nat.le_of_eq (tryAttached_cost he)⟩
  | saved h he => exact ⟨.reattach h he, Nat.le_of_eq (tryReattach_cost he)⟩
  | loaded hh hn he => exact ⟨.foreign hh hn he, Nat.le_of_eq (tryLoad_cost he)⟩
  | reloaded h he hm hl => exact ⟨.load h he hm hl, Nat.le_of_eq (tryLoad_cost hl)⟩
  | later _ hm ih => exact ⟨.later ih.1 hm, ih.2⟩
  | @insert st a a' N r dbg ab k v hab _ ho ih =>
    have hs : RefRep (lawfulDetached ε) false () (singleRef k v) (single k v) := embed_rep (single k v)
    exact ⟨.insert dbg k v hab ih.1 ho, cost_of (e := singleEnv S st dbg ab) (LB := lawfulDetached ε) (gb := false)
      (fun fuel => outer_cost (closed_ids st) (first_ids st) (convC_downcast st false dbg ab) hab fuel) (self_ex ih.1) hs ih.2 (Nat.le_of_eq (W_single k v)) (outcome_at ho)⟩
  | @remove st a a' N r dbg ab k hab _ ho ih =>
    have hs : RefRep (lawfulDetached ε) false () (singleRef k []) (single k []) := embed_rep (single k [])
    exact ⟨.remove dbg k hab ih.1 ho, cost_of (e := singleEnv S st dbg ab) (LB := lawfulDetached ε) (gb := false)
      (fun fuel => left_cost (closed_ids st) (first_ids st) hab fuel) (self_ex ih.1) hs ih.2 (Nat.le_of_eq (W_single k [])) (outcome_at ho)⟩
  | @removePrefix st a a' N r dbg ab k hab _ ho ih =>
    have hs : RefRep (lawfulDetached ε) false () (singleRef k []) (single k []) := embed_rep (single k [])
    exact ⟨.removePrefix dbg k hab ih.1 ho, cost_of (e := singleEnv S st dbg ab) (LB := lawfulDetached ε) (gb := false)
      (fun fuel => remove_cost (closed_ids st) (first_ids st) hab fuel) (self_ex ih.1) hs ih.2 (Nat.le_of_eq (W_single k [])) (outcome_at ho)⟩
  | @filterPrefix st a a' N p s _ ho ih =>
    refine ⟨.filterPrefix p s ih.1 ho, ?_⟩
    obtain ⟨fuel, ho⟩ := outcome_at ho
    have h5 := filterPrefixS_cost (S := S) (st := st) fuel a p s
    rw [ho] at h5
    exact Nat.le_trans h5 (by have := ih.2; omega)
  | @outerDowncast M long st a a' b N m' ks r dbg ab f hab _ hb hk hf ho ih =>
    obtain ⟨u, u1, u2⟩ := other hb hk
    exact ⟨.outerDowncast dbg hab ih.1 (.att rfl hb) hf ho, cost_of (e := ⟨S, st, detachedStore ε, (), dbg, ab⟩) (LB := M) (gb := long)
      (fun fuel => outer_cost (closed_ids st) (first_ids st) (convC_downcast st long dbg ab) hab fuel) (self_ex ih.1) u1 ih.2 u2 (outcome_at ho)⟩
  | @outerIdentity long st a a' b N m' ks r dbg ab f hab _ hb hk hf ho ih =>
    obtain ⟨u, u1, u2⟩ := other hb hk
    exact ⟨.outerIdentity dbg hab ih.1 (.att rfl hb) hf ho, cost_of (e := ⟨S, st, S, st, dbg, ab⟩) (LB := L) (gb := long)
      (fun fuel => outer_cost (closed_ids st) (first_ids st) (convC_identity st long dbg ab) hab fuel) (self_ex ih.1) u1 ih.2 u2 (outcome_at ho)⟩
  | @innerWith τ T M long st st' a a' b N m' ks r dbg ab f hab _ hb hk hf ho ih =>
    obtain ⟨u, u1, u2⟩ := other hb hk
    exact ⟨.innerWith dbg hab ih.1 (.att rfl hb) hf ho, cost_of (e := ⟨S, st, T, st', dbg, ab⟩) (LB := M) (gb := long)
      (fun fuel => inner_cost (closed_ids st) (first_ids st) hab fuel) (self_ex ih.1) u1 ih.2 u2 (outcome_at ho)⟩
  | @leftWith τ T M long st st' a a' b N m' ks r dbg ab f hab _ hb hk hf ho ih =>
    obtain ⟨u, u1, u2⟩ := other hb hk
    exact ⟨.leftWith dbg hab ih.1 (.att rfl hb) hf ho, cost_of (e := ⟨S, st, T, st', dbg, ab⟩) (LB := M) (gb := long)
      (fun fuel => left_cost (closed_ids st) (first_ids st) hab fuel) (self_ex ih.1) u1 ih.2 u2 (outcome_at ho)⟩
  | @removeWith τ T M long st st' a a' b N m' ks r dbg ab p hab _ hb hk ho ih =>
    obtain ⟨u, u1, u2⟩ := other hb hk
    exact ⟨.removeWith dbg p hab ih.1 (.att rfl hb) ho, cost_of (e := ⟨S, st, T, st', dbg, ab⟩) (LB := M) (gb := long)
      (fun fuel => remove_cost (closed_ids st) (first_ids st) hab fuel) (self_ex ih.1) u1 ih.2 u2 (outcome_at ho)⟩
  | @retainWith τ T M long st st' a a' b N m' ks r dbg ab p hab _ hb hk ho ih =>
    obtain ⟨u, u1, u2⟩ := other hb hk
    exact ⟨.retainWith dbg p hab ih.1 (.att rfl hb) ho, cost_of (e := ⟨S, st, T, st', dbg, ab⟩) (LB := M) (gb := long)
      (fun fuel => retain_cost (closed_ids st) (first_ids st) hab fuel) (self_ex ih.1) u1 ih.2 u2 (outcome_at ho)⟩

theorem changed_writes {σ ε : Type} {S : BlobStore σ ε} {L : Lawful S} {st : σ} {a : SNode} {N : Nat} (h : Changed S L st a N) : writesOf S st a ≤ N + 1 := by
  have h1 := (changed_cost h).2
  have h2 := (reattach_writes (S := S) a st 0).2.2
  unfold writesOf
  omega

theorem computes_noNew {σ τ ε : Type} {S : BlobStore σ ε} {T : BlobStore τ ε} {L : Lawful S} {M : Lawful T} {st : σ} {st' : τ} {f : BlobV → BlobV → Res ε BlobV} {F}
    (h : Computes L st M st' f F) : NoNewIds false L st M st' f := by
  have val : ∀ {σ : Type} {S : BlobStore σ ε} {L : Lawful S} {st : σ} {v : BlobV}, v ≠ .none → HandOrStored false L st v → ∃ x, IsValue L st v x := by
    intro σ S L st v hn hv
    cases v with
    | data d => exact ⟨d, .inl rfl⟩
    | id i =>
      rcases hv i rfl with rfl | ⟨hl, d, hh, _⟩
      · exact absurd rfl hn
      · exact ⟨d, .inr ⟨i, rfl, fun e => hn (by rw [e]; rfl), by omega, hh⟩⟩
  intro av bv v h1 h2 ha hb e i hi
  obtain ⟨x, hx⟩ := val h1 ha
  obtain ⟨y, hy⟩ := val h2 hb
  rcases (h av bv x y hx hy).2 v e with ⟨e1, _⟩ | ⟨z, hz, _⟩
  · rw [e1] at hi; cases hi; exact .inl rfl
  · rcases hz with e1 | ⟨j, e1, hn, hl, hh⟩ <;> rw [e1] at hi <;> cases hi
    exact .inr ⟨by omega, z, hh, fun e => by cases e⟩

end Radix.Self
