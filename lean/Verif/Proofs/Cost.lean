import Verif.Proofs.Touched
import Verif.Stored.Cost

/-
Proof-internal: how many writes a tree still needs, and how much an in-place operation adds to it.
-/

set_option linter.unusedVariables false

namespace Radix
open Node

/-- A blob that is written on its own. -/
def big : BlobV → Nat
  | .data d => if d.length < 128 then 0 else 1
  | .id _ => 0

mutual
/-- The number of writes that `serialize` makes. -/
def cost : SNode → Nat
  | .arc p v l => big p + big v + (if l.isEmpty then 0 else 1) + costL l
  | .ref p v _ => big p + big v
/-- The same for a list. -/
def costL : List SNode → Nat
  | [] => 0
  | a :: l => cost a + costL l
end

theorem big_le (b : BlobV) : big b ≤ 1 := by
  cases b with
  | data d => simp only [big]; split <;> omega
  | id i => exact Nat.zero_le _

theorem costL_append (l m : List SNode) : costL (l ++ m) = costL l + costL m := by
  induction l with
  | nil => simp [costL]
  | cons a l ih => simp only [List.cons_append, costL, ih]; omega

theorem costL_sublist {l m : List SNode} (h : l.Sublist m) : costL l ≤ costL m := by
  induction h with
  | slnil => exact Nat.le_refl _
  | cons a h ih => simp only [costL]; omega
  | cons_cons a h ih => simp only [costL]; omega

/-- The cost of the children of a node. -/
def costC : List SNode ⊕ Bytes → Nat
  | .inl l => (if l.isEmpty then 0 else 1) + costL l
  | .inr _ => 0

theorem cost_eq (a : SNode) : cost a = big a.pfx + big a.val + costC a.children := by
  cases a <;> simp only [cost, SNode.pfx, SNode.val, SNode.children, costC] <;> omega

theorem cost_ofParts (p v : BlobV) (c) : cost (.ofParts p v c) = big p + big v + costC c := by
  cases c <;> simp only [SNode.ofParts, cost, costC] <;> omega

theorem cost_setArc (a : SNode) (l : List SNode) :
    cost (a.setArc l) = big a.pfx + big a.val + ((if l.isEmpty then 0 else 1) + costL l) := by
  simp only [SNode.setArc, cost]; omega

theorem costC_inl (l : List SNode) : costC (.inl l) ≤ 1 + costL l := by
  simp only [costC]; split <;> omega

theorem readBlob_small {bs rest : Bytes} {b : BlobV} (h : readBlob bs = some (b, rest)) : big b = 0 := by
  cases bs with
  | nil => cases h
  | cons x xs =>
    simp only [readBlob] at h
    split at h
    · cases h
    · simp only [Option.some.injEq, Prod.mk.injEq] at h
      rw [← h.1]
      split
      · rfl
      · have : (List.take (Hdr.len x) xs).length < 128 := by
          have : Hdr.len x < 128 := by
            have : x &&& 127 ≤ 127 := UInt8.and_le_right
            have := UInt8.le_iff_toNat_le.1 this
            exact Nat.lt_succ_of_le this
          rw [List.length_take]; omega
        simp only [big, if_pos this]

theorem readOne_small {bs rest : Bytes} {r : Rec} (h : readOne bs = some (r, rest)) : big r.pfx = 0 ∧ big r.val = 0 := by
  simp only [readOne, Option.bind_eq_bind, Option.bind_eq_some_iff, Prod.exists, Option.pure_def,
    Option.some.injEq, Prod.mk.injEq] at h
  obtain ⟨p, b1, h1, v, b2, h2, c, b3, h3, rfl, rfl⟩ := h
  exact ⟨readBlob_small h1, readBlob_small h2⟩

theorem toOwned_cost {ε : Type} {r : Rec} {a : SNode} (h : big r.pfx = 0 ∧ big r.val = 0) (e : (r.toOwned : Res ε SNode) = .ok a) :
    cost a = 0 := by
  unfold Rec.toOwned at e
  split at e
  · cases e; simp only [cost, h.1, h.2]
  · cases e

/-- Everything that is read from a buffer costs nothing. -/
theorem collect_cost {ε : Type} : ∀ (bs : Bytes) (l : List SNode), (collectIter (.borrowed bs) : Res ε _) = .ok l → costL l = 0 := by
  intro bs
  generalize hn : bs.length = n
  induction n using Nat.strongRecOn generalizing bs with
  | ind n ih =>
    intro l h
    cases hx : TIter.next (.borrowed bs) with
    | none => rw [collectIter_nil hx] at h; cases h; rfl
    | some x =>
      obtain ⟨r, it⟩ := x
      rw [collectIter_cons hx] at h
      simp only [TIter.next, Option.map_eq_some_iff, Prod.mk.injEq, Prod.exists] at hx
      obtain ⟨r, rest, h1, rfl, rfl⟩ := hx
      cases e1 : (Ref.toOwned (.borrowed r) : Res ε SNode) with
      | ok a =>
        rw [e1] at h
        cases e2 : (collectIter (.borrowed rest) : Res ε _) with
        | ok l' =>
          rw [e2] at h
          cases h
          have := ih rest.length (by have := readOne_lt h1; omega) rest rfl _ e2
          have := toOwned_cost (readOne_small h1) e1
          simp only [costL]; omega
        | _ => rw [e2] at h; cases h
      | _ => rw [e1] at h; cases h

section
variable {σ ε : Type} {S : BlobStore σ ε} {st : σ}

/-- The cost of a node whose children have been loaded. -/
def base (a : SNode) : Nat :=
  big a.pfx + big a.val + 1 + match a.children with
    | .inl l => costL l
    | .inr _ => 0

theorem cost_le_base (a : SNode) : cost a ≤ base a := by
  cases a with
  | arc p v l => simp only [base, cost, SNode.pfx, SNode.val, SNode.children]; split <;> omega
  | ref p v i => simp only [base, cost, SNode.pfx, SNode.val, SNode.children]; omega

theorem base_le (a : SNode) : base a ≤ cost a + 1 := by
  cases a with
  | arc p v l => simp only [base, cost, SNode.pfx, SNode.val, SNode.children]; omega
  | ref p v i => simp only [base, cost, SNode.pfx, SNode.val, SNode.children]; omega

theorem base_arc {a : SNode} {l : List SNode} (h : a.children = .inl l) (hl : l ≠ []) : base a ≤ cost a := by
  cases a with
  | arc p v l' =>
    cases h
    cases l with
    | nil => exact absurd rfl hl
    | cons x l => simp [base, cost, SNode.pfx, SNode.val, SNode.children]
  | ref p v i => cases h

theorem cost_setArc_le (a : SNode) (l : List SNode) : cost (a.setArc l) ≤ big a.pfx + big a.val + 1 + costL l := by
  rw [cost_setArc]; split <;> omega

theorem loadChildren_cost (a : SNode) : UA (loadChildrenMutS S st a)
    (fun ac a' => a'.pfx = a.pfx ∧ a'.val = a.val ∧ big a.pfx + big a.val + 1 + costL ac ≤ base a ∧ cost a' ≤ base a)
    fun a' => cost a' ≤ base a := by
  cases a with
  | arc p v l =>
    refine ⟨rfl, rfl, ?_, ?_⟩
    · simp only [SNode.pfx, SNode.val, SNode.children, base]; omega
    · exact cost_le_base (.arc p v l)
  | ref p v i =>
    simp only [loadChildrenMutS, SNode.children]
    cases i with
    | nil =>
      refine ⟨rfl, rfl, ?_, ?_⟩
      · simp [SNode.pfx, SNode.val, SNode.children, base, costL]
      · simp [SNode.setArc, SNode.pfx, SNode.val, SNode.children, base, cost, costL]
    | cons c i =>
      simp only [loadIter]
      cases S.read st i with
      | ok d =>
        simp only [Res.bind]
        cases e : (collectIter (.borrowed d) : Res ε _) with
        | ok l =>
          have := collect_cost _ _ e
          refine ⟨rfl, rfl, ?_, ?_⟩
          · simp only [SNode.pfx, SNode.val, SNode.children, base]; omega
          · have := cost_setArc_le (.ref p v (c :: i)) l
            simp only [SNode.pfx, SNode.val, SNode.children, base] at this ⊢; omega
        | _ => exact cost_le_base _
      | _ => exact cost_le_base _

theorem merge_cost (a : SNode) : cost a.merge ≤ cost a := by
  unfold SNode.merge
  split
  · rename_i c h1 h2
    have h3 := cost_eq c
    rw [cost_ofParts, cost_eq a, h2]
    have := big_le (.data (a.pfx.slice ++ c.pfx.slice))
    have h4 : costC (.inl [c]) = 1 + cost c := by simp [costC, costL]
    omega
  · exact Nat.le_refl _

theorem cost_empty : cost SNode.empty = 0 := by decide

theorem canon_cost (dbg : Bool) (a : SNode) : cost (canonicalizeS (ε := ε) dbg a).2 ≤ cost a := by
  unfold canonicalizeS
  split
  · exact Nat.le_refl _
  · have := merge_cost a
    dsimp only
    split
    · rw [cost_empty]; exact Nat.zero_le _
    · exact this

theorem split_cost (k : Nat) (a : SNode) : UA (splitS S st k a) (fun _ a' => cost a' ≤ cost a + 3 ∧ ∃ l, a'.children = .inl l ∧ l ≠ [])
    fun a' => cost a' ≤ cost a := by
  unfold splitS
  cases loadPrefix S st a.pfx with
  | ok p =>
    refine ⟨?_, _, rfl, by simp⟩
    simp only [cost, costL, cost_ofParts, cost_eq a, List.isEmpty_cons]
    have := big_le (.data (p.take k))
    have := big_le (.data (p.drop k))
    have : big BlobV.none = 0 := rfl
    simp only [Bool.false_eq_true, if_false]
    omega
  | _ => exact Nat.le_refl _

theorem cost_setVal (a : SNode) (v : BlobV) : cost (a.setVal v) + big a.val = cost a + big v := by
  simp only [SNode.setVal, cost_ofParts, cost_eq a]; omega

theorem cost_noVal (a : SNode) : cost (a.setVal .none) ≤ cost a := by
  have := cost_setVal a .none
  have : big BlobV.none = 0 := rfl
  omega

theorem cost_noChildren (a : SNode) : cost a.noChildren ≤ cost a := by
  simp only [SNode.noChildren, cost, cost_eq a]; omega

/-! ### How much an operation adds -/

mutual
/-- The most that combining with a tree adds. -/
def W : Node → Nat
  | .mk p v none => p.length + 6
  | .mk p v (some l) => p.length + 6 + WL l
/-- The same for a list. -/
def WL : List Node → Nat
  | [] => 0
  | m :: l => W m + WL l
end

theorem W_eq (m : Node) : W m = m.pfx.length + 6 + WL m.kids := by
  cases m with
  | mk p v c => cases c <;> simp [W, Node.pfx, Node.kids, Node.ch, WL]

theorem WL_append (l m : List Node) : WL (l ++ m) = WL l + WL m := by
  induction l with
  | nil => simp [WL]
  | cons a l ih => simp only [List.cons_append, WL, ih]; omega

/-- With a partner that begins with the same byte it is one less. -/
def W1 (m : Node) : Nat := W m - if m.pfx = [] then 0 else 1

theorem W1_le (m : Node) : W1 m ≤ W m := Nat.sub_le _ _

/-- The same for a list. -/
def W1L : List Node → Nat
  | [] => 0
  | m :: l => W1 m + W1L l

theorem W1L_le (l : List Node) : W1L l ≤ WL l := by
  induction l with
  | nil => exact Nat.le_refl _
  | cons m l ih => have := W1_le m; simp only [W1L, WL]; omega

mutual
theorem six_le : ∀ m : Node, 6 * m.nodes + m.pfx.length ≤ W m
  | .mk p v none => by simp only [nodes, nodesO, W, Node.pfx]; omega
  | .mk p v (some l) => by have := six_leL l; simp only [nodes, nodesO, W, Node.pfx]; omega
theorem six_leL : ∀ l : List Node, 6 * nodesL l ≤ WL l
  | [] => by simp only [nodesL, WL]; omega
  | m :: l => by have := six_le m; have := six_leL l; simp only [nodesL, WL]; omega
end

theorem three_le (m : Node) : 3 * m.nodes ≤ W1 m := by
  have := six_le m
  have := nodes_pos m
  simp only [W1]
  split <;> omega

mutual
theorem rep_cost {σ ε : Type} {S : BlobStore σ ε} {L : Lawful S} {g : Bool} {st : σ} : ∀ (n : Node) {a : SNode}, Rep L g st a n → cost a ≤ 3 * n.nodes
  | .mk p v c, a, h => by
    have := rep_costC c (rep_iff.1 h).2.2
    have := big_le a.pfx
    have := big_le a.val
    rw [cost_eq]
    simp only [nodes]
    omega
theorem rep_costC {σ ε : Type} {S : BlobStore σ ε} {L : Lawful S} {g : Bool} {st : σ} : ∀ (c : Option (List Node)) {ch}, RepC L g st ch c →
    costC ch ≤ 1 + 3 * nodesO c
  | none, ch, h => by simp only [RepC] at h; subst h; exact Nat.zero_le _
  | some l, ch, h => by
    simp only [RepC] at h
    rcases h with ⟨as, rfl, h⟩ | ⟨rs, i, bs, rfl, h⟩
    · have := rep_costL l h
      have := costC_inl as
      simp only [nodesO]; omega
    · exact Nat.zero_le _
theorem rep_costL {σ ε : Type} {S : BlobStore σ ε} {L : Lawful S} {g : Bool} {st : σ} : ∀ (l : List Node) {as}, RepL L g st as l →
    costL as ≤ 3 * nodesL l
  | [], as, h => by simp only [RepL] at h; subst h; exact Nat.zero_le _
  | m :: l, as, h => by
    simp only [RepL] at h
    obtain ⟨a, as', rfl, h1, h2⟩ := h
    have := rep_cost m h1
    have := rep_costL l h2
    simp only [costL, nodesL]; omega
end

end

section
variable {σ τ ε : Type} {e : UEnv σ τ ε} {LA : Lawful e.SA} {LB : Lawful e.SB} {ga gb : Bool}

/-- What is known of the recursive calls. -/
def RecC (LA : Lawful e.SA) (LB : Lawful e.SB) (ga gb : Bool) (rec : SNode → Ref → Res ε Unit × SNode) : Prop :=
  ∀ a b n m, Rep LA ga e.stA a n → RefRep LB gb e.stB b m → cost (rec a b).2 ≤ cost a + W m ∧
    (n.firstByte = m.firstByte → cost (rec a b).2 ≤ cost a + W1 m)

theorem loop_cost {rec : SNode → Ref → Res ε Unit × SNode} {keep : Bool} {greater : Ref → Res ε (Option SNode)}
    {ab : List SNode → List SNode → List SNode} (hab : Keeps ab) (hrec : RecC LA LB ga gb rec)
    (hgr : ∀ b m, RefRep LB gb e.stB b m → OkP (greater b) fun o => ∀ x, o = some x → cost x ≤ W1 m)
    {sn mn : List Node} {done src : List SNode} {it : TIter} (hs : RepL LA ga e.stA src sn) (hi : IterRep LB gb e.stB it mn) :
    costL (loopS rec keep greater ab done src it).2 ≤ costL done + costL src + W1L mn := by
  have hk : ∀ d s, costL (ab d s) ≤ costL d + costL s := fun d s => by
    rw [← costL_append]; exact costL_sublist (hab d s)
  generalize hm : sn.length + mn.length = k
  induction k using Nat.strongRecOn generalizing sn mn done src it with
  | ind k ih =>
    have hpush : ∀ {b : Ref} {m : Node} {mn' : List Node} {it' : TIter} {src : List SNode} {sn : List Node}, RefRep LB gb e.stB b m → IterRep LB gb e.stB it' mn' →
        RepL LA ga e.stA src sn → sn.length + mn'.length < k →
        costL (stBind (greater b, ab done src) fun o _ => loopS rec keep greater ab (done ++ o.toList) src it').2 ≤
          costL done + costL src + (W1 m + W1L mn') := by
      intro b m mn' it' src sn hb hi hs hl
      have hg := hgr b m hb
      cases e1 : greater b with
      | ok o =>
        rw [e1] at hg
        have := ih _ hl (done := done ++ o.toList) hs hi rfl
        rw [costL_append] at this
        have ho : costL o.toList ≤ W1 m := by
          cases o with
          | none => exact Nat.zero_le _
          | some x => have := hg x rfl; simp only [Option.toList, costL]; omega
        simp only [stBind]
        omega
      | _ => have := hk done src; simp only [stBind]; omega
    cases sn with
    | nil =>
      simp only [RepL] at hs; subst hs
      cases mn with
      | nil =>
        rw [loopS_nn (IterRep.next_nil hi)]
        simp only [costL, W1L]; omega
      | cons m mn =>
        obtain ⟨b, it', e1, hb, hi'⟩ := IterRep.next_cons hi
        rw [loopS_ns e1]
        exact hpush (src := []) (sn := []) hb hi' (by simp only [RepL]) (by simp only [List.length_cons, List.length_nil] at *; omega)
    | cons n sn =>
      obtain ⟨a, src, rfl, ha, hs'⟩ := (by simpa only [RepL] using hs :
        ∃ a as', src = a :: as' ∧ Rep LA ga e.stA a n ∧ RepL LA ga e.stA as' sn)
      have hkeep : costL (if keep = true then done ++ [a] else done) ≤ costL done + cost a := by
        split
        · rw [costL_append]; simp [costL]
        · omega
      cases mn with
      | nil =>
        rw [loopS_sn (IterRep.next_nil hi)]
        have := ih (sn.length + 0) (by simp only [List.length_cons, List.length_nil] at *; omega)
          (done := if keep = true then done ++ [a] else done) hs' hi rfl
        simp only [costL] at *; omega
      | cons m mn =>
        obtain ⟨b, it', e1, hb, hi'⟩ := IterRep.next_cons hi
        rw [loopS_ss e1]
        split
        · have := ih (sn.length + (mn.length + 1)) (by simp only [List.length_cons] at *; omega)
            (done := if keep = true then done ++ [a] else done) hs' hi rfl
          simp only [costL, W1L] at *; omega
        split
        · exact hpush hb hi' hs (by simp only [List.length_cons] at *; omega)
        · rename_i h1 h2
          have hf : n.firstByte = m.firstByte := by
            rw [rank_firstByte (rep_iff.1 ha).1, rank_firstByte hb.pfx] at h1 h2
            exact rank_inj (by omega)
          have hr := (hrec a b n m ha hb).2 hf
          cases e2 : (rec a b).1 with
          | ok u =>
            have := ih (sn.length + mn.length) (by simp only [List.length_cons] at *; omega)
              (done := if (rec a b).2.isEmpty = true then done else done ++ [(rec a b).2]) hs' hi' rfl
            have h3 : costL (if (rec a b).2.isEmpty = true then done else done ++ [(rec a b).2]) ≤ costL done + cost (rec a b).2 := by
              split
              · omega
              · rw [costL_append]; simp [costL]
            simp only [stBind, costL, W1L] at *; omega
          | _ =>
            have := hk done ((rec a b).2 :: src)
            simp only [stBind, costL, W1L] at *; omega

/-- What is known of the loops over children. -/
def KidsC (LA : Lawful e.SA) (LB : Lawful e.SB) (ga gb : Bool) (k : List SNode → Option TIter → Res ε Unit × List SNode) : Prop :=
  ∀ ac it sn mo, RepL LA ga e.stA ac sn → OIterRep LB gb e.stB it mo → costL (k ac it).2 ≤ costL ac + W1L (mo.getD [])

theorem innerKidsC {rec : SNode → Ref → Res ε Unit × SNode} (hab : Keeps e.abandon) (hrec : RecC LA LB ga gb rec) :
    KidsC LA LB ga gb (innerChildrenS e rec) := by
  intro ac it sn mo hs hi
  unfold innerChildrenS
  cases it with
  | none => exact Nat.zero_le _
  | some it =>
    cases mo with
    | none => exact hi.elim
    | some ml =>
      dsimp only
      split
      · exact Nat.le_add_right _ _
      · have := loop_cost (keep := false) (greater := fun _ => .ok none) (done := []) hab hrec
          (fun b m hb x hx => by cases hx) hs hi
        simpa [costL] using this

theorem leftKidsC {rec : SNode → Ref → Res ε Unit × SNode} (hab : Keeps e.abandon) (hrec : RecC LA LB ga gb rec) :
    KidsC LA LB ga gb (leftChildrenS e rec) := by
  intro ac it sn mo hs hi
  unfold leftChildrenS
  cases it with
  | none => exact Nat.le_add_right _ _
  | some it =>
    cases mo with
    | none => exact hi.elim
    | some ml =>
      dsimp only
      split
      · exact Nat.le_add_right _ _
      · have := loop_cost (keep := true) (greater := fun _ => .ok none) (done := []) hab hrec
          (fun b m hb x hx => by cases hx) hs hi
        simpa [costL] using this

/-- What is known of a converter. -/
structure ConvC (LB : Lawful e.SB) (gb : Bool) (cs : SConv ε) : Prop where
  node : ∀ b m, RefRep LB gb e.stB b m → OkP (cs.node b) fun x => cost x ≤ 3 * m.nodes
  short : ∀ b m k, RefRep LB gb e.stB b m → OkP (cs.shortened b k) fun x => cost x ≤ 3 * m.nodes

theorem pushAll_cost {cs : SConv ε} (hc : ConvC (e := e) LB gb cs) : ∀ {mn : List Node} {done : List SNode} {it : TIter},
    IterRep LB gb e.stB it mn → costL (pushAll cs done it).2 ≤ costL done + W1L mn
  | [], done, it, hi => by rw [pushAll_nil (IterRep.next_nil hi)]; exact Nat.le_add_right _ _
  | m :: mn, done, it, hi => by
    obtain ⟨b, it', e1, hb, hi'⟩ := IterRep.next_cons hi
    rw [pushAll_cons e1]
    have h1 := hc.node b m hb
    have hw := three_le m
    cases e2 : cs.node b with
    | ok x =>
      rw [e2] at h1
      have h2 : cost x ≤ 3 * m.nodes := h1
      have := pushAll_cost hc (done := done ++ [x]) hi'
      rw [costL_append] at this
      simp only [stBind, costL, W1L] at this ⊢
      omega
    | _ => simp only [stBind, W1L]; omega

theorem outerKidsC {cs : SConv ε} (hc : ConvC (e := e) LB gb cs) {rec : SNode → Ref → Res ε Unit × SNode} (hab : Keeps e.abandon)
    (hrec : RecC LA LB ga gb rec) : KidsC LA LB ga gb (outerChildrenS e cs rec) := by
  intro ac it sn mo hs hi
  unfold outerChildrenS
  cases it with
  | none => exact Nat.le_add_right _ _
  | some it =>
    cases mo with
    | none => exact hi.elim
    | some ml =>
      dsimp only
      split
      · exact pushAll_cost hc hi
      · have := loop_cost (keep := true) (greater := fun b => (cs.node b).bind fun a => .ok (some a)) (done := []) hab hrec
          (fun b m hb => okP_bind (hc.node b m hb) fun x hx y hy => by
            cases hy
            have := three_le m
            have : cost x ≤ 3 * m.nodes := hx
            omega) hs hi
        simpa [costL] using this

/-- The cost is at most this, whatever the outcome. -/
def Costs (x : Res ε Unit × SNode) (n : Nat) : Prop := cost x.2 ≤ n

theorem costs_bind {α} {x : Res ε α × SNode} {f : α → SNode → Res ε Unit × SNode} {n : Nat} {Q : α → SNode → Prop}
    (h : UA x Q fun a => cost a ≤ n) (hf : ∀ u a, Q u a → Costs (f u a) n) : Costs (stBind x f) n := by
  obtain ⟨r, a⟩ := x
  cases r with
  | ok u => exact hf u a h
  | err e => exact h
  | panic => exact h
  | deep => exact h

theorem costs_read {α} {x : Res ε α} {a : SNode} {f : α → SNode → Res ε Unit × SNode} {n : Nat} {Q : α → Prop}
    (ha : cost a ≤ n) (h : OkP x Q) (hf : ∀ u, Q u → Costs (f u a) n) : Costs (stBind (x, a) f) n := by
  cases x with
  | ok u => exact hf u h
  | err e => exact ha
  | panic => exact ha
  | deep => exact ha

theorem costs_canon {x : Res ε Unit × SNode} {dbg : Bool} {n : Nat} (h : Costs x n) :
    Costs (stBind x fun _ a => canonicalizeS dbg a) n := by
  obtain ⟨r, a⟩ := x
  cases r with
  | ok u => exact Nat.le_trans (canon_cost dbg a) h
  | err e => exact h
  | panic => exact h
  | deep => exact h

/-- The children of the node stand for nodes. -/
def Kids (LA : Lawful e.SA) (ga : Bool) (a : SNode) : Prop := ∃ c, RepC LA ga e.stA a.children c

theorem kids_of {a : SNode} {n : Node} (h : Rep LA ga e.stA a n) : Kids LA ga a := ⟨_, (rep_iff.1 h).2.2⟩

theorem Kids.congr {a a' : SNode} (h : Kids LA ga a) (hc : a'.children = a.children) : Kids LA ga a' := by
  rw [Kids, hc]; exact h

theorem Kids.setVal {a : SNode} (h : Kids LA ga a) (v : BlobV) : Kids LA ga (a.setVal v) := h.congr (by cases a <;> rfl)

theorem load_fst {S : BlobStore σ ε} {st : σ} (a : SNode) (p v : BlobV) :
    (loadChildrenMutS S st (.ofParts p v a.children)).1 = (loadChildrenMutS S st a).1 := by
  cases a with
  | arc p' v' l => rfl
  | ref p' v' i =>
    simp only [loadChildrenMutS, SNode.children, SNode.ofParts]
    generalize ((loadIter S st i).bind _) = x
    cases x <;> rfl

theorem Kids.load {a : SNode} (h : Kids LA ga a) {ac : List SNode} (e1 : (loadChildrenMutS e.SA e.stA a).1 = .ok ac) :
    ∃ sn, RepL LA ga e.stA ac sn := by
  obtain ⟨c, h⟩ := h
  have hr := loadChildrenMut_rep (E := True) (P := True) (fun _ => trivial)
    (rep_ofParts (p := .data []) (v := .none) (q := []) (w := none) (g := ga) (Or.inl rfl) rfl h)
  rw [← load_fst a (.data []) .none] at e1
  generalize loadChildrenMutS e.SA e.stA _ = x at hr e1
  obtain ⟨r, a'⟩ := x
  cases e1
  exact ⟨_, hr.1⟩

theorem both_cost {k : List SNode → Option TIter → Res ε Unit × List SNode} (hk : KidsC LA LB ga gb k) {a : SNode}
    {b : Ref} {m : Node} (ha : Kids LA ga a) (hb : RefRep LB gb e.stB b m) {B : Nat} (hB : base a + WL m.kids ≤ B) :
    Costs (childrenBoth e k a b) B := by
  have hl := loadChildren_cost (S := e.SA) (st := e.stA) a
  have hr := fun ac => ha.load (ac := ac)
  unfold childrenBoth
  generalize loadChildrenMutS e.SA e.stA a = x at hl hr
  obtain ⟨r, a'⟩ := x
  cases r with
  | ok ac =>
    obtain ⟨h1, h2, h3, h4⟩ := hl
    obtain ⟨sn, hr⟩ := hr ac rfl
    show Costs (stBind (b.loadChildren e.SB e.stB, a') fun bc a => onChildren a (k ac bc)) B
    refine costs_read (by omega) (okP_of_rpost hb.loadChildren) fun it hi => ?_
    have := hk ac it _ _ hr hi
    have h5 := cost_setArc_le a' (k ac it).2
    have h6 : W1L (m.loadChildren.getD []) ≤ WL m.kids := by
      cases e1 : m.loadChildren with
      | none => exact Nat.zero_le _
      | some l =>
        rw [show m.kids = l by simp [kids, loadChildren_some e1]]
        exact W1L_le l
    rw [h1, h2] at h5
    show cost (onChildren a' (k ac it)).2 ≤ B
    simp only [onChildren]
    omega
  | err e => have : cost a' ≤ base a := hl; show cost a' ≤ B; omega
  | panic => have : cost a' ≤ base a := hl; show cost a' ≤ B; omega
  | deep => have : cost a' ≤ base a := hl; show cost a' ≤ B; omega

theorem short_cost {k : List SNode → Option TIter → Res ε Unit × List SNode} (hk : KidsC LA LB ga gb k) {a : SNode}
    {b : Ref} {m : Node} {j : Nat} (ha : Kids LA ga a) (hb : RefRep LB gb e.stB b m) {B : Nat}
    (hB : base a + W1 (m.cloneShortened j) ≤ B) : Costs (childrenShort e k j a b) B := by
  have hl := loadChildren_cost (S := e.SA) (st := e.stA) a
  have hr := fun ac => ha.load (ac := ac)
  unfold childrenShort
  generalize loadChildrenMutS e.SA e.stA a = x at hl hr
  obtain ⟨r, a'⟩ := x
  cases r with
  | ok ac =>
    obtain ⟨h1, h2, h3, h4⟩ := hl
    obtain ⟨sn, hr⟩ := hr ac rfl
    show Costs (stBind (b.cloneShortened e.SB e.stB j, a') fun b' a => onChildren a (k ac (iterFromSlice [b']))) B
    refine costs_read (by omega) (short_rep hb j) fun b' hb' => ?_
    have := hk ac (iterFromSlice [b']) _ (some [m.cloneShortened j]) hr (repL_single hb')
    have h5 := cost_setArc_le a' (k ac (iterFromSlice [b'])).2
    simp only [Option.getD, W1L] at this
    rw [h1, h2] at h5
    show cost (onChildren a' (k ac (iterFromSlice [b']))).2 ≤ B
    simp only [onChildren]
    omega
  | err e => have : cost a' ≤ base a := hl; show cost a' ≤ B; omega
  | panic => have : cost a' ≤ base a := hl; show cost a' ≤ B; omega
  | deep => have : cost a' ≤ base a := hl; show cost a' ≤ B; omega

/-- The bounds in the form in which they are used. -/
structure Bound (a : SNode) (m : Node) (j B : Nat) : Prop where
  all : cost a + m.pfx.length + 5 + WL m.kids ≤ B
  short : j < m.pfx.length → cost a + 1 + W1 (m.cloneShortened j) ≤ B

theorem recC_of {rec : SNode → Ref → Res ε Unit × SNode}
    (h : ∀ a b n m B, Rep LA ga e.stA a n → RefRep LB gb e.stB b m → Bound a m (commonPrefix n.pfx m.pfx) B → Costs (rec a b) B) :
    RecC LA LB ga gb rec := by
  intro a b n m ha hb
  have hs : ∀ j, j < m.pfx.length → W1 (m.cloneShortened j) + j + 1 = W m := by
    intro j hj
    have h1 : (m.cloneShortened j).pfx = m.pfx.drop j := rfl
    have h2 : (m.cloneShortened j).kids = m.kids := rfl
    rw [W1, W_eq, W_eq, h1, h2, if_neg (by intro h; have := congrArg List.length h; rw [List.length_drop, List.length_nil] at this; omega), List.length_drop]
    omega
  have hw := W_eq m
  refine ⟨h a b n m _ ha hb ⟨by omega, fun hj => ?_⟩, fun hf => h a b n m _ ha hb ⟨?_, fun hj => ?_⟩⟩
  · have := hs _ hj; omega
  · unfold W1; split <;> omega
  · have := hs _ hj
    have hj1 : 1 ≤ commonPrefix n.pfx m.pfx := by
      simp only [Node.firstByte] at hf
      cases e1 : m.pfx with
      | nil => rw [e1] at hj; simp at hj
      | cons c q =>
        cases e2 : n.pfx with
        | nil => rw [e1, e2] at hf; cases hf
        | cons d q' =>
          rw [e1, e2] at hf
          cases hf
          simp [commonPrefix_cons]
    have h3 : W1 m = W m - 1 := by rw [W1, if_neg (by intro h; rw [h] at hj; simp at hj)]
    omega

theorem start_cost {n m : Node} {a : SNode} {b : Ref} {B : Nat} (ha : Rep LA ga e.stA a n) (hb : RefRep LB gb e.stB b m)
    (hB : cost a ≤ B) {x : Bytes → Bytes → SNode → Res ε Unit × SNode} (hx : Costs (x n.pfx m.pfx a) B) :
    Costs (stBind (loadPrefix e.SA e.stA a.pfx, a) fun ap a => stBind (loadPrefix e.SB e.stB b.pfx, a) fun bp a => x ap bp a) B :=
  costs_read hB (okP_of_rpost (loadPrefix_rep (rep_iff.1 ha).1)) fun ap h1 =>
    costs_read hB (okP_of_rpost (loadPrefix_rep hb.pfx)) fun bp h2 => by rw [h1, h2]; exact hx

theorem f_cost {x : Res ε BlobV} {a : SNode} :
    UA (stBind (x, a.setVal .none) fun v a => (.ok (), a.setVal v)) (fun (_ : Unit) a' => cost a' ≤ cost a + 1 ∧ a'.pfx = a.pfx ∧ a'.children = a.children)
      fun a' => cost a' ≤ cost a := by
  have h0 := cost_noVal a
  cases x with
  | ok v =>
    have := cost_setVal (a.setVal .none) v
    have := big_le v
    refine ⟨by omega, ?_, ?_⟩ <;> cases a <;> rfl
  | err e => exact h0
  | panic => exact h0
  | deep => exact h0

theorem insertByFirst_cost (x : SNode) (l : List SNode) : costL (insertByFirstS x l) = cost x + costL l := by
  induction l with
  | nil => rfl
  | cons y l ih =>
    simp only [insertByFirstS]
    split
    · rfl
    · simp only [costL, ih]; omega

theorem sort_cost (l : List SNode) : costL (sortByFirstS l) = costL l := by
  induction l with
  | nil => rfl
  | cons x l ih => simp only [sortByFirstS, insertByFirst_cost, ih, costL]

theorem splitC {k : Nat} {a : SNode} {n : Node} (ha : Rep LA ga e.stA a n) :
    UA (splitS e.SA e.stA k a) (fun _ a' => Kids LA ga a' ∧ base a' ≤ cost a + 3 ∧ cost a' ≤ cost a + 3) fun a' => cost a' ≤ cost a := by
  have h1 := split_cost (S := e.SA) (st := e.stA) k a
  have h2 := split_rep (E := True) (P := True) (fun _ => trivial) ha k
  generalize splitS e.SA e.stA k a = x at h1 h2
  obtain ⟨r, a'⟩ := x
  cases r with
  | ok u =>
    obtain ⟨h3, l, h4, h5⟩ := h1
    have := base_arc h4 h5
    exact ⟨kids_of h2.1, by omega, h3⟩
  | err e => exact h1
  | panic => exact h1
  | deep => exact h1

theorem base_setVal (a : SNode) (v : BlobV) : base (a.setVal v) + big a.val = base a + big v := by
  cases a <;> simp only [base, SNode.setVal, SNode.ofParts, SNode.pfx, SNode.val, SNode.children] <;> omega

theorem base_noVal (a : SNode) : base (a.setVal .none) ≤ base a := by
  have := base_setVal a .none
  have : big BlobV.none = 0 := rfl
  omega

theorem setC {x : Res ε BlobV} {a : SNode} {C B : Nat} (h : Kids LA ga a) (hb : base a ≤ C) (hc : cost a ≤ B) :
    UA (stBind (x, a) fun v a => (.ok (), a.setVal v)) (fun (_ : Unit) a' => Kids LA ga a' ∧ base a' ≤ C + 1) fun a' => cost a' ≤ B := by
  cases x with
  | ok v =>
    have := base_setVal a v
    have := big_le v
    exact ⟨h.setVal v, by omega⟩
  | err e => exact hc
  | panic => exact hc
  | deep => exact hc

theorem outer_cost {cs : SConv ε} (hc : ConvC (e := e) LB gb cs) {f : BlobV → BlobV → Res ε BlobV} (hab : Keeps e.abandon) :
    ∀ fuel, RecC LA LB ga gb (outerCombineWithS e cs f fuel)
  | 0 => recC_of fun a b n m B ha hb hB => by have := hB.all; show cost a ≤ B; omega
  | fuel + 1 => recC_of fun a b n m B ha hb hB => by
    have hk := outerKidsC hc hab (outer_cost hc (f := f) hab fuel)
    have h1 := hB.all
    rw [outerCombineWithS]
    refine start_cost (x := fun ap bp a => _) ha hb (by omega) (costs_canon ?_)
    have := base_le a
    split
    · rename_i hn
      refine costs_bind (Q := fun _ a' => Kids LA ga a' ∧ base a' ≤ cost a + 3 ∧ cost a' ≤ cost a + 3) ?_ fun _ a1 h2 => ?_
      · split
        · exact ua_imp (splitC ha) (fun _ _ h => h) fun a' h => by have : cost a' ≤ cost a := h; omega
        · exact ⟨kids_of ha, by omega, by omega⟩
      · refine costs_bind (Q := fun _ a' => Kids LA ga a' ∧ base a' ≤ cost a + 4) ?_ fun _ a2 h3 =>
          both_cost hk h3.1 hb (by omega)
        have := cost_noVal a1
        have := base_noVal a1
        split
        · split
          · exact setC (h2.1.setVal _) (by omega) (by omega)
          · exact setC h2.1 (by omega) (by omega)
        · exact ⟨h2.1, by omega⟩
    · rename_i hn
      obtain ⟨j, hj, hj1, hj2, hj3⟩ := commonPrefix_cut n m
      split
      · refine short_cost hk (kids_of ha) hb ?_
        have := hB.short (by omega)
        omega
      · rename_i hn'
        refine costs_bind (Q := fun _ a' => Kids LA ga a' ∧ base a' ≤ cost a + 3 ∧ cost a' ≤ cost a + 3) ?_ fun _ a1 h2 => ?_
        · exact ua_imp (splitC ha) (fun _ _ h => h) fun a' h => by have : cost a' ≤ cost a := h; omega
        · have hl := loadChildren_cost (S := e.SA) (st := e.stA) a1
          generalize loadChildrenMutS e.SA e.stA a1 = x at hl
          obtain ⟨r, a2⟩ := x
          cases r with
          | ok ac =>
            obtain ⟨h3, h4, h5, h6⟩ := hl
            show Costs (stBind (cs.shortened b _, a2) fun x a => (.ok (), a.setArc (sortByFirstS (ac ++ [x])))) B
            refine costs_read (by omega) (hc.short b m _ hb) fun x hx => ?_
            have hx' : cost x ≤ 3 * m.nodes := hx
            have h7 := cost_setArc_le a2 (sortByFirstS (ac ++ [x]))
            rw [sort_cost, costL_append, h3, h4] at h7
            have h8 : nodesL m.kids + 1 = m.nodes := by
              cases m with
              | mk p v c => cases c <;> simp [nodes, nodesO, Node.kids, Node.ch, nodesL]; omega
            have h9 := six_leL m.kids
            show cost (a2.setArc (sortByFirstS (ac ++ [x]))) ≤ B
            simp only [costL] at h7
            omega
          | err e => have h3 : cost a2 ≤ base a1 := hl; show cost a2 ≤ B; omega
          | panic => have h3 : cost a2 ≤ base a1 := hl; show cost a2 ≤ B; omega
          | deep => have h3 : cost a2 ≤ base a1 := hl; show cost a2 ≤ B; omega

theorem nothing_cost (a : SNode) : cost ((a.setVal .none).noChildren) ≤ cost a :=
  Nat.le_trans (cost_noChildren _) (cost_noVal a)

theorem inner_cost {f : BlobV → BlobV → Res ε BlobV} (hab : Keeps e.abandon) :
    ∀ fuel, RecC LA LB ga gb (innerCombineWithS e f fuel)
  | 0 => recC_of fun a b n m B ha hb hB => by have := hB.all; show cost a ≤ B; omega
  | fuel + 1 => recC_of fun a b n m B ha hb hB => by
    have hk := innerKidsC hab (inner_cost (f := f) hab fuel)
    have h1 := hB.all
    have h2 := cost_noVal a
    have h3 := base_noVal a
    have h4 := base_le a
    have h5 := base_le (a.setVal .none)
    obtain ⟨j, hj, hj1, hj2, _⟩ := commonPrefix_cut n m
    rw [innerCombineWithS]
    refine start_cost (x := fun ap bp a => _) ha hb (by omega) (costs_canon ?_)
    split
    · refine costs_bind (Q := fun _ a' => Kids LA ga a' ∧ base a' ≤ cost a + 2) ?_ fun _ a2 h3 =>
          both_cost hk h3.1 hb (by omega)
      split
      · exact setC ((kids_of ha).setVal _) (by omega) (by omega)
      · exact ⟨(kids_of ha).setVal _, by omega⟩
    · rename_i hn
      split
      · refine short_cost hk ((kids_of ha).setVal _) hb ?_
        have := hB.short (by omega)
        omega
      split
      · refine costs_bind (Q := fun _ a' => Kids LA ga a' ∧ base a' ≤ cost a + 3 ∧ cost a' ≤ cost a + 3) ?_ fun _ a1 h2 =>
          both_cost hk h2.1 hb (by omega)
        exact ua_imp (splitC ha) (fun _ _ h => h) fun a' h => by have : cost a' ≤ cost a := h; omega
      · have := nothing_cost a
        show cost ((a.setVal .none).noChildren) ≤ B
        omega

theorem left_cost {f : BlobV → BlobV → Res ε BlobV} (hab : Keeps e.abandon) :
    ∀ fuel, RecC LA LB ga gb (leftCombineWithS e f fuel)
  | 0 => recC_of fun a b n m B ha hb hB => by have := hB.all; show cost a ≤ B; omega
  | fuel + 1 => recC_of fun a b n m B ha hb hB => by
    have hk := leftKidsC hab (left_cost (f := f) hab fuel)
    have h1 := hB.all
    have h2 := cost_noVal a
    have h3 := base_noVal a
    have h4 := base_le a
    obtain ⟨j, hj, hj1, hj2, _⟩ := commonPrefix_cut n m
    rw [leftCombineWithS]
    refine start_cost (x := fun ap bp a => _) ha hb (by omega) (costs_canon ?_)
    split
    · refine costs_bind (Q := fun _ a' => Kids LA ga a' ∧ base a' ≤ cost a + 2) ?_ fun _ a2 h3 =>
          both_cost hk h3.1 hb (by omega)
      split
      · split
        · exact setC ((kids_of ha).setVal _) (by omega) (by omega)
        · exact ⟨kids_of ha, by omega⟩
      · exact ⟨kids_of ha, by omega⟩
    · rename_i hn
      split
      · refine short_cost hk (kids_of ha) hb ?_
        have := hB.short (by omega)
        omega
      split
      · refine costs_bind (Q := fun _ a' => Kids LA ga a' ∧ base a' ≤ cost a + 3 ∧ cost a' ≤ cost a + 3) ?_ fun _ a1 h2 =>
          both_cost hk h2.1 hb (by omega)
        exact ua_imp (splitC ha) (fun _ _ h => h) fun a' h => by have : cost a' ≤ cost a := h; omega
      · show cost a ≤ B
        omega

theorem retain_cost {f : BlobV → Res ε Bool} (hab : Keeps e.abandon) :
    ∀ fuel, RecC LA LB ga gb (retainPrefixWithS e f fuel)
  | 0 => recC_of fun a b n m B ha hb hB => by have := hB.all; show cost a ≤ B; omega
  | fuel + 1 => recC_of fun a b n m B ha hb hB => by
    have hk := innerKidsC hab (retain_cost (f := f) hab fuel)
    have h1 := hB.all
    have h2 := cost_noVal a
    have h3 := base_noVal a
    have h4 := base_le a
    have h5 := base_le (a.setVal .none)
    have h6 := nothing_cost a
    obtain ⟨j, hj, hj1, hj2, _⟩ := commonPrefix_cut n m
    rw [retainPrefixWithS]
    refine start_cost (x := fun ap bp a => _) ha hb (by omega) (costs_canon ?_)
    split
    · refine costs_bind (Q := fun _ a' => a' = a) ?_ fun go a' h => ?_
      · split
        · exact rfl
        · rename_i bv _
          cases f bv with
          | ok x => exact rfl
          | err e => show cost a ≤ B; omega
          | panic => show cost a ≤ B; omega
          | deep => show cost a ≤ B; omega
      · subst h
        split
        · exact both_cost hk ((kids_of ha).setVal _) hb (by omega)
        · show cost a' ≤ B; omega
    · rename_i hn
      split
      · split
        · refine costs_bind (Q := fun _ a' => Kids LA ga a' ∧ base a' ≤ cost a + 3 ∧ cost a' ≤ cost a + 3) ?_ fun _ a1 h2 =>
            both_cost hk h2.1 hb (by omega)
          exact ua_imp (splitC ha) (fun _ _ h => h) fun a' h => by have : cost a' ≤ cost a := h; omega
        · rename_i bv _
          cases f bv with
          | ok x =>
            show cost (if !x then (a.setVal .none).noChildren else a) ≤ B
            split <;> omega
          | err e => show cost a ≤ B; omega
          | panic => show cost a ≤ B; omega
          | deep => show cost a ≤ B; omega
      split
      · refine short_cost hk ((kids_of ha).setVal _) hb ?_
        have := hB.short (by omega)
        omega
      · show cost ((a.setVal .none).noChildren) ≤ B
        omega

theorem remove_cost {f : BlobV → Res ε Bool} (hab : Keeps e.abandon) :
    ∀ fuel, RecC LA LB ga gb (removePrefixWithS e f fuel)
  | 0 => recC_of fun a b n m B ha hb hB => by have := hB.all; show cost a ≤ B; omega
  | fuel + 1 => recC_of fun a b n m B ha hb hB => by
    have hk := leftKidsC hab (remove_cost (f := f) hab fuel)
    have h1 := hB.all
    have h4 := base_le a
    have h6 := nothing_cost a
    obtain ⟨j, hj, hj1, hj2, _⟩ := commonPrefix_cut n m
    rw [removePrefixWithS]
    refine start_cost (x := fun ap bp a => _) ha hb (by omega) (costs_canon ?_)
    split
    · refine costs_bind (Q := fun _ a' => a' = a) ?_ fun nuke a' h => ?_
      · split
        · exact rfl
        · rename_i bv _
          cases f bv with
          | ok x => exact rfl
          | err e => show cost a ≤ B; omega
          | panic => show cost a ≤ B; omega
          | deep => show cost a ≤ B; omega
      · subst h
        split
        · show cost ((a'.setVal .none).noChildren) ≤ B; omega
        · refine costs_bind (Q := fun _ a1 => Kids LA ga a1 ∧ base a1 ≤ cost a' + 3) ?_ fun _ a1 h2 =>
            both_cost hk h2.1 hb (by omega)
          split
          · exact ua_imp (splitC ha) (fun _ _ h => ⟨h.1, h.2.1⟩) fun x h => by have : cost x ≤ cost a' := h; omega
          · exact ⟨kids_of ha, by omega⟩
    · rename_i hn
      split
      · refine short_cost hk (kids_of ha) hb ?_
        have := hB.short (by omega)
        omega
      · show cost a ≤ B
        omega

end

/-! ### `serialize` makes as many writes -/

section
variable {σ ε : Type} {S : BlobStore σ ε}

/-- At most `c` writes, and the rest as without the counter. -/
def Wr {α} (x : Res ε α × (σ × Nat)) (y : Res ε α × σ) (k c : Nat) : Prop := x.1 = y.1 ∧ x.2.1 = y.2 ∧ x.2.2 ≤ k + c

theorem wr_bind {α β} {x : Res ε α × (σ × Nat)} {y : Res ε α × σ} {f : α → σ × Nat → Res ε β × (σ × Nat)}
    {g : α → σ → Res ε β × σ} {k c d : Nat} (h : Wr x y k c) (hf : ∀ a st n, n ≤ k + c → Wr (f a (st, n)) (g a st) n d) :
    Wr (stBind x f) (stBind y g) k (c + d) := by
  obtain ⟨r, st, n⟩ := x
  obtain ⟨r', st'⟩ := y
  obtain ⟨h1, h2, h3⟩ := h
  cases h1; cases h2
  have h3 : n ≤ k + c := h3
  cases r with
  | ok a => have h4 := hf a st n h3; exact ⟨h4.1, h4.2.1, by have := h4.2.2; show (f a (st, n)).2.2 ≤ _; omega⟩
  | err e => exact ⟨rfl, rfl, by show n ≤ _; omega⟩
  | panic => exact ⟨rfl, rfl, by show n ≤ _; omega⟩
  | deep => exact ⟨rfl, rfl, by show n ≤ _; omega⟩

theorem wr_ok {α} {r : Res ε α} {st : σ} {k : Nat} : Wr (r, (st, k)) (r, st) k 0 := ⟨rfl, rfl, Nat.le_refl _⟩

theorem wr_write (st : σ) (k : Nat) (d : Bytes) : Wr ((counted S).write (st, k) d) (S.write st d) k 1 := ⟨rfl, rfl, Nat.le_refl _⟩

theorem blob_writes (n : Nat) (st : σ) (k : Nat) (b : BlobV) :
    Wr (b.serialize (counted S) n (st, k)) (b.serialize S n st) k (big b) := by
  cases b with
  | id i => exact wr_ok
  | data d =>
    simp only [BlobV.serialize, big]
    split
    · exact wr_ok
    · simp only [counted]
      generalize S.write st d = x
      obtain ⟨r, st'⟩ := x
      cases r with
      | ok i => dsimp only; split <;> exact ⟨rfl, rfl, Nat.le_refl _⟩
      | err e => exact ⟨rfl, rfl, Nat.le_refl _⟩
      | panic => exact ⟨rfl, rfl, Nat.le_refl _⟩
      | deep => exact ⟨rfl, rfl, Nat.le_refl _⟩

mutual
theorem serialize_writes : ∀ (a : SNode) (st : σ) (k : Nat), Wr (a.serialize (counted S) (st, k)) (a.serialize S st) k (cost a)
  | .arc p v l, st, k => by
    rw [SNode.serialize, SNode.serialize, cost]
    rw [show big p + big v + (if l.isEmpty = true then 0 else 1) + costL l = big p + (big v + ((if l.isEmpty = true then 0 else 1) + costL l)) by omega]
    refine wr_bind (blob_writes 1 st k p) fun pb st k _ => wr_bind (blob_writes 0 st k v) fun vb st k _ => ?_
    cases hl : l.isEmpty with
    | true => exact ⟨rfl, rfl, Nat.le_add_right _ _⟩
    | false =>
      simp only [Bool.false_eq_true, if_false]
      rw [Nat.add_comm 1]
      refine wr_bind (serializeL_writes l [] 0 st k) fun x st k _ => ?_
      refine wr_bind (c := 1) (d := 0) (wr_write st k _) fun i st k _ => ?_
      split <;> exact wr_ok
  | .ref p v i, st, k => by
    rw [SNode.serialize, SNode.serialize, cost]
    exact wr_bind (blob_writes 1 st k p) fun pb st k _ => wr_bind (d := 0) (blob_writes 0 st k v) fun vb st k _ => wr_ok
theorem serializeL_writes : ∀ (l : List SNode) (data : Bytes) (rs : Nat) (st : σ) (k : Nat),
    Wr (serializeL (counted S) l data rs (st, k)) (serializeL S l data rs st) k (costL l)
  | [], data, rs, st, k => by rw [serializeL, serializeL]; exact wr_ok
  | a :: l, data, rs, st, k => by
    rw [serializeL, serializeL, costL]
    exact wr_bind (serialize_writes a st k) fun b st k _ => serializeL_writes l _ _ st k
end

theorem reattach_writes (a : SNode) (st : σ) (k : Nat) :
    Wr (tryReattach (counted S) a (st, k)) (tryReattach S a st) k (cost a + 1) := by
  unfold tryReattach
  refine wr_bind (serialize_writes a st k) fun bs st k _ => wr_bind (c := 1) (d := 0) (wr_write st k _) fun i st k _ => ?_
  exact wr_ok

end

end Radix
