import Verif.Proofs.Edited

/-
Proof-internal: which blobs a lookup and a single-key update read.
-/

set_option linter.unusedVariables false

namespace Radix
open Node

def pIds : BlobV → List Bytes
  | .id (_ :: i) => [i]
  | _ => []

def cIds : List SNode ⊕ Bytes → List Bytes
  | .inr (_ :: i) => [i]
  | _ => []

def chOf : Ref → List SNode ⊕ Bytes
  | .owned a => a.children
  | .borrowed r => match r.ch with
    | .id i => .inr i
    | .data _ => .inr []

section
variable {σ τ ε : Type} {S : BlobStore σ ε} {T : BlobStore τ ε} {L : Lawful S} {g : Bool} {st : σ} {st' : τ}

def Same (S : BlobStore σ ε) (st : σ) (T : BlobStore τ ε) (st' : τ) (ids : List Bytes) : Prop :=
  ∀ i ∈ ids, T.read st' i = S.read st i

theorem Same.left {l m : List Bytes} (h : Same S st T st' (l ++ m)) : Same S st T st' l := fun i hi => h i (by simp [hi])
theorem Same.right {l m : List Bytes} (h : Same S st T st' (l ++ m)) : Same S st T st' m := fun i hi => h i (by simp [hi])

theorem cIds_le (c : List SNode ⊕ Bytes) : (cIds c).length ≤ 1 := by unfold cIds; split <;> simp

theorem pIds_le {b : BlobV} {p : Bytes} (h : PfxRep L g st b p) : (pIds b).length + 1 ≤ blobsPerNode g := by
  rcases h with rfl | ⟨rfl, c, i, rfl, _, _, hh⟩
  · show 0 + 1 ≤ _
    unfold blobsPerNode; split <;> omega
  · show 1 + 1 ≤ _
    unfold blobsPerNode; simp

theorem loadPrefix_same {b : BlobV} (h : Same S st T st' (pIds b)) : loadPrefix T st' b = loadPrefix S st b := by
  cases b with
  | data d => rfl
  | id i =>
    cases i with
    | nil => rfl
    | cons x i => exact h i (by simp [pIds])

theorem loadIter_same {i : Bytes} (h : Same S st T st' (cIds (.inr i))) : loadIter T st' i = loadIter S st i := by
  cases i with
  | nil => rfl
  | cons x i => simp only [loadIter]; rw [h i (by simp [cIds])]

theorem loadChildren_same {t : Ref} (h : Same S st T st' (cIds (chOf t))) : t.loadChildren T st' = t.loadChildren S st := by
  cases t with
  | owned a =>
    simp only [Ref.loadChildren, SNode.loadChildren]
    split
    · rfl
    · rename_i i e
      exact loadIter_same (by rw [← e]; exact h)
  | borrowed r =>
    simp only [Ref.loadChildren, Rec.loadChildren]
    split
    · rfl
    · rename_i i hn e
      refine loadIter_same ?_
      simp only [chOf, e] at h
      exact h
    · rfl

/-- What is needed of the part of a tree below a key. -/
def Loc (g : Bool) (n : Node) (k : Bytes) (ids : List Bytes) : Prop :=
  ids.length ≤ blobsPerNode g * (k.length + 1) ∧ (n.pfx ≠ [] → k ≠ [] → ids.length ≤ blobsPerNode g * k.length)

theorem loc_here {n : Node} {b : BlobV} {c : List SNode ⊕ Bytes} (h : PfxRep L g st b n.pfx) (k : Bytes) :
    Loc g n k (pIds b ++ cIds c) := by
  have h1 := pIds_le h
  have h2 := cIds_le c
  have h3 : (pIds b ++ cIds c).length ≤ blobsPerNode g := by rw [List.length_append]; omega
  constructor
  · rw [Nat.mul_add]; omega
  · intro _ hk
    have : blobsPerNode g * 1 ≤ blobsPerNode g * k.length := Nat.mul_le_mul_left _ (List.length_pos_iff.2 hk)
    omega

theorem loc_below {n m : Node} {b : BlobV} {c : List SNode ⊕ Bytes} {ids : List Bytes} (h : PfxRep L g st b n.pfx) {k : Bytes}
    (hk : n.pfx.length < k.length) (hm : m.pfx ≠ []) (hi : Loc g m (k.drop n.pfx.length) ids) :
    Loc g n k (pIds b ++ cIds c ++ ids) := by
  have h1 := pIds_le h
  have h2 := cIds_le c
  have hne : k.drop n.pfx.length ≠ [] := by
    intro e; have := List.drop_eq_nil_iff.1 e; omega
  have h3 := hi.2 hm hne
  rw [List.length_drop] at h3
  have h4 : (pIds b ++ cIds c ++ ids).length ≤ blobsPerNode g * (k.length - n.pfx.length + 1) := by
    rw [List.length_append, List.length_append, Nat.mul_add]; omega
  constructor
  · exact Nat.le_trans h4 (Nat.mul_le_mul_left _ (by omega))
  · intro hp _
    have := List.length_pos_iff.2 hp
    exact Nat.le_trans h4 (Nat.mul_le_mul_left _ (by omega))

theorem common_le (a b : Bytes) : commonPrefix a b ≤ a.length ∧ commonPrefix a b ≤ b.length := by
  obtain ⟨p, a', b', rfl, rfl, h, _⟩ := commonPrefix_spec a b
  rw [h]; simp

end

section
variable {σ ε : Type} {S : BlobStore σ ε} {L : Lawful S} {g : Bool} {st : σ}

theorem findS_loc (n : Node) (ho : Ord n) : ∀ {t : Ref} (k : Bytes), RefRep L g st t n → ∃ ids, Loc g n k ids ∧
    ∀ {τ : Type} (T : BlobStore τ ε) (st' : τ), Same S st T st' ids → ∀ fuel, findS T st' fuel t k = findS S st fuel t k := by
  induction n using Node.kidsInduction with
  | step n ih =>
    intro t k h
    have here : (∀ {τ : Type} (T : BlobStore τ ε) (st' : τ), Same S st T st' (pIds t.pfx ++ cIds (chOf t)) →
        ∀ fuel, findS T st' fuel t k = findS S st fuel t k) → ∃ ids, Loc g n k ids ∧
        ∀ {τ : Type} (T : BlobStore τ ε) (st' : τ), Same S st T st' ids → ∀ fuel, findS T st' fuel t k = findS S st fuel t k :=
      fun hx => ⟨_, loc_here h.pfx k, hx⟩
    have hp := loadPrefix_rep h.pfx
    cases e : loadPrefix S st t.pfx with
    | ok tp =>
      rw [e] at hp
      have hp : tp = n.pfx := hp
      subst hp
      by_cases hrec : commonPrefix n.pfx k = n.pfx.length ∧ n.pfx.length < k.length
      · have h1 : ¬ k.length - n.pfx.length = 0 := by omega
        have hd : ∃ c rest, k.drop n.pfx.length = c :: rest := by
          cases e : k.drop n.pfx.length with
          | nil => have := List.drop_eq_nil_iff.1 e; omega
          | cons c rest => exact ⟨c, rest, rfl⟩
        obtain ⟨c, rest, hd⟩ := hd
        have step : ∀ {τ : Type} (T : BlobStore τ ε) (st' : τ), loadPrefix T st' t.pfx = .ok n.pfx → ∀ fuel,
            findS T st' (fuel + 1) t k = (t.loadChildren T st').bind fun
              | none => .ok .notFound
              | some cs =>
                match cs.find c with
                | none => .ok .notFound
                | some child => findS T st' fuel child (c :: rest) := by
          intro τ T st' e' fuel
          rw [findS, e']
          simp only [Res.bind, hrec.1, Nat.sub_self, h1, false_and, if_false, if_true, hd]
          rfl
        have hc := h.loadChildren
        cases e2 : t.loadChildren S st with
        | ok o =>
          rw [e2] at hc
          cases o with
          | none =>
            refine here fun T st' hs fuel => ?_
            cases fuel with
            | zero => rfl
            | succ fuel =>
              rw [step T st' (by rw [loadPrefix_same hs.left, e]), step S st e, loadChildren_same hs.right, e2]
              rfl
          | some cs =>
            cases e3 : cs.find c with
            | none =>
              refine here fun T st' hs fuel => ?_
              cases fuel with
              | zero => rfl
              | succ fuel =>
                rw [step T st' (by rw [loadPrefix_same hs.left, e]), step S st e, loadChildren_same hs.right, e2]
                simp only [Res.bind, e3]
            | some child =>
              cases hl : n.loadChildren with
              | none =>
                have hc : OIterRep L g st (some cs) n.loadChildren := hc
                rw [hl] at hc; exact hc.elim
              | some l =>
                have hc : OIterRep L g st (some cs) n.loadChildren := hc
                rw [hl] at hc
                have hok := ord_loadChildren ho hl
                have hf := IterRep.find hc hok c
                rw [e3] at hf
                cases hf' : findChild l c with
                | none => rw [hf'] at hf; exact hf.elim
                | some m =>
                  rw [hf'] at hf
                  have hm : m ∈ n.kids := by
                    rw [findChild_eq hok] at hf'
                    have := (childAt_mem hf').1
                    rw [show n.kids = l by rw [kids, loadChildren_some hl]; rfl]
                    exact this
                  have hmo := ((ord_iff n).1 ho)
                  have hmn : m.pfx ≠ [] := (hmo.mem hm).1
                  obtain ⟨ids, hi, hx⟩ := ih m hm (hmo.mem hm).2 (c :: rest) hf
                  refine ⟨_, loc_below (c := chOf t) h.pfx hrec.2 hmn (hd ▸ hi), fun T st' hs fuel => ?_⟩
                  cases fuel with
                  | zero => rfl
                  | succ fuel =>
                    rw [step T st' (by rw [loadPrefix_same hs.left.left, e]), step S st e, loadChildren_same hs.left.right, e2]
                    simp only [Res.bind, e3]
                    exact hx T st' hs.right fuel
        | _ =>
          refine here fun T st' hs fuel => ?_
          cases fuel with
          | zero => rfl
          | succ fuel =>
            rw [step T st' (by rw [loadPrefix_same hs.left, e]), step S st e, loadChildren_same hs.right, e2]
            rfl
      · refine here fun T st' hs fuel => ?_
        cases fuel with
        | zero => rfl
        | succ fuel =>
          have hcl := common_le n.pfx k
          rw [findS, findS, loadPrefix_same hs.left, e]
          simp only [Res.bind]
          split
          · rfl
          split
          · rfl
          split
          · omega
          · rfl
    | _ =>
      refine here fun T st' hs fuel => ?_
      cases fuel with
      | zero => rfl
      | succ fuel =>
        rw [findS, findS, loadPrefix_same hs.left, e]
        rfl

/-! In-place operations with one key. -/

/-- The first child with the first byte of the key. -/
def match1 (l : List SNode) (b : SNode) : Option SNode :=
  l.find? fun x => Node.rank x.pfx.firstByte == Node.rank b.pfx.firstByte

theorem loop_one {rec rec' : SNode → Ref → Res ε Unit × SNode} {keep : Bool} {greater : Ref → Res ε (Option SNode)} {ab} {b : SNode} :
    ∀ {src done : List SNode}, (∀ x, match1 src b = some x → rec x (.owned b) = rec' x (.owned b)) →
      loopS rec keep greater ab done src (.owned [b]) = loopS rec' keep greater ab done src (.owned [b]) := by
  have nil : ∀ (src done : List SNode), loopS rec keep greater ab done src (.owned []) = loopS rec' keep greater ab done src (.owned []) := by
    intro src
    induction src with
    | nil => intro done; rw [loopS_nn rfl, loopS_nn rfl]
    | cons a src ih => intro done; rw [loopS_sn rfl, loopS_sn rfl]; exact ih _
  have hn : TIter.next (.owned [b]) = some (.owned b, .owned []) := rfl
  intro src
  induction src with
  | nil =>
    intro done h
    rw [loopS_ns hn, loopS_ns hn]
    congr 1
    funext o _
    exact nil _ _
  | cons a src ih =>
    intro done h
    rw [loopS_ss hn, loopS_ss hn]
    split
    · rename_i hlt
      have hlt : Node.rank a.pfx.firstByte < Node.rank b.pfx.firstByte := hlt
      refine ih fun x hx => h x ?_
      unfold match1 at hx ⊢
      rw [List.find?_cons_of_neg (by simp; omega)]
      exact hx
    · split
      · congr 1
        funext o _
        exact nil _ _
      · rename_i h1 h2
        have h1' : ¬ Node.rank a.pfx.firstByte < Node.rank b.pfx.firstByte := h1
        have h2' : ¬ Node.rank b.pfx.firstByte < Node.rank a.pfx.firstByte := h2
        have e : rec a (.owned b) = rec' a (.owned b) := h a (by
          unfold match1
          rw [List.find?_cons_of_pos (by simp; omega)])
        simp only [e]
        congr 1
        funext _ _
        exact nil _ _

theorem repL_mem {as : List SNode} {l : List Node} (h : RepL L g st as l) {x : SNode} (hx : x ∈ as) : ∃ m ∈ l, Rep L g st x m := by
  obtain ⟨i, hi⟩ := List.mem_iff_getElem?.1 hx
  rcases repL_getElem h i with ⟨e1, e2⟩ | ⟨y, n, e1, e2, hr⟩
  · rw [e1] at hi; cases hi
  · rw [e1] at hi; cases hi
    exact ⟨n, List.mem_of_getElem? e2, hr⟩

theorem loadMut_same {τ : Type} {T : BlobStore τ ε} {st' : τ} {a : SNode} (h : Same S st T st' (cIds a.children)) :
    loadChildrenMutS T st' a = loadChildrenMutS S st a := by
  unfold loadChildrenMutS
  split
  · rfl
  · rename_i i e
    rw [loadIter_same (by rw [← e]; exact h)]

theorem split_same {τ : Type} {T : BlobStore τ ε} {st' : τ} {a : SNode} (k : Nat) (h : Same S st T st' (pIds a.pfx)) :
    splitS T st' k a = splitS S st k a := by
  unfold splitS
  rw [loadPrefix_same h]

theorem same_setVal {τ : Type} {T : BlobStore τ ε} {st' : τ} {a : SNode} {v : BlobV} (h : Same S st T st' (cIds a.children)) :
    Same S st T st' (cIds (a.setVal v).children) := by
  unfold SNode.setVal SNode.ofParts
  split <;> rename_i e <;> rw [e] at h <;> exact h

theorem same_arc {τ : Type} {T : BlobStore τ ε} {st' : τ} (p v : BlobV) (l : List SNode) :
    Same S st T st' (cIds (SNode.arc p v l).children) := fun i hi => by cases hi

/-- An operation that is given a key, and how it uses the store. -/
structure OneKey (op : {τ : Type} → BlobStore τ ε → τ → Nat → SNode → Bytes → Res ε Unit × SNode) : Prop where
  zero : ∀ {τ τ' : Type} (S : BlobStore τ ε) (T : BlobStore τ' ε) (st st') (a : SNode) (k : Bytes), op T st' 0 a k = op S st 0 a k
  succ : ∀ {τ τ' : Type} {S : BlobStore τ ε} {T : BlobStore τ' ε} {st st'} {a : SNode} {k : Bytes} (fuel : Nat) (w : Bytes),
    Same S st T st' (pIds a.pfx ++ cIds a.children) →
    (∀ ap ac x, loadPrefix S st a.pfx = .ok ap → commonPrefix ap k = ap.length → ap.length < k.length →
      (loadChildrenMutS S st a).1 = .ok ac → match1 ac (.ref (.data (k.drop ap.length)) (.data w) []) = some x →
      op T st' fuel x (k.drop ap.length) = op S st fuel x (k.drop ap.length)) →
    op T st' (fuel + 1) a k = op S st (fuel + 1) a k

theorem match1_w (l : List SNode) (k v w : Bytes) :
    match1 l (.ref (.data k) (.data v) []) = match1 l (.ref (.data k) (.data w) []) := rfl

theorem oneKey_loc {op : {τ : Type} → BlobStore τ ε → τ → Nat → SNode → Bytes → Res ε Unit × SNode} (hop : OneKey op)
    (n : Node) (ho : Ord n) : ∀ {a : SNode} (k : Bytes), Rep L g st a n → ∃ ids, Loc g n k ids ∧
    ∀ {τ : Type} (T : BlobStore τ ε) (st' : τ), Same S st T st' ids → ∀ fuel, op T st' fuel a k = op S st fuel a k := by
  induction n using Node.kidsInduction with
  | step n ih =>
    intro a k h
    have hpr := (rep_iff.1 h).1
    have here : (∀ ap ac x, loadPrefix S st a.pfx = .ok ap → commonPrefix ap k = ap.length → ap.length < k.length →
        (loadChildrenMutS S st a).1 = .ok ac → match1 ac (.ref (.data (k.drop ap.length)) (.data []) []) = some x → False) →
        ∃ ids, Loc g n k ids ∧
        ∀ {τ : Type} (T : BlobStore τ ε) (st' : τ), Same S st T st' ids → ∀ fuel, op T st' fuel a k = op S st fuel a k :=
      fun hx => ⟨_, loc_here (c := a.children) hpr k, fun T st' hs fuel => by
        cases fuel with
        | zero => exact hop.zero _ _ _ _ _ _
        | succ fuel => exact hop.succ fuel [] hs fun ap ac x h1 h2 h3 h4 h5 => (hx ap ac x h1 h2 h3 h4 h5).elim⟩
    by_cases hex : ∃ ap ac x, loadPrefix S st a.pfx = .ok ap ∧ commonPrefix ap k = ap.length ∧ ap.length < k.length ∧
        (loadChildrenMutS S st a).1 = .ok ac ∧ match1 ac (.ref (.data (k.drop ap.length)) (.data []) []) = some x
    · obtain ⟨ap, ac, x, h1, h2, h3, h4, h5⟩ := hex
      have hp := loadPrefix_rep (L := L) hpr
      rw [h1] at hp
      have hp : ap = n.pfx := hp
      subst hp
      have hl := loadChildrenMut_rep (L := L) (E := True) (P := True) (fun _ => trivial) h
      have hrl : RepL L g st ac n.kids := by
        generalize loadChildrenMutS S st a = y at hl h4
        obtain ⟨r, a'⟩ := y
        cases h4
        exact hl.1
      have hx : x ∈ ac := List.mem_of_find?_eq_some h5
      obtain ⟨m, hm, hr⟩ := repL_mem hrl hx
      have hmo := ((ord_iff n).1 ho).mem hm
      obtain ⟨ids, hi, hids⟩ := ih m hm hmo.2 (k.drop n.pfx.length) hr
      refine ⟨_, loc_below (c := a.children) hpr h3 hmo.1 hi, fun T st' hs fuel => ?_⟩
      cases fuel with
      | zero => exact hop.zero _ _ _ _ _ _
      | succ fuel =>
        refine hop.succ fuel [] hs.left fun ap' ac' x' g1 g2 g3 g4 g5 => ?_
        rw [h1] at g1; cases g1
        rw [h4] at g4; cases g4
        rw [h5] at g5; cases g5
        exact hids T st' hs.right fuel
    · exact here fun ap ac x h1 h2 h3 h4 h5 => hex ⟨ap, ac, x, h1, h2, h3, h4, h5⟩

end

section
variable {σ τ ε : Type} {S : BlobStore σ ε} {T : BlobStore τ ε} {st : σ} {st' : τ} {dbg : Bool} {ab : List SNode → List SNode → List SNode}

theorem both_same {k k' : List SNode → Option TIter → Res ε Unit × List SNode} {a : SNode} (key v : Bytes)
    (h : Same S st T st' (cIds a.children)) (hk : ∀ ac, k ac none = k' ac none) :
    childrenBoth (singleEnv T st' dbg ab) k a (singleRef key v) = childrenBoth (singleEnv S st dbg ab) k' a (singleRef key v) := by
  unfold childrenBoth
  simp only [singleEnv]
  rw [loadMut_same h]
  congr 1
  funext ac a
  show onChildren a (k ac none) = onChildren a (k' ac none)
  rw [hk]

theorem short_same {k k' : List SNode → Option TIter → Res ε Unit × List SNode} {a : SNode} (key v : Bytes) (n : Nat)
    (h : Same S st T st' (cIds a.children))
    (hk : ∀ ac, (loadChildrenMutS S st a).1 = .ok ac → k ac (some (.owned [.ref (.data (key.drop n)) (.data v) []])) =
      k' ac (some (.owned [.ref (.data (key.drop n)) (.data v) []]))) :
    childrenShort (singleEnv T st' dbg ab) k n a (singleRef key v) = childrenShort (singleEnv S st dbg ab) k' n a (singleRef key v) := by
  unfold childrenShort
  simp only [singleEnv]
  rw [loadMut_same h]
  generalize hx : loadChildrenMutS S st a = x at hk
  obtain ⟨r, a'⟩ := x
  cases r with
  | ok ac =>
    show onChildren a' (k ac (some (.owned [.ref (.data (key.drop n)) (.data v) []]))) =
      onChildren a' (k' ac (some (.owned [.ref (.data (key.drop n)) (.data v) []])))
    rw [hk ac rfl]
  | _ => rfl

theorem outerKids_same {c : SConv ε} {rec rec' : SNode → Ref → Res ε Unit × SNode} {ac : List SNode} {b : SNode}
    (h : ∀ x, match1 ac b = some x → rec x (.owned b) = rec' x (.owned b)) :
    outerChildrenS (singleEnv T st' dbg ab) c rec ac (some (.owned [b])) = outerChildrenS (singleEnv S st dbg ab) c rec' ac (some (.owned [b])) := by
  simp only [outerChildrenS, singleEnv]
  split
  · rfl
  · exact loop_one h

theorem leftKids_same {rec rec' : SNode → Ref → Res ε Unit × SNode} {ac : List SNode} {b : SNode}
    (h : ∀ x, match1 ac b = some x → rec x (.owned b) = rec' x (.owned b)) :
    leftChildrenS (singleEnv T st' dbg ab) rec ac (some (.owned [b])) = leftChildrenS (singleEnv S st dbg ab) rec' ac (some (.owned [b])) := by
  simp only [leftChildrenS, singleEnv]
  split
  · rfl
  · exact loop_one h

end

section
variable {ε : Type} (dbg : Bool) (ab : List SNode → List SNode → List SNode)

theorem stBind_congr {σ α β : Type} {x y : Res ε α × σ} {f g : α → σ → Res ε β × σ} (h : x = y)
    (hf : ∀ u a, y = (.ok u, a) → f u a = g u a) : stBind x f = stBind y g := by
  subst h
  obtain ⟨r, a⟩ := x
  cases r with
  | ok u => exact hf u a rfl
  | _ => rfl

theorem single_val (k v : Bytes) : (singleRef k v).val.valueOpt = some (.data v) := by
  simp [singleRef, Ref.val, SNode.val, BlobV.valueOpt, BlobV.none]

theorem children_setVal (a : SNode) (v : BlobV) : (a.setVal v).children = a.children := by
  cases a <;> rfl

theorem insert_oneKey (v : Bytes) : OneKey (ε := ε) fun S st fuel a k => insertS S st dbg ab fuel a k v where
  zero S T st st' a k := rfl
  succ {τ τ' S T st st' a k} fuel w hs hrec := by
    simp only [insertS, outerCombineWithS]
    refine stBind_congr (congrArg (·, a) (loadPrefix_same hs.left)) fun ap a1 e1 => ?_
    obtain ⟨e, rfl⟩ : loadPrefix S st a.pfx = .ok ap ∧ a = a1 := by
      simp only [Prod.mk.injEq] at e1; exact e1
    refine stBind_congr rfl fun bp a1 e2 => ?_
    obtain ⟨rfl, rfl⟩ : k = bp ∧ a = a1 := by
      simp only [Prod.mk.injEq] at e2
      exact ⟨by have := e2.1; simpa [singleRef, Ref.pfx, SNode.pfx, loadPrefix] using this, e2.2⟩
    refine stBind_congr ?_ fun _ _ _ => rfl
    split
    · refine stBind_congr (y := if commonPrefix ap k ≠ ap.length then splitS S st (commonPrefix ap k) a else (.ok (), a)) ?_ fun u a1 e1 => ?_
      · split
        · exact split_same _ hs.left
        · rfl
      · have hs1 : Same S st T st' (cIds a1.children) := by
          split at e1
          · simp only [splitS, e, stBind, Prod.mk.injEq] at e1
            rw [← e1.2]
            exact same_arc _ _ _
          · simp only [Prod.mk.injEq] at e1
            rw [← e1.2]
            exact hs.right
        rw [single_val]
        refine stBind_congr rfl fun u' a2 e2 => ?_
        refine both_same k v ?_ fun ac => rfl
        have : a2.children = a1.children := by
          dsimp only at e2
          split at e2
          · simp only [stBind, Prod.mk.injEq] at e2
            rw [← e2.2, children_setVal, children_setVal]
          · simp only [stBind, SConv.downcast, Prod.mk.injEq] at e2
            rw [← e2.2, children_setVal]
        rw [this]
        exact hs1
    · rename_i h1
      split
      · rename_i h2
        refine short_same k v _ hs.right fun ac hac => outerKids_same fun x hx => ?_
        rw [h2] at hx ⊢
        exact hrec ap ac x e h2 (by have := common_le ap k; omega) hac hx
      · refine stBind_congr (split_same _ hs.left) fun u a1 e1 => ?_
        have e1 : splitS S st (commonPrefix ap k) a = (.ok u, a1) := e1
        simp only [splitS, e, stBind, Prod.mk.injEq] at e1
        rw [← e1.2]
        exact stBind_congr (loadMut_same (same_arc _ _ _)) fun _ _ _ => rfl

theorem remove_oneKey : OneKey (ε := ε) fun S st fuel a k => removeS S st dbg ab fuel a k where
  zero S T st st' a k := rfl
  succ {τ τ' S T st st' a k} fuel w hs hrec := by
    simp only [removeS, leftCombineWithS]
    refine stBind_congr (congrArg (·, a) (loadPrefix_same hs.left)) fun ap a1 e1 => ?_
    obtain ⟨e, rfl⟩ : loadPrefix S st a.pfx = .ok ap ∧ a = a1 := by
      simp only [Prod.mk.injEq] at e1; exact e1
    refine stBind_congr rfl fun bp a1 e2 => ?_
    obtain ⟨rfl, rfl⟩ : k = bp ∧ a = a1 := by
      simp only [Prod.mk.injEq] at e2
      exact ⟨by have := e2.1; simpa [singleRef, Ref.pfx, SNode.pfx, loadPrefix] using this, e2.2⟩
    refine stBind_congr ?_ fun _ _ _ => rfl
    split
    · rw [single_val]
      refine stBind_congr rfl fun u' a2 e2 => ?_
      refine both_same k [] ?_ fun ac => rfl
      have : a2.children = a.children := by
        dsimp only at e2
        split at e2
        · simp only [stBind, Prod.mk.injEq] at e2
          rw [← e2.2, children_setVal, children_setVal]
        · simp only [Prod.mk.injEq] at e2
          rw [← e2.2]
      rw [this]
      exact hs.right
    · rename_i h1
      split
      · rename_i h2
        refine short_same k [] _ hs.right fun ac hac => leftKids_same fun x hx => ?_
        rw [h2] at hx ⊢
        exact hrec ap ac x e h2 (by have := common_le ap k; omega) hac hx
      · split
        · refine stBind_congr (split_same _ hs.left) fun u a1 e1 => ?_
          have e1 : splitS S st (commonPrefix ap k) a = (.ok u, a1) := e1
          simp only [splitS, e, stBind, Prod.mk.injEq] at e1
          rw [← e1.2]
          exact both_same k [] (same_arc _ _ _) fun ac => rfl
        · rfl

theorem removePrefix_oneKey : OneKey (ε := ε) fun S st fuel a k => removePrefixS S st dbg ab fuel a k where
  zero S T st st' a k := rfl
  succ {τ τ' S T st st' a k} fuel w hs hrec := by
    simp only [removePrefixS, removePrefixWithS]
    refine stBind_congr (congrArg (·, a) (loadPrefix_same hs.left)) fun ap a1 e1 => ?_
    obtain ⟨e, rfl⟩ : loadPrefix S st a.pfx = .ok ap ∧ a = a1 := by
      simp only [Prod.mk.injEq] at e1; exact e1
    refine stBind_congr rfl fun bp a1 e2 => ?_
    obtain ⟨rfl, rfl⟩ : k = bp ∧ a = a1 := by
      simp only [Prod.mk.injEq] at e2
      exact ⟨by have := e2.1; simpa [singleRef, Ref.pfx, SNode.pfx, loadPrefix] using this, e2.2⟩
    refine stBind_congr ?_ fun _ _ _ => rfl
    split
    · rw [single_val]
      refine stBind_congr rfl fun nuke a1 e1 => ?_
      have : nuke = true := by
        simp only [Prod.mk.injEq, Res.ok.injEq] at e1
        exact e1.1.symm
      rw [if_pos this, if_pos this]
    · rename_i h1
      split
      · rename_i h2
        refine short_same k [] _ hs.right fun ac hac => leftKids_same fun x hx => ?_
        rw [h2] at hx ⊢
        exact hrec ap ac x e h2 (by have := common_le ap k; omega) hac hx
      · rfl

end

/-! The bounds. -/

section
variable {σ ε : Type} {S : BlobStore σ ε} {L : Lawful S} {g : Bool} {st : σ}

theorem readsAtMost_of {α : Type} {n : Nat} {x : {τ : Type} → BlobStore τ ε → τ → Nat → α}
    (h : ∃ ids : List Bytes, ids.length ≤ n ∧ ∀ {τ : Type} (T : BlobStore τ ε) (st' : τ), Same S st T st' ids →
      ∀ fuel, x T st' fuel = x S st fuel) : ReadsAtMost S st n x := by
  obtain ⟨ids, h1, h2⟩ := h
  refine ⟨ids, h1, fun T st' hs y hy => ?_⟩
  obtain ⟨N, hy⟩ := hy
  exact ⟨N, fun fuel hf => (h2 T st' hs fuel).trans (hy fuel hf)⟩

theorem gotten_rep {a : SNode} (h : Gotten S L g st a) : ∃ t, Ord t ∧ Rep L g st a t := by
  rcases h with ⟨m, h⟩ | ⟨rfl, A, h⟩
  · obtain ⟨t, ho, hs, hr, hd⟩ := att_stands h
    exact ⟨t, ho, hr⟩
  · obtain ⟨t, hr, ho, _⟩ := touched_hold h
    exact ⟨t, ho, hr⟩

theorem oneKey_reads {op : {τ : Type} → BlobStore τ ε → τ → Nat → SNode → Bytes → Res ε Unit × SNode} (hop : OneKey op)
    {a : SNode} (h : Gotten S L g st a) (k : Bytes) :
    ReadsAtMost S st (blobsPerNode g * (k.length + 1)) fun T st' fuel => op T st' fuel a k := by
  obtain ⟨t, ho, hr⟩ := gotten_rep h
  obtain ⟨ids, h1, h2⟩ := oneKey_loc hop t ho k hr
  exact readsAtMost_of ⟨ids, h1.1, h2⟩

theorem find_reads {α : Type} {a : SNode} (h : Gotten S L g st a) (k : Bytes) (f : SFind → Res ε α) :
    ReadsAtMost S st (blobsPerNode g * (k.length + 1)) fun T st' fuel => (findS T st' fuel (.owned a) k).bind f := by
  obtain ⟨t, ho, hr⟩ := gotten_rep h
  obtain ⟨ids, h1, h2⟩ := findS_loc (L := L) (st := st) t ho (t := .owned a) k hr
  exact readsAtMost_of ⟨ids, h1.1, fun T st' hs fuel => congrArg (Res.bind · f) (h2 T st' hs fuel)⟩

/-- A lookup that reads more when it has found something. -/
theorem find_reads_more {α : Type} {a : SNode} (h : Gotten S L g st a) (k : Bytes) (c : Nat)
    (f : {τ : Type} → BlobStore τ ε → τ → SFind → Res ε α)
    (hf : ∀ x, ∃ ids : List Bytes, ids.length ≤ c ∧ ∀ {τ : Type} (T : BlobStore τ ε) (st' : τ), Same S st T st' ids → f T st' x = f S st x) :
    ReadsAtMost S st (blobsPerNode g * (k.length + 1) + c) fun T st' fuel => (findS T st' fuel (.owned a) k).bind (f T st') := by
  obtain ⟨t, ho, hr⟩ := gotten_rep h
  obtain ⟨ids, h1, h2⟩ := findS_loc (L := L) (st := st) t ho (t := .owned a) k hr
  by_cases hex : ∃ fuel x, findS S st fuel (.owned a) k = .ok x
  · obtain ⟨fuel0, x, e⟩ := hex
    obtain ⟨ids', h3, h4⟩ := hf x
    refine readsAtMost_of ⟨ids ++ ids', by rw [List.length_append]; have := h1.1; omega, fun T st' hs fuel => ?_⟩
    show (findS T st' fuel (.owned a) k).bind (f T st') = (findS S st fuel (.owned a) k).bind (f S st)
    rw [h2 T st' hs.left]
    cases e' : findS S st fuel (.owned a) k with
    | ok y =>
      have : y = x := by
        have m1 := leR_le (fun n => findS_fuel (S := S) (st := st) n (.owned a) k) (Nat.le_max_left fuel fuel0)
        have m2 := leR_le (fun n => findS_fuel (S := S) (st := st) n (.owned a) k) (Nat.le_max_right fuel fuel0)
        rw [e'] at m1
        rw [e] at m2
        rcases m1 with m1 | m1
        · cases m1
        · rcases m2 with m2 | m2
          · cases m2
          · rw [← m1] at m2; cases m2; rfl
      subst this
      exact h4 T st' hs.right
    | _ => rfl
  · refine readsAtMost_of ⟨ids, by have := h1.1; omega, fun T st' hs fuel => ?_⟩
    show (findS T st' fuel (.owned a) k).bind (f T st') = (findS S st fuel (.owned a) k).bind (f S st)
    rw [h2 T st' hs]
    cases e' : findS S st fuel (.owned a) k with
    | ok y => exact absurd ⟨fuel, y, e'⟩ hex
    | _ => rfl

theorem getLoad_reads {a : SNode} (h : Gotten S L g st a) (k : Bytes) :
    ReadsAtMost S st (blobsPerNode g * (k.length + 1) + 1) fun T st' fuel => getLoadS T fuel st' a k := by
  have := find_reads_more h k 1 (fun T st' x => (match x with
    | .found u => .ok u.val.valueOpt
    | _ => .ok none : Res ε (Option BlobV)).bind (loadOptV T st')) fun x => ?_
  · obtain ⟨ids, h1, h2⟩ := this
    have e : ∀ {τ : Type} (T : BlobStore τ ε) (st' : τ), (fun fuel => getLoadS T fuel st' a k) = fun fuel =>
        (findS T st' fuel (.owned a) k).bind fun x => (match x with
          | .found u => .ok u.val.valueOpt
          | _ => .ok none : Res ε (Option BlobV)).bind (loadOptV T st') := fun T st' => by
      funext fuel
      unfold getLoadS getS
      cases findS T st' fuel (.owned a) k <;> rfl
    refine ⟨ids, h1, fun T st' hs y hy => ?_⟩
    have hy : Outcome (fun fuel => getLoadS S fuel st a k) y := hy
    rw [e S st] at hy
    show Outcome (fun fuel => getLoadS T fuel st' a k) y
    rw [e T st']
    exact h2 T st' hs y hy
  · cases x with
    | found u =>
      cases hv : u.val.valueOpt with
      | none => exact ⟨[], Nat.zero_le _, fun T st' _ => by simp only [hv]; rfl⟩
      | some b =>
        cases b with
        | data d => exact ⟨[], Nat.zero_le _, fun T st' _ => by simp only [hv]; rfl⟩
        | id i =>
          refine ⟨[i], Nat.le_refl _, fun T st' hs => ?_⟩
          simp only [hv, Res.bind, loadOptV, BlobV.load]
          rw [hs i (by simp)]
    | _ => exact ⟨[], Nat.zero_le _, fun T st' _ => rfl⟩

theorem filterPrefix_reads {a : SNode} (h : Gotten S L g st a) (p s : Bytes) :
    ReadsAtMost S st (blobsPerNode g * (p.length + 1) + 1) fun T st' fuel => filterPrefixS T fuel st' a p s := by
  refine find_reads_more h p 1 (fun T st' x => (match x with
    | .found u => u.toOwned.bind fun r => .ok (r.setPrefix s)
    | .pre u matching =>
      (loadPrefix T st' u.pfx).bind fun tp =>
      u.toOwned.bind fun r => .ok (r.setPrefix (s ++ tp.drop matching))
    | .notFound => .ok SNode.empty : Res ε SNode)) fun x => ?_
  cases x with
  | pre u j =>
    refine ⟨pIds u.pfx, ?_, fun T st' hs => ?_⟩
    · unfold pIds; split <;> simp
    · simp only [loadPrefix_same hs]
  | _ => exact ⟨[], Nat.zero_le _, fun T st' _ => rfl⟩

end

end Radix
