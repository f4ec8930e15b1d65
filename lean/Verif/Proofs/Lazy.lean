import Verif.Proofs.Local
import Verif.Stored.Lazy

/-
Proof-internal: which blobs the iterators read.
-/

set_option linter.unusedVariables false

namespace Radix
open Node

/-- Whether a node can have blobs. -/
def wt (n : Node) : Nat := if n.pfx.isEmpty && n.ch.isNone then 0 else 1

theorem wt_le (n : Node) : wt n ≤ 1 := by unfold wt; split <;> omega

/-- How many nodes (that can have blobs) the next step passes. -/
def pops (s : List Frame) : Nat :=
  match s with
  | [] => 0
  | (plen, some (node :: rest)) :: st =>
    match node.val with
    | some v => wt node
    | none => wt node + pops ((node.pfx.length, node.loadChildrenOwned) :: (plen, some rest) :: st)
  | (plen, some []) :: st => pops ((plen, none) :: st)
  | (plen, none) :: st => pops st
termination_by stackSize s
decreasing_by
  · have := frameSize_le node.pfx.length node
    have := nodes_pos node
    simp only [stackSize]
    simp only [frameSize, nodesL] at *; omega
  · simp only [stackSize, frameSize, nodesL]; omega
  · simp only [stackSize, frameSize]; omega

/-- How many nodes the next `n` steps pass. -/
def popsN : Nat → KVIter → Nat
  | 0, _ => 0
  | n + 1, s => pops s.stack + match s.next0 with
    | (none, _) => 0
    | (some _, s') => popsN n s'

section
variable {σ τ ε : Type} {S : BlobStore σ ε} {T : BlobStore τ ε} {L : Lawful S} {g : Bool} {st : σ} {st' : τ}

theorem loadChildrenOwned_same {t : Ref} (h : Same S st T st' (cIds (chOf t))) :
    t.loadChildrenOwned T st' = t.loadChildrenOwned S st := by
  cases t with
  | owned a =>
    simp only [Ref.loadChildrenOwned, SNode.loadChildrenOwned]
    split
    · rfl
    · rename_i i e
      exact loadIter_same (by rw [← e]; exact h)
  | borrowed r => exact loadChildren_same (t := .borrowed r) h

end

section
variable {σ ε : Type} {S : BlobStore σ ε} {L : Lawful S} {g : Bool} {st : σ}

theorem repC_none {c : List SNode ⊕ Bytes} (h : RepC L g st c none) : c = .inr [] := by
  cases c <;> simpa [RepC] using h

theorem RefRep.cIds_wt {t : Ref} {n : Node} (h : RefRep L g st t n) : (cIds (chOf t)).length ≤ wt n := by
  cases hn : n.ch with
  | some l =>
    have : wt n = 1 := by simp [wt, hn]
    rw [this]; exact cIds_le _
  | none =>
    have hc : chOf t = .inr [] := by
      cases n with
      | mk p v c =>
        cases hn
        cases t with
        | owned a => simp only [RefRep, Rep] at h; exact repC_none h.2.2
        | borrowed r =>
          obtain ⟨i, e, h⟩ := h
          simp only [Rep] at h
          have := repC_none h.2.2
          simp only [SNode.children] at this
          simp only [chOf, e, this]
    rw [hc]; exact Nat.zero_le _

theorem RefRep.ids_wt {t : Ref} {n : Node} (h : RefRep L g st t n) :
    (pIds t.pfx ++ cIds (chOf t)).length ≤ blobsPerNode g * wt n := by
  have h2 := h.cIds_wt
  have h1 := pIds_le h.pfx
  rw [List.length_append]
  by_cases hw : wt n = 0
  · have hp : n.pfx = [] := by
      unfold wt at hw
      split at hw
      · rename_i e; simp only [Bool.and_eq_true, List.isEmpty_iff] at e; exact e.1
      · cases hw
    have hpp := h.pfx
    rw [hp] at hpp
    rcases hpp with e | ⟨_, c, i, _, _, hh, _⟩
    · rw [e]; simp only [pIds, List.length_nil]; rw [hw] at h2 ⊢; omega
    · cases hh
  · have : wt n = 1 := by have := wt_le n; omega
    rw [this] at h2 ⊢; omega

/-- What a step reads. -/
theorem next0_loc : ∀ (N : Nat) {s : SIter} {s' : KVIter}, SIterRep L g st s s' → stackSize s'.stack < N →
    ∃ r ids, ids.length ≤ blobsPerNode g * pops s'.stack ∧ ∀ {τ : Type} (T : BlobStore τ ε) (st' : τ), Same S st T st' ids →
      ∀ fuel, N ≤ fuel → SIter.next0 T st' fuel s = r := by
  intro N
  induction N with
  | zero => intro s s' _ h; omega
  | succ N ih =>
    rintro ⟨path, stk⟩ ⟨path', stk'⟩ ⟨rfl, h⟩ hf
    simp only at h hf
    match stk', h, hf with
    | [], h, hf =>
      cases (stackRep_nil h)
      refine ⟨.ok (none, ⟨path, []⟩), [], by simp, fun T st' _ fuel hn => ?_⟩
      obtain ⟨fuel, rfl⟩ : ∃ k, fuel = k + 1 := ⟨fuel - 1, by omega⟩
      rfl
    | (plen, some (node :: rest)) :: st'', h, hf =>
      obtain ⟨o1, s1, rfl, ho, hs⟩ := stackRep_cons h
      obtain ⟨it, rfl, hi⟩ := oiter_some ho
      obtain ⟨y, it', e3, h1, h2⟩ := hi.next_cons
      have hw := h1.ids_wt
      have step : ∀ {τ : Type} (T : BlobStore τ ε) (st' : τ) fuel, SIter.next0 T st' (fuel + 1) ⟨path, (plen, some it) :: s1⟩ =
          (loadPrefix T st' y.pfx).bind fun p => (y.loadChildrenOwned T st').bind fun cs =>
            match y.val.valueOpt with
            | some v => .ok (some (pathAppend path p, v), ⟨pathAppend path p, (p.length, cs) :: (plen, some it') :: s1⟩)
            | none => SIter.next0 T st' fuel ⟨pathAppend path p, (p.length, cs) :: (plen, some it') :: s1⟩ := by
        intro τ T st' fuel
        simp only [SIter.next0, e3]
        rfl
      -- if there is no more than this node
      have here : ∀ r, (∀ {τ : Type} (T : BlobStore τ ε) (st' : τ), Same S st T st' (pIds y.pfx ++ cIds (chOf y)) → ∀ fuel,
          SIter.next0 T st' (fuel + 1) ⟨path, (plen, some it) :: s1⟩ = r) →
          ∃ r ids, ids.length ≤ blobsPerNode g * pops ((plen, some (node :: rest)) :: st'') ∧
          ∀ {τ : Type} (T : BlobStore τ ε) (st' : τ), Same S st T st' ids →
            ∀ fuel, N + 1 ≤ fuel → SIter.next0 T st' fuel ⟨path, (plen, some it) :: s1⟩ = r := by
        intro r hr
        refine ⟨r, _, Nat.le_trans hw (Nat.mul_le_mul_left _ ?_), fun T st' hsame fuel hn => ?_⟩
        · rw [pops.eq_def]; simp only; split <;> omega
        · obtain ⟨fuel, rfl⟩ : ∃ k, fuel = k + 1 := ⟨fuel - 1, by omega⟩
          exact hr T st' hsame fuel
      have hp := loadPrefix_rep h1.pfx
      cases e : loadPrefix S st y.pfx with
      | err x =>
        exact here (.err x) fun T st' hsame fuel => by rw [step, loadPrefix_same hsame.left, e]; rfl
      | panic => rw [e] at hp; exact hp.elim
      | deep => rw [e] at hp; exact hp.elim
      | ok p =>
        rw [e] at hp
        have hp : p = node.pfx := hp
        subst hp
        have hc := h1.loadChildrenOwned
        cases e2 : y.loadChildrenOwned S st with
        | err x =>
          exact here (.err x) fun T st' hsame fuel => by
            rw [step, loadPrefix_same hsame.left, e, loadChildrenOwned_same hsame.right, e2]; rfl
        | panic => rw [e2] at hc; exact hc.elim
        | deep => rw [e2] at hc; exact hc.elim
        | ok cs =>
          rw [e2] at hc
          have hrep : SIterRep L g st ⟨pathAppend path node.pfx, (node.pfx.length, cs) :: (plen, some it') :: s1⟩
              ⟨pathAppend path node.pfx, (node.pfx.length, node.loadChildrenOwned) :: (plen, some rest) :: st''⟩ :=
            ⟨rfl, rfl, hc, rfl, h2, hs⟩
          rcases oval_cases (valueOpt_rep h1.val) with ⟨e1, e1'⟩ | ⟨b, w, e1, e1', hv⟩
          · obtain ⟨r, ids, hl, hr⟩ := ih hrep (by
              have := frameSize_le node.pfx.length node
              have := nodes_pos node
              simp only [stackSize, frameSize, nodesL] at *; omega)
            refine ⟨r, (pIds y.pfx ++ cIds (chOf y)) ++ ids, ?_, fun T st' hsame fuel hn => ?_⟩
            · rw [pops.eq_def, List.length_append]
              simp only [e1']
              rw [Nat.mul_add]
              simp only at hl
              omega
            · obtain ⟨fuel, rfl⟩ : ∃ k, fuel = k + 1 := ⟨fuel - 1, by omega⟩
              rw [step, loadPrefix_same hsame.left.left, e, loadChildrenOwned_same hsame.left.right, e2]
              simp only [Res.bind, e1]
              exact hr T st' hsame.right fuel (by omega)
          · refine here (.ok (some (pathAppend path node.pfx, b),
              ⟨pathAppend path node.pfx, (node.pfx.length, cs) :: (plen, some it') :: s1⟩)) fun T st' hsame fuel => ?_
            rw [step, loadPrefix_same hsame.left, e, loadChildrenOwned_same hsame.right, e2]
            simp only [Res.bind, e1]
    | (plen, some []) :: st'', h, hf =>
      obtain ⟨o1, s1, rfl, ho, hs⟩ := stackRep_cons h
      obtain ⟨it, rfl, hi⟩ := oiter_some ho
      obtain ⟨r, ids, hl, hr⟩ := ih (s := ⟨path, (plen, none) :: s1⟩) (s' := ⟨path, (plen, none) :: st''⟩)
        ⟨rfl, rfl, trivial, hs⟩ (by simp only [stackSize, frameSize, nodesL] at *; omega)
      refine ⟨r, ids, by rw [pops.eq_def]; exact hl, fun T st' hsame fuel hn => ?_⟩
      obtain ⟨fuel, rfl⟩ : ∃ k, fuel = k + 1 := ⟨fuel - 1, by omega⟩
      simp only [SIter.next0, hi.next_nil]
      exact hr T st' hsame fuel (by omega)
    | (plen, none) :: st'', h, hf =>
      obtain ⟨o1, s1, rfl, ho, hs⟩ := stackRep_cons h
      cases (oiter_none ho)
      obtain ⟨r, ids, hl, hr⟩ := ih (s := ⟨pathPop path plen, s1⟩) (s' := ⟨pathPop path plen, st''⟩)
        ⟨rfl, hs⟩ (by simp only [stackSize, frameSize, nodesL] at *; omega)
      refine ⟨r, ids, by rw [pops.eq_def]; exact hl, fun T st' hsame fuel hn => ?_⟩
      obtain ⟨fuel, rfl⟩ : ∃ k, fuel = k + 1 := ⟨fuel - 1, by omega⟩
      simp only [SIter.next0]
      exact hr T st' hsame fuel (by omega)

theorem take_empty {τ : Type} (T : BlobStore τ ε) (st' : τ) (fuel : Nat) (path : Bytes) (n : Nat) :
    takeS (SIter.next T st' (fuel + 1)) n ⟨path, []⟩ = .ok [] := by
  cases n <;> rfl

/-- What some steps read. -/
theorem take_loc : ∀ (n : Nat) {s : SIter} {s' : KVIter}, SIterRep L g st s s' →
    ∃ r ids N, ids.length ≤ blobsPerNode g * popsN n s' ∧ ∀ {τ : Type} (T : BlobStore τ ε) (st' : τ), Same S st T st' ids →
      ∀ fuel, N ≤ fuel → takeS (SIter.next T st' fuel) n s = r := by
  intro n
  induction n with
  | zero => intro s s' h; exact ⟨.ok [], [], 0, by simp, fun T st' _ fuel _ => rfl⟩
  | succ n ih =>
    intro s s' h
    obtain ⟨r, ids, hl, hr⟩ := next0_loc (stackSize s'.stack + 1) h (Nat.lt_succ_self _)
    have hS := hr S st (fun _ _ => rfl) (stackSize s'.stack + 1) (Nat.le_refl _)
    have hrep := next0_rep (fuel := stackSize s'.stack + 1) h (Nat.lt_succ_self _)
    rw [hS] at hrep
    have one : ∀ x, (∀ {τ : Type} (T : BlobStore τ ε) (st' : τ) fuel, SIter.next0 T st' fuel s = r → stackSize s'.stack + 1 ≤ fuel →
        takeS (SIter.next T st' fuel) (n + 1) s = x) → ∃ r ids N, ids.length ≤ blobsPerNode g * popsN (n + 1) s' ∧
        ∀ {τ : Type} (T : BlobStore τ ε) (st' : τ), Same S st T st' ids →
          ∀ fuel, N ≤ fuel → takeS (SIter.next T st' fuel) (n + 1) s = r := fun x hx =>
      ⟨x, ids, stackSize s'.stack + 1, Nat.le_trans hl (Nat.mul_le_mul_left _ (by simp only [popsN]; omega)),
        fun T st' hsame fuel hn => hx T st' fuel (hr T st' hsame fuel hn) hn⟩
    cases r with
    | panic => exact hrep.elim
    | deep => exact hrep.elim
    | err e =>
      refine one (.ok [.error e]) fun T st' fuel e1 hn => ?_
      obtain ⟨fuel, rfl⟩ : ∃ k, fuel = k + 1 := ⟨fuel - 1, by omega⟩
      simp only [takeS, SIter.next, e1, Res.bind, take_empty]
    | ok x =>
      obtain ⟨o, s1⟩ := x
      obtain ⟨ho, hs1⟩ := hrep
      cases o with
      | none => exact one (.ok []) fun T st' fuel e1 hn => by simp only [takeS, SIter.next, e1, Res.bind]
      | some x =>
        obtain ⟨r2, ids2, N2, hl2, hr2⟩ := ih hs1
        refine ⟨r2.bind fun l => .ok (.ok x :: l), ids ++ ids2, max (stackSize s'.stack + 1) N2, ?_, fun T st' hsame fuel hn => ?_⟩
        · rw [List.length_append, popsN, Nat.mul_add]
          cases e : s'.next0 with
          | mk o' s2 =>
            rw [e] at ho hl2
            cases o' with
            | none => exact ho.elim
            | some x' => simp only at hl2 ⊢; omega
        · have e1 := hr T st' hsame.left fuel (by omega)
          have e2 := hr2 T st' hsame.right fuel (by omega)
          simp only [takeS, SIter.next, e1, Res.bind, e2]

end

/-! ### How many nodes are passed -/

/-- All nodes of the iterator are compact and ordered. -/
def StackOk (s : List Frame) : Prop := ∀ f ∈ s, ∀ l, f.2 = some l → ∀ n ∈ l, Cmp n ∧ Ord n

theorem loadOwned_kids {n : Node} {l : List Node} (h : n.loadChildrenOwned = some l) : l = n.kids := by
  cases n with
  | mk p v c => simp only [loadChildrenOwned, Node.ch] at h; subst h; rfl

theorem stackOk_node {plen : Nat} {n : Node} {l : List Node} {s : List Frame} (h : StackOk ((plen, some (n :: l)) :: s)) :
    StackOk ((n.pfx.length, n.loadChildrenOwned) :: (plen, some l) :: s) := by
  intro f hf k hk m hm
  have hn := h _ (List.mem_cons_self) _ rfl n (by simp)
  simp only [List.mem_cons] at hf
  rcases hf with rfl | rfl | hf
  · rw [loadOwned_kids hk] at hm
    exact ⟨((cmp_iff n).1 hn.1).2 m hm, (((ord_iff n).1 hn.2).mem hm).2⟩
  · cases hk; exact h _ (List.mem_cons_self) _ rfl m (by simp [hm])
  · exact h f (by simp [hf]) k hk m hm

theorem stackOk_tail {f : Frame} {s : List Frame} (h : StackOk (f :: s)) : StackOk s := fun f hf => h f (by simp [hf])

theorem stackOk_none {plen : Nat} {s : List Frame} (h : StackOk s) : StackOk ((plen, none) :: s) := by
  intro f hf k hk
  simp only [List.mem_cons] at hf
  rcases hf with rfl | hf
  · cases hk
  · exact h f hf k hk

theorem next0_ok (s : KVIter) (h : StackOk s.stack) : StackOk s.next0.2.stack := by
  fun_induction KVIter.next0 s with
  | case1 => exact h
  | case2 s plen node rest st hs path s1 v hv => rw [hs] at h; exact stackOk_node h
  | case3 s plen node rest st hs path s1 hv ih => rw [hs] at h; exact ih (stackOk_node h)
  | case4 s plen st hs ih => rw [hs] at h; exact ih (stackOk_none (stackOk_tail h))
  | case5 s plen st hs ih => rw [hs] at h; exact ih (stackOk_tail h)

/-- The nodes on the way to the first entry below a node have at least one byte each, but for the first. -/
theorem pops_node (n : Node) (hc : Cmp n) (ho : Ord n) : ∀ (plen : Nat) (l : List Node) (s : List Frame) (pre : Bytes),
    ∃ e es, ents pre n = e :: es ∧ pops ((plen, some (n :: l)) :: s) + pre.length + n.pfx.length ≤ e.1.length + 1 := by
  induction n using Node.kidsInduction with
  | step n ih =>
    intro plen l s pre
    rw [pops.eq_def]
    have hw := wt_le n
    simp only
    cases hv : n.val with
    | some v =>
      refine ⟨(pre ++ n.pfx, v), entsL (pre ++ n.pfx) n.kids, by rw [ents_eq, hv]; rfl, ?_⟩
      simp only [List.length_append]; omega
    | none =>
      have h2 := ((cmp_iff n).1 hc).1
      rw [hv] at h2
      simp only [Option.isSome_none, Bool.false_eq_true, false_or] at h2
      cases hk : n.kids with
      | nil => rw [hk] at h2; simp at h2
      | cons c cs =>
        have hm : c ∈ n.kids := by simp [hk]
        have ho' := ((ord_iff n).1 ho).mem hm
        have hl : n.loadChildrenOwned = some (c :: cs) := by
          cases n with
          | mk p v k =>
            cases k with
            | none => cases hk
            | some k => cases hk; rfl
        obtain ⟨e, es, he, hp⟩ := ih c hm (((cmp_iff n).1 hc).2 c hm) ho'.2 n.pfx.length cs ((plen, some l) :: s) (pre ++ n.pfx)
        refine ⟨e, es ++ entsL (pre ++ n.pfx) cs, by rw [ents_eq, hv, hk]; simp [entsL, he], ?_⟩
        have := List.length_pos_iff.2 ho'.1
        rw [hl]
        simp only [List.length_append] at hp ⊢; omega

/-- A step passes at most as many nodes as the key it finds has bytes, and one; the last step passes none. -/
theorem pops_le : ∀ (s : KVIter), StackOk s.stack →
    match stackEnts s.path s.stack with
    | [] => pops s.stack = 0
    | e :: _ => pops s.stack ≤ e.1.length + 1 := by
  intro s
  fun_induction KVIter.next0 s with
  | case1 s hs => intro h; rw [hs]; simp [stackEnts, pops]
  | case2 s plen node rest st hs path s1 v hv =>
    intro h; rw [hs] at h ⊢
    have hn := h _ (List.mem_cons_self) _ rfl node (by simp)
    obtain ⟨e, es, he, hp⟩ := pops_node node hn.1 hn.2 plen rest st s.path
    simp only [stackEnts, entsO, entsL, he, List.cons_append]
    omega
  | case3 s plen node rest st hs path s1 hv ih =>
    intro h; rw [hs] at h ⊢
    have hn := h _ (List.mem_cons_self) _ rfl node (by simp)
    obtain ⟨e, es, he, hp⟩ := pops_node node hn.1 hn.2 plen rest st s.path
    simp only [stackEnts, entsO, entsL, he, List.cons_append]
    omega
  | case4 s plen st hs ih =>
    intro h; rw [hs] at h ⊢
    have := ih (stackOk_none (stackOk_tail h))
    rw [pops.eq_def]
    simpa [stackEnts, entsO, entsL] using this
  | case5 s plen st hs ih =>
    intro h; rw [hs] at h ⊢
    have := ih (stackOk_tail h)
    rw [pops.eq_def]
    simpa [stackEnts, entsO, entsL] using this

theorem popsN_le : ∀ (n : Nat) (s : KVIter), StackOk s.stack → popsN n s ≤ keyBytes ((stackEnts s.path s.stack).take n) := by
  intro n
  induction n with
  | zero => intro s _; simp [popsN]
  | succ n ih =>
    intro s h
    have h1 := pops_le s h
    have h2 := next0_spec s
    have h3 := next0_ok s h
    simp only [popsN]
    cases e : s.next0 with
    | mk o s' =>
      rw [e] at h2 h3
      cases o with
      | none => simp only at h2 ⊢; rw [h2] at h1 ⊢; simp only at h1; omega
      | some x =>
        simp only at h2 ⊢
        rw [h2] at h1 ⊢
        simp only at h1
        have := ih s' h3
        simp only [List.take_succ_cons, keyBytes, List.map_cons, List.sum_cons] at this ⊢
        omega

/-- The same for a whole tree, also for the empty one. -/
theorem popsN_tree (t : Node) (hs : Shape t) (ho : Ord t) (path : Bytes) (n : Nat) :
    popsN n ⟨path, [(0, some [t])]⟩ ≤ keyBytes ((stackEnts path [(0, some [t])]).take n) := by
  rcases hs with rfl | hc
  · cases n with
    | zero => simp [popsN]
    | succ n =>
      have : KVIter.next0 ⟨path, [(0, some [Node.empty])]⟩ = (none, ⟨pathPop (pathPop (pathAppend path []) 0) 0, []⟩) := by
        rw [KVIter.next0.eq_def]; simp only [Node.empty, Node.val]
        rw [KVIter.next0.eq_def]; simp only [Node.loadChildrenOwned, Node.ch]
        rw [KVIter.next0.eq_def]; simp only [List.length_nil]
        rw [KVIter.next0.eq_def]; simp only
        rw [KVIter.next0.eq_def]
        rfl
      simp only [popsN, this]
      rw [pops.eq_def]; simp only [Node.empty, Node.val, wt, Node.pfx, Node.ch, List.isEmpty_nil, Option.isNone_none, Bool.and_self, if_true]
      rw [pops.eq_def]; simp only [Node.loadChildrenOwned, Node.ch]
      rw [pops.eq_def]; simp only
      rw [pops.eq_def]; simp only
      rw [pops.eq_def]; simp
  · refine popsN_le n _ fun f hf l hl m hm => ?_
    simp only [List.mem_singleton] at hf
    subst hf; cases hl
    simp only [List.mem_singleton] at hm
    subst hm; exact ⟨hc, ho⟩

/-! ### Values -/

/-- How many nodes the next step over values passes. -/
def vpops (s : List (List Node)) : Nat :=
  match s with
  | [] => 0
  | [] :: st => vpops st
  | (node :: rest) :: st =>
    match node.val with
    | some v => wt node
    | none => wt node + vpops (pushOpt node.loadChildrenOwned (rest :: st))
termination_by vstackSize s
decreasing_by
  · simp only [vstackSize]; omega
  · have := vstackSize_pushOpt node (rest :: st)
    simp only [vstackSize, nodesL] at *; omega

def vpopsN : Nat → List (List Node) → Nat
  | 0, _ => 0
  | n + 1, s => vpops s + match valNext0 s with
    | (none, _) => 0
    | (some _, s') => vpopsN n s'

/-- The lists of nodes in the frames. -/
def proj (s : List Frame) : List (List Node) := s.filterMap (·.2)

theorem proj_node (n : Node) (k plen : Nat) (l : List Node) (s : List Frame) :
    proj ((k, n.loadChildrenOwned) :: (plen, some l) :: s) = pushOpt n.loadChildrenOwned (l :: proj s) := by
  cases h : n.loadChildrenOwned <;> rfl

theorem vpops_proj (s : KVIter) : vpops (proj s.stack) = pops s.stack := by
  fun_induction KVIter.next0 s with
  | case1 s hs => rw [hs, pops.eq_def, vpops.eq_def]; rfl
  | case2 s plen node rest st hs path s1 v hv =>
    rw [hs, pops.eq_def]
    show vpops ((node :: rest) :: proj st) = _
    rw [vpops.eq_def]; simp only [hv]
  | case3 s plen node rest st hs path s1 hv ih =>
    rw [hs, pops.eq_def]
    show vpops ((node :: rest) :: proj st) = _
    rw [vpops.eq_def]; simp only [hv]
    rw [← ih, ← proj_node node node.pfx.length plen]
  | case4 s plen st hs ih =>
    rw [hs, pops.eq_def]
    show vpops ([] :: proj st) = _
    rw [vpops.eq_def]; exact ih
  | case5 s plen st hs ih =>
    rw [hs, pops.eq_def]; exact ih

theorem valNext0_proj (s : KVIter) : valNext0 (proj s.stack) = (s.next0.1.map (·.2), proj s.next0.2.stack) := by
  fun_induction KVIter.next0 s with
  | case1 s hs => rw [hs, valNext0.eq_def]; rfl
  | case2 s plen node rest st hs path s1 v hv =>
    rw [hs]
    show valNext0 ((node :: rest) :: proj st) = _
    rw [valNext0.eq_def]; simp only [hv]
    rw [← proj_node node node.pfx.length plen]; rfl
  | case3 s plen node rest st hs path s1 hv ih =>
    rw [hs]
    show valNext0 ((node :: rest) :: proj st) = _
    rw [valNext0.eq_def]; simp only [hv]
    rw [← ih, ← proj_node node node.pfx.length plen]
  | case4 s plen st hs ih =>
    rw [hs]
    show valNext0 ([] :: proj st) = _
    rw [valNext0.eq_def]; exact ih
  | case5 s plen st hs ih => rw [hs]; exact ih

theorem vpopsN_proj (n : Nat) : ∀ s : KVIter, vpopsN n (proj s.stack) = popsN n s := by
  induction n with
  | zero => intro s; rfl
  | succ n ih =>
    intro s
    simp only [vpopsN, popsN, vpops_proj, valNext0_proj]
    cases e : s.next0 with
    | mk o s' => cases o <;> simp only [Option.map_none, Option.map_some, ih]

section
variable {σ ε : Type} {S : BlobStore σ ε} {L : Lawful S} {g : Bool} {st : σ}

theorem valNext0_loc : ∀ (N : Nat) {s : List TIter} {s' : List (List Node)}, VStackRep L g st s s' → vstackSize s' < N →
    ∃ r ids, ids.length ≤ vpops s' ∧ ∀ {τ : Type} (T : BlobStore τ ε) (st' : τ), Same S st T st' ids →
      ∀ fuel, N ≤ fuel → valNext0S T st' fuel s = r := by
  intro N
  induction N with
  | zero => intro s s' _ h; omega
  | succ N ih =>
    intro s s' h hf
    match s, s', h, hf with
    | [], [], h, hf =>
      refine ⟨.ok (none, []), [], by simp, fun T st' _ fuel hn => ?_⟩
      obtain ⟨fuel, rfl⟩ : ∃ k, fuel = k + 1 := ⟨fuel - 1, by omega⟩
      rfl
    | it :: s, [] :: s', h, hf =>
      obtain ⟨r, ids, hl, hr⟩ := ih h.2 (by simp only [vstackSize] at *; omega)
      refine ⟨r, ids, by rw [vpops.eq_def]; exact hl, fun T st' hsame fuel hn => ?_⟩
      obtain ⟨fuel, rfl⟩ : ∃ k, fuel = k + 1 := ⟨fuel - 1, by omega⟩
      simp only [valNext0S, IterRep.next_nil h.1]
      exact hr T st' hsame fuel (by omega)
    | it :: s, (node :: rest) :: s', h, hf =>
      obtain ⟨y, it', e3, h1, h2⟩ := IterRep.next_cons h.1
      have hw := h1.cIds_wt
      have step : ∀ {τ : Type} (T : BlobStore τ ε) (st' : τ) fuel, valNext0S T st' (fuel + 1) (it :: s) =
          (y.loadChildrenOwned T st').bind fun cs =>
            match y.val.valueOpt with
            | some v => .ok (some v, pushOptS cs (it' :: s))
            | none => valNext0S T st' fuel (pushOptS cs (it' :: s)) := by
        intro τ T st' fuel
        simp only [valNext0S, e3]
        rfl
      have here : ∀ r, (∀ {τ : Type} (T : BlobStore τ ε) (st' : τ), Same S st T st' (cIds (chOf y)) → ∀ fuel,
          valNext0S T st' (fuel + 1) (it :: s) = r) →
          ∃ r ids, ids.length ≤ vpops ((node :: rest) :: s') ∧
          ∀ {τ : Type} (T : BlobStore τ ε) (st' : τ), Same S st T st' ids →
            ∀ fuel, N + 1 ≤ fuel → valNext0S T st' fuel (it :: s) = r := by
        intro r hr
        refine ⟨r, _, Nat.le_trans hw ?_, fun T st' hsame fuel hn => ?_⟩
        · rw [vpops.eq_def]; simp only; split <;> omega
        · obtain ⟨fuel, rfl⟩ : ∃ k, fuel = k + 1 := ⟨fuel - 1, by omega⟩
          exact hr T st' hsame fuel
      have hc := h1.loadChildrenOwned
      cases e2 : y.loadChildrenOwned S st with
      | err x => exact here (.err x) fun T st' hsame fuel => by rw [step, loadChildrenOwned_same hsame, e2]; rfl
      | panic => rw [e2] at hc; exact hc.elim
      | deep => rw [e2] at hc; exact hc.elim
      | ok cs =>
        rw [e2] at hc
        have hcs : OIterRep L g st cs node.loadChildrenOwned := hc
        have hp : VStackRep L g st (pushOptS cs (it' :: s))
            (pushOpt node.loadChildrenOwned (rest :: s')) := by
          unfold pushOpt
          cases hl : node.loadChildrenOwned with
          | none => rw [hl] at hcs; cases (oiter_none hcs); exact ⟨h2, h.2⟩
          | some l =>
            rw [hl] at hcs
            obtain ⟨i, rfl, hi⟩ := oiter_some hcs
            exact ⟨hi, h2, h.2⟩
        rcases oval_cases (valueOpt_rep h1.val) with ⟨e1, e1'⟩ | ⟨b, w, e1, e1', hv⟩
        · obtain ⟨r, ids, hl, hr⟩ := ih hp (by
            have := vstackSize_pushOpt node (rest :: s')
            simp only [vstackSize, nodesL] at *; omega)
          refine ⟨r, cIds (chOf y) ++ ids, ?_, fun T st' hsame fuel hn => ?_⟩
          · rw [vpops.eq_def, List.length_append]
            simp only [e1']
            omega
          · obtain ⟨fuel, rfl⟩ : ∃ k, fuel = k + 1 := ⟨fuel - 1, by omega⟩
            rw [step, loadChildrenOwned_same hsame.left, e2]
            simp only [Res.bind, e1]
            exact hr T st' hsame.right fuel (by omega)
        · refine here (.ok (some b, pushOptS cs (it' :: s))) fun T st' hsame fuel => ?_
          rw [step, loadChildrenOwned_same hsame, e2]
          simp only [Res.bind, e1]
    | [], _ :: _, h, hf => exact h.elim
    | _ :: _, [], h, hf => exact h.elim

theorem takeV_empty {τ : Type} (T : BlobStore τ ε) (st' : τ) (fuel : Nat) (n : Nat) :
    takeS (valNextS T st' (fuel + 1)) n [] = .ok [] := by
  cases n <;> rfl

theorem takeV_loc : ∀ (n : Nat) {s : List TIter} {s' : List (List Node)}, VStackRep L g st s s' →
    ∃ r ids N, ids.length ≤ vpopsN n s' ∧ ∀ {τ : Type} (T : BlobStore τ ε) (st' : τ), Same S st T st' ids →
      ∀ fuel, N ≤ fuel → takeS (valNextS T st' fuel) n s = r := by
  intro n
  induction n with
  | zero => intro s s' h; exact ⟨.ok [], [], 0, by simp, fun T st' _ fuel _ => rfl⟩
  | succ n ih =>
    intro s s' h
    obtain ⟨r, ids, hl, hr⟩ := valNext0_loc (vstackSize s' + 1) h (Nat.lt_succ_self _)
    have hS := hr S st (fun _ _ => rfl) (vstackSize s' + 1) (Nat.le_refl _)
    have hrep := valNext0_rep (fuel := vstackSize s' + 1) h (Nat.lt_succ_self _)
    rw [hS] at hrep
    have one : ∀ x, (∀ {τ : Type} (T : BlobStore τ ε) (st' : τ) fuel, valNext0S T st' fuel s = r → vstackSize s' + 1 ≤ fuel →
        takeS (valNextS T st' fuel) (n + 1) s = x) → ∃ r ids N, ids.length ≤ vpopsN (n + 1) s' ∧
        ∀ {τ : Type} (T : BlobStore τ ε) (st' : τ), Same S st T st' ids →
          ∀ fuel, N ≤ fuel → takeS (valNextS T st' fuel) (n + 1) s = r := fun x hx =>
      ⟨x, ids, vstackSize s' + 1, Nat.le_trans hl (by simp only [vpopsN]; omega),
        fun T st' hsame fuel hn => hx T st' fuel (hr T st' hsame fuel hn) hn⟩
    cases r with
    | panic => exact hrep.elim
    | deep => exact hrep.elim
    | err e =>
      refine one (.ok [.error e]) fun T st' fuel e1 hn => ?_
      obtain ⟨fuel, rfl⟩ : ∃ k, fuel = k + 1 := ⟨fuel - 1, by omega⟩
      simp only [takeS, valNextS, e1, Res.bind, takeV_empty]
    | ok x =>
      obtain ⟨o, s1⟩ := x
      obtain ⟨ho, hs1⟩ := hrep
      cases o with
      | none => exact one (.ok []) fun T st' fuel e1 hn => by simp only [takeS, valNextS, e1, Res.bind]
      | some x =>
        obtain ⟨r2, ids2, N2, hl2, hr2⟩ := ih hs1
        refine ⟨r2.bind fun l => .ok (.ok x :: l), ids ++ ids2, max (vstackSize s' + 1) N2, ?_, fun T st' hsame fuel hn => ?_⟩
        · rw [List.length_append, vpopsN]
          cases e : valNext0 s' with
          | mk o' s2 =>
            rw [e] at ho hl2
            cases o' with
            | none => exact ho.elim
            | some x' => simp only at hl2 ⊢; omega
        · have e1 := hr T st' hsame.left fuel (by omega)
          have e2 := hr2 T st' hsame.right fuel (by omega)
          simp only [takeS, valNextS, e1, Res.bind, e2]

theorem readsAtMost_const {α : Type} {n : Nat} {x : {τ : Type} → BlobStore τ ε → τ → Nat → α}
    (h : ∃ r, ∃ ids : List Bytes, ∃ N, ids.length ≤ n ∧ ∀ {τ : Type} (T : BlobStore τ ε) (st' : τ), Same S st T st' ids →
      ∀ fuel, N ≤ fuel → x T st' fuel = r) : ReadsAtMost S st n x := by
  obtain ⟨r, ids, N, hl, hr⟩ := h
  refine ⟨ids, hl, fun T st' hs y ⟨N', hy⟩ => ⟨N, fun fuel hf => ?_⟩⟩
  have e1 := hy (max N N') (by omega)
  have e2 := hr S st (fun _ _ => rfl) (max N N') (by omega)
  exact (hr T st' hs fuel hf).trans (e2.symm.trans e1)

/-- The entries of the tree, in order. -/
theorem stands_ents {a : SNode} {m : Spec.Map} {t : Node} (h : Stands L g st a m t) {l : List (Bytes × Bytes)}
    (hl : l.Pairwise fun x y => x.1 < y.1) (hm : ∀ k v, (k, v) ∈ l ↔ m k = some v) : ents [] t = l := by
  refine sorted_eq (ents_sorted h.1 []) hl fun ⟨k, v⟩ => ?_
  rw [hm, mem_ents h.1]
  constructor
  · rintro ⟨r, rfl, hd⟩; rw [← h.2.2.2]; exact hd
  · intro e; exact ⟨k, rfl, by rw [h.2.2.2]; exact e⟩

theorem stackEnts_tree (t : Node) (path : Bytes) : stackEnts path [(0, some [t])] = ents path t := by
  simp [stackEnts, entsO, entsL]

theorem iter_reads {a : SNode} {m : Spec.Map} (h : Att S L g st a m) {l : List (Bytes × Bytes)}
    (hl : l.Pairwise fun x y => x.1 < y.1) (hm : ∀ k v, (k, v) ∈ l ↔ m k = some v) (n : Nat) :
    ReadsAtMost S st (blobsPerNode g * keyBytes (l.take n)) fun T st' fuel => firstEntriesS T st' fuel a n := by
  obtain ⟨t, hst⟩ := att_stands h
  obtain ⟨r, ids, N, h1, h2⟩ := take_loc n (iterS_rep hst.2.2.1)
  have h3 := popsN_tree t hst.2.1 hst.1 [] n
  rw [stackEnts_tree, stands_ents hst hl hm] at h3
  exact readsAtMost_const ⟨r, ids, N, Nat.le_trans h1 (Nat.mul_le_mul_left _ h3), h2⟩

theorem values_reads {a : SNode} {m : Spec.Map} (h : Att S L g st a m) {l : List (Bytes × Bytes)}
    (hl : l.Pairwise fun x y => x.1 < y.1) (hm : ∀ k v, (k, v) ∈ l ↔ m k = some v) (n : Nat) :
    ReadsAtMost S st (keyBytes (l.take n)) fun T st' fuel => firstValuesS T st' fuel a n := by
  obtain ⟨t, hst⟩ := att_stands h
  have hr : VStackRep L g st (valuesS a) [[t]] := ⟨repL_cons.2 ⟨a, [], rfl, hst.2.2.1, repL_nil.2 rfl⟩, trivial⟩
  obtain ⟨r, ids, N, h1, h2⟩ := takeV_loc n hr
  have h3 := popsN_tree t hst.2.1 hst.1 [] n
  rw [stackEnts_tree, stands_ents hst hl hm, ← vpopsN_proj] at h3
  exact readsAtMost_const ⟨r, ids, N, Nat.le_trans h1 h3, h2⟩


theorem first_exists {n : Node} (hc : Cmp n) (ho : Ord n) (q : Bytes) : ∃ e es, ents q n = e :: es := by
  cases h : ents q n with
  | nil => exact absurd h (ents_ne_nil hc ho q)
  | cons e es => exact ⟨e, es, rfl⟩

theorem last_exists {n : Node} (hc : Cmp n) (ho : Ord n) (q : Bytes) : ∃ e es, ents q n = es ++ [e] :=
  ⟨_, _, (List.dropLast_concat_getLast (ents_ne_nil hc ho q)).symm⟩

theorem firstEntry_loc (n : Node) (hc : Cmp n) (ho : Ord n) : ∀ {t : Ref} (pre : Bytes) (q : Bytes), RefRep L g st t n →
    ∃ e es ids, ents q n = e :: es ∧ ids.length + blobsPerNode g * (q.length + n.pfx.length) ≤ blobsPerNode g * (e.1.length + 1) ∧
    ∀ {τ : Type} (T : BlobStore τ ε) (st' : τ), Same S st T st' ids →
      ∀ fuel, firstEntryS T st' fuel pre t = firstEntryS S st fuel pre t := by
  induction n using Node.kidsInduction with
  | step n ih =>
    intro t pre q h
    have hw : (pIds t.pfx ++ cIds (chOf t)).length ≤ blobsPerNode g := by
      have h1 := pIds_le h.pfx
      have h2 := cIds_le (chOf t)
      rw [List.length_append]; omega
    have here : (∀ {τ : Type} (T : BlobStore τ ε) (st' : τ), Same S st T st' (pIds t.pfx ++ cIds (chOf t)) →
        ∀ fuel, firstEntryS T st' fuel pre t = firstEntryS S st fuel pre t) → ∃ e es ids, ents q n = e :: es ∧
        ids.length + blobsPerNode g * (q.length + n.pfx.length) ≤ blobsPerNode g * (e.1.length + 1) ∧
        ∀ {τ : Type} (T : BlobStore τ ε) (st' : τ), Same S st T st' ids →
          ∀ fuel, firstEntryS T st' fuel pre t = firstEntryS S st fuel pre t := by
      intro hx
      obtain ⟨e, es, he⟩ := first_exists hc ho q
      refine ⟨e, es, _, he, ?_, hx⟩
      obtain ⟨r, hr⟩ := ents_prefix ho (pre := q) (e := e) (by rw [he]; simp)
      have hlen : q.length + n.pfx.length ≤ e.1.length := by rw [hr]; simp only [List.length_append]; omega
      have := Nat.mul_le_mul_left (blobsPerNode g) hlen
      rw [Nat.mul_add (blobsPerNode g) e.1.length]; omega
    have hp := loadPrefix_rep h.pfx
    cases e : loadPrefix S st t.pfx with
    | err x =>
      exact here fun T st' hsame fuel => by
        cases fuel with
        | zero => rfl
        | succ fuel => simp only [firstEntryS, loadPrefix_same hsame.left, e, Res.bind]
    | panic => rw [e] at hp; exact hp.elim
    | deep => rw [e] at hp; exact hp.elim
    | ok p =>
    rw [e] at hp
    have hp : p = n.pfx := hp
    subst hp
    rcases oval_cases (valueOpt_rep h.val) with ⟨e1, e1'⟩ | ⟨b, w, e1, e1', hv⟩
    · have hc' := h.loadChildren
      cases e2 : t.loadChildren S st with
      | err x =>
        exact here fun T st' hsame fuel => by
          cases fuel with
          | zero => rfl
          | succ fuel => simp only [firstEntryS, loadPrefix_same hsame.left, e, loadChildren_same hsame.right, e2, e1, Res.bind]
      | panic => rw [e2] at hc'; exact hc'.elim
      | deep => rw [e2] at hc'; exact hc'.elim
      | ok o =>
      rw [e2] at hc'
      rcases oiter_cases hc' with ⟨rfl, el⟩ | ⟨it, c, l, rfl, el, hi⟩
      · exact here fun T st' hsame fuel => by
          cases fuel with
          | zero => rfl
          | succ fuel => simp only [firstEntryS, loadPrefix_same hsame.left, e, loadChildren_same hsame.right, e2, e1, Res.bind]
      · obtain ⟨y, it', e3, h1, h2⟩ := hi.next_cons
        have hk : n.kids = c :: l := by rw [← loadChildren_getD, el]; rfl
        have hm : c ∈ n.kids := by simp [hk]
        have ho' := ((ord_iff n).1 ho).mem hm
        obtain ⟨x, es, ids, he, hl, hr⟩ := ih c hm (((cmp_iff n).1 hc).2 c hm) ho'.2 (pre ++ n.pfx) (q ++ n.pfx) h1
        refine ⟨x, es ++ entsL (q ++ n.pfx) l, (pIds t.pfx ++ cIds (chOf t)) ++ ids, by rw [ents_eq, e1', hk]; simp [entsL, he], ?_,
          fun T st' hsame fuel => ?_⟩
        · have h3 := List.length_pos_iff.2 ho'.1
          rw [List.length_append]
          have h4 : blobsPerNode g * (q.length + n.pfx.length) + blobsPerNode g ≤ blobsPerNode g * ((q ++ n.pfx).length + c.pfx.length) := by
            rw [← Nat.mul_succ]; refine Nat.mul_le_mul_left _ ?_; simp only [List.length_append]; omega
          omega
        · cases fuel with
          | zero => rfl
          | succ fuel =>
            simp only [firstEntryS, loadPrefix_same hsame.left.left, e, loadChildren_same hsame.left.right, e2, e1, Res.bind, e3]
            exact hr T st' hsame.right fuel
    · exact here fun T st' hsame fuel => by
        cases fuel with
        | zero => rfl
        | succ fuel => simp only [firstEntryS, loadPrefix_same hsame.left, e, e1, Res.bind]

theorem firstValue_loc (n : Node) (hc : Cmp n) (ho : Ord n) : ∀ {t : Ref} (q : Bytes), RefRep L g st t n →
    ∃ e es ids, ents q n = e :: es ∧ ids.length + (q.length + n.pfx.length) ≤ (e.1.length + 1) ∧
    ∀ {τ : Type} (T : BlobStore τ ε) (st' : τ), Same S st T st' ids →
      ∀ fuel, firstValueS T st' fuel t = firstValueS S st fuel t := by
  induction n using Node.kidsInduction with
  | step n ih =>
    intro t q h
    have hw : (cIds (chOf t)).length ≤ 1 := by
      have h1 := pIds_le h.pfx
      have h2 := cIds_le (chOf t)
      omega
    have here : (∀ {τ : Type} (T : BlobStore τ ε) (st' : τ), Same S st T st' (cIds (chOf t)) →
        ∀ fuel, firstValueS T st' fuel t = firstValueS S st fuel t) → ∃ e es ids, ents q n = e :: es ∧
        ids.length + (q.length + n.pfx.length) ≤ (e.1.length + 1) ∧
        ∀ {τ : Type} (T : BlobStore τ ε) (st' : τ), Same S st T st' ids →
          ∀ fuel, firstValueS T st' fuel t = firstValueS S st fuel t := by
      intro hx
      obtain ⟨e, es, he⟩ := first_exists hc ho q
      refine ⟨e, es, _, he, ?_, hx⟩
      obtain ⟨r, hr⟩ := ents_prefix ho (pre := q) (e := e) (by rw [he]; simp)
      have hlen : q.length + n.pfx.length ≤ e.1.length := by rw [hr]; simp only [List.length_append]; omega
      skip
      omega
    rcases oval_cases (valueOpt_rep h.val) with ⟨e1, e1'⟩ | ⟨b, w, e1, e1', hv⟩
    · have hc' := h.loadChildren
      cases e2 : t.loadChildren S st with
      | err x =>
        exact here fun T st' hsame fuel => by
          cases fuel with
          | zero => rfl
          | succ fuel => simp only [firstValueS, loadChildren_same hsame, e2, e1, Res.bind]
      | panic => rw [e2] at hc'; exact hc'.elim
      | deep => rw [e2] at hc'; exact hc'.elim
      | ok o =>
      rw [e2] at hc'
      rcases oiter_cases hc' with ⟨rfl, el⟩ | ⟨it, c, l, rfl, el, hi⟩
      · exact here fun T st' hsame fuel => by
          cases fuel with
          | zero => rfl
          | succ fuel => simp only [firstValueS, loadChildren_same hsame, e2, e1, Res.bind]
      · obtain ⟨y, it', e3, h1, h2⟩ := hi.next_cons
        have hk : n.kids = c :: l := by rw [← loadChildren_getD, el]; rfl
        have hm : c ∈ n.kids := by simp [hk]
        have ho' := ((ord_iff n).1 ho).mem hm
        obtain ⟨x, es, ids, he, hl, hr⟩ := ih c hm (((cmp_iff n).1 hc).2 c hm) ho'.2 (q ++ n.pfx) h1
        refine ⟨x, es ++ entsL (q ++ n.pfx) l, (cIds (chOf t)) ++ ids, by rw [ents_eq, e1', hk]; simp [entsL, he], ?_,
          fun T st' hsame fuel => ?_⟩
        · have h3 := List.length_pos_iff.2 ho'.1
          rw [List.length_append]
          simp only [List.length_append] at hl; omega
        · cases fuel with
          | zero => rfl
          | succ fuel =>
            simp only [firstValueS, loadChildren_same hsame.left, e2, e1, Res.bind, e3]
            exact hr T st' hsame.right fuel
    · exact here fun T st' hsame fuel => by
        cases fuel with
        | zero => rfl
        | succ fuel => simp only [firstValueS, e1, Res.bind]

theorem lastEntry_loc (n : Node) (hc : Cmp n) (ho : Ord n) : ∀ {t : Ref} (pre : Bytes) (q : Bytes), RefRep L g st t n →
    ∃ e es ids, ents q n = es ++ [e] ∧ ids.length + blobsPerNode g * (q.length + n.pfx.length) ≤ blobsPerNode g * (e.1.length + 1) ∧
    ∀ {τ : Type} (T : BlobStore τ ε) (st' : τ), Same S st T st' ids →
      ∀ fuel, lastEntryS T st' fuel pre t = lastEntryS S st fuel pre t := by
  induction n using Node.kidsInduction with
  | step n ih =>
    intro t pre q h
    have hw : (pIds t.pfx ++ cIds (chOf t)).length ≤ blobsPerNode g := by
      have h1 := pIds_le h.pfx
      have h2 := cIds_le (chOf t)
      rw [List.length_append]; omega
    have here : (∀ {τ : Type} (T : BlobStore τ ε) (st' : τ), Same S st T st' (pIds t.pfx ++ cIds (chOf t)) →
        ∀ fuel, lastEntryS T st' fuel pre t = lastEntryS S st fuel pre t) → ∃ e es ids, ents q n = es ++ [e] ∧
        ids.length + blobsPerNode g * (q.length + n.pfx.length) ≤ blobsPerNode g * (e.1.length + 1) ∧
        ∀ {τ : Type} (T : BlobStore τ ε) (st' : τ), Same S st T st' ids →
          ∀ fuel, lastEntryS T st' fuel pre t = lastEntryS S st fuel pre t := by
      intro hx
      obtain ⟨e, es, he⟩ := last_exists hc ho q
      refine ⟨e, es, _, he, ?_, hx⟩
      obtain ⟨r, hr⟩ := ents_prefix ho (pre := q) (e := e) (by rw [he]; simp)
      have hlen : q.length + n.pfx.length ≤ e.1.length := by rw [hr]; simp only [List.length_append]; omega
      have := Nat.mul_le_mul_left (blobsPerNode g) hlen
      rw [Nat.mul_add (blobsPerNode g) e.1.length]; omega
    have hp := loadPrefix_rep h.pfx
    cases e : loadPrefix S st t.pfx with
    | err x =>
      exact here fun T st' hsame fuel => by
        cases fuel with
        | zero => rfl
        | succ fuel => simp only [lastEntryS, loadPrefix_same hsame.left, e, Res.bind]
    | panic => rw [e] at hp; exact hp.elim
    | deep => rw [e] at hp; exact hp.elim
    | ok p =>
    rw [e] at hp
    have hp : p = n.pfx := hp
    subst hp
    have hc' := h.loadChildren
    cases e2 : t.loadChildren S st with
    | err x =>
      exact here fun T st' hsame fuel => by
        cases fuel with
        | zero => rfl
        | succ fuel => simp only [lastEntryS, loadPrefix_same hsame.left, e, loadChildren_same hsame.right, e2, Res.bind]
    | panic => rw [e2] at hc'; exact hc'.elim
    | deep => rw [e2] at hc'; exact hc'.elim
    | ok o =>
    rw [e2] at hc'
    rcases oiter_cases hc' with ⟨rfl, el⟩ | ⟨it, c, l, rfl, el, hi⟩
    · exact here fun T st' hsame fuel => by
        cases fuel with
        | zero => rfl
        | succ fuel => simp only [lastEntryS, loadPrefix_same hsame.left, e, loadChildren_same hsame.right, e2, Res.bind]
    · generalize hcl : c :: l = cl at el hi
      have hl' := hi.last
      cases hg : cl.getLast? with
      | none => subst hcl; simp at hg
      | some m =>
        rw [hg] at hl'
        cases e3 : it.last with
        | none => rw [e3] at hl'; exact hl'.elim
        | some y =>
          rw [e3] at hl'
          obtain ⟨l0, rfl⟩ : ∃ l0, cl = l0 ++ [m] := by
            obtain ⟨h1, h2⟩ := List.getLast?_eq_some_iff.1 hg; exact ⟨h1, h2⟩
          have hk : n.kids = l0 ++ [m] := by rw [← loadChildren_getD, el]; rfl
          have hm : m ∈ n.kids := by simp [hk]
          have ho' := ((ord_iff n).1 ho).mem hm
          obtain ⟨x, es, ids, he, hl, hr⟩ := ih m hm (((cmp_iff n).1 hc).2 m hm) ho'.2 (pre ++ n.pfx) (q ++ n.pfx) hl'
          refine ⟨x, (n.val.map fun x => (q ++ n.pfx, x)).toList ++ (entsL (q ++ n.pfx) l0 ++ es), (pIds t.pfx ++ cIds (chOf t)) ++ ids,
            by rw [ents_eq, hk, entsL_append]; simp [entsL, he], ?_, fun T st' hsame fuel => ?_⟩
          · have h3 := List.length_pos_iff.2 ho'.1
            rw [List.length_append]
            have h4 : blobsPerNode g * (q.length + n.pfx.length) + blobsPerNode g ≤ blobsPerNode g * ((q ++ n.pfx).length + m.pfx.length) := by
              rw [← Nat.mul_succ]; refine Nat.mul_le_mul_left _ ?_; simp only [List.length_append]; omega
            omega
          · cases fuel with
            | zero => rfl
            | succ fuel =>
              simp only [lastEntryS, loadPrefix_same hsame.left.left, e, loadChildren_same hsame.left.right, e2, Res.bind, e3]
              exact hr T st' hsame.right fuel

theorem lastValue_loc (n : Node) (hc : Cmp n) (ho : Ord n) : ∀ {t : Ref} (q : Bytes), RefRep L g st t n →
    ∃ e es ids, ents q n = es ++ [e] ∧ ids.length + (q.length + n.pfx.length) ≤ (e.1.length + 1) ∧
    ∀ {τ : Type} (T : BlobStore τ ε) (st' : τ), Same S st T st' ids →
      ∀ fuel, lastValueS T st' fuel t = lastValueS S st fuel t := by
  induction n using Node.kidsInduction with
  | step n ih =>
    intro t q h
    have hw : (cIds (chOf t)).length ≤ 1 := by
      have h1 := pIds_le h.pfx
      have h2 := cIds_le (chOf t)
      omega
    have here : (∀ {τ : Type} (T : BlobStore τ ε) (st' : τ), Same S st T st' (cIds (chOf t)) →
        ∀ fuel, lastValueS T st' fuel t = lastValueS S st fuel t) → ∃ e es ids, ents q n = es ++ [e] ∧
        ids.length + (q.length + n.pfx.length) ≤ (e.1.length + 1) ∧
        ∀ {τ : Type} (T : BlobStore τ ε) (st' : τ), Same S st T st' ids →
          ∀ fuel, lastValueS T st' fuel t = lastValueS S st fuel t := by
      intro hx
      obtain ⟨e, es, he⟩ := last_exists hc ho q
      refine ⟨e, es, _, he, ?_, hx⟩
      obtain ⟨r, hr⟩ := ents_prefix ho (pre := q) (e := e) (by rw [he]; simp)
      have hlen : q.length + n.pfx.length ≤ e.1.length := by rw [hr]; simp only [List.length_append]; omega
      skip
      omega
    have hc' := h.loadChildren
    cases e2 : t.loadChildren S st with
    | err x =>
      exact here fun T st' hsame fuel => by
        cases fuel with
        | zero => rfl
        | succ fuel => simp only [lastValueS, loadChildren_same hsame, e2, Res.bind]
    | panic => rw [e2] at hc'; exact hc'.elim
    | deep => rw [e2] at hc'; exact hc'.elim
    | ok o =>
    rw [e2] at hc'
    rcases oiter_cases hc' with ⟨rfl, el⟩ | ⟨it, c, l, rfl, el, hi⟩
    · exact here fun T st' hsame fuel => by
        cases fuel with
        | zero => rfl
        | succ fuel => simp only [lastValueS, loadChildren_same hsame, e2, Res.bind]
    · generalize hcl : c :: l = cl at el hi
      have hl' := hi.last
      cases hg : cl.getLast? with
      | none => subst hcl; simp at hg
      | some m =>
        rw [hg] at hl'
        cases e3 : it.last with
        | none => rw [e3] at hl'; exact hl'.elim
        | some y =>
          rw [e3] at hl'
          obtain ⟨l0, rfl⟩ : ∃ l0, cl = l0 ++ [m] := by
            obtain ⟨h1, h2⟩ := List.getLast?_eq_some_iff.1 hg; exact ⟨h1, h2⟩
          have hk : n.kids = l0 ++ [m] := by rw [← loadChildren_getD, el]; rfl
          have hm : m ∈ n.kids := by simp [hk]
          have ho' := ((ord_iff n).1 ho).mem hm
          obtain ⟨x, es, ids, he, hl, hr⟩ := ih m hm (((cmp_iff n).1 hc).2 m hm) ho'.2 (q ++ n.pfx) hl'
          refine ⟨x, (n.val.map fun x => (q ++ n.pfx, x)).toList ++ (entsL (q ++ n.pfx) l0 ++ es), (cIds (chOf t)) ++ ids,
            by rw [ents_eq, hk, entsL_append]; simp [entsL, he], ?_, fun T st' hsame fuel => ?_⟩
          · have h3 := List.length_pos_iff.2 ho'.1
            rw [List.length_append]
            simp only [List.length_append] at hl; omega
          · cases fuel with
            | zero => rfl
            | succ fuel =>
              simp only [lastValueS, loadChildren_same hsame.left, e2, Res.bind, e3]
              exact hr T st' hsame.right fuel


theorem popsN_path (n : Nat) (p q : Bytes) (s : List Frame) : popsN n ⟨p, s⟩ = popsN n ⟨q, s⟩ := by
  rw [← vpopsN_proj, ← vpopsN_proj]

theorem popsN_nil (p : Bytes) : ∀ n, popsN n ⟨p, []⟩ ≤ 0 := fun n => by
  have := popsN_le n ⟨p, []⟩ (by intro f hf; cases hf)
  simpa [stackEnts, keyBytes] using this

theorem shape_found {t u : Node} (hs : Shape t) (p : Bytes) (h : Cmp t → Cmp u) (hf : (∃ m, find t p = .pre u m) ∨ find t p = .found u) :
    Shape u := by
  rcases hs with rfl | hc
  · cases p with
    | nil =>
      rcases hf with ⟨m, hf⟩ | hf
      · rw [find] at hf; simp [commonPrefix] at hf
      · rw [find] at hf; simp [commonPrefix] at hf
        exact .inl hf.symm
    | cons b p =>
      have : find Node.empty (b :: p) = .notFound := by
        rw [find]; simp [commonPrefix]; rfl
      rw [this] at hf
      rcases hf with ⟨m, hf⟩ | hf <;> cases hf
  · exact .inr (h hc)

theorem popsN_scan {t : Node} (ho : Ord t) (hs : Shape t) (p : Bytes) (n : Nat) :
    popsN n (scanPrefixIter t p) ≤ keyBytes ((below t p).take n) := by
  have hf := find_spec t p ho
  unfold scanPrefixIter
  cases e : find t p with
  | notFound => exact Nat.le_trans (popsN_nil _ n) (Nat.zero_le _)
  | found u =>
    simp only [e] at hf ⊢
    obtain ⟨h1, h2, h3, ⟨q, hq⟩, _⟩ := hf
    have hb : below t p = ents q u :=
      below_eq ho h1 (Nat.le_refl _) (by rw [List.take_length]; exact hq) (by rw [List.drop_length]; exact h2)
    rw [popsN_path n p q, hb, ← stackEnts_tree]
    exact popsN_tree u (shape_found hs p h3 (.inr e)) h1 q n
  | pre u m =>
    simp only [e] at hf ⊢
    obtain ⟨h1, h2, ⟨q, hq⟩, h3, h4⟩ := hf
    rw [popsN_path n _ q, below_eq ho h1 (by omega) hq h3, ← stackEnts_tree]
    exact popsN_tree u (shape_found hs p h4 (.inl ⟨m, e⟩)) h1 q n

theorem scan_reads {a : SNode} {m : Spec.Map} (h : Att S L g st a m) {l : List (Bytes × Bytes)}
    (hl : l.Pairwise fun x y => x.1 < y.1) (hm : ∀ k v, (k, v) ∈ l ↔ m k = some v) (p : Bytes) (n : Nat) :
    ReadsAtMost S st (blobsPerNode g * (p.length + 1 + keyBytes ((l.filter fun e => p.isPrefixOf e.1).take n)))
      fun T st' fuel => scanEntriesS T st' fuel a p n := by
  obtain ⟨t, hst⟩ := att_stands h
  have hbel : below t p = l.filter fun e => p.isPrefixOf e.1 := by
    rw [below, ← stands_ents hst hl hm, iter, kvIter, toList_eq, stackEnts_tree]
  obtain ⟨ids, h1, h2⟩ := findS_loc (L := L) (st := st) t hst.1 (t := .owned a) p hst.2.2.1
  obtain ⟨r, ⟨N, hr⟩, hp⟩ := rpost_outcome (fun n => scanPrefixS_fuel (S := S) (st := st) a p n)
    (scanPrefixS_rep hst.1 hst.2.2.1 (Nat.le_refl _) p)
  have hsc : ∀ {τ : Type} (T : BlobStore τ ε) (st' : τ), Same S st T st' ids → ∀ fuel, N ≤ fuel →
      scanPrefixS T fuel st' a p = r := fun T st' hs fuel hn =>
    (congrArg (Res.bind · _) (h2 T st' hs fuel)).trans (hr fuel hn)
  have hlen : ids.length ≤ blobsPerNode g * (p.length + 1) := h1.1
  cases r with
  | err x =>
    refine readsAtMost_const ⟨.err x, ids, N, by rw [Nat.mul_add]; omega, fun T st' hs fuel hn => ?_⟩
    simp only [scanEntriesS, hsc T st' hs fuel hn, Res.bind]
  | panic => exact hp.elim
  | deep => exact hp.elim
  | ok s =>
    obtain ⟨r2, ids2, N2, hl2, hr2⟩ := take_loc n (L := L) (st := st) (s := s) (s' := scanPrefixIter t p) hp
    have h3 := Nat.mul_le_mul_left (blobsPerNode g) (popsN_scan hst.1 hst.2.1 p n)
    rw [hbel] at h3
    refine readsAtMost_const ⟨.ok r2, ids ++ ids2, max N N2, by rw [List.length_append, Nat.mul_add]; omega,
      fun T st' hs fuel hn => ?_⟩
    have e2 := hr2 T st' hs.right fuel (by omega)
    simp only [scanEntriesS, hsc T st' hs.left fuel (by omega), Res.bind, e2]

theorem ends_reads {a : SNode} {m : Spec.Map} (h : Att S L g st a m) {l : List (Bytes × Bytes)}
    (hl : l.Pairwise fun x y => x.1 < y.1) (hm : ∀ k v, (k, v) ∈ l ↔ m k = some v) (pre : Bytes) :
    (ReadsAtMost S st (blobsPerNode g * keyBytes l.head?.toList) fun T st' fuel => firstEntryS T st' fuel pre (.owned a)) ∧
    (ReadsAtMost S st (blobsPerNode g * keyBytes l.getLast?.toList) fun T st' fuel => lastEntryS T st' fuel pre (.owned a)) ∧
    (ReadsAtMost S st (keyBytes l.head?.toList) fun T st' fuel => firstValueS T st' fuel (.owned a)) ∧
    (ReadsAtMost S st (keyBytes l.getLast?.toList) fun T st' fuel => lastValueS T st' fuel (.owned a)) := by
  obtain ⟨t, hst⟩ := att_stands h
  have hle := stands_ents hst hl hm
  rcases hst.2.1 with rfl | hc
  · have hr : RefRep L g st (.owned a) Node.empty := hst.2.2.1
    have hw := hr.ids_wt
    have hw0 : wt Node.empty = 0 := rfl
    rw [hw0, Nat.mul_zero, List.length_append] at hw
    have hp : pIds (Ref.owned a).pfx = [] := List.eq_nil_of_length_eq_zero (by omega)
    have hcx : cIds (chOf (.owned a)) = [] := List.eq_nil_of_length_eq_zero (by omega)
    have sp : ∀ {τ : Type} (T : BlobStore τ ε) (st' : τ), loadPrefix T st' (Ref.owned a).pfx = loadPrefix S st (Ref.owned a).pfx :=
      fun T st' => loadPrefix_same (by rw [hp]; intro i hi; cases hi)
    have sc : ∀ {τ : Type} (T : BlobStore τ ε) (st' : τ), (Ref.owned a).loadChildren T st' = (Ref.owned a).loadChildren S st :=
      fun T st' => loadChildren_same (by rw [hcx]; intro i hi; cases hi)
    have hch := hr.loadChildren
    have all : ∀ {τ : Type} (T : BlobStore τ ε) (st' : τ) fuel,
        firstEntryS T st' fuel pre (.owned a) = firstEntryS S st fuel pre (.owned a) ∧
        lastEntryS T st' fuel pre (.owned a) = lastEntryS S st fuel pre (.owned a) ∧
        firstValueS T st' fuel (.owned a) = firstValueS S st fuel (.owned a) ∧
        lastValueS T st' fuel (.owned a) = lastValueS S st fuel (.owned a) := by
      intro τ T st' fuel
      cases fuel with
      | zero => exact ⟨rfl, rfl, rfl, rfl⟩
      | succ fuel =>
        cases e : (Ref.owned a).loadChildren S st with
        | err x => simp only [firstEntryS, lastEntryS, firstValueS, lastValueS, sp, sc, e, Res.bind, and_self]
        | panic => rw [e] at hch; exact hch.elim
        | deep => rw [e] at hch; exact hch.elim
        | ok o =>
          rw [e] at hch
          rcases oiter_cases hch with ⟨rfl, el⟩ | ⟨it, c, l', rfl, el, hi⟩
          · simp only [firstEntryS, lastEntryS, firstValueS, lastValueS, sp, sc, e, Res.bind, and_self]
          · cases el
    exact ⟨readsAtMost_of ⟨[], Nat.zero_le _, fun T st' _ fuel => (all T st' fuel).1⟩,
      readsAtMost_of ⟨[], Nat.zero_le _, fun T st' _ fuel => (all T st' fuel).2.1⟩,
      readsAtMost_of ⟨[], Nat.zero_le _, fun T st' _ fuel => (all T st' fuel).2.2.1⟩,
      readsAtMost_of ⟨[], Nat.zero_le _, fun T st' _ fuel => (all T st' fuel).2.2.2⟩⟩
  · obtain ⟨e, es, ids, he, hlen, hr⟩ := firstEntry_loc t hc hst.1 (t := .owned a) pre [] hst.2.2.1
    obtain ⟨e1, es1, ids1, he1, hlen1, hr1⟩ := lastEntry_loc t hc hst.1 (t := .owned a) pre [] hst.2.2.1
    obtain ⟨e2, es2, ids2, he2, hlen2, hr2⟩ := firstValue_loc t hc hst.1 (t := .owned a) [] hst.2.2.1
    obtain ⟨e3, es3, ids3, he3, hlen3, hr3⟩ := lastValue_loc t hc hst.1 (t := .owned a) [] hst.2.2.1
    rw [hle] at he he1 he2 he3
    refine ⟨readsAtMost_of ⟨ids, ?_, hr⟩, readsAtMost_of ⟨ids1, ?_, hr1⟩, readsAtMost_of ⟨ids2, ?_, hr2⟩,
      readsAtMost_of ⟨ids3, ?_, hr3⟩⟩
    · rw [he]; simp only [keyBytes, List.head?_cons, Option.toList, List.map_cons, List.map_nil, List.sum_cons, List.sum_nil, Nat.add_zero]; omega
    · rw [he1]; simp only [keyBytes, List.getLast?_concat, Option.toList, List.map_cons, List.map_nil, List.sum_cons, List.sum_nil, Nat.add_zero]; omega
    · rw [he2]; simp only [keyBytes, List.head?_cons, Option.toList, List.map_cons, List.map_nil, List.sum_cons, List.sum_nil, Nat.add_zero]; omega
    · rw [he3]; simp only [keyBytes, List.getLast?_concat, Option.toList, List.map_cons, List.map_nil, List.sum_cons, List.sum_nil, Nat.add_zero]; omega

end

end Radix
