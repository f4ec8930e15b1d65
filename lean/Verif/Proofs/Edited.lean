import Verif.Proofs.Cost

/-
Proof-internal: the cost of trees that are edited after they were saved.
-/

set_option linter.unusedVariables false

namespace Radix
open Node

/-! The size of a tree and the size of its keys. -/

def ksum (l : List Bytes) : Nat := (l.map fun k => k.length + 12).sum

theorem ksum_append (l m : List Bytes) : ksum (l ++ m) = ksum l + ksum m := by simp [ksum]

def keysOf (pre : Bytes) (n : Node) : List Bytes := (ents pre n).map Prod.fst

theorem keysOf_eq (pre : Bytes) (n : Node) :
    keysOf pre n = (n.val.map fun _ => pre ++ n.pfx).toList ++ (entsL (pre ++ n.pfx) n.kids).map Prod.fst := by
  unfold keysOf
  rw [ents_eq, List.map_append]
  cases n.val <;> rfl

theorem ksum_le {pre : Bytes} {l : List Node} (h : ∀ c ∈ l, W c + 6 + pre.length ≤ ksum (keysOf pre c)) :
    WL l + (6 + pre.length) * l.length ≤ ksum ((entsL pre l).map Prod.fst) := by
  induction l with
  | nil => simp [WL]
  | cons c l ih =>
    have h1 := h c (by simp)
    have h2 := ih fun c hc => h c (by simp [hc])
    rw [entsL, List.map_append, ksum_append, WL, List.length_cons, Nat.mul_add, Nat.mul_one]
    rw [keysOf] at h1
    omega

theorem cmp_size {n : Node} (h : Cmp n) (pre : Bytes) : W n + 6 + pre.length ≤ ksum (keysOf pre n) := by
  induction n using Node.kidsInduction generalizing pre with
  | step n ih =>
    have hc := (cmp_iff n).1 h
    have h1 := ksum_le (pre := pre ++ n.pfx) (l := n.kids) fun c hc' => ih c hc' (hc.2 c hc') _
    rw [keysOf_eq, ksum_append, W_eq]
    rw [List.length_append] at h1
    cases hv : n.val with
    | some v =>
      have : 0 ≤ (6 + (pre.length + n.pfx.length)) * n.kids.length := Nat.zero_le _
      simp [ksum] at h1 ⊢
      omega
    | none =>
      have hk : 2 ≤ n.kids.length := by
        rcases hc.1 with h | h
        · simp [hv] at h
        · exact h
      have : (6 + (pre.length + n.pfx.length)) * 2 ≤ (6 + (pre.length + n.pfx.length)) * n.kids.length :=
        Nat.mul_le_mul_left _ hk
      simp [ksum] at h1 ⊢
      omega

theorem ksum_subset : ∀ {l m : List Bytes}, l.Nodup → (∀ k ∈ l, k ∈ m) → ksum l ≤ ksum m
  | [], m, _, _ => Nat.zero_le _
  | k :: l, m, hn, h => by
    have hm := List.perm_cons_erase (h k (by simp))
    have h1 : ksum m = ksum (k :: m.erase k) := (hm.map _).sum_nat
    have hn' := List.nodup_cons.1 hn
    have := ksum_subset (l := l) (m := m.erase k) hn'.2 fun x hx => by
      refine (List.mem_erase_of_ne ?_).2 (h x (by simp [hx]))
      rintro rfl
      exact hn'.1 hx
    rw [h1]
    simp only [ksum, List.map_cons, List.sum_cons] at this ⊢
    omega

theorem keysOf_nodup {n : Node} (ho : Ord n) (pre : Bytes) : (keysOf pre n).Nodup := by
  unfold keysOf
  rw [List.Nodup, List.pairwise_map]
  refine (ents_sorted ho pre).imp fun {a b} h e => ?_
  rw [e] at h
  exact List.lt_irrefl _ h

theorem size_le {n : Node} (ho : Ord n) (hs : Shape n) {ks : List Bytes} (h : ∀ k v, den n k = some v → k ∈ ks) :
    W n ≤ sizeOfKeys ks := by
  rcases hs with rfl | hc
  · show 0 + 6 + 0 ≤ _
    unfold sizeOfKeys; omega
  · have h1 := cmp_size hc []
    have h2 : ksum (keysOf [] n) ≤ ksum ks := ksum_subset (keysOf_nodup ho []) fun k hk => by
      obtain ⟨⟨k', v⟩, hk', rfl⟩ := List.mem_map.1 hk
      obtain ⟨r, e, hr⟩ := (mem_ents ho [] _ v).1 hk'
      cases e
      exact h _ _ hr
    unfold sizeOfKeys
    unfold ksum at *
    omega

/-! Converters. -/

section
variable {σ τ ε : Type} {S : BlobStore σ ε} {T : BlobStore τ ε} {L : Lawful S} {M : Lawful T}

theorem convC_downcast {M : Lawful (detachedStore ε)} (st : σ) (gb dbg : Bool) (ab) :
    ConvC (e := ⟨S, st, detachedStore ε, (), dbg, ab⟩) M gb (.downcast ε) where
  node b m h := by
    cases b with
    | owned a => exact rep_cost m h
    | borrowed r => trivial
  short b m k h := okP_imp (short_rep (e := ⟨S, st, detachedStore ε, (), dbg, ab⟩) (LB := M) h k) fun a ha => by
    have := rep_cost _ ha
    cases m
    exact this

theorem convC_identity (st : σ) (g dbg : Bool) (ab) :
    ConvC (e := ⟨S, st, S, st, dbg, ab⟩) L g (.identity S st) where
  node b m h := okP_imp (okP_of_rpost h.toOwned) fun a ha => rep_cost _ ha
  short b m k h := okP_imp (short_rep (e := ⟨S, st, S, st, dbg, ab⟩) (LB := L) h k) fun a ha => by
    have := rep_cost _ ha
    cases m
    exact this

/-! What is read costs nothing. -/

theorem readOne_toOwned {bs rest : Bytes} {r : Rec} {a : SNode} (h : readOne bs = some (r, rest))
    (e : (r.toOwned : Res ε SNode) = .ok a) : cost a = 0 := toOwned_cost (readOne_small h) e

theorem deserialize_cost {bs : Bytes} {a : SNode} (h : deserialize S bs = .ok a) : cost a = 0 := by
  unfold deserialize at h
  split at h
  · rename_i r rest e
    split at h
    · exact readOne_toOwned e h
    · cases ho : S.ofAnyhow with
      | ok x => cases x
      | _ => rw [ho] at h; cases h
  · cases ho : S.ofAnyhow with
    | ok x => cases x
    | _ => rw [ho] at h; cases h

theorem tryLoad_cost {st : σ} {i : Bytes} {a : SNode} (h : tryLoad S st i = .ok a) : cost a = 0 := by
  unfold tryLoad at h
  cases e : S.read st i with
  | ok bs => rw [e] at h; exact deserialize_cost (S := S) h
  | _ => rw [e] at h; cases h

theorem tryReattach_cost {st st' : σ} {i : Bytes} {a a' : SNode} (h : tryReattach S a st = (.ok (a', i), st')) : cost a' = 0 := by
  unfold tryReattach at h
  generalize a.serialize S st = x at h
  obtain ⟨r, s1⟩ := x
  cases r with
  | ok bs =>
    simp only [stBind] at h
    generalize S.write s1 bs = y at h
    obtain ⟨r, s2⟩ := y
    cases r with
    | ok i =>
      simp only [Prod.mk.injEq] at h
      cases e : deserialize S bs with
      | ok a'' =>
        rw [e] at h
        have := h.1
        simp only [Res.bind, Res.ok.injEq, Prod.mk.injEq] at this
        rw [← this.1]
        exact deserialize_cost e
      | _ => rw [e] at h; cases h.1
    | _ => cases h
  | _ => cases h

theorem tryAttached_cost {st st' : σ} {t : Node} {a : SNode} (h : tryAttached S t st = (.ok a, st')) : cost a = 0 := by
  unfold tryAttached at h
  generalize (embed t).serialize S st = x at h
  obtain ⟨r, s1⟩ := x
  cases r with
  | ok bs =>
    simp only [stBind] at h
    split at h
    · rename_i r rest e
      split at h
      · exact readOne_toOwned e (congrArg Prod.fst h)
      · cases h
    · cases h
  | _ => cases h

/-! `filter_prefix`. -/

def refCost : Ref → Nat
  | .owned a => cost a
  | .borrowed r => big r.pfx + big r.val

theorem refCost_toOwned (t : Ref) : OkP (Ref.toOwned t : Res ε SNode) fun a => cost a ≤ refCost t := by
  cases t with
  | owned a => exact Nat.le_refl _
  | borrowed r =>
    show OkP (r.toOwned : Res ε SNode) _
    unfold Rec.toOwned
    split
    · simp only [OkP, cost, refCost]; omega
    · trivial

theorem costL_mem {l : List SNode} {a : SNode} (h : a ∈ l) : cost a ≤ costL l := by
  have := costL_sublist (List.singleton_sublist.2 h)
  simpa [costL] using this

theorem findBorrowed_cost (bs : Bytes) (c : UInt8) {r : Rec} (h : findBorrowed bs c = some r) : big r.pfx + big r.val = 0 := by
  rw [findBorrowed] at h
  split at h
  · cases h
  · rename_i r' rest e
    split at h
    · have : rest.length < bs.length := readOne_lt e
      exact findBorrowed_cost rest c h
    · split at h
      · cases h
      · cases h
        have := readOne_small e
        omega
termination_by bs.length

def iterCost : TIter → Nat
  | .owned l => costL l
  | .borrowed _ => 0

theorem find_cost {it : TIter} {c : UInt8} {r : Ref} (h : it.find c = some r) : refCost r ≤ iterCost it := by
  cases it with
  | owned l =>
    simp only [TIter.find, Option.map_eq_some_iff] at h
    obtain ⟨a, h, rfl⟩ := h
    refine costL_mem ?_
    unfold findOwned at h
    split at h
    · exact List.mem_of_getElem? h
    · simp only [Option.bind_eq_some_iff] at h
      obtain ⟨i, _, h⟩ := h
      exact List.mem_of_getElem? h
  | borrowed bs =>
    simp only [TIter.find, Option.map_eq_some_iff] at h
    obtain ⟨a, h, rfl⟩ := h
    exact Nat.le_of_eq (findBorrowed_cost bs c h)

theorem loadIter_cost {st : σ} (i : Bytes) : OkP (loadIter S st i) fun o => ∀ it, o = some it → iterCost it = 0 := by
  cases i with
  | nil => exact fun it h => by cases h
  | cons x i => exact okP_bind (Q := fun _ => True) (by cases S.read st i <;> trivial) fun d _ it h => by cases h; rfl

theorem refChildren_cost {st : σ} (t : Ref) : OkP (t.loadChildren S st) fun o => ∀ it, o = some it → iterCost it ≤ refCost t := by
  cases t with
  | owned a =>
    show OkP (a.loadChildren S st) _
    unfold SNode.loadChildren
    split
    · rename_i l e
      intro it h
      unfold iterFromSlice at h
      split at h
      · cases h
      · cases h
        have := cost_eq a
        rw [e] at this
        simp only [refCost, iterCost, costC] at *
        omega
    · exact okP_imp (loadIter_cost _) fun o h it e => by rw [h it e]; exact Nat.zero_le _
  | borrowed r =>
    show OkP (r.loadChildren S st) _
    unfold Rec.loadChildren
    split
    · exact fun it h => by cases h
    · exact okP_imp (loadIter_cost _) fun o h it e => by rw [h it e]; exact Nat.zero_le _
    · trivial

def findCost : SFind → Nat
  | .found t => refCost t
  | .pre t _ => refCost t
  | .notFound => 0

theorem findS_cost {st : σ} : ∀ (fuel : Nat) (t : Ref) (p : Bytes), OkP (findS S st fuel t p) fun x => findCost x ≤ refCost t
  | 0, t, p => by rw [findS]; trivial
  | fuel + 1, t, p => by
    rw [findS]
    refine okP_bind (Q := fun _ => True) (by cases loadPrefix S st t.pfx <;> trivial) fun tp _ => ?_
    dsimp only
    split
    · exact Nat.le_refl _
    split
    · exact Nat.le_refl _
    split
    · split
      · trivial
      · refine okP_bind (refChildren_cost t) fun o ho => ?_
        cases o with
        | none => exact Nat.zero_le _
        | some cs =>
          dsimp only
          split
          · exact Nat.zero_le _
          · rename_i child e
            have h1 := find_cost e
            have h2 := ho cs rfl
            exact okP_imp (findS_cost fuel child _) fun x hx => by omega
    · exact Nat.zero_le _

theorem setPrefix_cost (a : SNode) (p : Bytes) : cost (a.setPrefix p) ≤ cost a + 1 := by
  have h1 := cost_eq a
  have h2 := big_le (.data p)
  rw [SNode.setPrefix, cost_ofParts]
  omega

theorem filterPrefixS_cost {st : σ} (fuel : Nat) (a : SNode) (p s : Bytes) :
    OkP (filterPrefixS S fuel st a p s) fun a' => cost a' ≤ cost a + 1 := by
  unfold filterPrefixS
  refine okP_bind (findS_cost fuel (.owned a) p) fun x hx => ?_
  cases x with
  | found u =>
    exact okP_bind (refCost_toOwned u) fun r hr => by
      have := setPrefix_cost r s
      have hx : refCost u ≤ cost a := hx
      exact Nat.le_trans this (by omega)
  | pre u k =>
    refine okP_bind (Q := fun _ => True) (by cases loadPrefix S st u.pfx <;> trivial) fun tp _ => ?_
    exact okP_bind (refCost_toOwned u) fun r hr => by
      have := setPrefix_cost r (s ++ tp.drop k)
      have hx : refCost u ≤ cost a := hx
      exact Nat.le_trans this (by omega)
  | notFound => exact Nat.le_trans (Nat.le_of_eq cost_empty) (Nat.zero_le _)

end

/-! The invariant. -/

theorem cost_of_rec {σ τ ε : Type} {e : UEnv σ τ ε} {LA : Lawful e.SA} {LB : Lawful e.SB} {gb : Bool}
    {op : Nat → SNode → Ref → Res ε Unit × SNode} {a a' : SNode} {b : Ref} {n m : Node} {r} {N K : Nat}
    {ga : Bool} (hrec : ∀ fuel, RecC LA LB ga gb (op fuel)) (ha : Rep LA ga e.stA a n) (hb : RefRep LB gb e.stB b m)
    (hc : cost a ≤ N) (hm : W m ≤ K) (ho : ∃ fuel, op fuel a b = (r, a')) : cost a' ≤ N + K := by
  obtain ⟨fuel, ho⟩ := ho
  have := (hrec fuel a b n m ha hb).1
  rw [ho] at this
  exact Nat.le_trans this (by omega)

def AllE : Ents := fun _ _ => True

theorem in_all (n : Node) : In n AllE := fun _ _ _ => trivial

theorem W_single (k v : Bytes) : W (single k v) = k.length + 6 := rfl

theorem fh_all {σ τ ε : Type} {S : BlobStore σ ε} {T : BlobStore τ ε} {L : Lawful S} {M : Lawful T} {st : σ} {st' : τ}
    {f : BlobV → BlobV → Res ε BlobV} {F} (dbg : Bool) (ab) (h : Computes L st M st' f F) :
    FH (e := ⟨S, st, T, st', dbg, ab⟩) L M f F := computes_fh dbg ab h

end Radix
