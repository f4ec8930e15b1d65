import Verif.Proofs.Find

/-
Proof-internal: the iterators enumerate the entries of a tree.
-/

set_option linter.unusedVariables false

namespace Radix
open Node

mutual
/-- The entries of a tree, read off the structure; `pre` is the path above the tree. -/
def ents (pre : Bytes) : Node → List (Bytes × Bytes)
  | mk p v c => (v.map fun x => (pre ++ p, x)).toList ++ entsO (pre ++ p) c
/-- The entries below a children field. -/
def entsO (pre : Bytes) : Option (List Node) → List (Bytes × Bytes)
  | none => []
  | some l => entsL pre l
/-- The entries of siblings. -/
def entsL (pre : Bytes) : List Node → List (Bytes × Bytes)
  | [] => []
  | n :: l => ents pre n ++ entsL pre l
end

theorem entsO_eq (pre : Bytes) (c : Option (List Node)) : entsO pre c = entsL pre (c.getD []) := by
  cases c <;> simp [entsO, entsL]

theorem ents_eq (pre : Bytes) (n : Node) :
    ents pre n = (n.val.map fun x => (pre ++ n.pfx, x)).toList ++ entsL (pre ++ n.pfx) n.kids := by
  cases n; simp [ents, entsO_eq, kids]

theorem mem_entsL {pre : Bytes} {l : List Node} {e : Bytes × Bytes} :
    e ∈ entsL pre l ↔ ∃ c ∈ l, e ∈ ents pre c := by
  induction l with
  | nil => simp [entsL]
  | cons a l ih => simp [entsL, ih]

theorem entsL_append (pre : Bytes) (l m : List Node) : entsL pre (l ++ m) = entsL pre l ++ entsL pre m := by
  induction l with
  | nil => rfl
  | cons a l ih => simp [entsL, ih]

/-! ### The key-value iterator -/

/-- What remains to be yielded by an iterator state. -/
def stackEnts (path : Bytes) : List Frame → List (Bytes × Bytes)
  | [] => []
  | (plen, o) :: st => entsO path o ++ stackEnts (pathPop path plen) st

theorem pathPop_append (path p : Bytes) : pathPop (path ++ p) p.length = path := by
  simp [pathPop]

theorem next0_spec (s : KVIter) :
    match s.next0 with
    | (none, _) => stackEnts s.path s.stack = []
    | (some x, s') => stackEnts s.path s.stack = x :: stackEnts s'.path s'.stack := by
  fun_induction KVIter.next0 s with
  | case1 s hs => simp [hs, stackEnts]
  | case2 s plen node rest st hs path s1 v hv =>
    simp only [hs, stackEnts, s1, path, pathAppend, pathPop_append, entsO, entsL]
    rw [ents_eq, hv, loadChildrenOwned, entsO_eq]
    simp [kids]
  | case3 s plen node rest st hs path s1 hv ih =>
    have : stackEnts s.path s.stack = stackEnts s1.path s1.stack := by
      simp only [hs, stackEnts, s1, path, pathAppend, pathPop_append, entsO, entsL]
      rw [ents_eq, hv, loadChildrenOwned, entsO_eq]
      simp [kids]
    rw [this]; exact ih
  | case4 s plen st hs ih =>
    have : stackEnts s.path s.stack = stackEnts s.path ((plen, none) :: st) := by
      simp [hs, stackEnts, entsO, entsL]
    rw [this]; exact ih
  | case5 s plen st hs ih =>
    have : stackEnts s.path s.stack = stackEnts (pathPop s.path plen) st := by
      simp [hs, stackEnts, entsO]
    rw [this]; exact ih

theorem toList_eq (s : KVIter) : s.toList = stackEnts s.path s.stack := by
  fun_induction KVIter.toList s with
  | case1 s _ h => have := next0_spec s; rw [h] at this; exact this.symm
  | case2 s x s' h ih => have := next0_spec s; rw [h] at this; rw [this, ih]

theorem iter_eq (t : Node) : iter t = ents [] t := by
  simp [iter, toList_eq, kvIter, stackEnts, entsO, entsL]

/-! ### The value iterator -/

/-- What remains to be yielded by a value iterator. -/
def vstackVals : List (List Node) → List Bytes
  | [] => []
  | l :: ls => (entsL [] l).map (·.2) ++ vstackVals ls

mutual
theorem ents_vals (pre pre' : Bytes) (n : Node) : (ents pre n).map (·.2) = (ents pre' n).map (·.2) := by
  cases n with
  | mk p v c =>
    have := entsO_vals (pre ++ p) (pre' ++ p) c
    simp only [ents, List.map_append, this]
    cases v <;> rfl
theorem entsO_vals (pre pre' : Bytes) (c : Option (List Node)) :
    (entsO pre c).map (·.2) = (entsO pre' c).map (·.2) := by
  cases c with
  | none => rfl
  | some l => exact entsL_vals pre pre' l
theorem entsL_vals (pre pre' : Bytes) (l : List Node) :
    (entsL pre l).map (·.2) = (entsL pre' l).map (·.2) := by
  cases l with
  | nil => rfl
  | cons a l =>
    have h1 := ents_vals pre pre' a
    have h2 := entsL_vals pre pre' l
    simp only [entsL, List.map_append, h1, h2]
end

theorem vstackVals_push (n : Node) (st : List (List Node)) :
    vstackVals (pushOpt n.loadChildrenOwned st) = (entsL [] n.kids).map (·.2) ++ vstackVals st := by
  cases n with
  | mk p v c => cases c <;> simp [pushOpt, loadChildrenOwned, vstackVals, entsL]

theorem ents_map_vals (n : Node) : (ents [] n).map (·.2) = n.val.toList ++ (entsL [] n.kids).map (·.2) := by
  rw [ents_eq, List.map_append, entsL_vals _ []]
  cases n.val <;> rfl

theorem valNext0_spec (s : List (List Node)) :
    match valNext0 s with
    | (none, _) => vstackVals s = []
    | (some x, s') => vstackVals s = x :: vstackVals s' := by
  fun_induction valNext0 s with
  | case1 => simp [vstackVals]
  | case2 node rest st v hv =>
    simp only [vstackVals_push, vstackVals, entsL, List.map_append, ents_map_vals, hv]; simp
  | case3 node rest st hv ih =>
    have : vstackVals ((node :: rest) :: st) = vstackVals (pushOpt node.loadChildrenOwned (rest :: st)) := by
      simp only [vstackVals_push, vstackVals, entsL, List.map_append, ents_map_vals, hv]; simp
    rw [this]; exact ih
  | case4 st ih => simpa [vstackVals, entsL] using ih

theorem valToList_eq (s : List (List Node)) : valToList s = vstackVals s := by
  fun_induction valToList s with
  | case1 s _ h => have := valNext0_spec s; rw [h] at this; exact this.symm
  | case2 s x s' h ih => have := valNext0_spec s; rw [h] at this; rw [this, ih]

theorem values_eq (t : Node) : values t = (ents [] t).map (·.2) := by
  simp [values, valToList_eq, vstackVals, entsL]

/-! ### Membership and order -/

theorem ents_pre (pre : Bytes) (n : Node) : ents pre n = (ents [] n).map fun e => (pre ++ e.1, e.2) := by
  suffices h : ∀ n, ∀ a b, ents (a ++ b) n = (ents b n).map fun e => (a ++ e.1, e.2) by
    have := h n pre []; rwa [List.append_nil] at this
  intro n
  induction n using Node.kidsInduction with
  | step n ih =>
    intro a b
    rw [ents_eq, ents_eq b, List.map_append]
    congr 1
    · cases n.val <;> simp
    · have : ∀ l : List Node, (∀ c ∈ l, c ∈ n.kids) →
          entsL (a ++ (b ++ n.pfx)) l = (entsL (b ++ n.pfx) l).map fun e => (a ++ e.1, e.2) := by
        intro l
        induction l with
        | nil => intro _; rfl
        | cons c l ihl =>
          intro h
          simp only [entsL, List.map_append]
          rw [ihl fun d hd => h d (by simp [hd]), ih c (h c (by simp))]
      rw [List.append_assoc]
      exact this n.kids fun _ h => h

theorem mem_ents {n : Node} (ho : Ord n) (pre k v : Bytes) :
    (k, v) ∈ ents pre n ↔ ∃ r, k = pre ++ r ∧ den n r = some v := by
  induction n using Node.kidsInduction generalizing pre with
  | step n ih =>
    rw [ents_eq, List.mem_append, mem_entsL]
    have ho' := (ord_iff n).1 ho
    constructor
    · rintro (h | ⟨c, hc, h⟩)
      · cases hv : n.val with
        | none => simp [hv] at h
        | some x =>
          simp [hv] at h
          obtain ⟨rfl, rfl⟩ := h
          refine ⟨n.pfx, rfl, ?_⟩
          have := strip_append_self n.pfx []
          rw [List.append_nil] at this
          rw [den_eq, this]; exact hv
      · obtain ⟨r, rfl, hd⟩ := (ih c hc (ho'.mem hc).2 _).1 h
        refine ⟨n.pfx ++ r, by simp, ?_⟩
        rw [den_eq, strip_append_self]
        cases r with
        | nil => rw [den_nil_of_ne (ho'.mem hc).1] at hd; cases hd
        | cons x xs => exact (denK_eq_some ho').2 ⟨c, hc, hd⟩
    · rintro ⟨r, rfl, hd⟩
      rw [den_eq] at hd
      cases hs : strip n.pfx r with
      | none => simp [hs] at hd
      | some q =>
        have := strip_eq_some.1 hs
        subst this
        rw [hs] at hd
        cases q with
        | nil => left; simp only at hd; rw [hd]; simp
        | cons x xs =>
          right
          obtain ⟨c, hc, hd⟩ := (denK_eq_some ho').1 hd
          exact ⟨c, hc, (ih c hc (ho'.mem hc).2 _).2 ⟨x :: xs, by simp, hd⟩⟩

/-- Every entry of a tree extends the path to its root. -/
theorem ents_prefix {n : Node} (ho : Ord n) {pre : Bytes} {e : Bytes × Bytes} (h : e ∈ ents pre n) :
    ∃ r, e.1 = pre ++ n.pfx ++ r := by
  obtain ⟨k, v⟩ := e
  obtain ⟨r, rfl, hd⟩ := (mem_ents ho pre k v).1 h
  by_cases hp : n.pfx <+: r
  · obtain ⟨s, rfl⟩ := hp; exact ⟨s, by simp⟩
  · rw [den_none_of_not_prefix hp] at hd; cases hd

theorem lt_of_append (p : Bytes) {a b : Bytes} (h : a < b) : p ++ a < p ++ b := by
  induction p with
  | nil => exact h
  | cons x p ih => exact List.Lex.cons ih

theorem lt_of_extend (p : Bytes) (x : UInt8) (xs : Bytes) : p < p ++ x :: xs := by
  have := lt_of_append p (show ([] : Bytes) < x :: xs from List.Lex.nil)
  rwa [List.append_nil] at this

theorem lt_of_head {a b : Bytes} {x y : UInt8} (ha : a.head? = some x) (hb : b.head? = some y)
    (h : x.toNat < y.toNat) : a < b := by
  cases a with
  | nil => cases ha
  | cons x' a =>
    cases b with
    | nil => cases hb
    | cons y' b =>
      simp at ha hb; subst ha; subst hb
      exact List.Lex.rel (UInt8.lt_iff_toNat_lt.2 h)

theorem ents_sorted {n : Node} (ho : Ord n) (pre : Bytes) :
    (ents pre n).Pairwise fun a b => a.1 < b.1 := by
  induction n using Node.kidsInduction generalizing pre with
  | step n ih =>
    have ho' := (ord_iff n).1 ho
    have hkids : ∀ l : List Node, OrdK l → (∀ c ∈ l, c ∈ n.kids) → ∀ q,
        (entsL q l).Pairwise fun a b => a.1 < b.1 := by
      intro l
      induction l with
      | nil => intro _ _ q; simp [entsL]
      | cons c l ihl =>
        intro hl hm q
        have hl' := hl
        simp only [OrdK] at hl
        simp only [entsL]
        rw [List.pairwise_append]
        refine ⟨ih c (hm c (by simp)) hl.2.1 q, ihl hl.2.2.2 (fun d hd => hm d (by simp [hd])) q, ?_⟩
        intro e1 h1 e2 h2
        obtain ⟨d, hd, h2⟩ := mem_entsL.1 h2
        obtain ⟨r1, e1'⟩ := ents_prefix hl.2.1 h1
        obtain ⟨r2, e2'⟩ := ents_prefix (hl.2.2.2.mem hd).2 h2
        rw [e1', e2', List.append_assoc, List.append_assoc]
        apply lt_of_append
        obtain ⟨x, hx⟩ := firstByte_of_ne_nil hl.1
        obtain ⟨y, hy⟩ := firstByte_of_ne_nil (hl.2.2.2.mem hd).1
        have hlt := hl.2.2.1 d hd
        rw [hx, hy] at hlt
        simp only [rank] at hlt
        have aux : ∀ (m : Node) (z : UInt8) (r : Bytes), m.firstByte = some z → (m.pfx ++ r).head? = some z := by
          intro m z r h
          unfold firstByte at h
          cases hp : m.pfx with
          | nil => simp [hp] at h
          | cons w q => rw [hp] at h; simpa using h
        exact lt_of_head (aux c x r1 hx) (aux d y r2 hy) (by omega)
    rw [ents_eq, List.pairwise_append]
    refine ⟨?_, hkids n.kids ho' (fun _ h => h) _, ?_⟩
    · cases n.val <;> simp
    · intro e1 h1 e2 h2
      cases hv : n.val with
      | none => simp [hv] at h1
      | some v =>
        simp [hv] at h1; subst h1
        obtain ⟨c, hc, h2⟩ := mem_entsL.1 h2
        obtain ⟨r, hr⟩ := ents_prefix (ho'.mem hc).2 h2
        rw [hr, List.append_assoc]
        cases hp : c.pfx with
        | nil => exact absurd hp (ho'.mem hc).1
        | cons x xs => exact lt_of_extend _ x _

/-! ### First and last -/

theorem ents_ne_nil {n : Node} (h : Cmp n) (ho : Ord n) (pre : Bytes) : ents pre n ≠ [] := by
  obtain ⟨k, v, hd⟩ := cmp_exists h ho
  intro e
  have := (mem_ents ho pre (pre ++ k) v).2 ⟨k, rfl, hd⟩
  rw [e] at this; cases this

theorem firstEntry_eq {n : Node} (h : Shape n) (ho : Ord n) (pre : Bytes) :
    firstEntry pre n = (ents pre n).head? := by
  fun_induction firstEntry pre n with
  | case1 pre n path v hv => rw [ents_eq, hv]; simp [path]
  | case2 pre n path hv c cs hl ih =>
    have hk : n.kids = c :: cs := by rw [← loadChildren_getD, hl]; rfl
    have ho' := (ord_iff n).1 ho
    have hc : c ∈ n.kids := by simp [hk]
    rw [ih (Or.inr (h.kids c hc)) (ho'.mem hc).2, ents_eq pre n, hv, hk]
    simp only [entsL, path, Option.map_none, Option.toList_none, List.nil_append]
    have := ents_ne_nil (h.kids c hc) (ho'.mem hc).2 (pre ++ n.pfx)
    cases he : ents (pre ++ n.pfx) c with
    | nil => exact absurd he this
    | cons a l => rfl
  | case3 pre n hv hl =>
    have hk : n.kids = [] := by
      cases hk : n.kids with
      | nil => rfl
      | cons c cs => exact absurd (by rw [loadChildren_eq, hk]; rfl) (hl c cs)
    rw [ents_eq, hv, hk]; rfl

theorem lastEntry_eq {n : Node} (h : Shape n) (ho : Ord n) (pre : Bytes) :
    lastEntry pre n = (ents pre n).getLast? := by
  fun_induction lastEntry pre n with
  | case1 pre n path cs hl c hc ih =>
    have hk : n.kids = cs := by rw [← loadChildren_getD, hl]; rfl
    have ho' := (ord_iff n).1 ho
    have hm : c ∈ n.kids := by rw [hk]; exact List.mem_of_getLast? hc
    rw [ih (Or.inr (h.kids c hm)) (ho'.mem hm).2, ents_eq pre n, hk]
    obtain ⟨l, rfl⟩ : ∃ l, cs = l ++ [c] := by
      obtain ⟨h1, h2⟩ := List.getLast?_eq_some_iff.1 hc; exact ⟨h1, h2⟩
    rw [entsL_append, ← List.append_assoc]
    simp only [entsL, List.append_nil]
    have := ents_ne_nil (h.kids c hm) (ho'.mem hm).2 (pre ++ n.pfx)
    rw [List.getLast?_append]
    cases he : (ents (pre ++ n.pfx) c).getLast? with
    | none => rw [List.getLast?_eq_none_iff] at he; exact absurd he this
    | some x => simp
  | case2 pre n cs hl hc =>
    rw [List.getLast?_eq_none_iff] at hc; subst hc
    rw [loadChildren_eq, arcOpt] at hl
    split at hl
    · cases hl
    · rename_i h1; simp at hl; simp [hl] at h1
  | case3 pre n path hl =>
    have hk : n.kids = [] := by
      cases hk : n.kids with
      | nil => rfl
      | cons c cs => rw [loadChildren_eq, hk] at hl; cases hl
    rw [ents_eq, hk]
    cases n.val <;> simp [entsL, path]

theorem firstValue_eq (n : Node) (pre : Bytes) : firstValue n = (firstEntry pre n).map (·.2) := by
  fun_induction firstEntry pre n with
  | case1 pre n path v hv => rw [firstValue, hv]; rfl
  | case2 pre n path hv c cs hl ih =>
    rw [firstValue]; simp only [hv]
    split
    · rename_i c' cs' hl'; rw [hl] at hl'; cases hl'; exact ih
    · rename_i h; exact absurd hl (h c cs)
  | case3 pre n hv hl =>
    rw [firstValue]; simp only [hv]; rfl

theorem lastValue_eq (n : Node) (pre : Bytes) : lastValue n = (lastEntry pre n).map (·.2) := by
  fun_induction lastEntry pre n with
  | case1 pre n path cs hl c hc ih =>
    rw [lastValue]
    split
    · rename_i cs' hl'; rw [hl] at hl'; cases hl'
      split
      · rename_i c' hc'; rw [hc] at hc'; cases hc'; exact ih
      · rename_i hc'; rw [hc] at hc'; cases hc'
    · rename_i hl'; rw [hl] at hl'; cases hl'
  | case2 pre n cs hl hc =>
    rw [lastValue]
    split
    · rename_i cs' hl'; rw [hl] at hl'; cases hl'
      split
      · rename_i c' hc'; rw [hc] at hc'; cases hc'
      · rfl
    · rename_i hl'; rw [hl] at hl'; cases hl'
  | case3 pre n path hl =>
    rw [lastValue]
    split
    · rename_i cs' hl'; rw [hl] at hl'; cases hl'
    · cases n.val <;> rfl

/-! ### group_by -/

/-- The entries of a list of trees. -/
def entsTrees (l : List Node) : List (Bytes × Bytes) := l.flatMap (ents [])

theorem ents_setPrefix (pre : Bytes) (n : Node) : ents [] (n.setPrefix (pre ++ n.pfx)) = ents pre n := by
  rw [ents_eq, ents_eq pre]; simp [setPrefix, kids]

theorem groupNext0_spec (d) (s : KVIter) :
    match groupNext0 d s with
    | (none, _) => stackEnts s.path s.stack = []
    | (some x, s') => stackEnts s.path s.stack = ents [] x ++ stackEnts s'.path s'.stack := by
  fun_induction groupNext0 d s with
  | case1 s hs => simp [hs, stackEnts]
  | case2 s plen node rest st hs path hd s1 hv =>
    simp only [hs, stackEnts, s1, path, pathAppend, pathPop_append, entsO, entsL]
    rw [ents_eq s.path, loadChildrenOwned, entsO_eq, ents]
    simp [kids, entsO]
  | case3 s plen node rest st hs path hd s1 hv ih =>
    have : stackEnts s.path s.stack = stackEnts s1.path s1.stack := by
      simp only [hs, stackEnts, s1, path, pathAppend, pathPop_append, entsO, entsL]
      simp at hv
      rw [ents_eq, hv, loadChildrenOwned, entsO_eq]
      simp [kids]
    rw [this]; exact ih
  | case4 s plen node rest st hs path hd =>
    simp only [hs, stackEnts, path, pathAppend, pathPop_append, entsO, entsL, ents_setPrefix,
      List.append_assoc]
  | case5 s plen st hs ih =>
    have : stackEnts s.path s.stack = stackEnts s.path ((plen, none) :: st) := by
      simp [hs, stackEnts, entsO, entsL]
    rw [this]; exact ih
  | case6 s plen st hs ih =>
    have : stackEnts s.path s.stack = stackEnts (pathPop s.path plen) st := by
      simp [hs, stackEnts, entsO]
    rw [this]; exact ih

theorem groupToList_eq (d) (s : KVIter) : entsTrees (groupToList d s) = stackEnts s.path s.stack := by
  fun_induction groupToList d s with
  | case1 s _ h => have := groupNext0_spec d s; rw [h] at this; exact this.symm
  | case2 s x s' h ih =>
    have := groupNext0_spec d s; rw [h] at this
    rw [this, ← ih]; rfl

theorem groupBy_eq (t : Node) (d) : entsTrees (groupBy t d) = ents [] t := by
  simp [groupBy, groupToList_eq, kvIter, stackEnts, entsO, entsL]

end Radix
