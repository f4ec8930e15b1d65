import Verif.Heap.Api
import Verif.Proofs.HeapInPlace

/- Lookups and updates through the API on nodes in memory do what those on trees do. -/

set_option linter.unusedVariables false

namespace Radix.Heap

/-! ### Values -/

theorem cloneV_post {R h f v} (hi : Inv h R) (hb : BorV R h f v) : ∃ h', f.clone h = some (f, h') ∧ Post R h h' f.refs ∧ RepV h' f v := by
  obtain ⟨h', e, i, hc⟩ := clone_spec hi hb
  exact ⟨h', e, ⟨i, hc⟩, hb.1.keep hc hb.2⟩

theorem borV_some {R h f d} (hb : BorB R h f d) : BorV R h f (some d) := hb

theorem setFn_spec (ch : Bytes → Bytes → Choice) : ValSpec (setFn ch) (fun a b => (ch a b).apply a b) := by
  intro R h x y av bv hi hx hy
  unfold setFn
  rw [run_bind (slice_spec hx), run_bind (slice_spec hy.1)]
  show ∃ z h', _ ∧ _ ∧ RepV h' z ((ch av bv).apply av bv)
  rcases hc : ch av bv with _ | _ | _
  · exact ⟨x, h, rfl, ⟨hi, Keep.refl _ _⟩, hx⟩
  · obtain ⟨h1, e1, i1, k1⟩ := drop_spec hi (RepV.some hx)
    exact ⟨Fld.none, h1, by dsimp only; rw [run_bind e1]; rfl, ⟨i1, k1⟩, repV_none _⟩
  · obtain ⟨h1, e1, i1, k1⟩ := drop_spec hi (RepV.some hx)
    obtain ⟨h2, e2, p2, r2⟩ := cloneV_post i1 (borV_some (hy.keep k1))
    exact ⟨y, h2, by dsimp only; rw [run_bind e1, e2], ⟨p2.inv, k1.trans p2.keep⟩, r2⟩

theorem newFn_spec (ch : Bytes → Bytes → Choice) {R h x y av bv} (hi : Inv h R) (hx : BorB R h x av) (hy : BorB R h y bv) :
    ∃ z h', newFn ch x y h = some (z, h') ∧ Post R h h' z.refs ∧ RepV h' z ((ch av bv).apply av bv) := by
  unfold newFn
  rw [run_bind (slice_spec hx.1), run_bind (slice_spec hy.1)]
  rcases hc : ch av bv with _ | _ | _
  · obtain ⟨h2, e2, p2, r2⟩ := cloneV_post hi (borV_some hx)
    exact ⟨x, h2, e2, p2, r2⟩
  · exact ⟨Fld.none, h, rfl, ⟨hi, Keep.refl _ _⟩, repV_none _⟩
  · obtain ⟨h2, e2, p2, r2⟩ := cloneV_post hi (borV_some hy)
    exact ⟨y, h2, e2, p2, r2⟩

/-- An optional value in memory. -/
def RepOV (h : Mem) : Option Fld → Option Bytes → Prop
  | some f, some d => RepB h f d
  | none, none => True
  | _, _ => False

/-- References of an optional value. -/
def ovRefs : Option Fld → List Ref
  | some f => f.refs
  | none => []

theorem ownedValue_spec {R h f v} (hi : Inv h R) (hb : BorV R h f v) :
    ∃ o h', ownedValue f h = some (o, h') ∧ Post R h h' (ovRefs o) ∧ RepOV h' o v ∧ o.isSome = v.isSome := by
  unfold ownedValue
  rw [hb.1.isSome]
  cases v with
  | none => exact ⟨none, h, rfl, ⟨hi, Keep.refl _ _⟩, trivial, rfl⟩
  | some d =>
    obtain ⟨h2, e2, p2, r2⟩ := cloneV_post hi hb
    exact ⟨some f, h2, by rw [if_pos (by rfl), run_bind e2]; rfl, p2, r2, rfl⟩

/-! ### Lookup -/

theorem zipRank_get : ∀ (l : List Node) (xs : List Raw), xs.length = l.length → ∀ i : Nat, ((zipRank l xs)[i]?).map (fun p : Nat × Raw => p.1) = (l[i]?).map fun m : Node => Node.rank m.firstByte
  | [], [], _, i => by simp [zipRank]
  | m :: l, x :: xs, hl, i => by
    cases i with
    | zero => simp [zipRank]
    | succ i => simpa [zipRank] using zipRank_get l xs (by simpa using hl) i

theorem bsearchR_eq {l : List Node} {xs : List Raw} (hl : xs.length = l.length) (t a b : Nat) : bsearchR (zipRank l xs) t a b = bsearch l t a b := by
  fun_induction bsearch l t a b with
  | case1 a b h mid hm =>
    rw [bsearchR, dif_pos h]
    have := zipRank_get l xs hl mid
    rw [hm] at this
    simp only [Option.map_none, Option.map_eq_none_iff] at this
    simp only [mid] at this
    simp only [this]
  | case2 a b h mid x hm hlt ih =>
    rw [bsearchR, dif_pos h]
    have := zipRank_get l xs hl mid
    rw [hm] at this
    simp only [Option.map_some, Option.map_eq_some_iff] at this
    obtain ⟨y, hy, e⟩ := this
    simp only [mid] at hy ih
    simp only [hy, e, if_pos hlt]; exact ih
  | case3 a b h mid x hm hlt hgt ih =>
    rw [bsearchR, dif_pos h]
    have := zipRank_get l xs hl mid
    rw [hm] at this
    simp only [Option.map_some, Option.map_eq_some_iff] at this
    obtain ⟨y, hy, e⟩ := this
    simp only [mid] at hy ih
    simp only [hy, e, if_neg hlt, if_pos hgt]; exact ih
  | case4 a b h mid x hm hlt hgt =>
    rw [bsearchR, dif_pos h]
    have := zipRank_get l xs hl mid
    rw [hm] at this
    simp only [Option.map_some, Option.map_eq_some_iff] at this
    obtain ⟨y, hy, e⟩ := this
    simp only [mid] at hy
    simp only [hy, e, if_neg hlt, if_neg hgt, mid]
  | case5 a b h => rw [bsearchR, dif_neg h]

theorem BorL.get {R h} : ∀ {l xs}, BorL R h xs l → ∀ i : Nat, BorO R h xs[i]? l[i]?
  | [], xs, hb, i => by rw [BorL.nil_iff] at hb; subst hb; simp [BorO]
  | m :: l, xs, hb, i => by
    obtain ⟨y, ys, rfl, h1, h2⟩ := BorL.cons_iff.1 hb
    cases i with
    | zero => simpa [BorO] using h1
    | succ i => simpa using BorL.get h2 i

theorem findChild_spec {R h l xs} (c : UInt8) (hb : BorL R h xs l) : ∃ o, findChild xs c h = some (o, h) ∧ BorO R h o (Radix.findChild l c) := by
  unfold findChild Radix.findChild
  rw [hb.1.length]
  by_cases h1 : l.length = 256
  · rw [if_pos h1, if_pos h1]
    exact ⟨_, rfl, hb.get _⟩
  · rw [if_neg h1, if_neg h1, run_bind (ranked_spec hb.1), bsearchR_eq hb.1.length]
    refine ⟨_, rfl, ?_⟩
    cases bsearch l (Node.rank (some c)) 0 l.length with
    | none => trivial
    | some i => exact hb.get i

/-- A result of `find` in memory. -/
def FRep (R : List Ref) (h : Mem) : Found → FindResult → Prop
  | .found x, .found m => Bor R h x m
  | .pre x n, .pre m n' => Bor R h x m ∧ n = n'
  | .notFound, .notFound => True
  | _, _ => False

theorem find_spec {R h} : ∀ (n : Nat) (m : Node) (x : Raw) (p : Bytes), m.nodes ≤ n → Bor R h x m →
    ∃ r, find n x p h = some (r, h) ∧ FRep R h r (Radix.find m p) := by
  intro n
  induction n with
  | zero => intro m x p hn; have := nodes_pos m; omega
  | succ n ih =>
    intro m x p hn hb
    rw [Radix.find]
    unfold find
    rw [run_bind (slice_spec hb.1.pfx)]
    try dsimp only
    by_cases h1 : p.length - commonPrefix m.pfx p = 0 ∧ m.pfx.length - commonPrefix m.pfx p = 0
    · rw [if_pos h1, if_pos h1]; exact ⟨_, rfl, hb⟩
    rw [if_neg h1, if_neg h1]
    by_cases h2 : p.length - commonPrefix m.pfx p = 0
    · rw [if_pos h2, if_pos h2]; exact ⟨_, rfl, hb, rfl⟩
    rw [if_neg h2, if_neg h2]
    by_cases h3 : m.pfx.length - commonPrefix m.pfx p = 0
    · rw [if_pos h3, if_pos h3]
      rcases p.drop (commonPrefix m.pfx p) with _ | ⟨c, rest⟩
      · exact ⟨_, rfl, trivial⟩
      · dsimp only
        obtain ⟨o, e, ho⟩ := loadChildren_bor hb
        have hno := nodesO_loadChildren m
        split
        · rename_i hl
          rw [hl] at ho
          cases ho
          rw [run_bind e]
          exact ⟨_, rfl, trivial⟩
        · rename_i cs hl
          rw [hl] at ho hno
          obtain ⟨xs, rfl, hxs⟩ := ho
          rw [run_bind e]
          obtain ⟨o2, e2, ho2⟩ := findChild_spec c hxs
          dsimp only
          split
          · rename_i hf
            rw [hf] at ho2
            rw [run_bind e2]
            cases o2 with
            | some y => exact ho2.elim
            | none => exact ⟨_, rfl, trivial⟩
          · rename_i child hf
            rw [hf] at ho2
            rw [run_bind e2]
            cases o2 with
            | none => exact ho2.elim
            | some y =>
              have h5 := nodes_le_of_mem (findChild_mem hf)
              simp only [Node.nodesO] at hno
              exact ih child y (c :: rest) (by omega) ho2
    · rw [if_neg h3, if_neg h3]; exact ⟨_, rfl, trivial⟩

theorem get_spec {R h} {n : Nat} {m : Node} {x : Raw} (k : Bytes) (hn : m.nodes ≤ n) (hi : Inv h R) (hb : Bor R h x m) :
    ∃ o h', get n x k h = some (o, h') ∧ Post R h h' (ovRefs o) ∧ RepOV h' o (Radix.get m k) := by
  obtain ⟨r, e, hr⟩ := find_spec n m x k hn hb
  unfold get Radix.get
  rw [run_bind e]
  rcases r with y | ⟨y, j⟩ | _ <;> rcases hf : Radix.find m k with u | ⟨u, j'⟩ | _ <;> rw [hf] at hr <;> try exact hr.elim
  · obtain ⟨o, h', e', p, q, _⟩ := ownedValue_spec hi hr.val
    exact ⟨o, h', e', p, q⟩
  · exact ⟨none, h, rfl, ⟨hi, Keep.refl _ _⟩, trivial⟩
  · exact ⟨none, h, rfl, ⟨hi, Keep.refl _ _⟩, trivial⟩

theorem containsKey_spec {R h} {n : Nat} {m : Node} {x : Raw} (k : Bytes) (hn : m.nodes ≤ n) (hb : Bor R h x m) :
    containsKey n x k h = some (Radix.containsKey m k, h) := by
  obtain ⟨r, e, hr⟩ := find_spec n m x k hn hb
  unfold containsKey Radix.containsKey
  rw [run_bind e]
  rcases r with y | ⟨y, j⟩ | _ <;> rcases hf : Radix.find m k with u | ⟨u, j'⟩ | _ <;> rw [hf] at hr <;> try exact hr.elim
  · dsimp only; rw [hr.val.1.isSome]; rfl
  · rfl
  · rfl

theorem hasPrefix_spec {R h} {n : Nat} {m : Node} {x : Raw} (k : Bytes) (hn : m.nodes ≤ n) (hb : Bor R h x m) :
    hasPrefix n x k h = some (Radix.hasPrefix m k, h) := by
  obtain ⟨r, e, hr⟩ := find_spec n m x k hn hb
  unfold hasPrefix Radix.hasPrefix
  rw [run_bind e]
  rcases r with y | ⟨y, j⟩ | _ <;> rcases hf : Radix.find m k with u | ⟨u, j'⟩ | _ <;> rw [hf] at hr <;> try exact hr.elim
  · rfl
  · rfl
  · rfl

theorem rep_empty (h : Mem) : Rep h Raw.empty Node.empty := Rep.of (repB_empty h) (repV_none h) (repC_none h)

theorem cloneSet_spec {R h} {x : Raw} {m : Node} (p : Bytes) (hi : Inv h R) (hb : Bor R h x m) :
    ∃ y h', (x.clone >>= fun r => r.setPrefix p : H Raw) h = some (y, h') ∧ Post R h h' y.refs ∧ Rep h' y (m.setPrefix p) := by
  obtain ⟨h1, e1, p1, r1⟩ := rawClone_post hi hb
  obtain ⟨y, h2, e2, p2, r2, _⟩ := setPrefix_spec p p1.inv r1
  exact ⟨y, h2, by rw [run_bind e1, e2], ⟨p2.inv, p1.keep.trans p2.keep⟩, r2⟩

theorem filterPrefix_spec {R h} {n : Nat} {m : Node} {x : Raw} (p s : Bytes) (hn : m.nodes ≤ n) (hi : Inv h R) (hb : Bor R h x m) :
    ∃ y h', filterPrefix n x p s h = some (y, h') ∧ Post R h h' y.refs ∧ Rep h' y (Radix.filterPrefix m p s) := by
  obtain ⟨r, e, hr⟩ := find_spec n m x p hn hb
  unfold filterPrefix Radix.filterPrefix
  rw [run_bind e]
  rcases r with y | ⟨y, j⟩ | _ <;> rcases hf : Radix.find m p with u | ⟨u, j'⟩ | _ <;> rw [hf] at hr <;> try exact hr.elim
  · exact cloneSet_spec s hi hr
  · obtain ⟨hr, rfl⟩ := hr
    dsimp only
    rw [run_bind (slice_spec hr.1.pfx)]
    exact cloneSet_spec _ hi hr
  · exact ⟨Raw.empty, h, rfl, ⟨hi, Keep.refl _ _⟩, rep_empty _⟩

/-- An optional entry in memory. -/
def RepE (h : Mem) : Option (Bytes × Fld) → Option (Bytes × Bytes) → Prop
  | some (k, f), some (k', d) => k = k' ∧ RepB h f d
  | none, none => True
  | _, _ => False

/-- References of an optional entry. -/
def oeRefs : Option (Bytes × Fld) → List Ref
  | some (_, f) => f.refs
  | none => []

theorem firstEntry_spec : ∀ (n : Nat) (m : Node) (x : Raw) (pre : Bytes) (R : List Ref) (h : Mem), m.nodes ≤ n → Inv h R → Bor R h x m →
    ∃ o h', firstEntry n pre x h = some (o, h') ∧ Post R h h' (oeRefs o) ∧ RepE h' o (Radix.firstEntry pre m) := by
  intro n
  induction n with
  | zero => intro m x p R h hn; have := nodes_pos m; omega
  | succ n ih =>
    intro m x pre R h hn hi hb
    rw [Radix.firstEntry]
    unfold firstEntry
    rw [run_bind (slice_spec hb.1.pfx)]
    obtain ⟨o, h1, e1, p1, r1, s1⟩ := ownedValue_spec hi hb.val
    rw [run_bind e1]
    try dsimp only
    cases hv : m.val with
    | some d =>
      rw [hv] at r1
      cases o with
      | none => exact r1.elim
      | some f => exact ⟨_, h1, rfl, p1, rfl, r1⟩
    | none =>
      rw [hv] at r1
      cases o with
      | some f => exact r1.elim
      | none =>
        dsimp only
        obtain ⟨o, e, ho⟩ := loadChildren_bor (hb.keep p1.keep)
        have hno := nodesO_loadChildren m
        split
        · rename_i c cs hl
          rw [hl] at ho hno
          obtain ⟨xs, rfl, hxs⟩ := ho
          rw [run_bind e]
          obtain ⟨y, ys, rfl, hy, _⟩ := BorL.cons_iff.1 hxs
          simp only [Node.nodesO, Node.nodesL] at hno
          obtain ⟨o2, h2, e2, p2, r2⟩ := ih c y (pre ++ m.pfx) R h1 (by omega) p1.inv hy
          exact ⟨o2, h2, e2, ⟨p2.inv, p1.keep.trans p2.keep⟩, r2⟩
        · rename_i hno2
          have : o = none := by
            cases hl : m.loadChildren with
            | none => rw [hl] at ho; exact ho
            | some cs =>
              cases cs with
              | nil => rw [Node.loadChildren] at hl; split at hl <;> simp_all
              | cons c cs => exact (hno2 _ _ hl).elim
          subst this
          rw [run_bind e]
          exact ⟨none, h1, rfl, p1, trivial⟩

theorem lastEntry_spec : ∀ (n : Nat) (m : Node) (x : Raw) (pre : Bytes) (R : List Ref) (h : Mem), m.nodes ≤ n → Inv h R → Bor R h x m →
    ∃ o h', lastEntry n pre x h = some (o, h') ∧ Post R h h' (oeRefs o) ∧ RepE h' o (Radix.lastEntry pre m) := by
  intro n
  induction n with
  | zero => intro m x p R h hn; have := nodes_pos m; omega
  | succ n ih =>
    intro m x pre R h hn hi hb
    rw [Radix.lastEntry]
    unfold lastEntry
    rw [run_bind (slice_spec hb.1.pfx)]
    try dsimp only
    obtain ⟨o, e, ho⟩ := loadChildren_bor hb
    have hno := nodesO_loadChildren m
    split
    · rename_i cs hl
      rw [hl] at ho hno
      obtain ⟨xs, rfl, hxs⟩ := ho
      have hg := hxs.get (xs.length - 1)
      rw [hxs.1.length] at hg
      rw [← hxs.1.length, ← List.getLast?_eq_getElem?, hxs.1.length, ← List.getLast?_eq_getElem?] at hg
      split
      · rename_i c hl2
        rw [hl2] at hg
        rw [run_bind e]
        dsimp only
        have h5 := nodes_le_of_mem (List.mem_of_getLast? hl2)
        simp only [Node.nodesO] at hno
        cases hx : xs.getLast? with
        | none => rw [hx] at hg; exact hg.elim
        | some y =>
          rw [hx] at hg
          exact ih c y (pre ++ m.pfx) R h (by omega) hi hg
      · rename_i hl2
        rw [hl2] at hg
        cases hx : xs.getLast? with
        | none => exact ⟨none, h, by rw [run_bind e]; dsimp only; rw [hx]; rfl, ⟨hi, Keep.refl _ _⟩, trivial⟩
        | some y => rw [hx] at hg; exact hg.elim
    · rename_i hl
      rw [hl] at ho
      cases ho
      rw [run_bind e]
      dsimp only
      obtain ⟨o, h1, e1, p1, r1, s1⟩ := ownedValue_spec hi hb.val
      rw [run_bind e1]
      cases hv : m.val with
      | some d =>
        rw [hv] at r1
        cases o with
        | none => exact r1.elim
        | some f => exact ⟨_, h1, rfl, p1, rfl, r1⟩
      | none =>
        rw [hv] at r1
        cases o with
        | some f => exact r1.elim
        | none => exact ⟨_, h1, rfl, p1, trivial⟩

/-! ### Updates -/

/-- An update of a tree in memory. -/
def UpdSpec (f : Raw → H Raw) (a r : Node) : Prop :=
  ∀ R h x, Inv h (x.refs ++ R) → Rep h x a → ∃ z h', f x h = some (z, h') ∧ Post R h h' z.refs ∧ Rep h' z r

theorem temp_spec {F : Raw → Raw → H Raw} {a r : Node} (k v : Bytes) (hF : CombSpec F a (Node.single k v) r) :
    UpdSpec (fun x => do
      let t ← Raw.single k v
      let r ← F x t
      dropAll [t]
      return r) a r := by
  intro R h x hi hx
  obtain ⟨t, h1, e1, p1, r1⟩ := single_spec k v hi
  have hx1 : Rep h1 x a := hx.keep p1.keep (reach_of_mem (by sub_tac))
  obtain ⟨z, h2, e2, p2, r2⟩ := hF (t.refs ++ R) h1 x t (p1.inv.mono (by cnt_tac)) hx1 ⟨r1, reach_of_mem (by sub_tac)⟩
  have ht : Rep h2 t (Node.single k v) := r1.keep p2.keep (reach_of_mem (by sub_tac))
  obtain ⟨h3, e3, i3, k3⟩ := dropOne_spec (R := z.refs ++ R) (p2.inv.mono (by cnt_tac)) ht
  refine ⟨z, h3, ?_, ⟨i3, ?_⟩, r2.keep k3 (reach_of_mem (by sub_tac))⟩
  · dsimp only; rw [run_bind e1, run_bind e2, run_bind e3]; rfl
  · exact ((p1.keep.mono (by sub_tac)).trans (p2.keep.mono (by sub_tac))).trans (k3.mono (by sub_tac))

theorem insert_spec (n : Nat) (a : Node) (k v : Bytes) (hn : a.nodes + 1 ≤ n) : UpdSpec (fun x => insert n x k v) a (Radix.insert a k v) :=
  temp_spec k v (outer_spec (setFn_spec _) n a _ (by simpa [Node.single, Node.nodes, Node.nodesO] using hn))

theorem remove_key_spec (n : Nat) (a : Node) (k : Bytes) (hn : a.nodes + 1 ≤ n) : UpdSpec (fun x => remove n x k) a (Radix.remove a k) :=
  temp_spec k [] (left_spec (setFn_spec _) n a _ (by simpa [Node.single, Node.nodes, Node.nodesO] using hn))

theorem removePrefix_spec (n : Nat) (a : Node) (p : Bytes) (hn : a.nodes + 1 ≤ n) : UpdSpec (fun x => removePrefix n x p) a (Radix.removePrefix a p) :=
  temp_spec p [] (remove_spec n a _ (by simpa [Node.single, Node.nodes, Node.nodesO] using hn))

end Radix.Heap
