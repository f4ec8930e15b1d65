import Verif.Proofs.Iter

/-
Proof-internal: the compact shape is determined by the contents; node counts; equality.
-/

set_option linter.unusedVariables false

namespace Radix
open Node

/-- A prefix of all keys of a compact tree is a prefix of its root prefix. -/
theorem cmp_pfx_max {a : Node} (h : Cmp a) (ho : Ord a) {p : Bytes}
    (hp : ∀ k v, den a k = some v → p <+: k) : p <+: a.pfx := by
  rw [cmp_iff] at h
  rcases h.1 with hv | hk
  · obtain ⟨v, hv⟩ := Option.isSome_iff_exists.1 hv
    refine hp a.pfx v ?_
    have := strip_append_self a.pfx []
    rw [List.append_nil] at this
    rw [den_eq, this]; exact hv
  · cases hk1 : a.kids with
    | nil => simp [hk1] at hk
    | cons c l =>
      cases l with
      | nil => simp [hk1] at hk
      | cons d l =>
        have ho' := (ord_iff a).1 ho
        have hc : c ∈ a.kids := by simp [hk1]
        have hd : d ∈ a.kids := by simp [hk1]
        have key : ∀ c ∈ a.kids, ∃ x r, c.firstByte = some x ∧ p <+: a.pfx ++ x :: r := by
          intro c hc
          obtain ⟨k, v, hden⟩ := cmp_exists (h.2 c hc) (ho'.mem hc).2
          obtain ⟨x, hx⟩ := firstByte_of_ne_nil (ho'.mem hc).1
          have hh := den_firstByte hx hden
          cases k with
          | nil => cases hh
          | cons y ys =>
            simp at hh; subst hh
            refine ⟨y, ys, hx, hp _ v ?_⟩
            rw [den_eq, strip_append_self]
            exact (denK_eq_some ho').2 ⟨c, hc, hden⟩
        obtain ⟨x, r, hx, h1⟩ := key c hc
        obtain ⟨y, s, hy, h2⟩ := key d hd
        have hne : x ≠ y := by
          rw [hk1] at ho'
          simp only [OrdK] at ho'
          have := ho'.2.2.1 d (by simp)
          rw [hx, hy] at this
          rintro rfl; omega
        by_cases hl : p.length ≤ a.pfx.length
        · exact List.prefix_of_prefix_length_le h1 (List.prefix_append _ _) hl
        · exfalso
          obtain ⟨q, rfl⟩ : a.pfx <+: p :=
            List.prefix_of_prefix_length_le (List.prefix_append _ _) h1 (by omega)
          have h1 := (List.prefix_append_right_inj _).1 h1
          have h2 := (List.prefix_append_right_inj _).1 h2
          cases q with
          | nil => simp at hl
          | cons z q =>
            rw [List.cons_prefix_cons] at h1 h2
            exact hne (h1.1.symm.trans h2.1)

theorem cmp_keys_pfx {a : Node} {k v : Bytes} (h : den a k = some v) : a.pfx <+: k := by
  by_cases hp : a.pfx <+: k
  · exact hp
  · rw [den_none_of_not_prefix hp] at h; cases h

/-- Two strictly sorted lists with the same members at each first byte are equal. -/
theorem sorted_ext {as bs : List Node} (ha : OrdK as) (hb : OrdK bs)
    (h : ∀ x, (childAt as x).map detached = (childAt bs x).map detached) :
    as.map detached = bs.map detached := by
  have fst : ∀ {l m : List Node} {n : Node}, OrdK (n :: l) → OrdK m →
      (∀ x, (childAt (n :: l) x).map detached = (childAt m x).map detached) →
      ∃ n' ∈ m, n'.firstByte = n.firstByte ∧ n'.detached = n.detached := by
    intro l m n hl hm h
    obtain ⟨x, hx⟩ := firstByte_of_ne_nil (hl.mem (by simp : n ∈ n :: l)).1
    have h1 := h x
    rw [childAt_of_mem hl (by simp : n ∈ n :: l) hx] at h1
    cases hc : childAt m x with
    | none => simp [hc] at h1
    | some n' =>
      simp [hc] at h1
      obtain ⟨h2, h3⟩ := childAt_mem hc
      exact ⟨n', h2, h3.trans hx.symm, h1.symm⟩
  induction as generalizing bs with
  | nil =>
    cases bs with
    | nil => rfl
    | cons b bs =>
      obtain ⟨n', h1, _⟩ := fst hb ha (fun x => (h x).symm)
      cases h1
  | cons a as ih =>
    cases bs with
    | nil =>
      obtain ⟨n', h1, _⟩ := fst ha hb h
      cases h1
    | cons b bs =>
      obtain ⟨n1, m1, f1, d1⟩ := fst ha hb h
      obtain ⟨n2, m2, f2, d2⟩ := fst hb ha (fun x => (h x).symm)
      have ha' := ha; have hb' := hb
      simp only [OrdK] at ha' hb'
      have hab : rank a.firstByte = rank b.firstByte := by
        have r1 : rank b.firstByte ≤ rank a.firstByte := by
          rcases List.mem_cons.1 m1 with rfl | m1
          · rw [f1]; exact Nat.le_refl _
          · have := hb'.2.2.1 n1 m1; rw [f1] at this; omega
        have r2 : rank a.firstByte ≤ rank b.firstByte := by
          rcases List.mem_cons.1 m2 with rfl | m2
          · rw [f2]; exact Nat.le_refl _
          · have := ha'.2.2.1 n2 m2; rw [f2] at this; omega
        omega
      have hdet : a.detached = b.detached := by
        rcases List.mem_cons.1 m1 with rfl | m1
        · exact d1.symm
        · have := hb'.2.2.1 n1 m1; rw [f1, hab] at this; omega
      rw [List.map_cons, List.map_cons, hdet, ih ha'.2.2.2 hb'.2.2.2]
      intro x
      have hx := h x
      by_cases e : a.firstByte = some x
      · have e' : b.firstByte = some x := by rw [← rank_inj hab]; exact e
        have n1 : childAt as x = none := by
          cases hc : childAt as x with
          | none => rfl
          | some c =>
            have := childAt_mem hc
            have h3 := ha'.2.2.1 c this.1
            rw [this.2, e] at h3; omega
        have n2 : childAt bs x = none := by
          cases hc : childAt bs x with
          | none => rfl
          | some c =>
            have := childAt_mem hc
            have h3 := hb'.2.2.1 c this.1
            rw [this.2, e'] at h3; omega
        rw [n1, n2]
      · have e' : b.firstByte ≠ some x := by rw [← rank_inj hab]; exact e
        have c1 : childAt (a :: as) x = childAt as x := by simp [childAt, e]
        have c2 : childAt (b :: bs) x = childAt bs x := by simp [childAt, e']
        rw [c1, c2] at hx; exact hx

theorem detached_ext {a b : Node} (hp : a.pfx = b.pfx) (hv : a.val = b.val)
    (hk : a.kids.map detached = b.kids.map detached) : a.detached = b.detached := by
  have : ∀ n : Node, n.detached = mk n.pfx n.val (arcOpt (n.kids.map detached)) := by
    intro n
    cases n with
    | mk p v c =>
      cases c with
      | none => rfl
      | some l => simp only [detached, detachedO_some]; rfl
  rw [this, this b, hp, hv, hk]

theorem cmp_unique {a b : Node} (ca : Cmp a) (cb : Cmp b) (oa : Ord a) (ob : Ord b)
    (h : ∀ k, den a k = den b k) : a.detached = b.detached := by
  induction ca generalizing b with
  | intro a h1 h2 ih =>
    have ca : Cmp a := .intro a h1 h2
    have hp : a.pfx = b.pfx := by
      have p1 : b.pfx <+: a.pfx := cmp_pfx_max ca oa fun k v hk => cmp_keys_pfx ((h k).symm.trans hk)
      have p2 : a.pfx <+: b.pfx := cmp_pfx_max cb ob fun k v hk => cmp_keys_pfx ((h k).trans hk)
      exact p2.eq_of_length_le p1.length_le
    have hv : a.val = b.val := by
      have hh := h a.pfx
      have s1 := strip_append_self a.pfx []
      rw [List.append_nil] at s1
      rw [den_eq, den_eq b, s1, ← hp, s1] at hh
      exact hh
    refine detached_ext hp hv ?_
    have oa' := (ord_iff a).1 oa
    have ob' := (ord_iff b).1 ob
    have hden : ∀ x xs, denK a.kids (x :: xs) = denK b.kids (x :: xs) := by
      intro x xs
      have hh := h (a.pfx ++ x :: xs)
      rw [den_eq, den_eq b, ← hp, strip_append_self] at hh
      exact hh
    apply sorted_ext oa' ob'
    intro x
    have hb2 := ((cmp_iff b).1 cb).2
    cases hca : childAt a.kids x with
    | none =>
      cases hcb : childAt b.kids x with
      | none => rfl
      | some d =>
        obtain ⟨m1, m2⟩ := childAt_mem hcb
        obtain ⟨k, v, hd⟩ := cmp_exists (hb2 d m1) (ob'.mem m1).2
        have hh := den_firstByte m2 hd
        cases k with
        | nil => cases hh
        | cons y ys =>
          simp at hh; subst hh
          have := hden y ys
          rw [denK_cons_eq, denK_cons_eq, hca, hcb] at this
          simp [hd] at this
    | some c =>
      obtain ⟨m1, m2⟩ := childAt_mem hca
      cases hcb : childAt b.kids x with
      | none =>
        obtain ⟨k, v, hd⟩ := cmp_exists (h2 c m1) (oa'.mem m1).2
        have hh := den_firstByte m2 hd
        cases k with
        | nil => cases hh
        | cons y ys =>
          simp at hh; subst hh
          have := hden y ys
          rw [denK_cons_eq, denK_cons_eq, hca, hcb] at this
          simp [hd] at this
      | some d =>
        obtain ⟨m1', m2'⟩ := childAt_mem hcb
        simp only [Option.map_some, Option.some.injEq]
        refine ih c m1 (hb2 d m1') (oa'.mem m1).2 (ob'.mem m1').2 fun k => ?_
        cases k with
        | nil => rw [den_nil_of_ne (oa'.mem m1).1, den_nil_of_ne (ob'.mem m1').1]
        | cons y ys =>
          by_cases e : y = x
          · subst e
            have := hden y ys
            rw [denK_cons_eq, denK_cons_eq, hca, hcb] at this
            exact this
          · have f1 : den c (y :: ys) = none := by
              cases hd : den c (y :: ys) with
              | none => rfl
              | some v => have := den_firstByte m2 hd; simp at this; exact absurd this e
            have f2 : den d (y :: ys) = none := by
              cases hd : den d (y :: ys) with
              | none => rfl
              | some v => have := den_firstByte m2' hd; simp at this; exact absurd this e
            rw [f1, f2]

theorem shape_unique {a b : Node} (ca : Shape a) (cb : Shape b) (oa : Ord a) (ob : Ord b)
    (h : ∀ k, den a k = den b k) : a.detached = b.detached := by
  rcases ca with rfl | ca
  · rcases cb with rfl | cb
    · rfl
    · obtain ⟨k, v, hd⟩ := cmp_exists cb ob
      rw [← h, den_empty] at hd; cases hd
  · rcases cb with rfl | cb
    · obtain ⟨k, v, hd⟩ := cmp_exists ca oa
      rw [h, den_empty] at hd; cases hd
    · exact cmp_unique ca cb oa ob h

/-! ### Counts -/

theorem cmp_nodes {n : Node} (h : Cmp n) (pre : Bytes) : n.nodes + 1 ≤ 2 * (ents pre n).length := by
  induction h generalizing pre with
  | intro n h1 h2 ih =>
    have hk : ∀ l : List Node, (∀ c ∈ l, c ∈ n.kids) → ∀ q, nodesL l + l.length ≤ 2 * (entsL q l).length := by
      intro l
      induction l with
      | nil => intro _ q; simp [nodesL, entsL]
      | cons c l ihl =>
        intro hm q
        have h3 := ihl (fun d hd => hm d (by simp [hd])) q
        have h4 := ih c (hm c (by simp)) q
        simp only [nodesL, entsL, List.length_append, List.length_cons]; omega
    have h5 := hk n.kids (fun _ h => h) (pre ++ n.pfx)
    have h6 := nodesL_kids n
    rw [ents_eq, List.length_append]
    rcases h1 with h1 | h1
    · obtain ⟨v, hv⟩ := Option.isSome_iff_exists.1 h1
      rw [hv]; simp; omega
    · omega

theorem shape_nodes {n : Node} (h : Shape n) : n.nodes ≤ 2 * (iter n).length + 1 := by
  rw [iter_eq]
  rcases h with rfl | h
  · simp [Node.empty, nodes, nodesO]
  · have := cmp_nodes h []; omega

/-! ### Equality -/

mutual
/-- No `some []` children field anywhere. -/
def NF : Node → Prop
  | mk _ _ c => NFO c
/-- `NF` for a children field. -/
def NFO : Option (List Node) → Prop
  | none => True
  | some l => l ≠ [] ∧ NFL l
/-- `NF` for siblings. -/
def NFL : List Node → Prop
  | [] => True
  | n :: l => NF n ∧ NFL l
end

mutual
theorem nf_detached (n : Node) : NF n.detached := by
  cases n with
  | mk p v c => simp only [detached, NF]; exact nf_detachedO c
theorem nf_detachedO (c : Option (List Node)) : NFO (detachedO c) := by
  cases c with
  | none => simp [detachedO, NFO]
  | some l =>
    cases l with
    | nil => simp [detachedO, NFO]
    | cons a l => simp only [detachedO, NFO]; exact ⟨by simp [detachedL], nf_detachedL (a :: l)⟩
theorem nf_detachedL (l : List Node) : NFL (detachedL l) := by
  cases l with
  | nil => simp [detachedL, NFL]
  | cons a l => simp only [detachedL, NFL]; exact ⟨nf_detached a, nf_detachedL l⟩
end

mutual
theorem detached_nf (n : Node) (h : NF n) : n.detached = n := by
  cases n with
  | mk p v c => simp only [NF] at h; simp only [detached, detachedO_nf c h]
theorem detachedO_nf (c : Option (List Node)) (h : NFO c) : detachedO c = c := by
  cases c with
  | none => rfl
  | some l =>
    cases l with
    | nil => simp [NFO] at h
    | cons a l => simp only [NFO] at h; simp only [detachedO, detachedL_nf (a :: l) h.2]
theorem detachedL_nf (l : List Node) (h : NFL l) : detachedL l = l := by
  cases l with
  | nil => rfl
  | cons a l =>
    simp only [NFL] at h
    simp only [detachedL, detached_nf a h.1, detachedL_nf l h.2]
end

mutual
theorem nodeEq_refl (n : Node) : nodeEq n n = true := by
  cases n with
  | mk p v c => simp [nodeEq, nodeEqO_refl c]
theorem nodeEqO_refl (c : Option (List Node)) : nodeEqO c c = true := by
  cases c with
  | none => rfl
  | some l => exact nodeEqL_refl l
theorem nodeEqL_refl (l : List Node) : nodeEqL l l = true := by
  cases l with
  | nil => rfl
  | cons a l => simp [nodeEqL, nodeEq_refl a, nodeEqL_refl l]
end

/-- `==` trees agree up to "absent" versus "empty value". -/
theorem nodeEq_den {a b : Node} (h : nodeEq a b = true) (k : Bytes) :
    (den a k).getD [] = (den b k).getD [] := by
  induction a using Node.kidsInduction generalizing b k with
  | step a ih =>
    cases a with
    | mk p v c =>
      cases b with
      | mk q w d =>
        simp only [nodeEq, Bool.and_eq_true, beq_iff_eq] at h
        obtain ⟨⟨rfl, hv⟩, hc⟩ := h
        rw [den_eq, den_eq (mk p w d)]
        simp only [pfx_mk, val_mk]
        cases strip p k with
        | none => rfl
        | some r =>
          cases r with
          | nil => exact hv
          | cons x xs =>
            simp only
            have : ∀ l m : List Node, (∀ e ∈ l, e ∈ (mk p v c).kids) → nodeEqL l m = true →
                (denK l (x :: xs)).getD [] = (denK m (x :: xs)).getD [] := by
              intro l
              induction l with
              | nil =>
                intro m _ he
                cases m with
                | nil => rfl
                | cons e m => simp [nodeEqL] at he
              | cons e l ihl =>
                intro m hm he
                cases m with
                | nil => simp [nodeEqL] at he
                | cons e' m =>
                  simp only [nodeEqL, Bool.and_eq_true] at he
                  have hp : e.firstByte = e'.firstByte := by
                    cases e; cases e'
                    have := he.1
                    simp only [nodeEq, Bool.and_eq_true, beq_iff_eq] at this
                    simp [firstByte, this.1.1]
                  simp only [denK, hp]
                  cases hh : (e'.firstByte == (x :: xs).head?) with
                  | true => exact ih e (hm e (by simp)) he.1 (x :: xs)
                  | false => exact ihl m (fun d hd => hm d (by simp [hd])) he.2
            cases c with
            | none =>
              cases d with
              | none => rfl
              | some m => simp [nodeEqO] at hc
            | some l =>
              cases d with
              | none => simp [nodeEqO] at hc
              | some m => exact this l m (fun _ h => h) hc

/-! ### Results of the copying operations have no empty children vectors -/

theorem nf_mk {p v c} : NF (mk p v c) ↔ NFO c := by simp [NF]

theorem nf_ch {n : Node} (h : NF n) : NFO n.ch := by
  cases n; simpa [NF] using h

theorem nfl_mem {l : List Node} : NFL l ↔ ∀ c ∈ l, NF c := by
  induction l with
  | nil => simp [NFL]
  | cons a l ih => simp [NFL, ih]

theorem nfo_arcOpt {l : List Node} (h : ∀ c ∈ l, NF c) : NFO (arcOpt l) := by
  unfold arcOpt
  split
  · simp [NFO]
  · rename_i hl; simp only [NFO]; exact ⟨by simpa using hl, nfl_mem.2 h⟩

theorem nf_canonicalize {n : Node} (h : NF n) : NF n.canonicalize := by
  unfold canonicalize
  dsimp only
  split
  · simp [Node.empty, NF, NFO]
  · unfold mergeOnlyChild
    split
    · simp only [NF, NFO, NFL] at h
      have h1 := h.2.1
      rw [nf_mk]
      exact nf_ch h1
    · exact h

theorem isEmpty_iff {t : Node} (ho : Ord t) (hs : Shape t) : t.isEmpty = true ↔ ∀ k, den t k = none := by
  constructor
  · exact fun h k => den_isEmpty h k
  · intro h
    rcases hs with rfl | hc
    · rfl
    · obtain ⟨k, v, hd⟩ := cmp_exists hc ho
      rw [h] at hd; cases hd

end Radix
