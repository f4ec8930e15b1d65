import Verif.Proofs.Attached

/-
Proof-internal: `group_by`, on detached and attached trees.
-/

set_option linter.unusedVariables false

namespace Radix
open Node

mutual
/-- The items of `group_by`, read off the structure. -/
def groups (d : Bytes → Node → Bool) (pre : Bytes) : Node → List Node
  | mk p v c =>
    if d (pre ++ p) (mk p v c) then (if v.isSome then [mk (pre ++ p) v none] else []) ++ groupsO d (pre ++ p) c
    else [mk (pre ++ p) v c]
/-- Below a children field. -/
def groupsO (d : Bytes → Node → Bool) (pre : Bytes) : Option (List Node) → List Node
  | none => []
  | some l => groupsL d pre l
/-- Of siblings. -/
def groupsL (d : Bytes → Node → Bool) (pre : Bytes) : List Node → List Node
  | [] => []
  | n :: l => groups d pre n ++ groupsL d pre l
end

/-- What remains to be yielded. -/
def stackGroups (d : Bytes → Node → Bool) (path : Bytes) : List Frame → List Node
  | [] => []
  | (plen, o) :: st => groupsO d path o ++ stackGroups d (pathPop path plen) st

theorem groupNext0_groups (d) (s : KVIter) :
    match groupNext0 d s with
    | (none, _) => stackGroups d s.path s.stack = []
    | (some x, s') => stackGroups d s.path s.stack = x :: stackGroups d s'.path s'.stack := by
  fun_induction groupNext0 d s with
  | case1 s hs => simp [hs, stackGroups]
  | case2 s plen node rest st hs path hd s1 hv =>
    cases node with
    | mk p v c =>
      simp only [hs, stackGroups, s1, path, pathAppend, pathPop_append, groupsO, groupsL, groups]
      simp only [path, pathAppend, Node.pfx] at hd
      simp only [Node.val] at hv
      rw [if_pos hd, if_pos hv]
      simp [Node.pfx, Node.val, loadChildrenOwned, Node.ch]
  | case3 s plen node rest st hs path hd s1 hv ih =>
    have : stackGroups d s.path s.stack = stackGroups d s1.path s1.stack := by
      cases node with
      | mk p v c =>
        simp only [hs, stackGroups, s1, path, pathAppend, pathPop_append, groupsO, groupsL, groups]
        simp only [path, pathAppend, Node.pfx] at hd
        simp only [Node.val] at hv
        rw [if_pos hd, if_neg hv]
        simp [Node.pfx, loadChildrenOwned, Node.ch]
    rw [this]; exact ih
  | case4 s plen node rest st hs path hd =>
    cases node with
    | mk p v c =>
      simp only [hs, stackGroups, path, pathAppend, pathPop_append, groupsO, groupsL, groups]
      simp only [path, pathAppend, Node.pfx] at hd
      rw [if_neg hd]
      simp [Node.pfx, setPrefix]
  | case5 s plen st hs ih =>
    have : stackGroups d s.path s.stack = stackGroups d s.path ((plen, none) :: st) := by
      simp [hs, stackGroups, groupsO, groupsL]
    rw [this]; exact ih
  | case6 s plen st hs ih =>
    have : stackGroups d s.path s.stack = stackGroups d (pathPop s.path plen) st := by
      simp [hs, stackGroups, groupsO]
    rw [this]; exact ih

theorem groupToList_groups (d) (s : KVIter) : groupToList d s = stackGroups d s.path s.stack := by
  fun_induction groupToList d s with
  | case1 s _ h => have := groupNext0_groups d s; rw [h] at this; exact this.symm
  | case2 s x s' h ih => have := groupNext0_groups d s; rw [h] at this; rw [this, ih]

theorem groupBy_groups (t : Node) (d) : groupBy t d = groups d [] t := by
  simp [groupBy, groupToList_groups, kvIter, stackGroups, groupsO, groupsL]

theorem groups_eq (d) (pre : Bytes) (n : Node) : groups d pre n =
    if d (pre ++ n.pfx) n then (if n.val.isSome then [mk (pre ++ n.pfx) n.val none] else []) ++ groupsL d (pre ++ n.pfx) n.kids
    else [n.setPrefix (pre ++ n.pfx)] := by
  cases n with
  | mk p v c => cases c <;> simp [groups, groupsO, groupsL, Node.pfx, Node.val, kids, setPrefix] <;> rfl

theorem mem_groupsL {d} {pre : Bytes} {l : List Node} {g : Node} : g ∈ groupsL d pre l ↔ ∃ c ∈ l, g ∈ groups d pre c := by
  induction l with
  | nil => simp [groupsL]
  | cons a l ih => simp [groupsL, ih]

mutual
theorem groups_detached {d : Bytes → Node → Bool} (hd : ∀ p n, d p n.detached = d p n) (pre : Bytes) : ∀ n : Node,
    (groups d pre n.detached).map detached = (groups d pre n).map detached
  | mk p v c => by
    have h1 := hd (pre ++ (mk p v c).pfx) (mk p v c)
    have h2 := groupsO_detached hd (pre ++ p) c
    rw [groups_eq, groups_eq d pre (mk p v c), pfx_detached, val_detached, h1]
    show List.map detached (if d (pre ++ p) (mk p v c) = true then
          (if v.isSome = true then [mk (pre ++ p) v none] else []) ++ groupsL d (pre ++ p) (mk p v c).detached.kids
        else [(mk p v c).detached.setPrefix (pre ++ p)]) =
      List.map detached (if d (pre ++ p) (mk p v c) = true then
          (if v.isSome = true then [mk (pre ++ p) v none] else []) ++ groupsL d (pre ++ p) (mk p v c).kids
        else [(mk p v c).setPrefix (pre ++ p)])
    split
    · rw [List.map_append, List.map_append]
      congr 1
      rw [kids_detached, ← detachedL_eq_map (mk p v c).kids]
      have : (mk p v c).kids = c.getD [] := by cases c <;> rfl
      rw [this, h2]
      cases c <;> simp [groupsO, groupsL]
    · simp only [List.map_cons, List.map_nil, List.cons.injEq, and_true]
      have hdd := detachedO_nf _ (nf_detachedO c)
      simp only [Node.detached, setPrefix, Node.val, Node.ch, hdd]
theorem groupsO_detached {d : Bytes → Node → Bool} (hd : ∀ p n, d p n.detached = d p n) (pre : Bytes) :
    ∀ c : Option (List Node),
    (groupsL d pre (detachedL (c.getD []))).map detached = (groupsO d pre c).map detached
  | none => by simp [detachedL, groupsL, groupsO]
  | some l => by simpa [groupsO] using groupsL_detached hd pre l
theorem groupsL_detached {d : Bytes → Node → Bool} (hd : ∀ p n, d p n.detached = d p n) (pre : Bytes) :
    ∀ l : List Node, (groupsL d pre (detachedL l)).map detached = (groupsL d pre l).map detached
  | [] => by simp [detachedL, groupsL]
  | n :: l => by
    rw [detachedL, groupsL, groupsL, List.map_append, List.map_append, groups_detached hd pre n, groupsL_detached hd pre l]
end

theorem groupBy_twin {t u : Node} (h : Twin t u) {d : Bytes → Node → Bool} (hd : ∀ p n, d p n.detached = d p n) :
    (groupBy t d).map detached = (groupBy u d).map detached := by
  rw [groupBy_groups, groupBy_groups, ← groups_detached hd [] t, ← groups_detached hd [] u, h.det]

/-! ### Grouping by the length of the path -/

/-- Group by the first `n` bytes. -/
def byLen (n : Nat) : Bytes → Node → Bool := fun path _ => decide (path.length < n)

theorem take_of_prefix {p k : Bytes} {n : Nat} (h : p <+: k) (hn : n ≤ p.length) : k.take n = p.take n := by
  obtain ⟨r, rfl⟩ := h
  rw [List.take_append_of_le_length hn]

theorem ents_tip {q : Bytes} {v : Option Bytes} {e : Bytes × Bytes} (h : e ∈ ents [] (mk q v none)) : e.1 = q := by
  cases v with
  | none => simp [ents, entsO] at h
  | some v => simp [ents, entsO] at h; rw [h]

theorem groups_ents {d} {t : Node} {pre : Bytes} {g : Node} (hg : g ∈ groups d pre t) {e} (he : e ∈ ents [] g) :
    e ∈ ents pre t := by
  induction t using Node.kidsInduction generalizing pre with
  | step t ih =>
    rw [groups_eq] at hg
    split at hg
    · rcases List.mem_append.1 hg with hg | hg
      · split at hg
        · simp only [List.mem_singleton] at hg
          subst hg
          rw [ents_eq] at he ⊢
          simp only [Node.val, kids, Node.ch, entsL, Node.pfx, Option.getD_none, List.append_nil, List.nil_append] at he
          exact List.mem_append_left _ he
        · simp at hg
      · obtain ⟨c, hc, hg⟩ := mem_groupsL.1 hg
        rw [ents_eq]
        exact List.mem_append_right _ (mem_entsL.2 ⟨c, hc, ih c hc hg⟩)
    · simp only [List.mem_singleton] at hg
      subst hg
      rwa [ents_setPrefix] at he

/-- Every group of `byLen n` has one key prefix of length `n`. -/
theorem byLen_same {n : Nat} {t : Node} (ho : Ord t) {pre : Bytes} {g : Node} (hg : g ∈ groups (byLen n) pre t) :
    ∀ e ∈ ents [] g, ∀ e' ∈ ents [] g, e.1.take n = e'.1.take n := by
  induction t using Node.kidsInduction generalizing pre with
  | step t ih =>
    intro e he e' he'
    rw [groups_eq] at hg
    split at hg
    · rcases List.mem_append.1 hg with hg | hg
      · split at hg
        · simp only [List.mem_singleton] at hg
          subst hg
          rw [ents_tip he, ents_tip he']
        · simp at hg
      · obtain ⟨c, hc, hg⟩ := mem_groupsL.1 hg
        exact ih c hc (((ordK_iff _).1 ((ord_iff t).1 ho)).1 c hc).2 hg e he e' he'
    · rename_i hd
      simp only [List.mem_singleton] at hg
      subst hg
      have hl : n ≤ (pre ++ t.pfx).length := by simpa [byLen] using hd
      rw [ents_setPrefix] at he he'
      obtain ⟨r, h1⟩ := ents_prefix ho he
      obtain ⟨r', h2⟩ := ents_prefix ho he'
      rw [take_of_prefix ⟨r, h1.symm⟩ hl, take_of_prefix ⟨r', h2.symm⟩ hl]

/-- Different groups of `byLen n` have different key prefixes of length `n`. -/
theorem byLen_differ {n : Nat} {t : Node} (ho : Ord t) (pre : Bytes) :
    (groups (byLen n) pre t).Pairwise fun g g' => ∀ e ∈ ents [] g, ∀ e' ∈ ents [] g', e.1.take n ≠ e'.1.take n := by
  induction t using Node.kidsInduction generalizing pre with
  | step t ih =>
    rw [groups_eq]
    split
    · rename_i hd
      have hl : (pre ++ t.pfx).length < n := by simpa [byLen] using hd
      have hk := (ordK_iff _).1 ((ord_iff t).1 ho)
      generalize hq : pre ++ t.pfx = q at *
      have key : ∀ c ∈ t.kids, ∀ g ∈ groups (byLen n) q c, ∀ e ∈ ents [] g, ∃ b r, c.firstByte = some b ∧ e.1 = q ++ b :: r := by
        intro c hc g hg e he
        obtain ⟨r, hr⟩ := ents_prefix (hk.1 c hc).2 (groups_ents hg he)
        cases hp : c.pfx with
        | nil => exact absurd hp (hk.1 c hc).1
        | cons b p => exact ⟨b, p ++ r, by simp [firstByte, hp], by rw [hr, hp]; simp⟩
      rw [List.pairwise_append]
      refine ⟨?_, ?_, ?_⟩
      · split <;> simp
      · have ih' : ∀ c ∈ t.kids, (groups (byLen n) q c).Pairwise fun g g' =>
            ∀ e ∈ ents [] g, ∀ e' ∈ ents [] g', e.1.take n ≠ e'.1.take n := fun c hc => ih c hc (hk.1 c hc).2 q
        have hpw := hk.2
        clear ih ho hd
        generalize t.kids = l at *
        clear hk
        induction l with
        | nil => simp [groupsL]
        | cons c l ihl =>
          rw [groupsL, List.pairwise_append]
          rw [List.pairwise_cons] at hpw
          refine ⟨ih' c (List.mem_cons_self ..), ihl (fun c' hc' => key c' (List.mem_cons_of_mem _ hc'))
            (fun c' hc' => ih' c' (List.mem_cons_of_mem _ hc')) hpw.2, ?_⟩
          intro g hg g' hg' e he e' he' heq
          obtain ⟨c', hc', hg'⟩ := mem_groupsL.1 hg'
          obtain ⟨b, r, hb, h1⟩ := key c (List.mem_cons_self ..) g hg e he
          obtain ⟨b', r', hb', h2⟩ := key c' (List.mem_cons_of_mem _ hc') g' hg' e' he'
          have hlt := hpw.1 c' hc'
          rw [hb, hb'] at hlt
          rw [h1, h2] at heq
          obtain ⟨k, hk⟩ : ∃ k, n = q.length + (k + 1) := ⟨n - q.length - 1, by omega⟩
          rw [hk, List.take_append, List.take_append, Nat.add_sub_cancel_left, List.take_of_length_le (by omega),
            List.take_succ_cons, List.take_succ_cons] at heq
          have := List.append_cancel_left heq
          simp only [List.cons.injEq] at this
          rw [this.1] at hlt
          exact absurd hlt (Nat.lt_irrefl _)
      · intro g hg g' hg' e he e' he' heq
        split at hg
        · simp only [List.mem_singleton] at hg
          subst hg
          obtain ⟨c, hc, hg'⟩ := mem_groupsL.1 hg'
          obtain ⟨b, r, hb, h2⟩ := key c hc g' hg' e' he'
          rw [ents_tip he, h2] at heq
          have := congrArg List.length heq
          simp at this
          omega
        · simp at hg
    · simp

theorem byLen_nonempty {d} {t : Node} (ho : Ord t) (hc : Cmp t) {pre : Bytes} {g : Node} (hg : g ∈ groups d pre t) :
    ents [] g ≠ [] := by
  induction t using Node.kidsInduction generalizing pre with
  | step t ih =>
    rw [groups_eq] at hg
    split at hg
    · rcases List.mem_append.1 hg with hg | hg
      · split at hg
        · rename_i hv
          simp only [List.mem_singleton] at hg
          subst hg
          cases hv' : t.val with
          | none => rw [hv'] at hv; simp at hv
          | some v => simp [ents]
        · simp at hg
      · obtain ⟨c, hcm, hg⟩ := mem_groupsL.1 hg
        exact ih c hcm (((ordK_iff _).1 ((ord_iff t).1 ho)).1 c hcm).2 (((cmp_iff t).1 hc).2 c hcm) hg
    · simp only [List.mem_singleton] at hg
      subst hg
      rw [ents_setPrefix]
      exact ents_ne_nil hc ho _

/-! ### Attached trees -/

section
variable {σ ε : Type} {S : BlobStore σ ε} {L : Lawful S}

theorem groupNext_outcome {g : Bool} {descend : Bytes → Ref → Res ε Bool} {d : Bytes → Node → Bool} {st : σ}
    (hd : ∀ path r n, RefRep L g st r n → RPost L st (descend path r) (· = d path n))
    {s : SIter} {s' : KVIter} (h : SIterRep L g st s s') :
    ∃ r s1, Outcome (fun fuel => groupNextS S descend st fuel s) (.ok (r, s1)) ∧
      ((∃ e, r = some (.error e) ∧ s1.stack = [] ∧ ¬ ReadsSucceed L st) ∨
       SIterRep L g st s1 (groupNext0 d s').2 ∧
        ((r = none ∧ (groupNext0 d s').1 = none) ∨
         ∃ x y, r = some (.ok x) ∧ (groupNext0 d s').1 = some y ∧ Rep L g st x y)) := by
  obtain ⟨r, ho, hr⟩ := rpost_outcome (fun n => groupNext0S_fuel (S := S) (st := st) descend n s)
    (groupNext0_rep (fuel := stackSize s'.stack + 1) hd h (by omega))
  obtain ⟨N, ho⟩ := ho
  cases r with
  | ok x =>
    obtain ⟨o, s1⟩ := x
    obtain ⟨h1, h2⟩ := hr
    cases o with
    | none =>
      refine ⟨none, s1, ⟨N, fun fuel hf => by simp only [groupNextS, ho fuel hf]⟩, Or.inr ⟨h2, Or.inl ⟨rfl, ?_⟩⟩⟩
      cases hn : (groupNext0 d s').1 with
      | none => rfl
      | some y => rw [hn] at h1; exact h1.elim
    | some x =>
      refine ⟨some (.ok x), s1, ⟨N, fun fuel hf => by simp only [groupNextS, ho fuel hf]⟩, Or.inr ⟨h2, Or.inr ?_⟩⟩
      cases hn : (groupNext0 d s').1 with
      | none => rw [hn] at h1; exact h1.elim
      | some y => rw [hn] at h1; exact ⟨x, y, rfl, rfl, h1⟩
  | err e =>
    exact ⟨some (.error e), ⟨s.path, []⟩, ⟨N, fun fuel hf => by simp only [groupNextS, ho fuel hf]⟩,
      Or.inl ⟨e, rfl, rfl, hr⟩⟩
  | panic => exact hr.elim
  | deep => exact hr.elim

theorem glog_ended (descend : Bytes → Ref → Res ε Bool) (s : SIter) (h : s.stack = []) : ∀ sts : List σ,
    ∃ log : List (σ × Option (Except ε SNode)),
    log.map (·.1) = sts ∧ IterLog (groupNextS S descend) s log ∧ ∀ e ∈ log, e.2 = none
  | [] => ⟨[], rfl, .nil _, by simp⟩
  | st :: sts => by
    obtain ⟨log, h1, h2, h3⟩ := glog_ended descend s h sts
    refine ⟨(st, none) :: log, by simp [h1], .cons (s' := s) ⟨1, fun fuel hf => ?_⟩ h2, by simpa using h3⟩
    obtain ⟨f, rfl⟩ : ∃ f, fuel = f + 1 := ⟨fuel - 1, by omega⟩
    simp only [groupNextS, groupNext0S, h]

theorem groupNext0_none_stack (d) (s : KVIter) (h : (groupNext0 d s).1 = none) : (groupNext0 d s).2.stack = [] := by
  fun_induction groupNext0 d s <;> simp_all

theorem holdsTree_of_rep {g : Bool} {st : σ} {a : SNode} {n : Node} (h : Rep L g st a n) :
    HoldsTree L st a n.detached := fun st' hm =>
  rpost_agrees (fun k => (detachedS_fuel k).1 a) (detachedS_rep.1 (rep_mono hm a n h) (Nat.le_refl _))

theorem group_log_rep {g : Bool} {descend : Bytes → Ref → Res ε Bool} {d : Bytes → Node → Bool}
    (hd : ∀ st path r n, RefRep L g st r n → RPost L st (descend path r) (· = d path n)) :
    ∀ (sts : List σ) {st : σ} {s : SIter} {s' : KVIter}, SIterRep L g st s s' → Later L st sts →
    ∃ log, log.map (·.1) = sts ∧ IterLog (groupNextS S descend) s log ∧
      GoodLog L (Rep L g) (stackGroups d s'.path s'.stack) log
  | [], st, s, s', h, hl => ⟨[], rfl, .nil _, by simp [GoodLog]⟩
  | st1 :: sts, st, s, s', h, hl => by
    have h := siterRep_mono hl.1 h
    obtain ⟨r, s1, hn, hc⟩ := groupNext_outcome (S := S) (hd st1) h
    have hspec := groupNext0_groups d s'
    rcases hc with ⟨e, rfl, hs, hf⟩ | ⟨h1, ⟨rfl, hnone⟩ | ⟨x, y, rfl, hsome, hv⟩⟩
    · obtain ⟨log, l1, l2, l3⟩ := glog_ended (S := S) descend s1 hs sts
      exact ⟨(st1, some (.error e)) :: log, by simp [l1], .cons hn l2, by
        cases stackGroups d s'.path s'.stack <;> exact ⟨hf, l3⟩⟩
    · have hst := groupNext0_none_stack d s' hnone
      have hs : s1.stack = [] := stackRep_nil (by have := h1.2; rw [hst] at this; exact this)
      obtain ⟨log, l1, l2, l3⟩ := glog_ended (S := S) descend s1 hs sts
      rcases hq : groupNext0 d s' with ⟨o, q⟩
      rw [hq] at hspec hnone
      cases hnone
      refine ⟨(st1, none) :: log, by simp [l1], .cons hn l2, ?_⟩
      rw [show stackGroups d s'.path s'.stack = [] from hspec]
      exact l3
    · obtain ⟨log, l1, l2, l3⟩ := group_log_rep hd sts h1 hl.2
      rcases hq : groupNext0 d s' with ⟨o, q⟩
      rw [hq] at hspec hsome l3
      cases hsome
      refine ⟨(st1, some (.ok x)) :: log, by simp [l1], .cons hn l2, ?_⟩
      rw [show stackGroups d s'.path s'.stack = y :: stackGroups d q.path q.stack from hspec]
      exact ⟨hv, l3⟩

theorem goodLog_map {α β γ} {same : σ → α → β → Prop} {same' : σ → α → γ → Prop} (f : β → γ)
    (h : ∀ st a b, same st a b → same' st a (f b)) : ∀ {l : List β} {log : List (σ × Option (Except ε α))},
    GoodLog L same l log → GoodLog L same' (l.map f) log
  | _, [], _ => by simp [GoodLog]
  | [], (_, none) :: rest, hg => hg
  | b :: l, (_, some (.ok _)) :: rest, hg => ⟨h _ _ _ hg.1, goodLog_map f h hg.2⟩
  | [], (_, some (.error _)) :: rest, hg => hg
  | _ :: _, (_, some (.error _)) :: rest, hg => hg
  | [], (_, some (.ok _)) :: rest, hg => hg.elim
  | _ :: _, (_, none) :: rest, hg => hg.elim

theorem group_log {g : Bool} {descend : Bytes → Ref → Res ε Bool} {d : Bytes → Node → Bool}
    (hd : ∀ st path r n, RefRep L g st r n → RPost L st (descend path r) (· = d path n))
    (sts : List σ) {st : σ} {s : SIter} {s' : KVIter} (h : SIterRep L g st s s') (hl : Later L st sts) :
    ∃ log, log.map (·.1) = sts ∧ IterLog (groupNextS S descend) s log ∧
      GoodLog L (HoldsTree L) ((stackGroups d s'.path s'.stack).map detached) log := by
  obtain ⟨log, l1, l2, l3⟩ := group_log_rep (S := S) hd sts h hl
  exact ⟨log, l1, l2, goodLog_map detached (fun st a b hab => holdsTree_of_rep hab) l3⟩

end

end Radix
