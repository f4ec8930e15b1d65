import Verif.Proofs.AttMapsReads
import Verif.Proofs.Fits

/-
Sessions with a store on plain values see only what `Verif/Spec/AttMaps.lean` allows: every call, and every session.
-/

set_option linter.unusedVariables false

namespace Radix.Kept
open Radix Node
open Radix.Heap (Choice)
open Radix.Heap.Att (Op Obs Obj NewChoice PWorld storeOf fits pstep prun ponTree ponTrees pchanged pchange pchangeWith pnewTree pnewValue pnewEntry panswer
  pattachedOf preattachOf ploadOf pcloneOf pnewIter pnextOf pnextGroupOf preadKeyOf convOf penvOf attachS reattachS attachS_embed setFnS predS newFnS testFnS descendS maskAb)
open Radix.Spec (Map IsEntries Selected outer inner left)
open Radix.Spec.Kept

section
variable {σ ε : Type} {S : BlobStore σ ε} {L : Lawful S} {st : σ}

theorem Rel.same {o w} (h : Rel L st o w) {i : Nat} (hi : w.items[i]? = some .unknown) (ob : Obj) : Rel L st (o.set i ob) w := by
  have := h.put i (ob := ob) .unknown
  rwa [put_same hi] at this

/-! ### The store -/

theorem load_call {o w} (h : Rel L st o w) (id : Bytes) :
    Fin L (pnewTree (st, o) true (tryLoad S st id)) fun ob st' w' => st' = st ∧
      match w.saved id with
      | some m => made (Fails L st true) w ob w' true m
      | none => ∃ n, w' = w.more n := by
  cases e : w.saved id with
  | none => exact fin_grows h (grows_tree _)
  | some m =>
    obtain ⟨t, bs, ho, hs, hd, hh, hrec⟩ := h.2 id m e
    refine new_tree h ((out_of_rp (rp_of_rpost (P := True) (fun h => (⟨rfl, h⟩ : Fails L st true)) (tryLoad_rep (S := S) hh hrec))).imp (fun h => h) fun x hx => ?_)
    exact ⟨t, ho, hs, hx, hd⟩

theorem noRoom {t : Node} {m : Map} (ho : Ord t) (hs : Shape t) (hd : ∀ k, den t k = m k) {N : Nat} (hN : N ≤ 3 * t.nodes + 1) (h : ¬ CanWrite S N st)
    (hx : ∀ N B, (∀ st i d, L.Has st i d → i.length ≤ N) → 256 * (258 + N) ≤ B → Fit B t → ¬ Accepts S B (3 * t.nodes + 1) st) : NoRoom L st m := by
  have := shape_nodes hs
  rw [iter_eq] at this
  refine ⟨_, isEntries ho hd, fun hc => h (hc.le (by omega)), fun N B hid hB he ha => hx N B hid hB ?_ (ha.le (by omega))⟩
  exact shape_fit ho hs fun k v hk => he (k, v) (((isEntries ho hd).2 k v).2 (by rw [← hd]; exact hk))

theorem attached_call {o w} (h : Rel L st o w) (n i : Nat) : Fin L (pattachedOf S n (st, o) i) fun ob st' w' => Grown S st st' ∧ onMap w i ob w' fun a m =>
      if a then ob = .bad ∧ w' = w else
        Short m ∧ failed (NoRoom L st m) w ob w' ∨ ¬ Short m ∧ (∃ e, ob = .err e) ∧ w' = w ∨ ob = .unit ∧ (Short m ∧ w' = w.add (.map true m) ∨ ¬ Short m ∧ w' = w.add .unknown) := by
  unfold pattachedOf
  refine on_tree h (Grown.same) (fun a y m hm => ?_) fun a y hu => ?_
  · cases a with
    | true => exact fin_some ⟨Grown.same, rfl, rfl⟩ h
    | false =>
      simp only [Bool.false_eq_true, if_false]
      by_cases hl : Radix.Heap.Att.levels y ≤ n
      · rw [if_pos hl]
        have hmono := attachS_grown (S := S) y st
        by_cases hs : Short m
        · obtain ⟨t, ho, hsh, hr, hd⟩ := hm
          have e := repPlain (plain_detached _ _) _ _ hr
          subst e
          rw [attachS_embed] at hmono ⊢
          have hp := tryAttached_rep (L := L) (g := false) t st (Or.inr (short_of ho hsh hd hs))
          rcases hx : tryAttached S t st with ⟨r, st1⟩
          rw [hx] at hmono hp
          cases r with
          | ok z =>
            refine fin_some ⟨hmono, Or.inr (Or.inr ⟨rfl, Or.inl ⟨hs, rfl⟩⟩)⟩ ?_
            exact ((h.mono (hmono.mono L)).add (.tree ⟨t.detached, ord_detached _ ho, shape_detached hsh, hp.2.1, fun k => by rw [den_detached, hd]⟩))
          | err e =>
            refine fin_some ⟨hmono, Or.inl ⟨hs, ⟨e, rfl⟩, noRoom ho hsh hd (by omega) hp.2 fun N B hid hB hf ha => ?_, rfl⟩⟩ (h.mono (hmono.mono L))
            obtain ⟨x, st2, hy⟩ := tryAttached_can (L := L) hid hB hf (ha.le (by omega))
            rw [hx] at hy; cases hy
          | panic => exact fin_none
          | deep => exact fin_none
        · rcases hx : attachS S y st with ⟨r, st1⟩
          rw [hx] at hmono
          cases r with
          | ok z => exact fin_some ⟨hmono, Or.inr (Or.inr ⟨rfl, Or.inr ⟨hs, rfl⟩⟩)⟩ ((h.mono (hmono.mono L)).add .unknown)
          | err e => exact fin_some ⟨hmono, Or.inr (Or.inl ⟨hs, ⟨e, rfl⟩, rfl⟩)⟩ (h.mono (hmono.mono L))
          | panic => exact fin_none
          | deep => exact fin_none
      · rw [if_neg hl]; exact fin_none
  · cases a with
    | true => exact fin_some ⟨Grown.same, 0, (more_zero w).symm⟩ h
    | false =>
      simp only [Bool.false_eq_true, if_false]
      split
      · have hmono := attachS_grown (S := S) y st
        rcases hx : attachS S y st with ⟨r, st1⟩
        rw [hx] at hmono
        cases r with
        | ok z => exact fin_some ⟨hmono, 1, rfl⟩ ((h.mono (hmono.mono L)).more [_])
        | err e => exact fin_some ⟨hmono, 0, (more_zero w).symm⟩ (h.mono (hmono.mono L))
        | panic => exact fin_none
        | deep => exact fin_none
      · exact fin_none

theorem reattach_call {o w} (h : Rel L st o w) (n i : Nat) : Fin L (preattachOf S n (st, o) i) fun ob st' w' => Grown S st st' ∧ onMap w i ob w' fun a m =>
      if a then
        Short m ∧ (failed (NoRoom L st m) w ob w' ∨
          ∃ id, ob = .bytes id ∧ w' = { w with saved := fun id' => if id' = id then some m else w.saved id' }) ∨
        ¬ Short m ∧ w' = w.put i .unknown
      else ob = .bad ∧ w' = w := by
  unfold preattachOf ponTree onMap
  rcases h.1.get i with ⟨h1, h2⟩ | ⟨ob, x, h1, h2, hx⟩
  · rw [h1, h2]; exact fin_some ⟨Grown.same, rfl, rfl⟩ h
  · rw [h1, h2]
    cases hx with
    | @tree a y m hm =>
      simp only
      cases a with
      | false => exact fin_some ⟨Grown.same, rfl, rfl⟩ h
      | true =>
        simp only [if_true]
        by_cases hl : Radix.Heap.Att.levels y ≤ n
        · rw [if_pos hl]
          have hmono := tryReattach_grown (S := S) y st
          unfold reattachS
          by_cases hs : Short m
          · obtain ⟨t, ho, hsh, hr, hd⟩ := hm
            have hp : Post L _ st (tryReattach S y st) _ := tryReattach_rep (S := S) (L := L) (g := false) (g' := false) hr (Or.inr ⟨rfl, short_of ho hsh hd hs⟩)
            rcases hx : tryReattach S y st with ⟨r, st1⟩
            rw [hx] at hmono hp
            cases r with
            | ok z =>
              obtain ⟨z, id⟩ := z
              obtain ⟨hq1, bs, hq2, hq3⟩ := hp.2.1
              have hitem : RelItem L st1 (.tree true z) (.map true m) :=
                .tree ⟨t.detached, ord_detached _ ho, shape_detached hsh, hq1, fun k => by rw [den_detached, hd]⟩
              have hr1 := (h.mono (hmono.mono L)).put i hitem
              rw [put_same h2] at hr1
              refine fin_some ⟨hmono, Or.inl ⟨hs, Or.inr ⟨id, rfl, rfl⟩⟩⟩ ⟨hr1.1, fun id' m' he => ?_⟩
              simp only at he
              split at he
              · rename_i e; subst e; cases he
                exact ⟨t.detached, bs, ord_detached _ ho, shape_detached hsh, fun k => by rw [den_detached, hd], hq2, hq3⟩
              · exact hr1.2 id' m' he
            | err e =>
              have hr1 := (h.mono (hmono.mono L)).put i ((RelItem.tree (a := true) ⟨t, ho, hsh, hr, hd⟩ : RelItem L st (.tree true y) (.map true m)).mono (hmono.mono L))
              rw [put_same h2] at hr1
              refine fin_some ⟨hmono, Or.inl ⟨hs, Or.inl ⟨⟨e, rfl⟩, noRoom ho hsh hd (by omega) hp.2 fun N B hid hB hf ha => ?_, rfl⟩⟩⟩ hr1
              obtain ⟨x, j, st2, hy⟩ := tryReattach_can (L := L) (st := st) hid hB hr hf ha
              rw [hx] at hy; cases hy
            | panic => exact fin_none
            | deep => exact fin_none
          · rcases hx : tryReattach S y st with ⟨r, st1⟩
            rw [hx] at hmono
            cases r with
            | ok z => exact fin_some ⟨hmono, Or.inr ⟨hs, rfl⟩⟩ ((h.mono (hmono.mono L)).put i .unknown)
            | err e => exact fin_some ⟨hmono, Or.inr ⟨hs, rfl⟩⟩ ((h.mono (hmono.mono L)).put i .unknown)
            | panic => exact fin_none
            | deep => exact fin_none
        · rw [if_neg hl]; exact fin_none
    | unknown =>
      cases ob
      case tree a y =>
        simp only
        cases a with
        | false => exact fin_some ⟨Grown.same, 0, (more_zero w).symm⟩ h
        | true =>
          simp only [if_true]
          split
          · have hmono := reattachS_grown (S := S) y st
            rcases hx : reattachS S y st with ⟨⟨r, z⟩, st1⟩
            rw [hx] at hmono
            cases r with
            | ok id => exact fin_some ⟨hmono, 0, (more_zero w).symm⟩ ((h.mono (hmono.mono L)).same h2 _)
            | err e => exact fin_some ⟨hmono, 0, (more_zero w).symm⟩ ((h.mono (hmono.mono L)).same h2 _)
            | panic => exact fin_none
            | deep => exact fin_none
          · exact fin_none
      all_goals exact fin_some ⟨Grown.same, 0, (more_zero w).symm⟩ h
    | _ => exact fin_some ⟨Grown.same, rfl, rfl⟩ h

/-! ### Iterators -/

theorem group_sound {s : KVIter} (h : Sound s) (d) :
    match groupNext0 d s with
    | (none, _) => True
    | (some x, s1) => Ord x ∧ Shape x ∧ Sound s1 ∧ (ents [] x = [] → stackEnts s.path s.stack = []) := by
  rcases h with rfl | h
  · have e : ∀ x : Node, x = Node.empty → groupNext0 d ⟨[], [(0, some [x])]⟩ = if d [] x then (none, ⟨[], []⟩) else (some (x.setPrefix []), ⟨[], [(0, some [])]⟩) := by
      rintro x rfl
      rw [groupNext0]
      by_cases hd : d [] Node.empty = true
      · rw [if_pos hd]
        simp [pathAppend, Node.empty, Node.pfx, Node.val, Node.ch, loadChildrenOwned, groupNext0, pathPop]
        exact hd
      · rw [if_neg hd]
        simp [pathAppend, Node.empty, Node.pfx, Node.val, Node.ch, loadChildrenOwned, pathPop]
        exact fun h => absurd h hd
    have := e _ rfl
    rw [show kvIter Node.empty = ⟨[], [(0, some [Node.empty])]⟩ from rfl, this]
    by_cases hd : d [] Node.empty = true
    · rw [if_pos hd]; trivial
    · rw [if_neg hd]
      refine ⟨(ord_setPrefix _).2 ord_empty, Or.inl rfl, Or.inr ?_, fun _ => by decide +kernel⟩
      intro f hf l hl x hx
      simp only [List.mem_singleton] at hf
      subst hf
      cases hl
      cases hx
  · have := groupNext0_inv (P := fun n => Ord n ∧ Cmp n) (fun n hn c hc => ⟨(((ordK_iff _).1 ((ord_iff n).1 hn.1)).1 c hc).2, ((cmp_iff n).1 hn.2).2 c hc⟩)
      (fun n p hn => ⟨(ord_setPrefix p).2 hn.1, (cmp_setPrefix p).2 hn.2⟩) (fun p v => ⟨ord_single p v, by rw [cmp_iff]; exact ⟨Or.inl rfl, fun c hc => by cases hc⟩⟩) d s h
    cases hg : groupNext0 d s with
    | mk r s1 =>
      rw [hg] at this
      cases r with
      | none => trivial
      | some x =>
        refine ⟨this.1.1, Or.inr this.1.2, Or.inr this.2, fun hx => ?_⟩
        have := byLen_nonempty (d := fun _ _ => false) this.1.1 this.1.2 (pre := []) (g := x.setPrefix ([] ++ x.pfx)) (by rw [groups_eq]; simp)
        rw [ents_setPrefix] at this
        exact absurd hx this

theorem ents_pfx {n : Node} {e : Bytes × Bytes} (h : e ∈ ents [] n) : n.pfx <+: e.1 := by
  rw [ents_eq, List.mem_append, mem_entsL] at h
  rcases h with h | ⟨c, hc, h⟩
  · cases hv : n.val with
    | none => rw [hv] at h; simp at h
    | some v => rw [hv] at h; simp at h; subst h; exact List.prefix_rfl
  · rw [ents_pre] at h
    obtain ⟨x, hx, rfl⟩ := List.mem_map.1 h
    exact List.prefix_append _ _

theorem group_path (d : Bytes → Bool) (s : KVIter) :
    match groupNext0 (fun p _ => d p) s with
    | (none, _) => True
    | (some x, _) => ∃ p, (∀ e ∈ ents [] x, p <+: e.1) ∧ (d p = false ∨ d p = true ∧ ∃ v, ents [] x = [(p, v)]) := by
  fun_induction groupNext0 (fun p _ => d p) s with
  | case1 s hs => trivial
  | case2 s plen node rest st hs path hd s1 hval =>
    obtain ⟨v, hv⟩ := Option.isSome_iff_exists.1 hval
    have e : ents [] (Node.mk path node.val none) = [(path, v)] := by rw [ents_eq, hv]; simp [Node.pfx, Node.val, kids, entsL]
    exact ⟨path, fun x hx => by rw [e] at hx; simp only [List.mem_singleton] at hx; subst hx; exact List.prefix_rfl, Or.inr ⟨hd, v, e⟩⟩
  | case3 s plen node rest st hs path hd s1 hval ih => exact ih
  | case4 s plen node rest st hs path hd =>
    refine ⟨path, fun e he => ?_, Or.inl (by simpa using hd)⟩
    have := ents_pfx he
    simpa [setPrefix, Node.pfx] using this
  | case5 s plen st hs ih => exact ih
  | case6 s plen st hs ih => exact ih

theorem stackEnts_nil (p : Bytes) : stackEnts p [] = [] := by simp [stackEnts]

theorem next_step {o w} (h : Rel L st o w) (n i : Nat) : Fin L (pnextOf S n (st, o) i) fun ob st' w' => st' = st ∧
    match w.items[i]? with
    | some (.entries a []) => failed (Fails L st a) w ob w' ∨ ob = .entry none ∧ w' = w
    | some (.entries a (e :: es)) =>
      (∃ er, ob = .err er) ∧ Fails L st a ∧ w' = w.put i (.entries a []) ∨
      ∃ b, ob = .entry (some (e.1, b)) ∧ Shows L st a b e.2 ∧ w' = ((w.put i (.entries a es)).add (.key e.1)).add (.value a e.2)
    | some (.vals a []) => failed (Fails L st a) w ob w' ∨ ob = .value none ∧ w' = w
    | some (.vals a (v :: vs)) =>
      (∃ er, ob = .err er) ∧ Fails L st a ∧ w' = w.put i (.vals a []) ∨
      ∃ b, ob = .value (some b) ∧ Shows L st a b v ∧ w' = (w.put i (.vals a vs)).add (.value a v)
    | some .unknown => ∃ n, w' = w.more n
    | _ => ob = .bad ∧ w' = w := by
  unfold pnextOf
  rcases h.1.get i with ⟨h1, h2⟩ | ⟨ob, x, h1, h2, hx⟩
  · rw [h1, h2]; exact fin_some ⟨rfl, rfl, rfl⟩ h
  · rw [h1, h2]
    cases hx with
    | @kv a s s' es hr he =>
      have hc := next_call hr n
      have hs := next0_spec s'
      simp only [SIter.next]
      cases hn : SIter.next0 (storeOf S st a).S (storeOf S st a).st n s with
      | ok x =>
        rw [hn] at hc
        obtain ⟨e1, s1⟩ := x
        cases hn' : s'.next0 with
        | mk e2 s2 =>
          rw [hn'] at hc hs
          obtain ⟨hc1, hc2⟩ := hc
          cases e1 with
          | none =>
            cases e2 with
            | some e2 => exact hc1.elim
            | none =>
              have hs : stackEnts s'.path s'.stack = [] := hs
              rw [he] at hs
              subst hs
              have hr1 := h.put i (RelItem.kv hc2 (by
                have := next0_none_stack s' (by rw [hn'])
                rw [hn'] at this
                rw [this, stackEnts_nil]) : RelItem L st (.kv a s1) (.entries a []))
              rw [put_same h2] at hr1
              exact fin_some ⟨rfl, Or.inr ⟨rfl, rfl⟩⟩ hr1
          | some e1 =>
            cases e2 with
            | none => exact hc1.elim
            | some e2 =>
              obtain ⟨k, b⟩ := e1
              obtain ⟨k', d⟩ := e2
              obtain ⟨hk, hv⟩ := hc1
              have hk : k = k' := hk
              subst hk
              have hs : stackEnts s'.path s'.stack = (k, d) :: stackEnts s2.path s2.stack := hs
              rw [he] at hs
              subst hs
              have hv := shows_iff.1 hv
              exact fin_some ⟨rfl, Or.inr ⟨b, rfl, hv, rfl⟩⟩ (((h.put i (.kv hc2 rfl)).add .key).add (.value hv))
      | err e =>
        rw [hn] at hc
        have hr1 : RelItem L st (.kv a ⟨s.path, []⟩) (.entries a []) := .kv (s' := ⟨s.path, []⟩) ⟨rfl, trivial⟩ (stackEnts_nil _)
        cases es with
        | nil =>
          have := h.put i hr1
          rw [put_same h2] at this
          exact fin_some ⟨rfl, Or.inl ⟨⟨e, rfl⟩, hc, rfl⟩⟩ this
        | cons e' es => exact fin_some ⟨rfl, Or.inl ⟨⟨e, rfl⟩, hc, rfl⟩⟩ (h.put i hr1)
      | panic => exact fin_none
      | deep => exact fin_none
    | @vals a s s' es hr he =>
      have hc := valNext_call hr n
      have hs := valNext0_spec s'
      simp only [valNextS]
      cases hn : valNext0S (storeOf S st a).S (storeOf S st a).st n s with
      | ok x =>
        rw [hn] at hc
        obtain ⟨e1, s1⟩ := x
        cases hn' : valNext0 s' with
        | mk e2 s2 =>
          rw [hn'] at hc hs
          obtain ⟨hc1, hc2⟩ := hc
          cases e1 with
          | none =>
            cases e2 with
            | some e2 => exact hc1.elim
            | none =>
              have hs : vstackVals s' = [] := hs
              rw [he] at hs
              subst hs
              have hr1 := h.put i (RelItem.vals hc2 (by
                have := valNext0_none_stack s' (by rw [hn'])
                rw [hn'] at this
                simp only at this
                rw [this]; rfl) : RelItem L st (.vals a s1) (.vals a []))
              rw [put_same h2] at hr1
              exact fin_some ⟨rfl, Or.inr ⟨rfl, rfl⟩⟩ hr1
          | some b =>
            cases e2 with
            | none => exact hc1.elim
            | some d =>
              have hs : vstackVals s' = d :: vstackVals s2 := hs
              rw [he] at hs
              subst hs
              have hv := shows_iff.1 hc1
              exact fin_some ⟨rfl, Or.inr ⟨b, rfl, hv, rfl⟩⟩ ((h.put i (.vals hc2 rfl)).add (.value hv))
      | err e =>
        rw [hn] at hc
        have hr1 : RelItem L st (.vals a []) (.vals a []) := .vals (s' := []) trivial rfl
        cases es with
        | nil =>
          have := h.put i hr1
          rw [put_same h2] at this
          exact fin_some ⟨rfl, Or.inl ⟨⟨e, rfl⟩, hc, rfl⟩⟩ this
        | cons e' es => exact fin_some ⟨rfl, Or.inl ⟨⟨e, rfl⟩, hc, rfl⟩⟩ (h.put i hr1)
      | panic => exact fin_none
      | deep => exact fin_none
    | unknown =>
      cases ob
      case kv a s =>
        simp only
        split
        · exact fin_some ⟨rfl, 2, rfl⟩ (by rw [List.append_assoc]; exact (h.same h2 _).more [_, _])
        · exact fin_some ⟨rfl, 0, (more_zero w).symm⟩ (h.same h2 _)
        · exact fin_some ⟨rfl, 0, (more_zero w).symm⟩ (h.same h2 _)
        · exact fin_none
      case vals a s =>
        simp only
        split
        · exact fin_some ⟨rfl, 1, rfl⟩ ((h.same h2 _).more [_])
        · exact fin_some ⟨rfl, 0, (more_zero w).symm⟩ (h.same h2 _)
        · exact fin_some ⟨rfl, 0, (more_zero w).symm⟩ (h.same h2 _)
        · exact fin_none
      all_goals exact fin_some ⟨rfl, 0, (more_zero w).symm⟩ h
    | _ => exact fin_some ⟨rfl, rfl, rfl⟩ h

theorem nextGroup_step {o w} (h : Rel L st o w) (n i : Nat) (d : Bytes → Except ε Bool) : Fin L (pnextGroupOf S n (st, o) i d) fun ob st' w' => st' = st ∧
    match w.items[i]? with
    | some (.groups a es) =>
      (∀ p, ∃ b, d p = .ok b) ∧
        ((∃ er, ob = .err er) ∧ Fails L st a ∧ w' = w.put i (.groups a []) ∨
         es = [] ∧ ob = .bool false ∧ w' = w ∨
         ∃ p es1 es2 m, es = es1 ++ es2 ∧ IsEntries m es1 ∧ (es1 = [] → es = []) ∧ (∀ e ∈ es1, p <+: e.1) ∧ (d p = .ok false ∨ d p = .ok true ∧ ∃ v, es1 = [(p, v)]) ∧ ob = .bool true ∧ w' = (w.put i (.groups a es2)).add (.map a m)) ∨
      (¬ ∀ p, ∃ b, d p = .ok b) ∧ ∃ n, w' = (w.put i .unknown).more n
    | some .unknown => ∃ n, w' = w.more n
    | _ => ob = .bad ∧ w' = w := by
  unfold pnextGroupOf
  rcases h.1.get i with ⟨h1, h2⟩ | ⟨ob, x, h1, h2, hx⟩
  · rw [h1, h2]; exact fin_some ⟨rfl, rfl, rfl⟩ h
  · rw [h1, h2]
    cases hx with
    | @group a s s' es hr hsound he =>
      by_cases ht : ∀ p, ∃ b, d p = .ok b
      · have hc := groupNext_call hr ht n
        have hs := groupNext0_spec (answerOf d) s'
        have hso := group_sound hsound (answerOf d)
        have hpa := group_path (fun p => answerOf d p Node.empty) s'
        simp only [groupNextS]
        cases hn : groupNext0S (storeOf S st a).S (descendS d) (storeOf S st a).st n s with
        | ok x =>
          rw [hn] at hc
          obtain ⟨e1, s1⟩ := x
          cases hn' : groupNext0 (answerOf d) s' with
          | mk e2 s2 =>
            rw [hn'] at hc hs hso
            rw [show groupNext0 (fun p _ => answerOf d p Node.empty) s' = _ from hn'] at hpa
            obtain ⟨hc1, hc2⟩ := hc
            cases e1 with
            | none =>
              cases e2 with
              | some e2 => exact hc1.elim
              | none =>
                have hs : stackEnts s'.path s'.stack = [] := hs
                rw [he] at hs
                subst hs
                have hst := groupNext0_none_stack (answerOf d) s' (by rw [hn'])
                rw [hn'] at hst
                have hr1 := h.put i (RelItem.group hc2 (Or.inr (by simp only at hst; rw [hst]; intro f hf; cases hf)) (by
                  simp only at hst
                  rw [hst, stackEnts_nil]) : RelItem L st (.group a s1) (.groups a []))
                rw [put_same h2] at hr1
                exact fin_some ⟨rfl, Or.inl ⟨ht, Or.inr (Or.inl ⟨rfl, rfl, rfl⟩)⟩⟩ hr1
            | some y =>
              cases e2 with
              | none => exact hc1.elim
              | some t =>
                have hs : stackEnts s'.path s'.stack = ents [] t ++ stackEnts s2.path s2.stack := hs
                obtain ⟨hso1, hso2, hso3, hso4⟩ := hso
                rw [he] at hs hso4
                obtain ⟨p, hp1, hp2⟩ := hpa
                have hp3 : d p = .ok false ∨ d p = .ok true ∧ ∃ v, ents [] t = [(p, v)] := by
                  obtain ⟨b, hb⟩ := ht p
                  have e : answerOf d p Node.empty = b := by simp [answerOf, hb]
                  rw [e] at hp2
                  rcases hp2 with rfl | ⟨rfl, hp2⟩
                  · exact Or.inl hb
                  · exact Or.inr ⟨hb, hp2⟩
                exact fin_some ⟨rfl, Or.inl ⟨ht, Or.inr (Or.inr ⟨p, _, _, den t, hs, isEntries hso1 fun k => rfl, hso4, hp1, hp3, rfl, rfl⟩)⟩⟩
                  ((h.put i (.group hc2 hso3 rfl)).add (.tree ⟨t, hso1, hso2, hc1, fun k => rfl⟩))
        | err e =>
          rw [hn] at hc
          exact fin_some ⟨rfl, Or.inl ⟨ht, Or.inl ⟨⟨e, rfl⟩, hc, rfl⟩⟩⟩
            (h.put i (.group (s' := ⟨s.path, []⟩) ⟨rfl, trivial⟩ (Or.inr fun f hf => by cases hf) (stackEnts_nil _)))
        | panic => exact fin_none
        | deep => exact fin_none
      · simp only
        split
        · exact fin_some ⟨rfl, Or.inr ⟨ht, 1, rfl⟩⟩ ((h.put i .unknown).more [_])
        · exact fin_some ⟨rfl, Or.inr ⟨ht, 0, (more_zero _).symm⟩⟩ (h.put i .unknown)
        · exact fin_some ⟨rfl, Or.inr ⟨ht, 0, (more_zero _).symm⟩⟩ (h.put i .unknown)
        · exact fin_none
    | unknown =>
      cases ob
      case group a s =>
        simp only
        split
        · exact fin_some ⟨rfl, 1, rfl⟩ ((h.same h2 _).more [_])
        · exact fin_some ⟨rfl, 0, (more_zero w).symm⟩ (h.same h2 _)
        · exact fin_some ⟨rfl, 0, (more_zero w).symm⟩ (h.same h2 _)
        · exact fin_none
      all_goals exact fin_some ⟨rfl, 0, (more_zero w).symm⟩ h
    | _ => exact fin_some ⟨rfl, rfl, rfl⟩ h

/-! ### Every call -/

theorem changeAny {o w} {i j : Nat} {f : Bool → Bool → SNode → Radix.Ref → Res ε Unit × SNode}
    {P : Bool → Bool → Map → Map → Obs ε → World → Prop} (h : Rel L st o w)
    (hf : ∀ a b y z m m', Is L st a y m → Is L st b z m' →
      Fin L (pchanged (st, o) i a (f a b y (.owned z))) fun ob st' w' => st' = st ∧ P a b m m' ob w') :
    Fin L (pchangeWith (st, o) i j (fun _ _ => true) f) fun ob st' w' => st' = st ∧ different w i j ob w' fun a b m m' => P a b m m' ob w' := by
  refine (changeWith h fun a b y z m m' hm hm' _ => hf a b y z m m' hm hm').imp fun ob st' w' h => ?_
  simpa only [if_true] using h

theorem step_ok {o w} (h : Rel L st o w) (mask) (n : Nat) (op : Op σ ε) (hk : ∀ g, op = .outside g → Mono L st (g st)) :
    Fin L (pstep S mask n (st, o) op) fun ob st' w' => Step L st w op ob st' w' := by
  cases op with
  | empty a => exact fin_some ⟨rfl, rfl, rfl⟩ (h.add (.tree ⟨Node.empty, ord_empty, Or.inl rfl, empty_rep _, fun k => den_empty k⟩))
  | single k v =>
    exact fin_some ⟨rfl, rfl, rfl⟩ (h.add (.tree ⟨Node.single k v, ord_single k v, shape_single k v, embed_rep (Node.single k v), fun k' => den_single k v k'⟩))
  | load id => exact load_call h id
  | clone i =>
    simp only [pstep, pcloneOf, Step]
    rcases h.1.get i with ⟨h1, h2⟩ | ⟨ob, x, h1, h2, hx⟩
    · rw [h1, h2]; exact fin_some ⟨rfl, rfl, rfl⟩ h
    · rw [h1, h2]
      cases hx with
      | tree hs => exact fin_some ⟨rfl, rfl, rfl⟩ (h.add (.tree hs))
      | key => exact fin_some ⟨rfl, rfl, rfl⟩ (h.add .key)
      | unknown =>
        cases ob
        case tree a y => exact fin_some ⟨rfl, 1, rfl⟩ (h.more [_])
        case key d => exact fin_some ⟨rfl, 1, rfl⟩ (h.more [_])
        all_goals exact fin_some ⟨rfl, 0, (more_zero w).symm⟩ h
      | _ => exact fin_some ⟨rfl, rfl, rfl⟩ h
  | drop i =>
    simp only [pstep, Step]
    rcases h.1.get i with ⟨h1, h2⟩ | ⟨ob, x, h1, h2, hx⟩
    · rw [h1, h2]; exact fin_some ⟨rfl, rfl, rfl⟩ h
    · rw [h1, h2]; exact fin_some ⟨rfl, rfl, rfl⟩ (h.put i .free)
  | insert i k v => exact change (f := fun a m n => insertS (storeOf S st a).S (storeOf S st a).st false (maskAb mask) n m k v) h fun a y m hm => insert_call hm _ n k v
  | remove i k => exact change (f := fun a m n => removeS (storeOf S st a).S (storeOf S st a).st false (maskAb mask) n m k) h fun a y m hm => remove_call hm _ n k
  | removePrefix i p => exact change (f := fun a m n => removePrefixS (storeOf S st a).S (storeOf S st a).st false (maskAb mask) n m p) h fun a y m hm => removePrefix_call hm _ n p
  | outerCombineWith i j c f =>
    exact changeWith h fun a b y z m m' hm hm' hok => given_of (fun g hg => set_tree h (outerWith_call hm hm' hok hg mask n)) (set_unknown h)
  | innerCombineWith i j f =>
    exact changeAny h fun a b y z m m' hm hm' => given_of (fun g hg => set_tree h (innerWith_call hm hm' hg mask n)) (set_unknown h)
  | leftCombineWith i j f =>
    exact changeAny h fun a b y z m m' hm hm' => given_of (fun g hg => set_tree h (leftWith_call hm hm' hg mask n)) (set_unknown h)
  | retainPrefixWith i j f =>
    exact changeAny h fun a b y z m m' hm hm' => given_of (fun p hp => set_tree h (retainWith_call hm hm' hp mask n)) (set_unknown h)
  | removePrefixWith i j f =>
    exact changeAny h fun a b y z m m' hm hm' => given_of (fun p hp => set_tree h (removeWith_call hm hm' hp mask n)) (set_unknown h)
  | outerCombine i j f =>
    exact on_trees h ⟨w, ⟨0, (more_zero w).symm⟩, h⟩ (fun a b y z m m' hm hm' => given_of (fun g hg => new_tree h (outer_call hm hm' hg n)) (fin_grows h (grows_tree _)))
      fun a b y z _ => fin_grows h (grows_tree _)
  | innerCombine i j f =>
    exact on_trees h ⟨w, ⟨0, (more_zero w).symm⟩, h⟩ (fun a b y z m m' hm hm' => given_of (fun g hg => new_tree h (inner_call hm hm' hg n)) (fin_grows h (grows_tree _)))
      fun a b y z _ => fin_grows h (grows_tree _)
  | leftCombine i j f =>
    exact on_trees h ⟨w, ⟨0, (more_zero w).symm⟩, h⟩ (fun a b y z m m' hm hm' => given_of (fun g hg => new_tree h (left_call hm hm' hg n)) (fin_grows h (grows_tree _)))
      fun a b y z _ => fin_grows h (grows_tree _)
  | innerCombinePred i j f =>
    exact on_trees h ⟨w, rfl, h⟩ (fun a b y z m m' hm hm' => given_of (fun g hg => answer h (innerPred_call hm hm' hg n)) (answer_same h)) fun a b y z _ => answer_same h
  | leftCombinePred i j f =>
    exact on_trees h ⟨w, rfl, h⟩ (fun a b y z m m' hm hm' => given_of (fun g hg => answer h (leftPred_call hm hm' hg n)) (answer_same h)) fun a b y z _ => answer_same h
  | filterPrefix i p s =>
    refine on_tree_grows h (fun a y m hm => ?_) fun a y => grows_tree _
    by_cases hn : s = [] ∨ p ≠ [] ∨ ∃ k v, m k = some v
    · exact (new_tree h (filterPrefix_call hm n p s hn)).imp fun ob st' w' h => ⟨h.1, Or.inl ⟨hn, h.2⟩⟩
    · exact (fin_grows h (grows_tree _)).imp fun ob st' w' h => ⟨h.1, Or.inr ⟨hn, h.2⟩⟩
  | detached i => exact on_tree_grows h (fun a y m hm => new_tree h (detached_call hm n)) fun a y => grows_tree _
  | attached i => exact attached_call h n i
  | reattach i => exact reattach_call h n i
  | get i k => exact on_tree_grows h (fun a y m hm => new_value h (get_call hm n k)) fun a y => grows_value _
  | containsKey i k => exact on_tree_grows h (fun a y m hm => answer h (containsKey_call hm n k)) fun a y => grows_answer _
  | hasPrefix i p => exact on_tree_grows h (fun a y m hm => answer h (hasPrefix_call hm n p)) fun a y => grows_answer _
  | firstValue i =>
    refine on_tree_grows h (fun a y m hm => ?_) fun a y => grows_value _
    obtain ⟨es, h1, h2⟩ := firstValue_call hm n
    exact (new_value h h2).imp fun ob st' w' h => ⟨h.1, es, h1, h.2⟩
  | lastValue i =>
    refine on_tree_grows h (fun a y m hm => ?_) fun a y => grows_value _
    obtain ⟨es, h1, h2⟩ := lastValue_call hm n
    exact (new_value h h2).imp fun ob st' w' h => ⟨h.1, es, h1, h.2⟩
  | firstEntry i p =>
    refine on_tree_grows h (fun a y m hm => ?_) fun a y => grows_entry _
    obtain ⟨es, h1, h2⟩ := firstEntry_call hm n p
    exact (new_entry h h2).imp fun ob st' w' h => ⟨h.1, es, h1, h.2⟩
  | lastEntry i p =>
    refine on_tree_grows h (fun a y m hm => ?_) fun a y => grows_entry _
    obtain ⟨es, h1, h2⟩ := lastEntry_call hm n p
    exact (new_entry h h2).imp fun ob st' w' h => ⟨h.1, es, h1, h.2⟩
  | rootValue i =>
    refine on_tree_grows h (fun a y m hm => ?_) fun a y => grows_value _
    obtain ⟨v, h1, h2⟩ := rootValue_call hm
    exact (new_value (x := .ok y.val.valueOpt) h h1).imp fun ob st' w' h => ⟨h.1, v, h.2, h2⟩
  | isEmpty i =>
    refine on_tree_grows h (fun a y m hm => ?_) fun a y => grows_same
    exact fin_some ⟨rfl, Or.inr ⟨rfl, _, rfl, isEmpty_call hm⟩⟩ h
  | loadValue i =>
    simp only [pstep, ploadOf, Step]
    rcases h.1.get i with ⟨h1, h2⟩ | ⟨ob, x, h1, h2, hx⟩
    · rw [h1, h2]; exact fin_some ⟨rfl, rfl, rfl⟩ h
    · rw [h1, h2]
      cases hx with
      | @value a b d hs =>
        have := out_of_rp (rp_of_rpost (P := True) fails_of (load_rep (shows_iff.2 hs)))
        simp only
        cases hl : b.load (storeOf S st a).S (storeOf S st a).st with
        | ok x =>
          rw [hl] at this
          have e : x = d := this
          subst e
          exact fin_some ⟨rfl, Or.inr ⟨rfl, rfl⟩⟩ h
        | err e => rw [hl] at this; exact fin_some ⟨rfl, Or.inl ⟨⟨e, rfl⟩, this, rfl⟩⟩ h
        | panic => exact fin_none
        | deep => exact fin_none
      | unknown =>
        cases ob
        case value a b => exact answer_same h
        all_goals exact fin_some ⟨rfl, rfl⟩ h
      | _ => exact fin_some ⟨rfl, rfl, rfl⟩ h
  | iter i =>
    refine on_tree_grows h (fun a y m hm => ?_) fun a y => grows_iter _
    obtain ⟨es, h1, h2⟩ := iter_call hm
    exact fin_some ⟨rfl, rfl, es, h1, rfl⟩ (h.add h2)
  | scanPrefix i p =>
    refine on_tree_grows h (fun a y m hm => ?_) fun a y => grows_iter _
    obtain ⟨es, d, h1, h2⟩ := scanPrefix_call hm n p
    cases hl : scanPrefixS (storeOf S st a).S n (storeOf S st a).st y p with
    | ok x => rw [hl] at h2; exact fin_some ⟨rfl, Or.inr ⟨rfl, es, d, h1, rfl⟩⟩ (h.add h2)
    | err e => rw [hl] at h2; exact fin_some ⟨rfl, Or.inl ⟨⟨e, rfl⟩, h2, rfl⟩⟩ h
    | panic => exact fin_none
    | deep => exact fin_none
  | values i =>
    refine on_tree_grows h (fun a y m hm => ?_) fun a y => grows_some _
    obtain ⟨es, h1, h2⟩ := values_call hm
    exact fin_some ⟨rfl, rfl, es, h1, rfl⟩ (h.add h2)
  | groupBy i =>
    refine on_tree_grows h (fun a y m hm => ?_) fun a y => grows_some _
    obtain ⟨es, h1, h2⟩ := groupBy_call hm
    exact fin_some ⟨rfl, rfl, es, h1, rfl⟩ (h.add h2)
  | next i => exact next_step h n i
  | nextGroup i d => exact nextGroup_step h n i d
  | readKey i =>
    simp only [pstep, preadKeyOf, Step]
    rcases h.1.get i with ⟨h1, h2⟩ | ⟨ob, x, h1, h2, hx⟩
    · rw [h1, h2]; exact fin_some ⟨rfl, rfl, rfl⟩ h
    · rw [h1, h2]
      cases hx with
      | key => exact fin_some ⟨rfl, rfl, rfl⟩ h
      | unknown => cases ob <;> exact fin_some ⟨rfl, rfl⟩ h
      | _ => exact fin_some ⟨rfl, rfl, rfl⟩ h
  | outside g => exact fin_some ⟨rfl, rfl, rfl⟩ (h.mono (hk g rfl))

theorem run_ok (mask) (n : Nat) : ∀ (ops : List (Op σ ε)) {st : σ} {o w os st' o'}, Rel L st o w → Keeping L ops → prun S mask n (st, o) ops = some (os, st', o') →
    ∃ w', Run L st w ops os st' w' ∧ Rel L st' o' w' := by
  intro ops
  induction ops with
  | nil =>
    intro st o w os st' o' h hk e
    simp only [prun, Option.some.injEq, Prod.mk.injEq] at e
    obtain ⟨rfl, rfl, rfl⟩ := e
    exact ⟨w, ⟨rfl, rfl, rfl⟩, h⟩
  | cons op ops ih =>
    intro st o w os st' o' h hk e
    rw [prun] at e
    split at e
    · cases e
    · rename_i ob w1 e1
      split at e
      · cases e
      · rename_i os1 w2 e2
        simp only [Option.some.injEq, Prod.mk.injEq] at e
        obtain ⟨rfl, rfl⟩ := e
        obtain ⟨st1, o1⟩ := w1
        obtain ⟨w1, h1, h2⟩ := step_ok h mask n op (fun g hg => hk op (by simp) g hg st) ob st1 o1 e1
        obtain ⟨w2, h3, h4⟩ := ih h2 (fun op' ho g hg => hk op' (by simp [ho]) g hg) e2
        exact ⟨w2, ⟨ob, st1, w1, os1, rfl, h1, h3⟩, h4⟩

theorem rel_empty (st : σ) : Rel L st [] World.empty := ⟨⟨rfl, fun i ob x h => by cases h⟩, fun id m h => by cases h⟩

end

end Radix.Kept
