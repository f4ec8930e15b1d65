import Verif.Proofs.Group

/-
Properties C33 and C35: reading and iterating trees that are attached to a store.

`Att S L long st a m` (Verif/Stored/History.lean) says: `a` is a tree attached to the store `S` that some history of
successful calls has produced, `m` is the map that the same history gives on plain maps, and the store is now in state
`st`. `Agrees L st call x` says: the call returns `x`; only if some read of the store fails it may return an error
instead; it never panics.
-/

set_option linter.unusedVariables false

namespace Radix
open Node

section
variable {σ ε : Type} {S : BlobStore σ ε} {L : Lawful S} {long : Bool} {st : σ} {a : SNode} {m : Spec.Map}

/-- **C33**, `try_get` (and loading the value): the entry of the map. -/
theorem C33_get (h : Att S L long st a m) (k : Bytes) :
    Agrees L st (fun fuel => getLoadS S fuel st a k) (m k) := by
  obtain ⟨t, ho, hs, hr, hd⟩ := att_stands h
  rw [← hd k, ← get_eq_den _ _ ho]
  exact agrees_bind (fun n => getS_fuel a k n) (getS_rep ho hr (Nat.le_refl _) k) fun x hx => loadOptV_rep hx

/-- **C33**, `try_contains_key`. -/
theorem C33_contains_key (h : Att S L long st a m) (k : Bytes) :
    Agrees L st (fun fuel => containsKeyS S fuel st a k) (m k).isSome := by
  obtain ⟨t, ho, hs, hr, hd⟩ := att_stands h
  rw [← hd k, ← get_eq_den _ _ ho, ← containsKey_eq]
  exact rpost_agrees (fun n => containsKeyS_fuel a k n) (containsKeyS_rep ho hr (Nat.le_refl _) k)

/-- **C33**, `try_has_prefix`: as on every detached tree with the same contents. -/
theorem C33_has_prefix (h : Att S L long st a m) {u : Node} (hu : Proper u) (hm : ∀ k, get u k = m k) (p : Bytes) :
    Agrees L st (fun fuel => hasPrefixS S fuel st a p) (hasPrefix u p) := by
  obtain ⟨t, hst⟩ := att_stands h
  rw [← (hst.twin hu hm).hasPrefix p]
  obtain ⟨ho, hs, hr, hd⟩ := hst
  exact rpost_agrees (fun n => hasPrefixS_fuel a p n) (hasPrefixS_rep ho hr (Nat.le_refl _) p)

/-- **C33**, `try_first_value` and `try_last_value`, `try_first_entry` and `try_last_entry` (and loading the value): as on
every detached tree with the same contents. -/
theorem C33_first_last (h : Att S L long st a m) {u : Node} (hu : Proper u) (hm : ∀ k, get u k = m k) (p : Bytes) :
    Agrees L st (fun fuel => (firstValueS S st fuel (.owned a)).bind (loadOptV S st)) (firstValue u) ∧
    Agrees L st (fun fuel => (lastValueS S st fuel (.owned a)).bind (loadOptV S st)) (lastValue u) ∧
    Agrees L st (fun fuel => (firstEntryS S st fuel p (.owned a)).bind (loadOptE S st)) (firstEntry p u) ∧
    Agrees L st (fun fuel => (lastEntryS S st fuel p (.owned a)).bind (loadOptE S st)) (lastEntry p u) := by
  obtain ⟨t, hst⟩ := att_stands h
  have hw := hst.twin hu hm
  obtain ⟨ho, hs, hr, hd⟩ := hst
  have hi := iter_of_twin hw
  have hsu := proper_shape hu
  have he : ∀ q, ents q u = ents q t := fun q => by
    rw [iter_eq, iter_eq] at hi
    rw [ents_pre, ents_pre q t, hi]
  have e1 : ∀ q, firstEntry q u = firstEntry q t := fun q => by
    rw [firstEntry_eq hsu (reach_ord hu), firstEntry_eq hs ho, he]
  have e2 : ∀ q, lastEntry q u = lastEntry q t := fun q => by
    rw [lastEntry_eq hsu (reach_ord hu), lastEntry_eq hs ho, he]
  rw [firstValue_eq u [], lastValue_eq u [], e1, e2, e1, e2, ← firstValue_eq, ← lastValue_eq]
  have hr' : RefRep L long st (.owned a) t := hr
  exact ⟨agrees_bind (fun n => firstValueS_fuel n _) (firstValueS_rep hr' (Nat.le_refl _)) fun x hx => loadOptV_rep hx,
    agrees_bind (fun n => lastValueS_fuel n _) (lastValueS_rep hr' (Nat.le_refl _)) fun x hx => loadOptV_rep hx,
    agrees_bind (fun n => firstEntryS_fuel n _ _) (firstEntryS_rep hr' (Nat.le_refl _)) fun x hx => loadOptE_rep hx,
    agrees_bind (fun n => lastEntryS_fuel n _ _) (lastEntryS_rep hr' (Nat.le_refl _)) fun x hx => loadOptE_rep hx⟩

/-- **C33 and C35**, `try_iter`. Let a user call `next` again and again, and let the store move on between the calls. Every
call returns, and the outcomes are: the entries of every detached tree with the same contents, in the same order, then
`None` forever; or, if a read fails, those before the failure, then one error, then `None` forever. -/
theorem C35_iter (h : Att S L long st a m) {u : Node} (hu : Proper u) (hm : ∀ k, get u k = m k) (sts : List σ)
    (hl : Later L st sts) :
    ∃ log, log.map (·.1) = sts ∧ IterLog (SIter.next S) (iterS a) log ∧ GoodLog L (SameEntry L) (iter u) log := by
  obtain ⟨t, hst⟩ := att_stands h
  have hw := hst.twin hu hm
  rw [← iter_of_twin hw, ← iter_stack]
  exact iter_log sts (iterS_rep hst.2.2.1) hl

/-- **C33 and C35**, `try_values`, likewise. -/
theorem C35_values (h : Att S L long st a m) {u : Node} (hu : Proper u) (hm : ∀ k, get u k = m k) (sts : List σ)
    (hl : Later L st sts) :
    ∃ log, log.map (·.1) = sts ∧ IterLog (valNextS S) (valuesS a) log ∧ GoodLog L (Holds L) (values u) log := by
  obtain ⟨t, hst⟩ := att_stands h
  have hw := hst.twin hu hm
  have hv : values u = values t := by
    rw [values_eq, values_eq]
    have := iter_of_twin hw
    rw [iter_eq, iter_eq] at this
    rw [this]
  rw [hv, ← vals_stack]
  exact val_log (g := long) sts (s' := [[t]]) (by simpa [valuesS, VStackRep, IterRep, RepL] using hst.2.2.1) hl

/-- **C33 and C35**, `try_scan_prefix`, likewise: the call returns an iterator (or fails, if a read fails), whose items are
those of `scan_prefix` on every detached tree with the same contents. -/
theorem C35_scan_prefix (h : Att S L long st a m) {u : Node} (hu : Proper u) (hm : ∀ k, get u k = m k) (p : Bytes) :
    ∃ r, Outcome (fun fuel => scanPrefixS S fuel st a p) r ∧
      ((∃ e, r = .err e) ∧ ¬ ReadsSucceed L st ∨ ∃ s, r = .ok s ∧ ∀ sts, Later L st sts →
        ∃ log, log.map (·.1) = sts ∧ IterLog (SIter.next S) s log ∧ GoodLog L (SameEntry L) (scanPrefix u p) log) := by
  obtain ⟨t, hst⟩ := att_stands h
  have hw := hst.twin hu hm
  obtain ⟨r, hor, hr⟩ := rpost_outcome (fun n => scanPrefixS_fuel a p n)
    (scanPrefixS_rep hst.1 hst.2.2.1 (Nat.le_refl _) p)
  refine ⟨r, hor, ?_⟩
  cases r with
  | ok s =>
    refine Or.inr ⟨s, rfl, fun sts hl => ?_⟩
    rw [← hw.scanPrefix, ← scan_stack]
    exact iter_log sts hr hl
  | err e => exact Or.inl ⟨⟨e, rfl⟩, hr⟩
  | panic => exact hr.elim
  | deep => exact hr.elim

/-- **C33**, `try_filter_prefix`: the call returns a tree attached to the store with the contents that the specification
of `filter_prefix` says (or fails, if a read fails). All other theorems about attached trees apply to it. -/
theorem C33_filter_prefix (h : Att S L long st a m) (p s : Bytes) (hp : s = [] ∨ p ≠ [] ∨ ∃ k v, m k = some v) :
    ∃ r, Outcome (fun fuel => filterPrefixS S fuel st a p s) r ∧
      ((∃ e, r = .err e) ∧ ¬ ReadsSucceed L st ∨ ∃ a', r = .ok a' ∧ Att S L long st a' (m.filterPrefix p s)) := by
  obtain ⟨t, hst⟩ := att_stands h
  obtain ⟨r, hor, hr⟩ := rpost_outcome (fun n => filterPrefixS_fuel a p s n)
    (filterPrefixS_rep hst.1 hst.2.2.1 (Nat.le_refl _) p s)
  refine ⟨r, hor, ?_⟩
  cases r with
  | ok a' => exact Or.inr ⟨a', rfl, .filterPrefix p s h hp hor⟩
  | err e => exact Or.inl ⟨⟨e, rfl⟩, hr⟩
  | panic => exact hr.elim
  | deep => exact hr.elim

/-- **C35**, `try_group_by` with a function that looks at the path only, likewise: the items are the trees that `group_by`
gives on every detached tree with the same contents. -/
theorem C35_group_by (h : Att S L long st a m) {u : Node} (hu : Proper u) (hm : ∀ k, get u k = m k)
    (d : Bytes → Bool) (sts : List σ) (hl : Later L st sts) :
    ∃ log, log.map (·.1) = sts ∧ IterLog (groupNextS S fun path _ => .ok (d path)) (groupByS a) log ∧
      GoodLog L (HoldsTree L) ((groupBy u fun path _ => d path).map detached) log := by
  obtain ⟨t, hst⟩ := att_stands h
  have hw := hst.twin hu hm
  rw [← groupBy_twin hw (fun _ _ => rfl), groupBy, groupToList_groups]
  exact group_log (g := long) (descend := fun path _ => .ok (d path)) (d := fun path _ => d path)
    (fun st path r n _ => rpost_ok rfl) sts (iterS_rep hst.2.2.1) hl

end

/-- **C55**. `group_by` with `descend = (path.len() < n)` sorts the entries by the first `n` bytes of their keys: two
entries are in the same group iff the first `n` bytes of their keys are the same. -/
theorem C55_group_by_len {t : Node} (h : Reachable t) (n : Nat) :
    let gs := groupBy t fun path _ => decide (path.length < n)
    gs.flatMap iter = iter t ∧
    (∀ g ∈ gs, ∀ e ∈ iter g, ∀ e' ∈ iter g, e.1.take n = e'.1.take n) ∧
    gs.Pairwise (fun g g' => ∀ e ∈ iter g, ∀ e' ∈ iter g', e.1.take n ≠ e'.1.take n) := by
  have ho := reach_ord h
  refine ⟨C23_group_by _ _, ?_, ?_⟩
  · intro g hg e he e' he'
    rw [groupBy_groups] at hg
    rw [iter_eq] at he he'
    exact byLen_same ho hg e he e' he'
  · rw [groupBy_groups]
    refine (byLen_differ ho []).imp fun hh e he e' he' => ?_
    rw [iter_eq] at he he'
    exact hh e he e' he'

/-- **C55**: no group is empty, unless the tree is. -/
theorem C55_group_by_nonempty_partial {t : Node} (h : Proper t) (ht : iter t ≠ []) (d : Bytes → Node → Bool) :
    ∀ g ∈ groupBy t d, iter g ≠ [] := by
  intro g hg
  rw [groupBy_groups] at hg
  rw [iter_eq] at ht ⊢
  rcases proper_shape h with rfl | hc
  · exact absurd (by decide +kernel) ht
  · exact byLen_nonempty (reach_ord h) hc hg

/-- **C55** is false for the empty tree: it has one group, which is empty. -/
theorem C55_group_by_nonempty_false : Proper Node.empty ∧ (groupBy Node.empty fun _ _ => false).map iter = [[]] :=
  ⟨.empty, by decide +kernel⟩

example : Proper sampleA ∧ iter sampleA ≠ [] ∧
    (groupBy sampleA fun path _ => decide (path.length < 1)).map iter =
      [[([], [9])], [([97], [1]), ([97, 98], [2]), ([97, 98, 99], [3])], [([98], [])]] :=
  ⟨sampleA_proper, by decide +kernel, by decide +kernel⟩

end Radix
