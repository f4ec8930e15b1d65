import Verif.Tree.Api
import Verif.Proofs.Pred
import Verif.Proofs.Prefix
import Verif.Proofs.Unique

/-
Proof-internal: invariants of reachable trees; API calls on the denotation.
-/

set_option linter.unusedVariables false

namespace Radix
open Node

theorem den_leaf (v k : Bytes) : den (leaf v) k = if k = [] then some v else none := den_single [] v k

theorem shape_single (k v : Bytes) : Shape (single k v) := by
  right; rw [cmp_iff]; simp [single]

theorem insert_good (t : Node) (k v : Bytes) (ho : Ord t) :
    Good (Fn3 (Spec.outer fun _ r => some r)) t (single k v) (insert t k v) :=
  outerCombineWith_good _ _ t _ ho (ord_single k v)

theorem insert_den {t : Node} (ho : Ord t) (k v k' : Bytes) :
    den (insert t k v) k' = if k' = k then some v else den t k' := by
  have := (insert_good t k v ho).den k'
  unfold Fn3 at this
  rw [this, den_single]
  split <;> cases den t k' <;> rfl

theorem remove_good (t : Node) (k : Bytes) (ho : Ord t) :
    Good (Fn3 (Spec.left fun _ _ => none)) t (single k []) (remove t k) :=
  leftCombineWith_good _ t _ ho (ord_single k [])

theorem remove_den {t : Node} (ho : Ord t) (k k' : Bytes) :
    den (remove t k) k' = if k' = k then none else den t k' := by
  have := (remove_good t k ho).den k'
  unfold Fn3 at this
  rw [this, den_single]
  split <;> cases den t k' <;> rfl

theorem cov_single (k v k' : Bytes) (f : Bytes → Bool) (hf : f v = true) :
    Cov f (den (single k v)) k' ↔ k <+: k' := by
  constructor
  · rintro ⟨q, w, h1, h2, h3⟩
    rw [den_single] at h2
    split at h2
    · subst q; exact h1
    · cases h2
  · intro h; exact ⟨k, v, h, by rw [den_single, if_pos rfl], hf⟩

theorem removePrefix_good (t : Node) (p : Bytes) (ho : Ord t) :
    Good (RemR (fun _ => true) (den (single p []))) t (single p []) (removePrefix t p) :=
  removePrefixWith_good _ t _ ho (ord_single p [])

theorem removePrefix_den {t : Node} (ho : Ord t) (p k : Bytes) :
    den (removePrefix t p) k = if p <+: k then none else den t k := by
  have := (removePrefix_good t p ho).den k
  unfold RemR at this
  rw [cov_single p [] k _ rfl] at this
  split
  · exact this.1 ‹_›
  · exact this.2 ‹_›

theorem foldl_insert (l : List (Bytes × Bytes)) (t : Node) (ho : Ord t) (hs : Shape t) (m : Spec.Map)
    (hm : ∀ k, den t k = m k) :
    Ord (l.foldl (fun t p => insert t p.1 p.2) t) ∧ Shape (l.foldl (fun t p => insert t p.1 p.2) t) ∧
    ∀ k, den (l.foldl (fun t p => insert t p.1 p.2) t) k =
      (l.foldl (fun m p => Spec.Map.insert m p.1 p.2) m) k := by
  induction l generalizing t m with
  | nil => exact ⟨ho, hs, hm⟩
  | cons p l ih =>
    have g := insert_good t p.1 p.2 ho
    exact ih _ g.ord (g.shape hs (shape_single _ _)) _ fun k => by
      rw [insert_den ho, hm]; rfl

theorem fromIter_spec (l : List (Bytes × Bytes)) :
    Ord (fromIter l) ∧ Shape (fromIter l) ∧ ∀ k, den (fromIter l) k = Spec.Map.ofList l k :=
  foldl_insert l _ ord_empty (Or.inl rfl) _ den_empty

/-! ### Items of group_by -/

/-- All nodes waiting in the frames of an iterator. -/
def Waiting (P : Node → Prop) (st : List Frame) : Prop := ∀ f ∈ st, ∀ l, f.2 = some l → ∀ n ∈ l, P n

theorem waiting_cons {P : Node → Prop} {f : Frame} {st} :
    Waiting P (f :: st) ↔ (∀ l, f.2 = some l → ∀ n ∈ l, P n) ∧ Waiting P st := by
  simp [Waiting]

theorem groupNext0_inv {P : Node → Prop} (hk : ∀ n, P n → ∀ c ∈ n.kids, P c)
    (hp : ∀ n p, P n → P (n.setPrefix p)) (hv : ∀ p v, P (mk p (some v) none)) (d) (s : KVIter)
    (h : Waiting P s.stack) :
    match groupNext0 d s with
    | (none, _) => True
    | (some x, s') => P x ∧ Waiting P s'.stack := by
  have owned : ∀ n : Node, P n → ∀ l, n.loadChildrenOwned = some l → ∀ c ∈ l, P c := by
    intro n hn l hl c hc
    refine hk n hn c ?_
    simp only [loadChildrenOwned] at hl
    simp [kids, hl, hc]
  fun_induction groupNext0 d s with
  | case1 s hs => trivial
  | case2 s plen node rest st hs path hd s1 hval =>
    obtain ⟨v, hv'⟩ := Option.isSome_iff_exists.1 hval
    rw [hs, waiting_cons] at h
    have hn : P node := h.1 _ rfl node (by simp)
    refine ⟨by rw [hv']; exact hv _ _, ?_⟩
    simp only [s1, waiting_cons]
    exact ⟨owned node hn, fun l hl n hm => h.1 _ rfl n (by cases hl; simp [hm]), h.2⟩
  | case3 s plen node rest st hs path hd s1 hval ih =>
    rw [hs, waiting_cons] at h
    have hn : P node := h.1 _ rfl node (by simp)
    refine ih ?_
    simp only [s1, waiting_cons]
    exact ⟨owned node hn, fun l hl n hm => h.1 _ rfl n (by cases hl; simp [hm]), h.2⟩
  | case4 s plen node rest st hs path hd =>
    rw [hs, waiting_cons] at h
    refine ⟨hp _ _ (h.1 _ rfl node (by simp)), ?_⟩
    simp only [waiting_cons]
    exact ⟨fun l hl n hm => h.1 _ rfl n (by cases hl; simp [hm]), h.2⟩
  | case5 s plen st hs ih =>
    rw [hs, waiting_cons] at h
    refine ih ?_
    simp only [waiting_cons]
    exact ⟨fun l hl => (by cases hl), h.2⟩
  | case6 s plen st hs ih =>
    rw [hs, waiting_cons] at h
    exact ih h.2

theorem groupToList_inv {P : Node → Prop} (hk : ∀ n, P n → ∀ c ∈ n.kids, P c)
    (hp : ∀ n p, P n → P (n.setPrefix p)) (hv : ∀ p v, P (mk p (some v) none)) (d) (s : KVIter)
    (h : Waiting P s.stack) : ∀ u ∈ groupToList d s, P u := by
  fun_induction groupToList d s with
  | case1 s _ hs => simp
  | case2 s x s' hs ih =>
    have := groupNext0_inv hk hp hv d s h
    rw [hs] at this
    intro u hu
    rcases List.mem_cons.1 hu with rfl | hu
    · exact this.1
    · exact ih this.2 u hu

theorem groupBy_ord {t : Node} (ho : Ord t) (d) : ∀ u ∈ groupBy t d, Ord u := by
  refine groupToList_inv (P := Ord) (fun n hn c hc => ((ord_iff n).1 hn).mem hc |>.2)
    (fun n p hn => (ord_setPrefix p).2 hn) (fun p v => ord_single p v) d _ ?_
  simp [Waiting, kvIter, ho]

theorem groupBy_cmp {t : Node} (hc : Cmp t) (d) : ∀ u ∈ groupBy t d, Cmp u := by
  refine groupToList_inv (P := Cmp) (fun n hn c hc => ((cmp_iff n).1 hn).2 c hc)
    (fun n p hn => (cmp_setPrefix p).2 hn) (fun p v => by rw [cmp_iff]; simp) d _ ?_
  simp [Waiting, kvIter, hc]

theorem groupNext0_nil (d) (path : Bytes) (plen : Nat) : groupNext0 d ⟨path, [(plen, some [])]⟩ =
    (none, ⟨pathPop path plen, []⟩) := by
  rw [groupNext0.eq_def]; dsimp only
  rw [groupNext0.eq_def]; dsimp only
  rw [groupNext0.eq_def]

theorem groupBy_empty (d) : ∀ u ∈ groupBy Node.empty d, u = Node.empty := by
  intro u hu
  unfold groupBy kvIter at hu
  rw [groupToList] at hu
  have key : groupNext0 d ⟨[], [(0, some [Node.empty])]⟩ = (none, ⟨[], []⟩) ∨
      groupNext0 d ⟨[], [(0, some [Node.empty])]⟩ = (some Node.empty, ⟨[], [(0, some [])]⟩) := by
    rw [groupNext0.eq_def]; dsimp only
    split
    · left
      simp only [Node.empty, val_mk, Option.isSome_none, pfx_mk, loadChildrenOwned, ch_mk,
        List.length_nil, Bool.false_eq_true, if_false]
      rw [groupNext0.eq_def]; dsimp only
      rw [groupNext0_nil]; rfl
    · right; rfl
  rcases key with key | key
  · split at hu
    · simp at hu
    · rename_i x s' h; rw [key] at h; cases h
  · split at hu
    · simp at hu
    · rename_i x s' h; rw [key] at h; cases h
      rcases List.mem_cons.1 hu with rfl | hu
      · rfl
      · rw [groupToList] at hu
        split at hu
        · simp at hu
        · rename_i x s' h; rw [groupNext0_nil] at h; cases h

theorem groupBy_shape {t : Node} (hs : Shape t) (d) : ∀ u ∈ groupBy t d, Shape u := by
  rcases hs with rfl | hc
  · exact fun u hu => Or.inl (groupBy_empty d u hu)
  · exact fun u hu => Or.inr (groupBy_cmp hc d u hu)

/-! ### Reachable trees -/

theorem reach_ord {s : Bool} {t : Node} (h : Reach s t) : Ord t := by
  induction h with
  | empty => exact ord_empty
  | leaf v => exact ord_single [] v
  | single k v => exact ord_single k v
  | fromIter l => exact (fromIter_spec l).1
  | insert k v _ ih => exact (insert_good _ k v ih).ord
  | remove k _ ih => exact (remove_good _ k ih).ord
  | removePrefix p _ ih => exact (removePrefix_good _ p ih).ord
  | filterPrefix p s _ _ ih => exact filterPrefix_ord ih p s
  | outerCombine f _ _ iha ihb => exact (outerCombine_good f _ _ iha ihb).ord
  | innerCombine f _ _ iha ihb => exact (innerCombine_good f _ _ iha ihb).ord
  | leftCombine f _ _ iha ihb => exact (leftCombine_good f _ _ iha ihb).ord
  | outerCombineWith c f _ _ iha ihb => exact (outerCombineWith_good c f _ _ iha ihb).ord
  | innerCombineWith f _ _ iha ihb => exact (innerCombineWith_good f _ _ iha ihb).ord
  | leftCombineWith f _ _ iha ihb => exact (leftCombineWith_good f _ _ iha ihb).ord
  | retainPrefixWith f _ _ iha ihb => exact (retainPrefixWith_good f _ _ iha ihb).ord
  | removePrefixWith f _ _ iha ihb => exact (removePrefixWith_good f _ _ iha ihb).ord
  | groupBy d u _ hu ih => exact groupBy_ord ih d u hu
  | detached _ ih => exact ord_detached _ ih

theorem filterPrefix_shape' {t : Node} (ho : Ord t) (hs : Shape t) (p s : Bytes) (hn : NotDegenerate t p s) :
    Shape (filterPrefix t p s) := by
  rcases hs with rfl | hc
  · left
    have hf : p ≠ [] → filterPrefix Node.empty p s = Node.empty := by
      intro hp
      cases p with
      | nil => exact absurd rfl hp
      | cons x xs =>
        unfold filterPrefix
        rw [find]
        simp [Node.empty, commonPrefix_nil_left, loadChildren]
    rcases hn with rfl | hp | ⟨k, v, hk⟩
    · cases p with
      | nil =>
        unfold filterPrefix
        rw [find]
        simp [Node.empty, commonPrefix_nil_left, setPrefix]
      | cons x xs => exact hf (by simp)
    · exact hf hp
    · rw [get_eq_den _ _ ord_empty, den_empty] at hk; cases hk
  · exact filterPrefix_shape ho hc p s

theorem proper_shape {t : Node} (h : Proper t) : Shape t := by
  have key : ∀ {s : Bool} {t : Node}, Reach s t → s = true → Shape t := by
    intro s t h
    induction h with
    | empty => exact fun _ => Or.inl rfl
    | leaf v => exact fun _ => shape_single [] v
    | single k v => exact fun _ => shape_single k v
    | fromIter l => exact fun _ => (fromIter_spec l).2.1
    | insert k v h ih => exact fun e => (insert_good _ k v (reach_ord h)).shape (ih e) (shape_single _ _)
    | remove k h ih => exact fun e => (remove_good _ k (reach_ord h)).shape (ih e) (shape_single _ _)
    | removePrefix p h ih => exact fun e => (removePrefix_good _ p (reach_ord h)).shape (ih e) (shape_single _ _)
    | filterPrefix p s h hn ih => exact fun e => filterPrefix_shape' (reach_ord h) (ih e) p s (hn e)
    | outerCombine f ha hb iha ihb =>
      exact fun e => (outerCombine_good f _ _ (reach_ord ha) (reach_ord hb)).shape (iha e) (ihb e)
    | innerCombine f ha hb iha ihb =>
      exact fun e => (innerCombine_good f _ _ (reach_ord ha) (reach_ord hb)).shape (iha e) (ihb e)
    | leftCombine f ha hb iha ihb =>
      exact fun e => (leftCombine_good f _ _ (reach_ord ha) (reach_ord hb)).shape (iha e) (ihb e)
    | outerCombineWith c f ha hb iha ihb =>
      exact fun e => (outerCombineWith_good c f _ _ (reach_ord ha) (reach_ord hb)).shape (iha e) (ihb e)
    | innerCombineWith f ha hb iha ihb =>
      exact fun e => (innerCombineWith_good f _ _ (reach_ord ha) (reach_ord hb)).shape (iha e) (ihb e)
    | leftCombineWith f ha hb iha ihb =>
      exact fun e => (leftCombineWith_good f _ _ (reach_ord ha) (reach_ord hb)).shape (iha e) (ihb e)
    | retainPrefixWith f ha hb iha ihb =>
      exact fun e => (retainPrefixWith_good f _ _ (reach_ord ha) (reach_ord hb)).shape (iha e) (ihb e)
    | removePrefixWith f ha hb iha ihb =>
      exact fun e => (removePrefixWith_good f _ _ (reach_ord ha) (reach_ord hb)).shape (iha e) (ihb e)
    | groupBy d u _ hu ih => exact fun e => groupBy_shape (ih e) d u hu
    | detached _ ih => exact fun e => shape_detached (ih e)
  exact key h rfl

theorem Proper.reachable {t : Node} (h : Proper t) : Reachable t := by
  have key : ∀ {s : Bool} {t : Node}, Reach s t → Reach false t := by
    intro s t h
    induction h with
    | empty => exact .empty
    | leaf v => exact .leaf v
    | single k v => exact .single k v
    | fromIter l => exact .fromIter l
    | insert k v h ih => exact .insert k v ih
    | remove k h ih => exact .remove k ih
    | removePrefix p h ih => exact .removePrefix p ih
    | filterPrefix p s h hn ih => exact .filterPrefix p s ih (fun e => by cases e)
    | outerCombine f ha hb iha ihb => exact .outerCombine f iha ihb
    | innerCombine f ha hb iha ihb => exact .innerCombine f iha ihb
    | leftCombine f ha hb iha ihb => exact .leftCombine f iha ihb
    | outerCombineWith c f ha hb iha ihb => exact .outerCombineWith c f iha ihb
    | innerCombineWith f ha hb iha ihb => exact .innerCombineWith f iha ihb
    | leftCombineWith f ha hb iha ihb => exact .leftCombineWith f iha ihb
    | retainPrefixWith f ha hb iha ihb => exact .retainPrefixWith f iha ihb
    | removePrefixWith f ha hb iha ihb => exact .removePrefixWith f iha ihb
    | groupBy d u _ hu ih => exact .groupBy d u ih hu
    | detached _ ih => exact .detached ih
  exact key h

/-! ### Programs -/

theorem strip_filterPrefix (m : Spec.Map) (p s k : Bytes) :
    (match strip s k with | none => none | some r => m (p ++ r)) = m.filterPrefix p s k := by
  unfold Spec.Map.filterPrefix
  cases h : strip s k with
  | none => rw [if_neg (strip_eq_none.1 h)]
  | some r =>
    have := strip_eq_some.1 h; subst this
    rw [if_pos (List.prefix_append _ _), List.drop_left]

theorem retain_den {f} {a b : Node} (ha : Ord a) (hb : Ord b) (hc : Clean f (den b)) (k : Bytes) :
    (Spec.Selected f (den b) k → den (retainPrefixWith f a b) k = den a k) ∧
    (¬ Spec.Selected f (den b) k → den (retainPrefixWith f a b) k = none) := by
  have := (retainPrefixWith_good f a b ha hb).den k
  refine ⟨fun h => this.2 hc h, fun h => ?_⟩
  cases hd : den (retainPrefixWith f a b) k with
  | none => rfl
  | some v => exact absurd (this.1 v hd).2 h

theorem remove_with_den {f} {a b : Node} (ha : Ord a) (hb : Ord b) (k : Bytes) :
    (Spec.Selected f (den b) k → den (removePrefixWith f a b) k = none) ∧
    (¬ Spec.Selected f (den b) k → den (removePrefixWith f a b) k = den a k) :=
  (removePrefixWith_good f a b ha hb).den k

theorem clean_true (m : Bytes → Option Bytes) : Clean (fun _ => true) m := by
  intro q v q' v' _ h; cases h

theorem run_spec (p : Prog) : Reachable p.run ∧ den p.run = p.spec := by
  induction p with
  | default => exact ⟨.empty, funext den_empty⟩
  | leaf v => exact ⟨.leaf v, funext fun k => den_leaf v k⟩
  | single k v => exact ⟨.single k v, funext fun k' => den_single k v k'⟩
  | fromIter l => exact ⟨.fromIter l, funext (fromIter_spec l).2.2⟩
  | insert p k v ih =>
    exact ⟨.insert k v ih.1, funext fun k' => by
      simp only [Prog.run, Prog.spec, Spec.Map.insert]; rw [insert_den (reach_ord ih.1), ih.2]⟩
  | remove p k ih =>
    exact ⟨.remove k ih.1, funext fun k' => by
      simp only [Prog.run, Prog.spec, Spec.Map.erase]; rw [remove_den (reach_ord ih.1), ih.2]⟩
  | removePrefix p pre ih =>
    exact ⟨.removePrefix pre ih.1, funext fun k' => by
      simp only [Prog.run, Prog.spec, Spec.Map.erasePrefix]; rw [removePrefix_den (reach_ord ih.1), ih.2]⟩
  | filterPrefix p pre s ih =>
    exact ⟨.filterPrefix pre s ih.1 (fun e => by cases e), funext fun k' => by
      simp only [Prog.run, Prog.spec]
      rw [filterPrefix_den (reach_ord ih.1), ih.2]; exact strip_filterPrefix _ _ _ _⟩
  | outerCombine f p q ihp ihq =>
    exact ⟨.outerCombine f ihp.1 ihq.1, funext fun k => by
      have := (outerCombine_good f _ _ (reach_ord ihp.1) (reach_ord ihq.1)).den k
      rw [ihp.2, ihq.2] at this; exact this⟩
  | innerCombine f p q ihp ihq =>
    exact ⟨.innerCombine f ihp.1 ihq.1, funext fun k => by
      have := (innerCombine_good f _ _ (reach_ord ihp.1) (reach_ord ihq.1)).den k
      rw [ihp.2, ihq.2] at this; exact this⟩
  | leftCombine f p q ihp ihq =>
    exact ⟨.leftCombine f ihp.1 ihq.1, funext fun k => by
      have := (leftCombine_good f _ _ (reach_ord ihp.1) (reach_ord ihq.1)).den k
      rw [ihp.2, ihq.2] at this; exact this⟩
  | outerCombineWith f p q ihp ihq =>
    exact ⟨.outerCombineWith .detach f ihp.1 ihq.1, funext fun k => by
      have := (outerCombineWith_good .detach f _ _ (reach_ord ihp.1) (reach_ord ihq.1)).den k
      rw [ihp.2, ihq.2] at this; exact this⟩
  | innerCombineWith f p q ihp ihq =>
    exact ⟨.innerCombineWith f ihp.1 ihq.1, funext fun k => by
      have := (innerCombineWith_good f _ _ (reach_ord ihp.1) (reach_ord ihq.1)).den k
      rw [ihp.2, ihq.2] at this; exact this⟩
  | leftCombineWith f p q ihp ihq =>
    exact ⟨.leftCombineWith f ihp.1 ihq.1, funext fun k => by
      have := (leftCombineWith_good f _ _ (reach_ord ihp.1) (reach_ord ihq.1)).den k
      rw [ihp.2, ihq.2] at this; exact this⟩
  | retainPrefixWith p q ihp ihq =>
    exact ⟨.retainPrefixWith _ ihp.1 ihq.1, funext fun k => by
      have := retain_den (f := fun _ => true) (reach_ord ihp.1) (reach_ord ihq.1) (clean_true _) k
      rw [ihp.2, ihq.2] at this
      simp only [Prog.run, Prog.spec, Spec.Map.retainPrefix]
      split
      · exact this.1 ‹_›
      · exact this.2 ‹_›⟩
  | removePrefixWith f p q ihp ihq =>
    exact ⟨.removePrefixWith _ ihp.1 ihq.1, funext fun k => by
      have := remove_with_den (f := f) (reach_ord ihp.1) (reach_ord ihq.1) k
      rw [ihp.2, ihq.2] at this
      simp only [Prog.run, Prog.spec, Spec.Map.removePrefix]
      split
      · exact this.1 ‹_›
      · exact this.2 ‹_›⟩

/-! ### Contents determine the iteration -/

theorem sorted_eq {l m : List (Bytes × Bytes)} (hl : l.Pairwise fun a b => a.1 < b.1)
    (hm : m.Pairwise fun a b => a.1 < b.1) (h : ∀ e, e ∈ l ↔ e ∈ m) : l = m := by
  have irr : ∀ a : Bytes, ¬ a < a := fun a => List.lt_irrefl a
  have asym : ∀ {a b : Bytes}, a < b → ¬ b < a := fun h1 h2 => irr _ (List.lt_trans h1 h2)
  induction l generalizing m with
  | nil =>
    cases m with
    | nil => rfl
    | cons e m => have := (h e).2 (by simp); cases this
  | cons a l ih =>
    cases m with
    | nil => have := (h a).1 (by simp); cases this
    | cons b m =>
      rw [List.pairwise_cons] at hl hm
      have hab : a = b := by
        rcases List.mem_cons.1 ((h a).1 (by simp)) with e | e
        · exact e
        · rcases List.mem_cons.1 ((h b).2 (by simp)) with e' | e'
          · exact e'.symm
          · exact absurd (hm.1 a e) (asym (hl.1 b e'))
      subst hab
      rw [ih hl.2 hm.2 fun e => ?_]
      constructor
      · intro he
        rcases List.mem_cons.1 ((h e).1 (by simp [he])) with rfl | h'
        · exact absurd (hl.1 _ he) (irr _)
        · exact h'
      · intro he
        rcases List.mem_cons.1 ((h e).2 (by simp [he])) with rfl | h'
        · exact absurd (hm.1 _ he) (irr _)
        · exact h'

theorem mem_iter {t : Node} (ho : Ord t) (k v : Bytes) : (k, v) ∈ iter t ↔ get t k = some v := by
  rw [iter_eq, mem_ents ho, get_eq_den t k ho]
  constructor
  · rintro ⟨r, rfl, h⟩; simpa using h
  · exact fun h => ⟨k, by simp, h⟩

theorem iter_sorted {t : Node} (ho : Ord t) : (iter t).Pairwise fun a b => a.1 < b.1 := by
  rw [iter_eq]; exact ents_sorted ho []

theorem iter_ext {t u : Node} (ht : Ord t) (hu : Ord u) (h : ∀ k, get t k = get u k) : iter t = iter u :=
  sorted_eq (iter_sorted ht) (iter_sorted hu) fun ⟨k, v⟩ => by rw [mem_iter ht, mem_iter hu, h]

end Radix
