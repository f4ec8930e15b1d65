import Verif.Proofs.Depth
import Verif.Props.StoredInPlace

/-
Property C78: how deep the calls of the API recurse.

The functions of the model that recurse take a bound on the levels of recursion and answer `deep` when it is used up (the
code has no such bound; a call that recurses too deep ends the process, as the stack is finite). The functions model one
call of the code by one level; loops use none.

`Att S L long st a m` (Verif/Stored/History.lean): the tree `a`, attached to the store `S` in state `st`, was made by calls of
the API and stands for the map `m`; this includes trees that are not attached, with the store `detachedStore`.
-/

set_option linter.unusedVariables false

namespace Radix
open Node

section
variable {σ τ ε : Type}

/-- The read recurses at most `N` levels deep: with this bound it is not cut off, and a larger bound changes nothing. -/
def Levels {α : Type} (N : Nat) (x : Nat → Res ε α) : Prop := ∃ r, r ≠ .deep ∧ ∀ fuel, N ≤ fuel → x fuel = r

/-- The update recurses at most `N` levels deep. -/
def LevelsU (N : Nat) (x : Nat → Res ε Unit × SNode) : Prop := ∃ r, r.1 ≠ .deep ∧ ∀ fuel, N ≤ fuel → x fuel = r

/-- All keys of the map have at most `K` bytes. -/
def KeysUpTo (K : Nat) (m : Spec.Map) : Prop := ∀ k v, m k = some v → k.length ≤ K

theorem levels_of {α : Type} {x : Nat → Res ε α} (hm : ∀ n, LeR (x n) (x (n + 1))) {N : Nat} (h : x N ≠ .deep) : Levels N x :=
  ⟨x N, h, fun fuel hf => ((leR_le hm hf).resolve_left h).symm⟩

theorem levelsU_of {x : Nat → Res ε Unit × SNode} (hm : ∀ n, LeP (x n) (x (n + 1))) {N : Nat} (h : (x N).1 ≠ .deep) : LevelsU N x :=
  ⟨x N, h, fun fuel hf => ((leP_le hm hf).resolve_left h).symm⟩

theorem rpost_deep {σ : Type} {S : BlobStore σ ε} {L : Lawful S} {st : σ} {α : Type} {x : Res ε α} {Q : α → Prop}
    (h : RPost L st x Q) : x ≠ .deep := by rintro rfl; exact h

theorem rp_deep {E P : Prop} {α : Type} {x : Res ε α} {Q : α → Prop} (h : RP E P x Q) : x ≠ .deep := by rintro rfl; exact h

theorem up_deep {E P : Prop} {x : Res ε Unit × SNode} {Q : Unit → SNode → Prop} (h : UP E P x Q) : x.1 ≠ .deep := rp_deep h

variable {S : BlobStore σ ε} {T : BlobStore τ ε} {L : Lawful S} {M : Lawful T} {long long' : Bool} {st : σ} {st' : τ}
  {a b : SNode} {m m' : Spec.Map} {K K' : Nat}

theorem stands_height {g : Bool} {t : Node} (h : Stands L g st a m t) (hK : KeysUpTo K m) : t.height ≤ K + 1 :=
  height_le_keys h.1 h.2.1 fun k v e => hK k v (by rw [← h.2.2.2]; exact e)

/-! ### Reads -/

/-- **C78**, `try_get`, `try_contains_key`, `try_has_prefix`, `try_filter_prefix` and `try_scan_prefix` recurse at most as many
levels deep as the searched key has bytes, plus one, whatever is in the tree. -/
theorem C78_lookup (h : Att S L long st a m) (k : Bytes) :
    Levels (k.length + 1) (fun fuel => getS S fuel st a k) ∧
    Levels (k.length + 1) (fun fuel => containsKeyS S fuel st a k) ∧
    Levels (k.length + 1) (fun fuel => hasPrefixS S fuel st a k) ∧
    (∀ s, Levels (k.length + 1) (fun fuel => filterPrefixS S fuel st a k s)) ∧
    Levels (k.length + 1) (fun fuel => scanPrefixS S fuel st a k) := by
  obtain ⟨t, ho, hs, hr, hd⟩ := att_stands h
  have he : Enough t k (k.length + 1) := Or.inr (Or.inl (Nat.le_refl _))
  exact ⟨levels_of (fun n => getS_fuel a k n) (rpost_deep (getS_repH ho hr k he)),
    levels_of (fun n => containsKeyS_fuel a k n) (rpost_deep (containsKeyS_repH ho hr k he)),
    levels_of (fun n => hasPrefixS_fuel a k n) (rpost_deep (hasPrefixS_repH ho hr k he)),
    fun s => levels_of (fun n => filterPrefixS_fuel a k s n) (rpost_deep (filterPrefixS_repH ho hr k s he)),
    levels_of (fun n => scanPrefixS_fuel a k n) (rpost_deep (scanPrefixS_repH ho hr k he))⟩

/-- **C78**, `try_first_value`, `try_last_value`, `try_first_entry`, `try_last_entry` and `try_detached` recurse at most as many
levels deep as the longest key has bytes, plus one, however many entries there are. -/
theorem C78_whole (h : Att S L long st a m) (hK : KeysUpTo K m) (p : Bytes) :
    Levels (K + 1) (fun fuel => firstValueS S st fuel (.owned a)) ∧
    Levels (K + 1) (fun fuel => lastValueS S st fuel (.owned a)) ∧
    Levels (K + 1) (fun fuel => firstEntryS S st fuel p (.owned a)) ∧
    Levels (K + 1) (fun fuel => lastEntryS S st fuel p (.owned a)) ∧
    Levels (K + 1) (fun fuel => detachedS S st fuel a) := by
  obtain ⟨t, hst⟩ := att_stands h
  have hh := stands_height hst hK
  have hr := hst.2.2.1
  exact ⟨levels_of (fun n => firstValueS_fuel n _) (rpost_deep (firstValueS_repH (r := .owned a) hr hh)),
    levels_of (fun n => lastValueS_fuel n _) (rpost_deep (lastValueS_repH (r := .owned a) hr hh)),
    levels_of (fun n => firstEntryS_fuel n p _) (rpost_deep (firstEntryS_repH (r := .owned a) hr hh)),
    levels_of (fun n => lastEntryS_fuel n p _) (rpost_deep (lastEntryS_repH (r := .owned a) hr hh)),
    levels_of (fun n => (detachedS_fuel n).1 a) (rpost_deep (detachedS_repH.1 hr hh))⟩

/-! ### Saving and dropping -/

mutual
/-- Number of levels of nodes in memory. `TreeNode::serialize` (src/node/mod.rs 770-806) and `Drop for TreeNode`
(src/node/mod.rs 1119-1125) call themselves for each child in memory, and for nothing else. -/
def SNode.levels : SNode → Nat
  | .arc _ _ l => 1 + SNode.levelsL l
  | .ref _ _ _ => 1
/-- The same for a list of nodes. -/
def SNode.levelsL : List SNode → Nat
  | [] => 0
  | a :: l => max a.levels (SNode.levelsL l)
end

mutual
theorem rep_levels {g : Bool} : ∀ {a : SNode} {n : Node}, Rep L g st a n → a.levels ≤ n.height
  | .ref p v i, n, _ => by rw [SNode.levels]; exact height_pos n
  | .arc p v l, .mk p' v' c, h => by
    have hc := (rep_iff.1 h).2.2
    rw [SNode.levels, height]
    cases c with
    | none => simp [RepC, SNode.children] at hc
    | some ks =>
      simp only [RepC, Node.ch] at hc
      rcases hc with ⟨as, e, hl⟩ | ⟨rs, i, bs, e, _⟩
      · cases e
        have := repL_levels hl
        rw [heightO]; omega
      · cases e
theorem repL_levels {g : Bool} : ∀ {l : List SNode} {ks : List Node}, RepL L g st l ks → SNode.levelsL l ≤ heightL ks
  | [], ks, _ => by simp [SNode.levelsL]
  | a :: l, [], h => by cases (repL_nil.1 h)
  | a :: l, n :: ks, h => by
    obtain ⟨a', l', e, h1, h2⟩ := repL_cons.1 h
    cases e
    have := rep_levels h1
    have := repL_levels h2
    rw [SNode.levelsL, heightL]; omega
end

/-- **C78**, `try_attached`, `try_reattach` and dropping a tree: the nodes in memory, each of which is one level of recursion, are at
most as many levels deep as the longest key has bytes, plus one. -/
theorem C78_in_memory (h : Att S L long st a m) (hK : KeysUpTo K m) : a.levels ≤ K + 1 := by
  obtain ⟨t, hst⟩ := att_stands h
  exact Nat.le_trans (rep_levels hst.2.2.1) (stands_height hst hK)

/-! ### Updates -/

/-- **C78**, `try_insert`: at most two levels more than the longest key of the tree has bytes, also when the new key is
longer. -/
theorem C78_insert (h : Att S L long st a m) (hK : KeysUpTo K m) (dbg : Bool) (ab) (k v : Bytes) :
    LevelsU (K + 2) (fun fuel => insertS S st dbg ab fuel a k v) := by
  obtain ⟨t, hst⟩ := att_stands h
  have hh := stands_height hst hK
  exact levelsU_of (fun n => outerCombineWithS_fuel _ _ n _ _)
    (up_deep (insertS_repH hst.2.2.1 (Or.inr ⟨hst.1, hst.2.1⟩) dbg ab (by omega) k v))

/-- **C78**, `try_remove` and `try_remove_prefix`, likewise, on trees without long keys in the store. -/
theorem C78_remove (h : Att S L false st a m) (hK : KeysUpTo K m) (dbg : Bool) (ab) (k : Bytes) :
    LevelsU (K + 2) (fun fuel => removeS S st dbg ab fuel a k) ∧ LevelsU (K + 2) (fun fuel => removePrefixS S st dbg ab fuel a k) := by
  obtain ⟨t, hst⟩ := att_stands h
  have hh := stands_height hst hK
  exact ⟨levelsU_of (fun n => leftCombineWithS_fuel _ n _ _)
      (up_deep (removeS_repH hst.2.2.1 hst.2.1 dbg ab (by omega) k)),
    levelsU_of (fun n => removePrefixWithS_fuel _ n _ _)
      (up_deep (removePrefixS_repH hst.2.2.1 hst.2.1 dbg ab (by omega) k))⟩

/-! ### Combinations in place -/

section
variable {f : BlobV → BlobV → Res ε BlobV} {ff : Bytes → Bytes → Option Bytes} {p : BlobV → Res ε Bool} {pp : Bytes → Bool}

/-- **C78**, `outer_combine_with`, the other tree not attached. -/
theorem C78_outer_detached {M : Lawful (detachedStore ε)} (ha : Att S L false st a m)
    (hb : Att (detachedStore ε) M long () b m') (hK : KeysUpTo K m) (hK' : KeysUpTo K' m') (dbg : Bool) (ab)
    (hf : Computes L st M () f fun x y w => w = ff x y) :
    LevelsU (K + K' + 2)
      (fun fuel => outerCombineWithS ⟨S, st, detachedStore ε, (), dbg, ab⟩ (.downcast ε) f fuel a (.owned b)) := by
  obtain ⟨t, ht⟩ := att_stands ha
  obtain ⟨u, hu⟩ := att_stands hb
  have h1 := stands_height ht hK
  have h2 := stands_height hu hK'
  exact levelsU_of (fun n => outerCombineWithS_fuel _ _ n _ _)
    (up_deep (outerCombineWithS_repH (e := ⟨S, st, detachedStore ε, (), dbg, ab⟩) (uok_ends dbg ab (Or.inr (plain_detached M ())))
      (conv_downcast L (M := M) st false long _ _ dbg ab u.height) (fok_ends dbg ab hf id) (Or.inl rfl) _ a (.owned b) t u
      (by omega) (Nat.le_refl _) (Or.inl rfl) ht.2.2.1 ⟨hu.2.2.1, Or.inr ⟨_, rfl⟩⟩))

/-- **C78**, `outer_combine_with`, the other tree attached to the same store. -/
theorem C78_outer_attached (ha : Att S L false st a m) (hb : Att S L false st b m') (hK : KeysUpTo K m) (hK' : KeysUpTo K' m')
    (dbg : Bool) (ab) (hf : Computes L st L st f fun x y w => w = ff x y) :
    LevelsU (K + K' + 2) (fun fuel => outerCombineWithS ⟨S, st, S, st, dbg, ab⟩ (.identity S st) f fuel a (.owned b)) := by
  obtain ⟨t, ht⟩ := att_stands ha
  obtain ⟨u, hu⟩ := att_stands hb
  have h1 := stands_height ht hK
  have h2 := stands_height hu hK'
  exact levelsU_of (fun n => outerCombineWithS_fuel _ _ n _ _)
    (up_deep (outerCombineWithS_repH (e := ⟨S, st, S, st, dbg, ab⟩) (uok_ends dbg ab (Or.inl trivial))
      (conv_identity st false dbg ab u.height Or.inl) (fok_ends dbg ab hf fun _ => trivial) (Or.inl rfl) _ a (.owned b) t u
      (by omega) (Nat.le_refl _) (Or.inl rfl) ht.2.2.1 ⟨hu.2.2.1, Or.inl trivial⟩))

/-- **C78**, `outer_combine_with`, the target not attached and the other tree attached: the bound holds for the levels of the
combination, and for the levels that detaching a part of the other tree puts on top of them. -/
theorem C78_outer_detach {L : Lawful (detachedStore ε)} (ha : Att (detachedStore ε) L false () a m)
    (hb : Att T M long st' b m') (hK : KeysUpTo K m) (hK' : KeysUpTo K' m') (dbg : Bool) (ab)
    (hf : Computes L () M st' f fun x y w => w = ff x y) :
    LevelsU (K + K' + 2)
      (fun fuel => outerCombineWithS ⟨detachedStore ε, (), T, st', dbg, ab⟩ (.detach T st' fuel) f fuel a (.owned b)) := by
  obtain ⟨t, ht⟩ := att_stands ha
  obtain ⟨u, hu⟩ := att_stands hb
  have h1 := stands_height ht hK
  have h2 := stands_height hu hK'
  exact levelsU_of (N := K + K' + 2) (fun n => outerDetach_fuel _ _ _ _ _ n)
    (up_deep (outerCombineWithS_repH (e := ⟨detachedStore ε, (), T, st', dbg, ab⟩) (uok_ends dbg ab (Or.inl trivial))
      (conv_detach L st' long dbg ab (B := u.height) (by omega) fun h => Or.inr (Or.inl h)) (fok_ends dbg ab hf fun _ => trivial)
      (Or.inl rfl) _ a (.owned b) t u (by omega) (Nat.le_refl _) (Or.inl rfl) ht.2.2.1 ⟨hu.2.2.1, Or.inl trivial⟩))

/-- **C78**, `inner_combine_with` and `left_combine_with`. -/
theorem C78_inner_left (ha : Att S L false st a m) (hb : Att T M long st' b m') (hK : KeysUpTo K m) (hK' : KeysUpTo K' m')
    (dbg : Bool) (ab) (hf : Computes L st M st' f fun x y w => w = ff x y) :
    LevelsU (K + K' + 2) (fun fuel => innerCombineWithS ⟨S, st, T, st', dbg, ab⟩ f fuel a (.owned b)) ∧
    LevelsU (K + K' + 2) (fun fuel => leftCombineWithS ⟨S, st, T, st', dbg, ab⟩ f fuel a (.owned b)) := by
  obtain ⟨t, ht⟩ := att_stands ha
  obtain ⟨u, hu⟩ := att_stands hb
  have h1 := stands_height ht hK
  have h2 := stands_height hu hK'
  exact ⟨levelsU_of (fun n => innerCombineWithS_fuel _ n _ _)
      (up_deep (innerCombineWithS_repH (e := ⟨S, st, T, st', dbg, ab⟩) (uok_ends dbg ab (Or.inl trivial))
        (fok_ends dbg ab hf fun _ => trivial) _ a (.owned b) t u (by omega) ht.2.2.1 ⟨hu.2.2.1, Or.inl trivial⟩)),
    levelsU_of (fun n => leftCombineWithS_fuel _ n _ _)
      (up_deep (leftCombineWithS_repH (e := ⟨S, st, T, st', dbg, ab⟩) (uok_ends dbg ab (Or.inl trivial)) (fun _ => Or.inl trivial)
        (fok_ends dbg ab hf fun _ => trivial) _ a (.owned b) t u (by omega) (Or.inl ht.2.1) ht.2.2.1 ⟨hu.2.2.1, Or.inl trivial⟩))⟩

/-- **C78**, `remove_prefix_with` and `retain_prefix_with`. -/
theorem C78_prefix_with (ha : Att S L false st a m) (hb : Att T M long st' b m') (hK : KeysUpTo K m) (hK' : KeysUpTo K' m')
    (dbg : Bool) (ab) (hf : Decides M st' p pp) :
    LevelsU (K + K' + 2) (fun fuel => removePrefixWithS ⟨S, st, T, st', dbg, ab⟩ p fuel a (.owned b)) ∧
    LevelsU (K + K' + 2) (fun fuel => retainPrefixWithS ⟨S, st, T, st', dbg, ab⟩ p fuel a (.owned b)) := by
  obtain ⟨t, ht⟩ := att_stands ha
  obtain ⟨u, hu⟩ := att_stands hb
  have h1 := stands_height ht hK
  have h2 := stands_height hu hK'
  exact ⟨levelsU_of (fun n => removePrefixWithS_fuel _ n _ _)
      (up_deep (removePrefixWithS_repH (e := ⟨S, st, T, st', dbg, ab⟩) (uok_ends dbg ab (Or.inl trivial)) (fun _ => Or.inl trivial)
        (pred_ends dbg ab hf fun _ => trivial) _ a (.owned b) t u (by omega) (Or.inl ht.2.1) ht.2.2.1 ⟨hu.2.2.1, Or.inl trivial⟩)),
    levelsU_of (fun n => retainPrefixWithS_fuel _ n _ _)
      (up_deep (retainPrefixWithS_repH (e := ⟨S, st, T, st', dbg, ab⟩) (uok_ends dbg ab (Or.inl trivial)) (fun _ => Or.inl trivial)
        (pred_ends dbg ab hf fun _ => trivial) _ a (.owned b) t u (by omega) (Or.inl ht.2.1) ht.2.2.1 ⟨hu.2.2.1, Or.inl trivial⟩))⟩

end

/-! ### Combinations that make a new tree, and tests -/

/-- **C78**, `try_outer_combine`, `try_inner_combine` and `try_left_combine`, with a function that loads both values. -/
theorem C78_combine (ha : Operand S L long st a m) (hb : Operand T M long' st' b m') (hK : KeysUpTo K m) (hK' : KeysUpTo K' m')
    (f : Bytes → Bytes → Option Bytes) :
    Levels (K + K' + 2) (fun fuel => outerCombineS S st T st' (loadF S st T st' f) fuel (.owned a) (.owned b)) ∧
    Levels (K + K' + 2) (fun fuel => innerCombineS S st T st' (loadF S st T st' f) fuel (.owned a) (.owned b)) ∧
    Levels (K + K' + 2) (fun fuel => leftCombineS S st T st' (loadF S st T st' f) fuel (.owned a) (.owned b)) := by
  obtain ⟨t, ht⟩ := operand_stands ha
  obtain ⟨u, hu⟩ := operand_stands hb
  have h1 := stands_height ht hK
  have h2 := stands_height hu hK'
  exact ⟨levels_of (fun n => outerCombineS_fuel _ n _ _) (rp_deep (outerCombineS_repH sideL sideM (cfok_load f) _ _ _ t u
      (by omega) (refS_owned ht.2.2.1) (refS_owned hu.2.2.1))),
    levels_of (fun n => innerCombineS_fuel _ n _ _) (rp_deep (innerCombineS_repH sideL sideM (cfok_load f) _ _ _ t u
      (by omega) (refS_owned ht.2.2.1) (refS_owned hu.2.2.1))),
    levels_of (fun n => leftCombineS_fuel _ n _ _) (rp_deep (leftCombineS_repH sideL sideM (cfok_load f) _ _ _ t u
      (by omega) (refS_owned ht.2.2.1) (refS_owned hu.2.2.1)))⟩

/-- **C78**, `try_inner_combine_pred` and `try_left_combine_pred`. -/
theorem C78_combine_pred (ha : Operand S L long st a m) (hb : Operand T M long' st' b m') (hK : KeysUpTo K m)
    (hK' : KeysUpTo K' m') (f : Bytes → Bytes → Bool) :
    Levels (K + K' + 2) (fun fuel => innerCombinePredS S st T st' (loadF S st T st' f) fuel (.owned a) (.owned b)) ∧
    Levels (K + K' + 2) (fun fuel => leftCombinePredS S st T st' (loadF S st T st' f) fuel (.owned a) (.owned b)) := by
  obtain ⟨t, ht⟩ := operand_stands ha
  obtain ⟨u, hu⟩ := operand_stands hb
  have h1 := stands_height ht hK
  have h2 := stands_height hu hK'
  exact ⟨levels_of (fun n => innerCombinePredS_fuel _ n _ _) (rp_deep (innerCombinePredS_repH sideL sideM (cfok_load f) _ _ _ t u
      (by omega) (refS_owned ht.2.2.1) (refS_owned hu.2.2.1))),
    levels_of (fun n => leftCombinePredS_fuel _ n _ _) (rp_deep (leftCombinePredS_repH sideL sideM (cfok_load f) _ _ _ t u
      (by omega) (refS_owned ht.2.2.1) (refS_owned hu.2.2.1)))⟩

end

/-! ### The bound for lookups is reached -/

/-- The tree with the `n + 1` keys of at most `n` bytes 0, built by prepending a byte 0 to all keys and adding the empty key. -/
def zeros : Nat → Node
  | 0 => insert Node.empty [] [1]
  | n + 1 => insert (filterPrefix (zeros n) [] [0]) [] [1]

/-- What `zeros` looks like: a node below each other one. -/
def spine : Nat → Bytes → Node
  | 0, p => mk p (some [1]) (some [])
  | n + 1, p => mk p (some [1]) (some [spine n [0]])

theorem commonPrefix_append : ∀ p q : Bytes, commonPrefix p (p ++ q) = p.length
  | [], q => commonPrefix_nil_left q
  | x :: p, q => by rw [List.cons_append, commonPrefix_cons, commonPrefix_append p q]; simp

theorem spine_pfx (n : Nat) (p : Bytes) : (spine n p).pfx = p := by cases n <;> rfl

theorem zeros_eq : ∀ n, zeros n = spine n []
  | 0 => by
    rw [zeros, insert, outerCombineWith]
    simp [Node.empty, single, outerChildrenWith_eq, outerRes, commonPrefix_nil_left, canonicalize, mergeOnlyChild, childCount, kids,
      loadChildren, spine]
  | n + 1 => by
    have e : filterPrefix (spine n []) [] [0] = spine n [0] := by
      unfold filterPrefix
      rw [find.eq_def]
      simp only [spine_pfx, commonPrefix_nil_left, List.length_nil, Nat.sub_self, and_self, if_true]
      cases n <;> rfl
    have hs : spine (n + 1) [] = mk [] (some [1]) (some [mk [0] (spine n [0]).val (spine n [0]).ch]) := by cases n <;> rfl
    rw [zeros, zeros_eq n, e, insert, outerCombineWith, hs]
    simp [spine_pfx, single, outerChildrenWith_eq, outerRes, commonPrefix_nil_right, canonicalize, mergeOnlyChild, childCount, kids,
      loadChildren, split]

theorem spine_keys : ∀ (n : Nat) (p k v : Bytes), den (spine n p) k = some v → k.length ≤ n + p.length
  | 0, p, k, v, h => by
    rw [den_eq, spine_pfx] at h
    cases hs : strip p k with
    | none => rw [hs] at h; cases h
    | some r =>
      have := strip_eq_some.1 hs
      rw [hs] at h
      cases r with
      | nil => simp [this]
      | cons x xs => cases h
  | n + 1, p, k, v, h => by
    rw [den_eq, spine_pfx] at h
    cases hs : strip p k with
    | none => rw [hs] at h; cases h
    | some r =>
      have := strip_eq_some.1 hs
      rw [hs] at h
      cases r with
      | nil => simp [this]
      | cons x xs =>
        have h : denK [spine n [0]] (x :: xs) = some v := h
        rw [denK_cons_eq] at h
        cases hc : childAt [spine n [0]] x with
        | none => rw [hc] at h; cases h
        | some c =>
          rw [hc] at h
          have hm := (childAt_mem hc).1
          simp only [List.mem_singleton] at hm
          subst hm
          have := spine_keys n [0] (x :: xs) v h
          simp_all
          omega

theorem spine_ord : ∀ (n : Nat) (p : Bytes), Ord (spine n p)
  | 0, p => by rw [spine, Ord, OrdO, OrdK]; trivial
  | n + 1, p => by
    rw [spine, Ord, OrdO, OrdK, OrdK]
    exact ⟨by rw [spine_pfx]; simp, spine_ord n [0], by simp, trivial⟩

theorem spine_den : ∀ (n : Nat) (p : Bytes), den (spine n p) (p ++ List.replicate n 0) = some [1]
  | 0, p => by
    have : strip p (p ++ List.replicate 0 0) = some [] := strip_eq_some.2 rfl
    rw [den_eq, spine_pfx, this]; rfl
  | n + 1, p => by
    have := den_kid (spine_ord (n + 1) p) (c := spine n [0]) (by simp [spine]) (spine_den n [0])
    rw [spine_pfx] at this
    exact this

theorem zeros_get (n : Nat) : get (zeros n) (List.replicate n 0) = some [1] := by
  rw [zeros_eq, get_eq_den _ _ (spine_ord n [])]
  exact spine_den n []

theorem zeros_proper : ∀ n, Proper (zeros n)
  | 0 => .insert [] [1] .empty
  | n + 1 => .insert [] [1] (.filterPrefix [] [0] (zeros_proper n) fun _ => Or.inr (Or.inr ⟨_, _, zeros_get n⟩))

theorem spine_deep {ε : Type} : ∀ (fuel n : Nat) (p : Bytes), fuel ≤ n →
    findS (detachedStore ε) () fuel (.owned (embed (spine n p))) (p ++ List.replicate n 0) = .deep
  | 0, n, p, _ => rfl
  | fuel + 1, n + 1, p, h => by
    have ih := spine_deep (ε := ε) fuel n [0] (by omega)
    have hc : commonPrefix p (p ++ 0 :: List.replicate n 0) = p.length := commonPrefix_append p _
    have hf : findOwned [embed (spine n [0])] 0 = some (embed (spine n [0])) := by
      cases n <;> simp [findOwned, spine, embed, embedL, bsearchS, SNode.pfx, BlobV.firstByte, BlobV.slice]
    simp only [findS, spine, embed, embedL, Ref.pfx, SNode.pfx, loadPrefix, Res.bind, hc, Ref.loadChildren, SNode.loadChildren,
      SNode.children, iterFromSlice, List.drop_left, List.replicate_succ, TIter.find]
    simp [hf]
    exact ih

/-- **C78**, the bound for lookups cannot be improved: for every `n` the API makes a tree, with `n + 1` keys of at most `n` bytes,
in which the lookup of the longest key is more than `n` levels deep. -/
theorem C78_tight (n : Nat) : ∃ t, Proper t ∧ KeysUpTo n (get t) ∧ get t (List.replicate n 0) = some [1] ∧
    ∀ {ε : Type}, getS (detachedStore ε) n () (embed t) (List.replicate n 0) = .deep := by
  refine ⟨zeros n, zeros_proper n, fun k v h => ?_, zeros_get n, ?_⟩
  · rw [get_eq_den _ _ (reach_ord (zeros_proper n)), zeros_eq] at h
    exact spine_keys n [] k v h
  · intro ε
    have := spine_deep (ε := ε) n n [] (Nat.le_refl _)
    rw [zeros_eq, getS, show List.replicate n (0 : UInt8) = [] ++ List.replicate n 0 from rfl, this]
    rfl

/-! ### Concrete cases -/

/-- The condition on the keys, checked on the list of entries. -/
theorem keys_of_iter {t : Node} (h : Proper t) {K : Nat} (hs : ((iter t).all fun e => decide (e.1.length ≤ K)) = true) :
    KeysUpTo K (get t) := by
  intro k v hk
  have := List.all_eq_true.1 hs _ ((mem_iter (reach_ord h) k v).2 hk)
  simpa using this

/-- C78 applies to a tree that was saved to a store in memory and to one that was not: uniting them recurses at most six levels
deep, and looking up a key of two bytes afterwards at most three. -/
example : KeysUpTo 2 (get joinA) ∧ KeysUpTo 2 (get joinB) ∧ LevelsU 6 (joinInto joinA joinB) ∧
    Levels 3 (fun fuel => getS memStore fuel (memState joinA) (memTree joinA) [1, 2]) ∧
    LevelsU 4 (fun fuel => insertS memStore (memState joinA) true (fun a _ => a) fuel (memTree joinA) [1, 2, 3, 4, 5, 6, 7] [9]) := by
  have ha := memTree_short (t := joinA) (.fromIter _) (by decide +kernel) (by decide +kernel)
  have k1 : KeysUpTo 2 (get joinA) := keys_of_iter (.fromIter _) (by decide +kernel)
  have k2 : KeysUpTo 2 (get joinB) := keys_of_iter (.fromIter _) (by decide +kernel)
  exact ⟨k1, k2, C78_outer_detached (M := lawfulDetached Unit) (long := false) ha (.plain () (.fromIter _)) k1 k2 true
    (fun a _ => a) (joinF_computes _ _), (C78_lookup ha [1, 2]).1, C78_insert ha k1 true (fun a _ => a) _ _⟩

/-- And with too small a bound these calls are cut off. -/
example : (joinInto joinA joinB 1).1 = .deep ∧
    getS memStore 1 (memState joinA) (memTree joinA) [1, 2] = .deep := by decide +kernel

end Radix
