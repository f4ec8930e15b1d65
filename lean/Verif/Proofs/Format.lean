import Verif.Proofs.Record
import Verif.Proofs.Iter
import Verif.Proofs.Good
import Verif.Proofs.Update
import Verif.Spec.Format

/-
The documented format and the meaning `Rep` of stored nodes say the same; what `serialize` writes for a detached tree follows the documented format exactly.
-/

set_option linter.unusedVariables false

namespace Radix
open Node
open Radix.Spec.Format

/-! ### Documents and nodes -/

mutual
/-- The node that a document describes. -/
def toNode : Doc → Node
  | .node p v l => .mk p v (toKids l)
/-- The children field. -/
def toKids : List Doc → Option (List Node)
  | [] => none
  | d :: l => some (toNode d :: toNodes l)
/-- Element by element. -/
def toNodes : List Doc → List Node
  | [] => []
  | d :: l => toNode d :: toNodes l
end

mutual
/-- The document of a node. -/
def ofNode : Node → Doc
  | .mk p v c => .node p v (ofKids c)
/-- The children. -/
def ofKids : Option (List Node) → List Doc
  | none => []
  | some l => ofNodes l
/-- Element by element. -/
def ofNodes : List Node → List Doc
  | [] => []
  | n :: l => ofNode n :: ofNodes l
end

theorem toNodes_kids : ∀ l, (toKids l).getD [] = toNodes l
  | [] => by simp [toKids, toNodes]
  | d :: l => by simp [toKids, toNodes]

mutual
theorem toNode_ofNode : ∀ n, toNode (ofNode n) = n.detached
  | .mk p v c => by simp only [ofNode, toNode, detached, toKids_ofKids c]
theorem toKids_ofKids : ∀ c, toKids (ofKids c) = detachedO c
  | none => by simp [ofKids, toKids, detachedO]
  | some [] => by simp [ofKids, ofNodes, toKids, detachedO]
  | some (n :: l) => by simp [ofKids, ofNodes, toKids, detachedO, detachedL, toNode_ofNode n, toNodes_ofNodes l]
theorem toNodes_ofNodes : ∀ l, toNodes (ofNodes l) = detachedL l
  | [] => by simp [ofNodes, toNodes, detachedL]
  | n :: l => by simp [ofNodes, toNodes, detachedL, toNode_ofNode n, toNodes_ofNodes l]
end

theorem pfx_toNode (d : Doc) : (toNode d).pfx = d.pfx := by cases d; simp [toNode, Node.pfx, Doc.pfx]
theorem firstByte_toNode (d : Doc) : (toNode d).firstByte = d.first := by
  rw [Doc.first, ← pfx_toNode]; rfl

theorem mem_toNodes {n : Node} : ∀ {l : List Doc}, n ∈ toNodes l ↔ ∃ d ∈ l, n = toNode d
  | [] => by simp [toNodes]
  | d :: l => by simp [toNodes, mem_toNodes (l := l)]

mutual
theorem ents_toNode : ∀ (d : Doc) (pre : Bytes), ents pre (toNode d) = entries pre d
  | .node p v l, pre => by
    rw [ents_eq, toNode]
    have := entsL_toNodes l (pre ++ p)
    cases v <;> simp [entries, Node.val, Node.pfx, kids, Node.ch, toNodes_kids, this]
theorem entsL_toNodes : ∀ (l : List Doc) (pre : Bytes), entsL pre (toNodes l) = entriesL pre l
  | [], pre => by simp [toNodes, entsL, entriesL]
  | d :: l, pre => by simp only [toNodes, entsL, entriesL, ents_toNode d, entsL_toNodes l]
end

mutual
theorem entries_ofNode : ∀ (n : Node) (pre : Bytes), entries pre (ofNode n) = ents pre n
  | .mk p v c, pre => by
    have := entriesL_ofKids c (pre ++ p)
    cases v <;> simp [ents, ofNode, entries, this]
theorem entriesL_ofKids : ∀ (c : Option (List Node)) (pre : Bytes), entriesL pre (ofKids c) = entsO pre c
  | none, pre => by simp [ofKids, entriesL, entsO]
  | some l, pre => by simp only [ofKids, entsO, entriesL_ofNodes l]
theorem entriesL_ofNodes : ∀ (l : List Node) (pre : Bytes), entriesL pre (ofNodes l) = entsL pre l
  | [], pre => by simp [ofNodes, entriesL, entsL]
  | n :: l, pre => by simp only [ofNodes, entriesL, entsL, entries_ofNode n, entriesL_ofNodes l]
end

theorem rank_lt_iff {a b : Option UInt8} (ha : a ≠ none) : rank a < rank b ↔ b ≠ none ∧ ∀ x y, a = some x → b = some y → x < y := by
  cases a <;> cases b <;> simp_all [rank, UInt8.lt_iff_toNat_lt]

theorem pfx_ne_first {d : Doc} : d.pfx ≠ [] ↔ d.first ≠ none := by simp [Doc.first]

mutual
theorem ord_toNode : ∀ d : Doc, Ord (toNode d) ↔ Ordered d
  | .node p v l => by
    rw [ord_iff, toNode, Ordered]
    simp only [kids, Node.ch, toNodes_kids]
    exact ordK_toNodes l
theorem ordK_toNodes : ∀ l : List Doc, OrdK (toNodes l) ↔ OrderedL l
  | [] => by simp [toNodes, OrdK, OrderedL]
  | d :: l => by
    rw [toNodes, OrdK, OrderedL, pfx_toNode, ord_toNode d, ordK_toNodes l]
    constructor
    · rintro ⟨h1, h2, h3, h4⟩
      refine ⟨h1, fun e he => ?_, h2, h4⟩
      have := h3 (toNode e) (mem_toNodes.2 ⟨e, he, rfl⟩)
      rw [firstByte_toNode, firstByte_toNode] at this
      exact ((rank_lt_iff (pfx_ne_first.1 h1)).1 this).2
    · rintro ⟨h1, h3, h2, h4⟩
      refine ⟨h1, h2, fun m hm => ?_, h4⟩
      obtain ⟨e, he, rfl⟩ := mem_toNodes.1 hm
      rw [firstByte_toNode, firstByte_toNode]
      refine (rank_lt_iff (pfx_ne_first.1 h1)).2 ⟨?_, h3 e he⟩
      have h5 := ((ordK_iff _).1 ((ordK_toNodes l).2 h4)).1 _ hm
      rw [pfx_toNode] at h5
      exact pfx_ne_first.1 h5.1
end

theorem length_toNodes : ∀ l, (toNodes l).length = l.length
  | [] => rfl
  | d :: l => by simp [toNodes, length_toNodes l]

mutual
theorem cmp_toNode : ∀ d : Doc, Cmp (toNode d) ↔ Spec.Format.Compact d
  | .node p v l => by
    rw [cmp_iff, toNode, Spec.Format.Compact]
    simp only [Node.val, kids, Node.ch, toNodes_kids, length_toNodes]
    rw [← cmpL_toNodes l]
    cases v <;> simp
theorem cmpL_toNodes : ∀ l : List Doc, (∀ c ∈ toNodes l, Cmp c) ↔ CompactL l
  | [] => by simp [toNodes, CompactL]
  | d :: l => by
    rw [CompactL, ← cmp_toNode d, ← cmpL_toNodes l]
    simp [toNodes]
end

theorem toNode_empty {d : Doc} : toNode d = Node.empty ↔ d = .node [] none [] := by
  cases d with
  | node p v l => cases l <;> simp [toNode, toKids, Node.empty]

theorem valid_toNode {d : Doc} : Ord (toNode d) ∧ Shape (toNode d) ↔ Valid d := by
  rw [Valid, Shape, ord_toNode, cmp_toNode, toNode_empty]

theorem den_mapOf {d : Doc} (h : Ordered d) (k : Bytes) : den (toNode d) k = mapOf d k := by
  have ho := (ord_toNode d).2 h
  have hm := fun v => mem_ents ho [] k v
  rw [mapOf, ← ents_toNode]
  have hs := ents_sorted ho []
  cases hf : (ents [] (toNode d)).find? fun e => decide (e.1 = k) with
  | none =>
    rw [List.find?_eq_none] at hf
    cases hd : den (toNode d) k with
    | none => rfl
    | some v => exact absurd (decide_eq_true rfl) (hf (k, v) ((hm v).2 ⟨k, rfl, hd⟩))
  | some e =>
    have h1 := List.find?_some hf
    have h2 := List.mem_of_find?_eq_some hf
    obtain ⟨k', v⟩ := e
    simp only [decide_eq_true_eq] at h1
    subst h1
    obtain ⟨r, e, h3⟩ := (hm v).1 h2
    simp only [List.nil_append] at e
    subst e
    rw [h3]; rfl

/-! ### Fields -/

theorem literal_enc {d : Bytes} (h : d.length ≤ 127) : literal d = (BlobV.data d).enc := by
  simp only [literal, BlobV.enc, BlobV.hdr, BlobV.slice]
  congr 1
  have key : ∀ n : Fin 128, UInt8.ofNat n.1 = Hdr.data n.1 := by decide +kernel
  exact key ⟨d.length, by omega⟩

theorem reference_enc {d : Bytes} (h : d.length ≤ 127) : reference d = (BlobV.id d).enc := by
  simp only [reference, BlobV.enc, BlobV.hdr, BlobV.slice]
  congr 1
  have key : ∀ n : Fin 128, UInt8.ofNat (128 + n.1) = UInt8.ofNat n.1 ||| 0x80 := by decide +kernel
  exact key ⟨d.length, by omega⟩

section
variable {σ ε : Type} {S : BlobStore σ ε} {L : Lawful S}

theorem isPrefix_rep {R : Rules} {st : σ} {p f : Bytes} (h : IsPrefix R (L.Has st) p f) :
    ∃ b : BlobV, f = b.enc ∧ b.Fits ∧ PfxRep L R.prefixIds st b p := by
  rcases h with ⟨h1, rfl⟩ | ⟨h1, -, c, i, h2, h3, h4, rfl⟩
  · exact ⟨.data p, literal_enc h1, by simp [BlobV.Fits, BlobV.slice]; omega, Or.inl rfl⟩
  · exact ⟨.id (c :: i), reference_enc (by simp; omega), by simp [BlobV.Fits, BlobV.slice]; omega,
      Or.inr ⟨h1, c, i, rfl, by omega, h2, h4⟩⟩

theorem rep_isPrefix {g : Bool} {st : σ} {p : Bytes} {b : BlobV} (hf : b.Fits) (h : PfxRep L g st b p) :
    IsPrefix ⟨g, false⟩ (L.Has st) p b.enc := by
  rcases h with rfl | ⟨h1, c, i, rfl, h3, h2, h4⟩
  · have hf : p.length < 128 := hf
    exact Or.inl ⟨by omega, (literal_enc (by omega)).symm⟩
  · exact Or.inr ⟨h1, by simp, c, i, h2, by omega, h4, (reference_enc (by simp; omega)).symm⟩

theorem isVal_rep {R : Rules} {st : σ} {v : Option Bytes} {f : Bytes} (h : IsVal R (L.Has st) v f) :
    ∃ b : BlobV, f = b.enc ∧ b.Fits ∧ ValRep L st b v := by
  cases v with
  | none => exact ⟨.id [], by rw [show f = reference [] from h]; exact reference_enc (by simp), by simp [BlobV.Fits, BlobV.slice], rfl⟩
  | some v =>
    rcases h with ⟨h1, rfl⟩ | ⟨-, i, h2, h3, h4, rfl⟩
    · exact ⟨.data v, literal_enc h1, by simp [BlobV.Fits, BlobV.slice]; omega, Or.inl rfl⟩
    · exact ⟨.id i, reference_enc h3, by simp [BlobV.Fits, BlobV.slice]; omega, Or.inr ⟨i, rfl, h2, by omega, h4⟩⟩

theorem rep_isVal {g : Bool} {st : σ} {v : Option Bytes} {b : BlobV} (hf : b.Fits) (h : ValRep L st b v) :
    IsVal ⟨g, false⟩ (L.Has st) v b.enc := by
  cases v with
  | none =>
    have : b = .id [] := h
    subst this
    exact (reference_enc (by simp)).symm
  | some v =>
    rcases h with rfl | ⟨i, rfl, h2, h3, h4⟩
    · have hf : v.length < 128 := hf
      exact Or.inl ⟨by omega, (literal_enc (by omega)).symm⟩
    · exact Or.inr ⟨by simp, i, h2, by omega, h4, (reference_enc (by omega)).symm⟩

/-! ### What is laid out as documented stands for the tree -/

mutual
theorem isNode_rep {R : Rules} {st : σ} : ∀ (d : Doc) (bs : Bytes), IsNode R (L.Has st) d bs → RecRep L R.prefixIds (toNode d) bs st
  | .node p v l, bs, h => by
    simp only [IsNode] at h
    obtain ⟨f1, f2, f3, rfl, h1, h2, h3⟩ := h
    obtain ⟨b1, rfl, w1, r1⟩ := isPrefix_rep h1
    obtain ⟨b2, rfl, w2, r2⟩ := isVal_rep h2
    obtain ⟨i, rfl, w3, r3⟩ := isKids_rep l f3 h3
    refine ⟨⟨b1, b2, .id i⟩, i, rfl, ⟨w1, w2, w3⟩, rfl, ?_⟩
    simp only [toNode, Rep, SNode.pfx, SNode.val, SNode.children]
    exact ⟨r1, r2, r3⟩
theorem isKids_rep {R : Rules} {st : σ} : ∀ (l : List Doc) (f : Bytes), IsKids R (L.Has st) l f →
    ∃ i, f = (BlobV.id i).enc ∧ (BlobV.id i).Fits ∧ RepC L R.prefixIds st (.inr i) (toKids l)
  | [], f, h => by
    simp only [IsKids] at h
    exact ⟨[], by rw [h]; exact reference_enc (by simp), by simp [BlobV.Fits, BlobV.slice], by simp [toKids, RepC]⟩
  | d :: l, f, h => by
    simp only [IsKids] at h
    obtain ⟨s, i, r, rs, h1, rfl, h2, -, h3, h4⟩ := h
    refine ⟨s :: i, reference_enc (by simp; omega), by simp [BlobV.Fits, BlobV.slice]; omega, ?_⟩
    simp only [toKids, RepC]
    refine Or.inr ⟨s, i, _, rfl, by omega, by simp, h2, ?_⟩
    simp only [RepR]
    obtain ⟨q, j, e1, e2, e3, e4⟩ := isNode_rep d r h3
    exact ⟨q, j, rs.flatten, by rw [e1, List.flatten_cons]; exact readOne_enc e2 _, e3, e4, isNodes_rep l rs h4⟩
theorem isNodes_rep {R : Rules} {st : σ} : ∀ (l : List Doc) (rs : List Bytes), IsNodes R (L.Has st) l rs → RepR L R.prefixIds st rs.flatten (toNodes l)
  | [], rs, h => by
    simp only [IsNodes] at h
    subst h
    simp [toNodes, RepR]
  | d :: l, rs, h => by
    simp only [IsNodes] at h
    obtain ⟨r, rs, rfl, h3, h4⟩ := h
    simp only [toNodes, RepR]
    obtain ⟨q, j, e1, e2, e3, e4⟩ := isNode_rep d r h3
    exact ⟨q, j, rs.flatten, by rw [e1, List.flatten_cons]; exact readOne_enc e2 _, e3, e4, isNodes_rep l rs h4⟩
end

/-! ### What stands for a tree is laid out as documented -/

mutual
theorem rep_isNode {g : Bool} {st : σ} : ∀ (n : Node) (bs : Bytes), RecRep L g n bs st → IsNode ⟨g, false⟩ (L.Has st) (ofNode n) bs
  | .mk p v c, bs, ⟨r, i, e1, hf, e2, h⟩ => by
    simp only [Rep, SNode.pfx, SNode.val, SNode.children] at h
    simp only [ofNode, IsNode]
    refine ⟨r.pfx.enc, r.val.enc, r.ch.enc, e1, rep_isPrefix hf.1 h.1, rep_isVal hf.2.1 h.2.1, ?_⟩
    rw [e2]
    exact rep_isKids c i h.2.2
theorem rep_isKids {g : Bool} {st : σ} : ∀ (c : Option (List Node)) (i : Bytes), RepC L g st (.inr i) c →
    IsKids ⟨g, false⟩ (L.Has st) (ofKids c) (BlobV.id i).enc
  | none, i, h => by
    simp only [RepC] at h
    cases h
    simp only [ofKids, IsKids]
    exact (reference_enc (by simp)).symm
  | some [], i, h => by simp [RepC] at h
  | some (n :: l), i, h => by
    simp only [RepC] at h
    rcases h with ⟨as, e, -⟩ | ⟨s, j, bs, e, hl, -, hh, hr⟩
    · cases e
    · cases e
      simp only [RepR] at hr
      obtain ⟨q, k, rest, e1, e2, e3, e4⟩ := hr
      obtain ⟨hf, rfl⟩ := readOne_fits e1
      obtain ⟨rs, rfl, h5⟩ := rep_isNodes l rest e4
      simp only [ofKids, ofNodes, IsKids]
      exact ⟨s, j, q.enc, rs, by omega, (reference_enc (by simp; omega)).symm, hh, by simp, rep_isNode n _ ⟨q, k, rfl, hf, e2, e3⟩, h5⟩
theorem rep_isNodes {g : Bool} {st : σ} : ∀ (l : List Node) (bs : Bytes), RepR L g st bs l →
    ∃ rs : List Bytes, bs = rs.flatten ∧ IsNodes ⟨g, false⟩ (L.Has st) (ofNodes l) rs
  | [], bs, h => by
    simp only [RepR] at h
    exact ⟨[], by simp [h], by simp [ofNodes, IsNodes]⟩
  | n :: l, bs, hr => by
    simp only [RepR] at hr
    obtain ⟨q, k, rest, e1, e2, e3, e4⟩ := hr
    obtain ⟨hf, rfl⟩ := readOne_fits e1
    obtain ⟨rs, rfl, h5⟩ := rep_isNodes l rest e4
    refine ⟨q.enc :: rs, by simp, ?_⟩
    simp only [ofNodes, IsNodes]
    exact ⟨_, rs, rfl, rep_isNode n _ ⟨q, k, rfl, hf, e2, e3⟩, h5⟩
end

/-! ### What `serialize` writes for a detached tree -/

theorem isPrefix_mono {R : Rules} {st st' : σ} (hm : Mono L st st') {p f : Bytes} (h : IsPrefix R (L.Has st) p f) : IsPrefix R (L.Has st') p f := by
  rcases h with h | ⟨h1, h2, c, i, h3, h4, h5, h6⟩
  · exact Or.inl h
  · exact Or.inr ⟨h1, h2, c, i, h3, h4, hm _ _ h5, h6⟩

theorem isVal_mono {R : Rules} {st st' : σ} (hm : Mono L st st') {v f} (h : IsVal R (L.Has st) v f) : IsVal R (L.Has st') v f := by
  cases v with
  | none => exact h
  | some v =>
    rcases h with h | ⟨h1, i, h2, h3, h4, h5⟩
    · exact Or.inl h
    · exact Or.inr ⟨h1, i, h2, h3, hm _ _ h4, h5⟩

mutual
theorem isNode_mono {R : Rules} {st st' : σ} (hm : Mono L st st') : ∀ (d : Doc) (bs : Bytes), IsNode R (L.Has st) d bs → IsNode R (L.Has st') d bs
  | .node p v l, bs, h => by
    simp only [IsNode] at h ⊢
    obtain ⟨f1, f2, f3, e, h1, h2, h3⟩ := h
    exact ⟨f1, f2, f3, e, isPrefix_mono hm h1, isVal_mono hm h2, isKids_mono hm l f3 h3⟩
theorem isKids_mono {R : Rules} {st st' : σ} (hm : Mono L st st') : ∀ (l : List Doc) (f : Bytes), IsKids R (L.Has st) l f → IsKids R (L.Has st') l f
  | [], f, h => by simpa only [IsKids] using h
  | d :: l, f, h => by
    simp only [IsKids] at h ⊢
    obtain ⟨s, i, r, rs, h1, h2, h3, h4, h5, h6⟩ := h
    exact ⟨s, i, r, rs, h1, h2, hm _ _ h3, h4, isNode_mono hm d r h5, isNodes_mono hm l rs h6⟩
theorem isNodes_mono {R : Rules} {st st' : σ} (hm : Mono L st st') : ∀ (l : List Doc) (rs : List Bytes), IsNodes R (L.Has st) l rs → IsNodes R (L.Has st') l rs
  | [], rs, h => by simpa only [IsNodes] using h
  | d :: l, rs, h => by
    simp only [IsNodes] at h ⊢
    obtain ⟨r, rs', h1, h5, h6⟩ := h
    exact ⟨r, rs', h1, isNode_mono hm d r h5, isNodes_mono hm l rs' h6⟩
end

theorem serialize_isPrefix (st : σ) (p : Bytes) :
    Post L 1 st (BlobV.serialize S 1 st (.data p)) fun bs st' => IsPrefix ⟨true, true⟩ (L.Has st') p bs := by
  by_cases hp : p.length < 128
  · simp only [BlobV.serialize]; rw [if_pos (by omega)]
    exact post_ok' (Or.inl ⟨by omega, (literal_enc (by omega)).symm⟩)
  · refine post_imp (serialize_data (by omega) 1 (by omega)) (Nat.le_refl _) ?_
    rintro bs st' _ ⟨i, rfl, h1, h2, h3⟩
    cases p with
    | nil => simp at hp
    | cons c p =>
      exact Or.inr ⟨rfl, fun _ => by omega, c, i, rfl, by omega, h3, by simp; rw [reference_enc (by simp; omega)]⟩

theorem serialize_isVal (st : σ) (v : Option Bytes) :
    Post L 1 st (BlobV.serialize S 0 st (embedVal v)) fun bs st' => IsVal ⟨true, true⟩ (L.Has st') v bs := by
  cases v with
  | none => exact post_ok' (reference_enc (by simp)).symm
  | some v =>
    simp only [embedVal]
    by_cases hp : v.length < 128
    · simp only [BlobV.serialize]; rw [if_pos (by omega)]
      exact post_ok' (Or.inl ⟨by omega, (literal_enc (by omega)).symm⟩)
    · refine post_imp (serialize_data (by omega) 0 (by omega)) (Nat.le_refl _) ?_
      rintro bs st' _ ⟨i, rfl, h1, h2, h3⟩
      exact Or.inr ⟨fun _ => by omega, i, by rintro rfl; simp at h1, by omega, h3, by simp; rw [reference_enc (by omega)]⟩

/-- What is known of the record size after some records. -/
def SizeAcc (k : Nat) (rs : List Bytes) : Prop :=
  (rs = [] ∧ k = 0) ∨ (rs ≠ [] ∧ 0 < k ∧ k < usizeMax ∧ ∀ r ∈ rs, r.length = k) ∨ (k = usizeMax ∧ ∃ r ∈ rs, ∃ r' ∈ rs, r.length ≠ r'.length)

theorem sizeAcc_next {k : Nat} {rs : List Bytes} {b : Bytes} (h : SizeAcc k rs) (h0 : 0 < b.length) (h1 : b.length < usizeMax) :
    SizeAcc (nextRecordSize k b.length) (rs ++ [b]) := by
  unfold nextRecordSize
  rcases h with ⟨rfl, rfl⟩ | ⟨h2, h3, h4, h5⟩ | ⟨rfl, r, hr, r', hr', hne⟩
  · rw [if_pos rfl]; exact Or.inr (Or.inl ⟨by simp, h0, h1, by simp⟩)
  · rw [if_neg (by omega)]
    split
    · rename_i hne
      obtain ⟨r, hr⟩ := List.exists_mem_of_ne_nil rs h2
      exact Or.inr (Or.inr ⟨rfl, r, by simp [hr], b, by simp, by rw [h5 r hr]; exact hne⟩)
    · rename_i he
      refine Or.inr (Or.inl ⟨by simp, h3, h4, fun r hr => ?_⟩)
      rcases List.mem_append.1 hr with hr | hr
      · exact h5 r hr
      · simp at hr; subst hr; omega
  · rw [if_neg (by simp [usizeMax]), if_pos (by omega)]
    exact Or.inr (Or.inr ⟨rfl, r, by simp [hr], r', by simp [hr'], hne⟩)

theorem sizeAcc_byte {k : Nat} {rs : List Bytes} (h : SizeAcc k rs) (hn : rs ≠ []) : IsSize (recordSizeByte k) rs := by
  unfold recordSizeByte IsSize
  rcases h with ⟨rfl, rfl⟩ | ⟨h2, h3, h4, h5⟩ | ⟨rfl, r, hr, r', hr', hne⟩
  · exact absurd rfl hn
  · split
    · rename_i hk
      exact Or.inl fun r hr => by rw [h5 r hr]; simp; omega
    · rename_i hk
      refine Or.inr ⟨rfl, fun ⟨n, h6, h7⟩ => ?_⟩
      obtain ⟨r, hr⟩ := List.exists_mem_of_ne_nil rs h2
      have := h5 r hr; have := h7 r hr
      omega
  · rw [if_neg (by simp [usizeMax])]
    exact Or.inr ⟨rfl, fun ⟨n, h6, h7⟩ => hne (by rw [h7 r hr, h7 r' hr'])⟩

theorem field_le {R : Rules} {has : Bytes → Bytes → Prop} {p f : Bytes} (h : IsPrefix R has p f) : 1 ≤ f.length ∧ f.length ≤ 128 := by
  rcases h with ⟨h, rfl⟩ | ⟨-, -, c, i, -, h, -, rfl⟩ <;> simp [literal, reference] <;> omega
theorem val_le {R : Rules} {has : Bytes → Bytes → Prop} {v : Option Bytes} {f : Bytes} (h : IsVal R has v f) : 1 ≤ f.length ∧ f.length ≤ 128 := by
  cases v with
  | none => rw [show f = reference [] from h]; simp [reference]
  | some v => rcases h with ⟨h, rfl⟩ | ⟨-, i, -, h, -, rfl⟩ <;> simp [literal, reference] <;> omega
theorem kids_le {R : Rules} {has : Bytes → Bytes → Prop} {l : List Doc} {f : Bytes} (h : IsKids R has l f) : 1 ≤ f.length ∧ f.length ≤ 128 := by
  cases l with
  | nil => simp only [IsKids] at h; subst h; simp [reference]
  | cons d l =>
    simp only [IsKids] at h
    obtain ⟨s, i, r, rs, h, rfl, -⟩ := h
    simp [reference]; omega
theorem isNode_len {R : Rules} {has : Bytes → Bytes → Prop} {d : Doc} {bs : Bytes} (h : IsNode R has d bs) : 0 < bs.length ∧ bs.length < usizeMax := by
  cases d with
  | node p v l =>
    simp only [IsNode] at h
    obtain ⟨f1, f2, f3, rfl, h1, h2, h3⟩ := h
    have := field_le h1; have := val_le h2; have := kids_le h3
    simp only [List.length_append, usizeMax]
    omega

mutual
theorem serialize_isNode : ∀ (n : Node) (st : σ),
    Post L (3 * n.nodes) st ((embed n).serialize S st) fun bs st' => IsNode ⟨true, true⟩ (L.Has st') (ofNode n) bs
  | .mk p v none, st => by
    simp only [embed, SNode.serialize]
    refine post_le (n := 1 + (1 + 0)) (by simp only [nodes]; omega) (post_bind (serialize_isPrefix st p) fun pb st1 m1 h1 => ?_)
    refine post_bind (serialize_isVal st1 v) fun vb st2 m2 h2 => ?_
    refine post_ok' ?_
    simp only [ofNode, ofKids, IsNode, IsKids]
    exact ⟨pb, vb, _, rfl, isPrefix_mono m2 h1, h2, (reference_enc (d := []) (Nat.zero_le _)).symm⟩
  | .mk p v (some []), st => by
    simp only [embed, embedL, SNode.serialize]
    refine post_le (n := 1 + (1 + 0)) (by simp only [nodes]; omega) (post_bind (serialize_isPrefix st p) fun pb st1 m1 h1 => ?_)
    refine post_bind (serialize_isVal st1 v) fun vb st2 m2 h2 => ?_
    rw [List.isEmpty_nil, if_pos rfl]
    refine post_ok' ?_
    simp only [ofNode, ofKids, ofNodes, IsNode, IsKids]
    exact ⟨pb, vb, _, rfl, isPrefix_mono m2 h1, h2, rfl⟩
  | .mk p v (some (n :: l)), st => by
    simp only [embed, embedL, SNode.serialize]
    refine post_le (n := 1 + (1 + (3 * nodesL (n :: l) + (1 + 0)))) (by simp only [nodes, nodesO]; omega) (post_bind (serialize_isPrefix st p) fun pb st1 m1 h1 => ?_)
    refine post_bind (serialize_isVal st1 v) fun vb st2 m2 h2 => ?_
    rw [if_neg (by simp)]
    have hs := serializeL_isNodes (n :: l) [] [] 0 st2 rfl (Or.inl ⟨rfl, rfl⟩)
    simp only [embedL] at hs
    refine post_bind hs fun ⟨data, k⟩ st3 m3 ⟨rs, e3, h3, h4⟩ => ?_
    refine post_bind (post_write st3 data) fun i st4 m4 ⟨hh, l1, l2⟩ => ?_
    have hid : Hdr.id? (i.length + 1) = some (UInt8.ofNat (i.length + 1) ||| 0x80) := hdr_id_lt (by omega)
    rw [hid]
    dsimp only
    refine post_ok' ?_
    have h4' := isNodes_mono m4 _ _ h4
    simp only [ofNodes, IsNodes] at h4'
    obtain ⟨r, rs, rfl, h5, h6⟩ := h4'
    simp only [List.nil_append] at e3 h3
    subst e3
    simp only [ofNode, ofKids, ofNodes, IsNode, IsKids]
    refine ⟨pb, vb, _, rfl, isPrefix_mono (m2.trans (m3.trans m4)) h1, isVal_mono (m3.trans m4) h2, recordSizeByte k, i, r, rs, l2, ?_, hh, fun _ => sizeAcc_byte h3 (by simp), h5, h6⟩
    rw [reference_enc (by simp; omega)]
    rfl
theorem serializeL_isNodes : ∀ (l : List Node) (data : Bytes) (before : List Bytes) (k : Nat) (st : σ), data = before.flatten → SizeAcc k before →
    Post L (3 * nodesL l) st (serializeL S (embedL l) data k st) fun out st' =>
      ∃ rs, out.1 = (before ++ rs).flatten ∧ SizeAcc out.2 (before ++ rs) ∧ IsNodes ⟨true, true⟩ (L.Has st') (ofNodes l) rs
  | [], data, before, k, st, e, h => by
    simp only [embedL, serializeL]
    exact post_ok' ⟨[], by simp [e], by simpa using h, by simp [ofNodes, IsNodes]⟩
  | n :: l, data, before, k, st, e, h => by
    simp only [embedL, serializeL]
    refine post_le (n := 3 * n.nodes + 3 * nodesL l) (by simp only [nodesL]; omega) (post_bind (serialize_isNode n st) fun b st1 m1 h1 => ?_)
    have hl := isNode_len h1
    refine post_imp (serializeL_isNodes l (data ++ b) (before ++ [b]) _ st1 (by simp [e]) (sizeAcc_next h hl.1 hl.2)) (Nat.le_refl _) ?_
    rintro ⟨out, k'⟩ st2 m2 ⟨rs, e2, h2, h3⟩
    refine ⟨b :: rs, by simpa using e2, by simpa using h2, ?_⟩
    simp only [ofNodes, IsNodes]
    exact ⟨b, rs, rfl, isNode_mono m2 _ _ h1, h3⟩
end

end

end Radix
