import Verif.Proofs.History
import Verif.Stored.Cost

/-
Proof-internal: the blobs of a stored tree are small.
-/

set_option linter.unusedVariables false

namespace Radix
open Node

mutual
/-- Prefixes and values have at most `B` bytes, and there are at most 256 children. -/
def Fit (B : Nat) : Node → Prop
  | .mk p v c => p.length ≤ B ∧ (∀ d, v = some d → d.length ≤ B) ∧ FitO B c
/-- `Fit` for a children field. -/
def FitO (B : Nat) : Option (List Node) → Prop
  | none => True
  | some l => l.length ≤ 256 ∧ FitL B l
/-- `Fit` for siblings. -/
def FitL (B : Nat) : List Node → Prop
  | [] => True
  | n :: l => Fit B n ∧ FitL B l
end

theorem fitL_iff {B : Nat} {l : List Node} : FitL B l ↔ ∀ c ∈ l, Fit B c := by
  induction l with
  | nil => simp [FitL]
  | cons n l ih => simp [FitL, ih]

theorem fit_iff {B : Nat} {n : Node} : Fit B n ↔ n.pfx.length ≤ B ∧ (∀ d, n.val = some d → d.length ≤ B) ∧
    n.kids.length ≤ 256 ∧ ∀ c ∈ n.kids, Fit B c := by
  cases n with
  | mk p v c =>
    cases c with
    | none => simp [Fit, FitO, Node.pfx, Node.val, Node.kids, Node.ch]
    | some l => simp [Fit, FitO, Node.pfx, Node.val, Node.kids, Node.ch, fitL_iff]

theorem sorted_length {l : List Nat} {a b : Nat} (hs : l.Pairwise (· < ·)) (ha : ∀ x ∈ l, a ≤ x) (hb : ∀ x ∈ l, x < b) :
    l.length ≤ b - a := by
  induction l generalizing a with
  | nil => simp
  | cons x l ih =>
    have h1 := List.pairwise_cons.1 hs
    have h2 := ha x List.mem_cons_self
    have h3 := hb x List.mem_cons_self
    have := ih (a := x + 1) h1.2 (fun y hy => h1.1 y hy) (fun y hy => hb y (List.mem_cons_of_mem _ hy))
    simp only [List.length_cons]; omega

theorem ordK_length {l : List Node} (h : OrdK l) : l.length ≤ 256 := by
  have h2 := ((ordK_iff l).1 h).2
  have h1 := ((ordK_iff l).1 h).1
  have hp : (l.map fun c => rank c.firstByte).Pairwise (· < ·) := List.pairwise_map.2 h2
  have : ∀ x ∈ l.map (fun c => rank c.firstByte), 1 ≤ x ∧ x < 257 := by
    intro x hx
    obtain ⟨c, hc, rfl⟩ := List.mem_map.1 hx
    have := (h1 c hc).1
    cases hcp : c.pfx with
    | nil => exact absurd hcp this
    | cons b bs =>
      simp only [firstByte, hcp, List.head?_cons, rank]
      have := b.toNat_lt
      omega
  have := sorted_length hp (fun x hx => (this x hx).1) (fun x hx => (this x hx).2)
  simpa using this

theorem cmp_fit {n : Node} {B : Nat} (ho : Ord n) (hc : Cmp n) (pre : Bytes)
    (h : ∀ e ∈ ents pre n, e.1.length ≤ B ∧ e.2.length ≤ B) : Fit B n := by
  induction n using Node.kidsInduction generalizing pre with
  | step n ih =>
    have hk := (ord_iff n).1 ho
    refine fit_iff.2 ⟨?_, fun d hd => ?_, ordK_length hk, fun c hcm => ?_⟩
    · obtain ⟨e, he⟩ := List.exists_mem_of_ne_nil _ (ents_ne_nil hc ho pre)
      obtain ⟨r, hr⟩ := ents_prefix ho he
      have := (h e he).1
      rw [hr] at this
      simp at this; omega
    · refine (h (pre ++ n.pfx, d) ?_).2
      rw [ents_eq, hd]
      exact List.mem_append_left _ (by simp)
    · refine ih c hcm (hk.mem hcm).2 (((cmp_iff n).1 hc).2 c hcm) (pre ++ n.pfx) fun e he => h e ?_
      rw [ents_eq]
      exact List.mem_append_right _ (mem_entsL.2 ⟨c, hcm, he⟩)

theorem shape_fit {n : Node} {B : Nat} (ho : Ord n) (hs : Shape n)
    (h : ∀ k v, den n k = some v → k.length ≤ B ∧ v.length ≤ B) : Fit B n := by
  rcases hs with rfl | hc
  · simp [Node.empty, Fit, FitO]
  · refine cmp_fit ho hc [] fun e he => ?_
    obtain ⟨r, hr, hd⟩ := (mem_ents ho [] e.1 e.2).1 he
    rw [hr]; exact h _ _ (by simpa using hd)

section
variable {σ ε : Type} {S : BlobStore σ ε} {L : Lawful S} {B N : Nat} {g : Bool}

theorem Accepts.le {n m : Nat} {st : σ} (hm : m ≤ n) (h : Accepts S B n st) : Accepts S B m st := by
  induction n generalizing m st with
  | zero => cases (by omega : m = 0); trivial
  | succ n ih =>
    cases m with
    | zero => trivial
    | succ m => intro d hd; obtain ⟨i, st', e, h'⟩ := h d hd; exact ⟨i, st', e, ih (by omega) h'⟩

/-- With `n` writes of small blobs the step succeeds. -/
def Can (S : BlobStore σ ε) (B n : Nat) (st : σ) {α} (x : Res ε α × σ) (P : α → Prop) : Prop :=
  ∀ m, Accepts S B (n + m) st → ∃ y st', x = (.ok y, st') ∧ P y ∧ Accepts S B m st'

theorem can_ok {α} {n : Nat} {st : σ} {y : α} {P : α → Prop} (h : P y) : Can S B n st ((.ok y : Res ε α), st) P :=
  fun m ha => ⟨y, st, rfl, h, ha.le (by omega)⟩

theorem can_bind {α β} {n k : Nat} {st : σ} {x : Res ε α × σ} {P : α → Prop} {f : α → σ → Res ε β × σ} {P' : β → Prop}
    (h : Can S B n st x P) (hf : ∀ y st', x = (.ok y, st') → P y → Can S B k st' (f y st') P') :
    Can S B (n + k) st (stBind x f) P' := by
  intro m ha
  obtain ⟨y, st', e, hp, ha'⟩ := h (k + m) (by rwa [← Nat.add_assoc])
  have := hf y st' e hp m ha'
  rw [e]; exact this

theorem can_le {α} {n k : Nat} {st : σ} {x : Res ε α × σ} {P : α → Prop} (hn : n ≤ k) (h : Can S B n st x P) :
    Can S B k st x P := by
  intro m ha
  obtain ⟨y, st', e, hp, ha'⟩ := h (k - n + m) (ha.le (by omega))
  exact ⟨y, st', e, hp, ha'.le (by omega)⟩

theorem can_write {st : σ} {d : Bytes} (hd : d.length ≤ B) : Can S B 1 st (S.write st d) fun _ => True := by
  intro m ha
  rw [Nat.add_comm] at ha
  obtain ⟨i, st', e, h⟩ := ha d hd
  exact ⟨i, st', e, trivial, h⟩

theorem can_blob (L : Lawful S) {st : σ} {n : Nat} (hn : n ≤ 1) {b : BlobV} (hb : ∀ d, b = .data d → d.length ≤ B) :
    Can S B 1 st (b.serialize S n st) fun _ => True := by
  cases b with
  | id i => exact can_ok trivial
  | data d =>
    simp only [BlobV.serialize]
    split
    · exact can_ok trivial
    · intro m ha
      obtain ⟨i, st', e, _, ha'⟩ := can_write (S := S) (st := st) (hb d rfl) m ha
      rw [e]
      have hi := L.write_ok e
      dsimp only
      rw [hdr_id_lt (by omega)]
      exact ⟨_, _, rfl, trivial, ha'⟩

theorem recRep_len (hid : ∀ st i d, L.Has st i d → i.length ≤ N) {n : Node} {bs : Bytes} {st : σ} (h : RecRep L g n bs st) :
    bs.length ≤ 258 + N := by
  obtain ⟨r, i, rfl, ⟨f1, f2, f3⟩, hi, hr⟩ := h
  have hl : i.length ≤ N + 1 := by
    cases n with
    | mk q w c =>
      simp only [Rep, SNode.pfx, SNode.val, SNode.children] at hr
      have hc := hr.2.2
      cases c with
      | none => simp [RepC] at hc; simp [hc]
      | some l =>
        simp only [RepC] at hc
        rcases hc with ⟨as', e, _⟩ | ⟨rs, j, _, e, _, _, hh, _⟩
        · cases e
        · cases e; have := hid _ _ _ hh; simp; omega
  unfold BlobV.Fits at f1 f2
  simp only [Rec.enc, BlobV.enc, hi, List.length_append, List.length_cons, show (BlobV.id i).slice = i from rfl]
  omega

theorem post_ok_of {α} {n : Nat} {st st' : σ} {x : Res ε α × σ} {Q : α → σ → Prop} {y : α} (h : Post L n st x Q)
    (e : x = (.ok y, st')) : Mono L st st' ∧ Q y st' := by
  subst e; exact ⟨h.1, h.2.1⟩

theorem pfxRep_fit {st : σ} {b : BlobV} {p : Bytes} (h : PfxRep L g st b p) (hp : p.length ≤ B) :
    ∀ d, b = .data d → d.length ≤ B := by
  rintro d rfl
  rcases h with h | ⟨_, c, i, h, _⟩
  · cases h; exact hp
  · cases h

theorem valRep_fit {st : σ} {b : BlobV} {v : Option Bytes} (h : ValRep L st b v) (hp : ∀ d, v = some d → d.length ≤ B) :
    ∀ d, b = .data d → d.length ≤ B := by
  rintro d rfl
  cases v with
  | none => cases h
  | some w =>
    rcases h with h | ⟨i, h, _⟩
    · cases h; exact hp _ rfl
    · cases h

mutual
theorem serialize_can (hid : ∀ st i d, L.Has st i d → i.length ≤ N) (hB : 256 * (258 + N) ≤ B) :
    ∀ (a : SNode) (st : σ) (n : Node), Rep L g st a n → Fit B n →
    Can S B (3 * n.nodes) st (a.serialize S st) fun bs => bs.length ≤ 258 + N
  | .arc p v as, st, .mk q w c, h, hf => by
    suffices hs : Can S B (3 * (Node.mk q w c).nodes) st ((SNode.arc p v as).serialize S st) fun _ => True by
      intro m ha
      obtain ⟨y, st', e, _, ha'⟩ := hs m ha
      exact ⟨y, st', e, recRep_len hid (post_ok_of (serialize_rep (g' := true) _ st _ h (Or.inl rfl)) e).2, ha'⟩
    simp only [Rep, SNode.pfx, SNode.val, SNode.children] at h
    simp only [Fit] at hf
    simp only [SNode.serialize]
    refine can_le (n := 1 + (1 + (1 + 3 * nodesO c))) (by simp only [nodes]; omega)
      (can_bind (can_blob L (by omega) (pfxRep_fit h.1 hf.1)) fun pb st1 e1 _ => ?_)
    have m1 := (post_ok_of (serialize_pfx (g' := true) h.1 (Or.inl rfl)) e1).1
    refine can_bind (can_blob L (by omega) (valRep_fit (valRep_mono m1 h.2.1) hf.2.1)) fun vb st2 e2 _ => ?_
    have m2 := (post_ok_of (serialize_val (valRep_mono m1 h.2.1)) e2).1
    have hc := repC_mono (m1.trans m2) _ _ h.2.2
    cases as with
    | nil => rw [List.isEmpty_nil, if_pos rfl]; exact can_ok trivial
    | cons a as =>
      rw [if_neg (by simp)]
      cases c with
      | none => simp [RepC] at hc
      | some l =>
        simp only [RepC] at hc
        rcases hc with ⟨as', e, hr⟩ | ⟨_, _, _, e, _⟩
        · cases e
          simp only [FitO] at hf
          have hs := serializeL_can hid hB (a :: as) [] 0 st2 l hr hf.2.2.2
          refine can_le (n := 3 * nodesL l + (1 + 0)) (by simp only [nodesO]; omega) (can_bind hs fun ⟨data, rs⟩ st3 e3 hl => ?_)
          have hdl : data.length ≤ B := by
            have h1 : data.length ≤ l.length * (258 + N) := by simpa using hl
            have h2 : l.length * (258 + N) ≤ 256 * (258 + N) := Nat.mul_le_mul_right _ hf.2.2.1
            omega
          refine can_bind (can_write hdl) fun i st4 e4 _ => ?_
          have hi := L.write_ok e4
          rw [hdr_id_lt (by omega)]
          exact can_ok trivial
        · cases e
  | .ref p v i, st, .mk q w c, h, hf => by
    suffices hs : Can S B (3 * (Node.mk q w c).nodes) st ((SNode.ref p v i).serialize S st) fun _ => True by
      intro m ha
      obtain ⟨y, st', e, _, ha'⟩ := hs m ha
      exact ⟨y, st', e, recRep_len hid (post_ok_of (serialize_rep (g' := true) _ st _ h (Or.inl rfl)) e).2, ha'⟩
    simp only [Rep, SNode.pfx, SNode.val, SNode.children] at h
    simp only [Fit] at hf
    simp only [SNode.serialize]
    refine can_le (n := 1 + (1 + (1 + 3 * nodesO c))) (by simp only [nodes]; omega)
      (can_bind (can_blob L (by omega) (pfxRep_fit h.1 hf.1)) fun pb st1 e1 _ => ?_)
    have m1 := (post_ok_of (serialize_pfx (g' := true) h.1 (Or.inl rfl)) e1).1
    refine can_bind (can_blob L (by omega) (valRep_fit (valRep_mono m1 h.2.1) hf.2.1)) fun vb st2 e2 _ => ?_
    exact can_ok trivial
theorem serializeL_can (hid : ∀ st i d, L.Has st i d → i.length ≤ N) (hB : 256 * (258 + N) ≤ B) :
    ∀ (as : List SNode) (data : Bytes) (rs : Nat) (st : σ) (l : List Node), RepL L g st as l → FitL B l →
    Can S B (3 * nodesL l) st (serializeL S as data rs st) fun out => out.1.length ≤ data.length + l.length * (258 + N)
  | [], data, rs, st, l, h, hf => by
    simp only [serializeL]; exact can_ok (by simp)
  | a :: as, data, rs, st, l, h, hf => by
    cases l with
    | nil => simp [RepL] at h
    | cons n l =>
      simp only [RepL] at h
      obtain ⟨a', as', e, h1, h2⟩ := h
      cases e
      simp only [FitL] at hf
      simp only [serializeL]
      refine can_le (n := 3 * n.nodes + 3 * nodesL l) (by simp only [nodesL]; omega)
        (can_bind (serialize_can hid hB a st n h1 hf.1) fun b st1 e1 hb => ?_)
      have m1 := (post_ok_of (serialize_rep (g' := true) _ st _ h1 (Or.inl rfl)) e1).1
      intro m ha
      obtain ⟨y, st', e, hy, ha'⟩ :=
        serializeL_can hid hB as (data ++ b) (nextRecordSize rs b.length) st1 l (repL_mono m1 _ _ h2) hf.2 m ha
      refine ⟨y, st', e, ?_, ha'⟩
      simp only [List.length_append, List.length_cons, Nat.add_mul] at hy ⊢
      omega
end

theorem tryReattach_can (hid : ∀ st i d, L.Has st i d → i.length ≤ N) (hB : 256 * (258 + N) ≤ B) {a : SNode} {t : Node} {st : σ}
    (h : Rep L g st a t) (hf : Fit B t) (ha : Accepts S B (3 * t.nodes + 1) st) :
    ∃ a' i st', tryReattach S a st = (.ok (a', i), st') := by
  have hc : Can S B (3 * t.nodes + (1 + 0)) st (tryReattach S a st) fun _ => True := by
    unfold tryReattach
    refine can_bind (serialize_can hid hB a st t h hf) fun bs st1 e1 hl => ?_
    refine can_bind (can_write (by omega)) fun i st2 e2 _ => ?_
    obtain ⟨x, hx, _⟩ := deserialize_rep (S := S) (post_ok_of (serialize_rep (g' := true) _ st _ h (Or.inl rfl)) e1).2
    rw [hx]
    exact can_ok trivial
  obtain ⟨y, st', e, _⟩ := hc 0 ha
  exact ⟨y.1, y.2, st', e⟩

theorem tryAttached_can (hid : ∀ st i d, L.Has st i d → i.length ≤ N) (hB : 256 * (258 + N) ≤ B) {t : Node} {st : σ}
    (hf : Fit B t) (ha : Accepts S B (3 * t.nodes) st) : ∃ a st', tryAttached S t st = (.ok a, st') := by
  have hc : Can S B (3 * t.nodes + 0) st (tryAttached S t st) fun _ => True := by
    unfold tryAttached
    refine can_bind (serialize_can (g := false) hid hB _ st t (embed_rep t) hf) fun bs st1 e1 hl => ?_
    obtain ⟨r, rest, e, rfl, a, ha, hr⟩ :=
      recRep_rep (ε := ε) (post_ok_of (serialize_rep (g' := true) _ st _ (embed_rep (L := L) (g := false) t) (Or.inl rfl)) e1).2
    rw [e]
    dsimp only
    rw [List.isEmpty_nil, if_pos rfl, ha]
    exact can_ok trivial
  obtain ⟨y, st', e, _⟩ := hc 0 ha
  exact ⟨y, st', e⟩

end

end Radix
