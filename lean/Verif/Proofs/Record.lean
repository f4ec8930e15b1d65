import Verif.Stored.Record
import Verif.Props.Blob
import Verif.Proofs.Unique

/-
Records decode to what was encoded; the meaning `Rep` of stored nodes; `serialize` preserves meaning.
-/

set_option linter.unusedVariables false

namespace Radix
open Node

theorem hdr_id_lt {n : Nat} (h : n < 128) : Hdr.id? n = some (UInt8.ofNat n ||| 0x80) := by
  simp [Hdr.id?, h]

/-- A blob that fits into a record: at most 127 bytes. -/
def BlobV.Fits (b : BlobV) : Prop := b.slice.length < 128

/-- The bytes of a blob inside a record. -/
def BlobV.enc (b : BlobV) : Bytes := b.hdr :: b.slice

theorem readBlob_enc {b : BlobV} (h : b.Fits) (rest : Bytes) : readBlob (b.enc ++ rest) = some (b, rest) := by
  cases b with
  | data d =>
    have hl : d.length < 128 := h
    have h1 := hdr_data_spec d.length
    simp only [BlobV.enc, BlobV.hdr, BlobV.slice, List.cons_append, readBlob, h1.1, h1.2,
      Nat.min_eq_left (by omega : d.length ≤ 127)]
    simp
  | id i =>
    have hl : i.length < 128 := h
    have h1 := hdr_id_spec (hdr_id_lt hl)
    simp only [BlobV.enc, BlobV.hdr, BlobV.slice, List.cons_append, readBlob, h1.1, h1.2.1]
    simp

theorem hdr_cases (x : UInt8) : Hdr.len x < 128 ∧
    (Hdr.isId x = true → UInt8.ofNat (Hdr.len x) ||| 0x80 = x) ∧
    (Hdr.isId x = false → Hdr.data (Hdr.len x) = x) := by
  have key : ∀ m : Fin 256, Hdr.len (UInt8.ofNat m.1) < 128 ∧
      (Hdr.isId (UInt8.ofNat m.1) = true → UInt8.ofNat (Hdr.len (UInt8.ofNat m.1)) ||| 0x80 = UInt8.ofNat m.1) ∧
      (Hdr.isId (UInt8.ofNat m.1) = false → Hdr.data (Hdr.len (UInt8.ofNat m.1)) = UInt8.ofNat m.1) := by
    decide +kernel
  have := key ⟨x.toNat, x.toNat_lt⟩
  simpa using this

theorem readBlob_fits {bs rest : Bytes} {b : BlobV} (h : readBlob bs = some (b, rest)) :
    b.Fits ∧ bs = b.enc ++ rest := by
  cases bs with
  | nil => cases h
  | cons x xs =>
    simp only [readBlob] at h
    split at h
    · cases h
    · rename_i hl
      simp only [Option.some.injEq, Prod.mk.injEq] at h
      obtain ⟨rfl, rfl⟩ := h
      obtain ⟨h1, h2, h3⟩ := hdr_cases x
      have hm : min (Hdr.len x) xs.length = Hdr.len x := by omega
      cases hi : Hdr.isId x with
      | true =>
        simp only [if_true, BlobV.Fits, BlobV.slice, BlobV.enc, BlobV.hdr, List.length_take, hm, h2 hi]
        exact ⟨h1, by rw [List.cons_append, List.take_append_drop]⟩
      | false =>
        simp only [Bool.false_eq_true, if_false, BlobV.Fits, BlobV.slice, BlobV.enc, BlobV.hdr, List.length_take, hm, h3 hi]
        exact ⟨h1, by rw [List.cons_append, List.take_append_drop]⟩

/-- The bytes of a record. -/
def Rec.enc (r : Rec) : Bytes := r.pfx.enc ++ r.val.enc ++ r.ch.enc

/-- All three fields fit. -/
def Rec.Fits (r : Rec) : Prop := r.pfx.Fits ∧ r.val.Fits ∧ r.ch.Fits

theorem readOne_enc {r : Rec} (h : r.Fits) (rest : Bytes) : readOne (r.enc ++ rest) = some (r, rest) := by
  simp only [readOne, Rec.enc, List.append_assoc]
  rw [readBlob_enc h.1]
  simp only [Option.bind_eq_bind, Option.bind_some]
  rw [readBlob_enc h.2.1]
  simp only [Option.bind_some]
  rw [readBlob_enc h.2.2]
  rfl

theorem readOne_fits {bs rest : Bytes} {r : Rec} (h : readOne bs = some (r, rest)) :
    r.Fits ∧ bs = r.enc ++ rest := by
  simp only [readOne, Option.bind_eq_bind, Option.bind_eq_some_iff, Prod.exists, Option.pure_def,
    Option.some.injEq, Prod.mk.injEq] at h
  obtain ⟨p, b1, h1, v, b2, h2, c, b3, h3, rfl, rfl⟩ := h
  obtain ⟨f1, rfl⟩ := readBlob_fits h1
  obtain ⟨f2, rfl⟩ := readBlob_fits h2
  obtain ⟨f3, rfl⟩ := readBlob_fits h3
  exact ⟨⟨f1, f2, f3⟩, by simp [Rec.enc]⟩

theorem readOne_length {bs rest : Bytes} {r : Rec} (h : readOne bs = some (r, rest)) :
    rest.length < bs.length := by
  obtain ⟨_, rfl⟩ := readOne_fits h
  simp [Rec.enc, BlobV.enc]; omega

section
variable {σ ε : Type} {S : BlobStore σ ε} (L : Lawful S)

/-- The bytes a stored prefix stands for: `TreeNode::load_prefix` (src/node/mod.rs 920-926). The id field starts with the
first byte of the prefix. -/
def PfxRep (g : Bool) (st : σ) (b : BlobV) (p : Bytes) : Prop :=
  b = .data p ∨ g = true ∧ ∃ c i, b = .id (c :: i) ∧ i.length < 127 ∧ p.head? = some c ∧ L.Has st i p

/-- The value a stored value stands for: `TreeNode::load_value` (src/node/mod.rs 928-938). -/
def ValRep (st : σ) (b : BlobV) : Option Bytes → Prop
  | none => b = .none
  | some v => b = .data v ∨ ∃ i, b = .id i ∧ i ≠ [] ∧ i.length < 128 ∧ L.Has st i v

mutual
/-- The stored node `a` stands for the detached node. -/
def Rep (g : Bool) (st : σ) : SNode → Node → Prop
  | a, .mk p v c => PfxRep L g st a.pfx p ∧ ValRep L st a.val v ∧ RepC g st a.children c
/-- The children field stands for the children: an id stands for the nodes in the blob with this id. -/
def RepC (g : Bool) (st : σ) : List SNode ⊕ Bytes → Option (List Node) → Prop
  | ch, none => ch = .inr []
  | ch, some l => (∃ as, ch = .inl as ∧ RepL g st as l) ∨
      ∃ rs i bs, ch = .inr (rs :: i) ∧ i.length < 127 ∧ l ≠ [] ∧ L.Has st i bs ∧ RepR g st bs l
/-- Element by element. -/
def RepL (g : Bool) (st : σ) : List SNode → List Node → Prop
  | as, [] => as = []
  | as, n :: l => ∃ a as', as = a :: as' ∧ Rep g st a n ∧ RepL g st as' l
/-- A buffer of records stands for a list of nodes. -/
def RepR (g : Bool) (st : σ) : Bytes → List Node → Prop
  | bs, [] => bs = []
  | bs, n :: l => ∃ r i rest, readOne bs = some (r, rest) ∧ r.ch = .id i ∧ Rep g st (.ref r.pfx r.val i) n ∧
      RepR g st rest l
end

theorem Mono.refl (st : σ) : Mono L st st := fun _ _ h => h
variable {L} {g : Bool}
theorem Mono.trans {a b c : σ} (h : Mono L a b) (h' : Mono L b c) : Mono L a c := fun i d e => h' i d (h i d e)
theorem mono_write {st st' : σ} {d r} (h : S.write st d = (r, st')) : Mono L st st' :=
  fun _ _ e => L.write_mono h e

theorem pfxRep_mono {st st' : σ} (h : Mono L st st') {b p} (e : PfxRep L g st b p) : PfxRep L g st' b p := by
  rcases e with e | ⟨eg, c, i, e1, e2, e3, e4⟩
  · exact Or.inl e
  · exact Or.inr ⟨eg, c, i, e1, e2, e3, h _ _ e4⟩

theorem valRep_mono {st st' : σ} (h : Mono L st st') {b v} (e : ValRep L st b v) : ValRep L st' b v := by
  cases v with
  | none => exact e
  | some v =>
    rcases e with e | ⟨i, e1, e2, e3, e4⟩
    · exact Or.inl e
    · exact Or.inr ⟨i, e1, e2, e3, h _ _ e4⟩

mutual
theorem rep_mono {st st' : σ} (h : Mono L st st') : ∀ (a : SNode) (n : Node), Rep L g st a n → Rep L g st' a n
  | a, .mk p v c, e => by
    simp only [Rep] at e ⊢
    exact ⟨pfxRep_mono h e.1, valRep_mono h e.2.1, repC_mono h _ c e.2.2⟩
theorem repC_mono {st st' : σ} (h : Mono L st st') : ∀ ch (c : Option (List Node)), RepC L g st ch c → RepC L g st' ch c
  | ch, none, e => by simp only [RepC] at e ⊢; exact e
  | ch, some l, e => by
    simp only [RepC] at e ⊢
    rcases e with ⟨as, e1, e2⟩ | ⟨rs, i, bs, e1, e2, e3, e4, e5⟩
    · exact Or.inl ⟨as, e1, repL_mono h _ l e2⟩
    · exact Or.inr ⟨rs, i, bs, e1, e2, e3, h _ _ e4, repR_mono h _ l e5⟩
theorem repL_mono {st st' : σ} (h : Mono L st st') : ∀ as (l : List Node), RepL L g st as l → RepL L g st' as l
  | as, [], e => by simp only [RepL] at e ⊢; exact e
  | as, n :: l, e => by
    simp only [RepL] at e ⊢
    obtain ⟨a, as', e1, e2, e3⟩ := e
    exact ⟨a, as', e1, rep_mono h a n e2, repL_mono h _ l e3⟩
theorem repR_mono {st st' : σ} (h : Mono L st st') : ∀ bs (l : List Node), RepR L g st bs l → RepR L g st' bs l
  | bs, [], e => by simp only [RepR] at e ⊢; exact e
  | bs, n :: l, e => by
    simp only [RepR] at e ⊢
    obtain ⟨r, i, rest, e1, e2, e3, e4⟩ := e
    exact ⟨r, i, rest, e1, e2, rep_mono h _ n e3, repR_mono h _ l e4⟩
end

mutual
theorem rep_weaken {g' : Bool} (hg : g = true → g' = true) {st : σ} : ∀ (a : SNode) (n : Node), Rep L g st a n →
    Rep L g' st a n
  | a, .mk p v c, e => by
    simp only [Rep] at e ⊢
    exact ⟨e.1.imp id fun h => ⟨hg h.1, h.2⟩, e.2.1, repC_weaken hg _ c e.2.2⟩
theorem repC_weaken {g' : Bool} (hg : g = true → g' = true) {st : σ} : ∀ ch (c : Option (List Node)),
    RepC L g st ch c → RepC L g' st ch c
  | ch, none, e => by simp only [RepC] at e ⊢; exact e
  | ch, some l, e => by
    simp only [RepC] at e ⊢
    rcases e with ⟨as, e1, e2⟩ | ⟨rs, i, bs, e1, e2, e3, e4, e5⟩
    · exact Or.inl ⟨as, e1, repL_weaken hg _ l e2⟩
    · exact Or.inr ⟨rs, i, bs, e1, e2, e3, e4, repR_weaken hg _ l e5⟩
theorem repL_weaken {g' : Bool} (hg : g = true → g' = true) {st : σ} : ∀ as (l : List Node),
    RepL L g st as l → RepL L g' st as l
  | as, [], e => by simp only [RepL] at e ⊢; exact e
  | as, n :: l, e => by
    simp only [RepL] at e ⊢
    obtain ⟨a, as', e1, e2, e3⟩ := e
    exact ⟨a, as', e1, rep_weaken hg a n e2, repL_weaken hg _ l e3⟩
theorem repR_weaken {g' : Bool} (hg : g = true → g' = true) {st : σ} : ∀ bs (l : List Node),
    RepR L g st bs l → RepR L g' st bs l
  | bs, [], e => by simp only [RepR] at e ⊢; exact e
  | bs, n :: l, e => by
    simp only [RepR] at e ⊢
    obtain ⟨r, i, rest, e1, e2, e3, e4⟩ := e
    exact ⟨r, i, rest, e1, e2, rep_weaken hg _ n e3, repR_weaken hg _ l e4⟩
end

mutual
/-- A node whose children are in the store has no empty children vectors below. -/
theorem rep_ref_nf {st : σ} : ∀ (p v : BlobV) (i : Bytes) (n : Node), Rep L g st (.ref p v i) n → NF n
  | p, v, i, .mk q w c, e => by
    simp only [Rep, SNode.children] at e
    rw [NF]; exact repC_ref_nf i c e.2.2
theorem repC_ref_nf {st : σ} : ∀ (i : Bytes) (c : Option (List Node)), RepC L g st (.inr i) c → NFO c
  | i, none, e => by simp [NFO]
  | i, some [], e => by simp [RepC, RepL] at e
  | i, some (n :: l), e => by
    simp only [RepC] at e
    rcases e with ⟨as, e1, _⟩ | ⟨rs, j, bs, e1, e2, e3, e4, e5⟩
    · cases e1
    · simp only [NFO]
      exact ⟨by simp, repR_nf bs (n :: l) e5⟩
theorem repR_nf {st : σ} : ∀ (bs : Bytes) (l : List Node), RepR L g st bs l → NFL l
  | bs, [], e => by simp [NFL]
  | bs, n :: l, e => by
    simp only [RepR] at e
    obtain ⟨r, i, rest, e1, e2, e3, e4⟩ := e
    exact ⟨rep_ref_nf _ _ _ n e3, repR_nf rest l e4⟩
end

theorem CanWrite.le {S : BlobStore σ ε} {n m : Nat} {st : σ} (hm : m ≤ n) (h : CanWrite S n st) : CanWrite S m st := by
  induction n generalizing m st with
  | zero => cases (by omega : m = 0); trivial
  | succ n ih =>
    cases m with
    | zero => trivial
    | succ m => intro d; obtain ⟨i, st', e, h'⟩ := h d; exact ⟨i, st', e, ih (by omega) h'⟩

theorem CanWrite.noPanic {S : BlobStore σ ε} {n : Nat} {st : σ} (h : CanWrite S n st) : NoPanic S n st := by
  induction n generalizing st with
  | zero => trivial
  | succ n ih =>
    intro d
    obtain ⟨i, st', e, h'⟩ := h d
    exact Or.inl ⟨i, st', e, ih h'⟩

theorem NoPanic.le {S : BlobStore σ ε} {n m : Nat} {st : σ} (hm : m ≤ n) (h : NoPanic S n st) : NoPanic S m st := by
  induction n generalizing m st with
  | zero => cases (by omega : m = 0); trivial
  | succ n ih =>
    cases m with
    | zero => trivial
    | succ m =>
      intro d
      rcases h d with ⟨i, st', e, h'⟩ | h'
      · exact Or.inl ⟨i, st', e, ih (by omega) h'⟩
      · exact Or.inr h'

/-- The outcome of a step that threads the store and makes at most `n` writes: nothing already stored is lost, a success
satisfies `Q`, an error can only come from a failing write, a panic only from a panicking write. -/
def Post (L : Lawful S) {α} (n : Nat) (st : σ) (x : Res ε α × σ) (Q : α → σ → Prop) : Prop :=
  Mono L st x.2 ∧ match x.1 with
    | .ok a => Q a x.2 ∧ ∀ m, (CanWrite S (n + m) st → CanWrite S m x.2) ∧ (NoPanic S (n + m) st → NoPanic S m x.2)
    | .err _ => ¬ CanWrite S n st
    | _ => ¬ NoPanic S n st

theorem post_ok {α} {st : σ} {a : α} {Q : α → σ → Prop} (h : Q a st) : Post L 0 st ((.ok a : Res ε α), st) Q :=
  ⟨Mono.refl L st, h, fun m => ⟨fun h => h.le (by omega), fun h => h.le (by omega)⟩⟩

theorem post_bind {α β} {n m : Nat} {st : σ} {x : Res ε α × σ} {Q : α → σ → Prop} {f : α → σ → Res ε β × σ}
    {Q' : β → σ → Prop} (h : Post L n st x Q) (hf : ∀ a st', Mono L st st' → Q a st' → Post L m st' (f a st') Q') :
    Post L (n + m) st (stBind x f) Q' := by
  obtain ⟨r, st'⟩ := x
  cases r with
  | ok a =>
    have h1 := h.2.2
    simp only at h1
    have := hf a st' h.1 h.2.1
    refine ⟨h.1.trans this.1, ?_⟩
    have h2 := this.2
    simp only [stBind]
    cases e : (f a st').1 with
    | ok b =>
      rw [e] at h2
      refine ⟨h2.1, fun k => ⟨fun hk => (h2.2 k).1 ((h1 _).1 ?_), fun hk => (h2.2 k).2 ((h1 _).2 ?_)⟩⟩ <;>
        exact hk.le (by omega)
    | err _ => rw [e] at h2; exact fun hc => h2 ((h1 m).1 hc)
    | panic => rw [e] at h2; exact fun hc => h2 ((h1 m).2 hc)
    | deep => rw [e] at h2; exact fun hc => h2 ((h1 m).2 hc)
  | err e => exact ⟨h.1, fun hc => h.2 (hc.le (by omega))⟩
  | panic => exact ⟨h.1, fun hc => h.2 (hc.le (by omega))⟩
  | deep => exact ⟨h.1, fun hc => h.2 (hc.le (by omega))⟩

theorem post_write (st : σ) (d : Bytes) :
    Post L 1 st (S.write st d) fun i st' => L.Has st' i d ∧ 1 ≤ i.length ∧ i.length ≤ 126 := by
  rcases hw : S.write st d with ⟨r, st'⟩
  refine ⟨mono_write hw, ?_⟩
  cases r with
  | ok i =>
    refine ⟨L.write_ok hw, fun m => ⟨fun h => ?_, fun h => ?_⟩⟩
    · rw [Nat.add_comm] at h
      obtain ⟨i, st1, e, h'⟩ := h d
      rw [hw] at e; cases e; exact h'
    · rw [Nat.add_comm] at h
      rcases h d with ⟨i, st1, e, h'⟩ | ⟨i, st1, e⟩ <;> rw [hw] at e <;> cases e
      exact h'
  | err e =>
    intro hs
    obtain ⟨i, st1, e, _⟩ := hs d
    rw [hw] at e; cases e
  | panic =>
    intro hs
    rcases hs d with ⟨i, st1, e, h'⟩ | ⟨i, st1, e⟩ <;> rw [hw] at e <;> cases e
  | deep =>
    intro hs
    rcases hs d with ⟨i, st1, e, h'⟩ | ⟨i, st1, e⟩ <;> rw [hw] at e <;> cases e

theorem post_imp {α} {n m : Nat} {st : σ} {x : Res ε α × σ} {Q Q' : α → σ → Prop} (h : Post L n st x Q) (hn : n ≤ m)
    (hq : ∀ a st', Mono L st st' → Q a st' → Q' a st') : Post L m st x Q' := by
  obtain ⟨r, st'⟩ := x
  cases r with
  | ok a => exact ⟨h.1, hq _ _ h.1 h.2.1, fun k => ⟨fun hk => (h.2.2 k).1 (hk.le (by omega)),
      fun hk => (h.2.2 k).2 (hk.le (by omega))⟩⟩
  | err e => exact ⟨h.1, fun hc => h.2 (hc.le hn)⟩
  | panic => exact ⟨h.1, fun hc => h.2 (hc.le hn)⟩
  | deep => exact ⟨h.1, fun hc => h.2 (hc.le hn)⟩

theorem post_le {α} {n m : Nat} {st : σ} {x : Res ε α × σ} {Q : α → σ → Prop} (hn : n ≤ m) (h : Post L n st x Q) :
    Post L m st x Q := post_imp h hn fun _ _ _ h => h

theorem post_ok' {α} {n : Nat} {st : σ} {a : α} {Q : α → σ → Prop} (h : Q a st) :
    Post L n st ((.ok a : Res ε α), st) Q := post_le (Nat.zero_le n) (post_ok h)

theorem hdr_id_enc {i : Bytes} {h : Hdr} (e : Hdr.id? i.length = some h) : h :: i = (BlobV.id i).enc := by
  unfold Hdr.id? at e
  split at e
  · cases e; rfl
  · cases e

theorem serialize_data {st : σ} {d : Bytes} (hl : 128 ≤ d.length) (n : Nat) (hn : n ≤ 1) :
    Post L 1 st (BlobV.serialize S n st (.data d)) fun bs st' =>
      ∃ i, bs = (BlobV.id (d.take n ++ i)).enc ∧ 1 ≤ i.length ∧ i.length ≤ 126 ∧ L.Has st' i d := by
  have hw := post_write (L := L) st d
  simp only [BlobV.serialize]
  rw [if_neg (by omega)]
  rcases he : S.write st d with ⟨r, st'⟩
  rw [he] at hw
  cases r with
  | err e => exact hw
  | panic => exact hw
  | deep => exact hw
  | ok i =>
    have hi := hw.2.1
    simp only at hi
    dsimp only
    have hlen : (d.take n ++ i).length = i.length + n := by simp; omega
    have hh : Hdr.id? (i.length + n) = some (UInt8.ofNat (i.length + n) ||| 0x80) := hdr_id_lt (by omega)
    rw [hh]
    dsimp only
    refine ⟨hw.1, ⟨i, ?_, hi.2.1, hi.2.2, hi.1⟩, hw.2.2⟩
    rw [← hlen] at hh ⊢
    rw [List.cons_append]
    exact hdr_id_enc hh

theorem serialize_pfx {g' : Bool} {st : σ} {b : BlobV} {p : Bytes} (h : PfxRep L g st b p)
    (hg : g' = true ∨ g = false ∧ p.length < 128) :
    Post L 1 st (b.serialize S 1 st) fun bs st' => ∃ b', bs = b'.enc ∧ b'.Fits ∧ PfxRep L g' st' b' p := by
  rcases h with rfl | ⟨eg, c, i, rfl, hl, hc, hh⟩
  · by_cases hp : p.length < 128
    · simp only [BlobV.serialize]; rw [if_pos (by omega)]
      exact post_ok' ⟨.data p, rfl, hp, Or.inl rfl⟩
    · refine post_imp (serialize_data (by omega) 1 (by omega)) (Nat.le_refl _) ?_
      rintro bs st' _ ⟨i, rfl, h1, h2, h3⟩
      cases p with
      | nil => simp at hp
      | cons c p =>
        have hg' : g' = true := by rcases hg with h | ⟨_, h⟩; exact h; exact absurd h hp
        refine ⟨_, rfl, ?_, Or.inr ⟨hg', c, i, by simp, by omega, rfl, h3⟩⟩
        simp [BlobV.Fits, BlobV.slice]; omega
  · simp only [BlobV.serialize]
    have hg' : g' = true := by rcases hg with h | ⟨h, _⟩; exact h; rw [eg] at h; cases h
    refine post_ok' ⟨.id (c :: i), rfl, ?_, Or.inr ⟨hg', c, i, rfl, hl, hc, hh⟩⟩
    simp [BlobV.Fits, BlobV.slice]; omega

theorem serialize_val {st : σ} {b : BlobV} {v : Option Bytes} (h : ValRep L st b v) :
    Post L 1 st (b.serialize S 0 st) fun bs st' => ∃ b', bs = b'.enc ∧ b'.Fits ∧ ValRep L st' b' v := by
  cases v with
  | none =>
    have : b = .id [] := h
    subst this
    exact post_ok' ⟨.id [], rfl, by simp [BlobV.Fits, BlobV.slice], rfl⟩
  | some v =>
    rcases h with rfl | ⟨i, rfl, hn, hl, hh⟩
    · by_cases hp : v.length < 128
      · simp only [BlobV.serialize]; rw [if_pos (by omega)]
        exact post_ok' ⟨.data v, rfl, hp, Or.inl rfl⟩
      · refine post_imp (serialize_data (by omega) 0 (by omega)) (Nat.le_refl _) ?_
        rintro bs st' _ ⟨i, rfl, h1, h2, h3⟩
        refine ⟨_, rfl, ?_, Or.inr ⟨i, by simp, ?_, by omega, h3⟩⟩
        · simp [BlobV.Fits, BlobV.slice]; omega
        · intro e; subst e; simp at h1
    · simp only [BlobV.serialize]
      exact post_ok' ⟨.id i, rfl, hl, Or.inr ⟨i, rfl, hn, hl, hh⟩⟩

mutual
/-- All prefixes are shorter than 128 bytes, so `serialize` keeps them inside the records. -/
def ShortP : Node → Prop
  | .mk p _ c => p.length < 128 ∧ ShortO c
/-- `ShortP` for a children field. -/
def ShortO : Option (List Node) → Prop
  | none => True
  | some l => ShortL l
/-- `ShortP` for siblings. -/
def ShortL : List Node → Prop
  | [] => True
  | n :: l => ShortP n ∧ ShortL l
end

/-- The bytes are one record that stands for `n`. -/
def RecRep (L : Lawful S) (g : Bool) (n : Node) (bs : Bytes) (st : σ) : Prop :=
  ∃ r i, bs = Rec.enc r ∧ r.Fits ∧ r.ch = .id i ∧ Rep L g st (.ref r.pfx r.val i) n

mutual
theorem serialize_rep {g' : Bool} : ∀ (a : SNode) (st : σ) (n : Node), Rep L g st a n →
    (g' = true ∨ g = false ∧ ShortP n) → Post L (3 * n.nodes) st (a.serialize S st) (RecRep L g' n.detached)
  | .arc p v as, st, .mk q w c, h, hg => by
    simp only [Rep, SNode.pfx, SNode.val, SNode.children] at h
    simp only [SNode.serialize]
    refine post_le (n := 1 + (1 + (1 + 3 * nodesO c))) (by simp only [nodes]; omega) (post_bind (serialize_pfx h.1 (hg.imp id fun h => ⟨h.1, h.2.1⟩)) fun pb st1 m1 ⟨p', e1, f1, r1⟩ => ?_)
    refine post_bind (serialize_val (valRep_mono m1 h.2.1)) fun vb st2 m2 ⟨v', e2, f2, r2⟩ => ?_
    have hc := repC_mono (m1.trans m2) _ _ h.2.2
    cases as with
    | nil =>
      have hcd : detachedO c = none := by
        cases c with
        | none => rfl
        | some l =>
          cases l with
          | nil => rfl
          | cons x l => simp [RepC, RepL] at hc
      rw [List.isEmpty_nil, if_pos rfl]
      refine post_ok' ⟨⟨p', v', .id []⟩, [], ?_, ⟨f1, f2, by simp [BlobV.Fits, BlobV.slice]⟩, rfl, ?_⟩
      · subst e1 e2; rfl
      · simp only [detached, hcd, Rep, SNode.pfx, SNode.val, SNode.children, RepC]
        exact ⟨pfxRep_mono m2 r1, r2, trivial⟩
    | cons a as =>
      rw [if_neg (by simp)]
      cases c with
      | none => simp [RepC] at hc
      | some l =>
        simp only [RepC] at hc
        rcases hc with ⟨as', e, hr⟩ | ⟨_, _, _, e, _⟩
        · cases e
          have hs := serializeL_rep (a :: as) [] 0 st2 l hr (hg.imp id fun h => ⟨h.1, h.2.2⟩)
          refine post_le (n := 3 * nodesL l + (1 + 0)) (by simp only [nodesO]; omega) (post_bind hs fun ⟨data, rs⟩ st3 m3 ⟨tail, ht, hrr⟩ => ?_)
          refine post_bind (post_write st3 data) fun i st4 m4 ⟨hh, l1, l2⟩ => ?_
          have hid : Hdr.id? (i.length + 1) = some (UInt8.ofNat (i.length + 1) ||| 0x80) := hdr_id_lt (by omega)
          rw [hid]
          dsimp only
          refine post_ok' ⟨⟨p', v', .id (recordSizeByte rs :: i)⟩, recordSizeByte rs :: i, ?_, ⟨f1, f2, ?_⟩, rfl, ?_⟩
          · subst e1 e2
            simp only [Rec.enc]
            congr 1
          · simp [BlobV.Fits, BlobV.slice]; omega
          · have hl : l ≠ [] := by rintro rfl; simp [RepL] at hr
            simp only [List.nil_append] at ht
            subst ht
            have hd : detachedO (some l) = some (detachedL l) := by
              cases l with
              | nil => exact absurd rfl hl
              | cons _ _ => rfl
            have hld : detachedL l ≠ [] := by
              cases l with
              | nil => exact absurd rfl hl
              | cons _ _ => simp [detachedL]
            simp only [detached, hd, Rep, SNode.pfx, SNode.val, SNode.children, RepC]
            refine ⟨pfxRep_mono (m2.trans (m3.trans m4)) r1, valRep_mono (m3.trans m4) r2, Or.inr ?_⟩
            exact ⟨_, i, data, rfl, by omega, hld, hh, repR_mono m4 _ _ hrr⟩
        · cases e
  | .ref p v i, st, .mk q w c, h, hg => by
    have hnf := rep_ref_nf _ _ _ _ h
    rw [detached_nf _ hnf]
    simp only [Rep, SNode.pfx, SNode.val, SNode.children] at h
    simp only [SNode.serialize]
    refine post_le (n := 1 + (1 + (1 + 3 * nodesO c))) (by simp only [nodes]; omega) (post_bind (serialize_pfx h.1 (hg.imp id fun h => ⟨h.1, h.2.1⟩)) fun pb st1 m1 ⟨p', e1, f1, r1⟩ => ?_)
    refine post_bind (serialize_val (valRep_mono m1 h.2.1)) fun vb st2 m2 ⟨v', e2, f2, r2⟩ => ?_
    have hc := repC_mono (m1.trans m2) _ _ h.2.2
    have hfit : (BlobV.id i).Fits := by
      cases c with
      | none => simp [RepC] at hc; simp [hc, BlobV.Fits, BlobV.slice]
      | some l =>
        simp only [RepC] at hc
        rcases hc with ⟨as', e, hr⟩ | ⟨rs, j, _, e, hl, _⟩
        · cases e
        · cases e; simp [BlobV.Fits, BlobV.slice]; omega
    refine post_ok' ⟨⟨p', v', .id i⟩, i, ?_, ⟨f1, f2, hfit⟩, rfl, ?_⟩
    · subst e1 e2; rfl
    · simp only [Rep, SNode.pfx, SNode.val, SNode.children]
      refine ⟨pfxRep_mono m2 r1, r2, repC_weaken (fun h => ?_) _ _ hc⟩
      rcases hg with h' | ⟨h', _⟩
      · exact h'
      · rw [h'] at h; cases h
theorem serializeL_rep {g' : Bool} : ∀ (as : List SNode) (data : Bytes) (rs : Nat) (st : σ) (l : List Node),
    RepL L g st as l → (g' = true ∨ g = false ∧ ShortL l) →
    Post L (3 * nodesL l) st (serializeL S as data rs st) fun out st' => ∃ tail, out.1 = data ++ tail ∧ RepR L g' st' tail (detachedL l)
  | [], data, rs, st, l, h, hg => by
    cases l with
    | nil => simp only [serializeL]; exact post_ok' ⟨[], by simp, by simp [detachedL, RepR]⟩
    | cons n l => simp [RepL] at h
  | a :: as, data, rs, st, l, h, hg => by
    cases l with
    | nil => simp [RepL] at h
    | cons n l =>
      simp only [RepL] at h
      obtain ⟨a', as', e, h1, h2⟩ := h
      cases e
      simp only [serializeL]
      refine post_le (n := 3 * n.nodes + 3 * nodesL l) (by simp only [nodesL]; omega)
        (post_bind (serialize_rep a st n h1 (hg.imp id fun h => ⟨h.1, h.2.1⟩)) fun b st1 m1 ⟨r, i, e1, f1, hr, rep⟩ => ?_)
      refine post_imp (serializeL_rep as (data ++ b) _ st1 l (repL_mono m1 _ _ h2) (hg.imp id fun h => ⟨h.1, h.2.2⟩)) (Nat.le_refl _) ?_
      rintro ⟨out, k⟩ st2 m2 ⟨tail, e2, h3⟩
      refine ⟨b ++ tail, by simp only at e2 ⊢; rw [e2, List.append_assoc], ?_⟩
      simp only [detachedL, RepR]
      exact ⟨r, i, tail, by rw [e1]; exact readOne_enc f1 tail, hr, rep_mono m2 _ _ rep, h3⟩
end

end

end Radix
