import Verif.Proofs.UpdateMain

/-
Proof-internal: converters, and the public in-place operations on stored trees.
-/

set_option linter.unusedVariables false

namespace Radix
open Node

/-- `Detached` as a lawful store: it has no ids. -/
def lawfulDetached (ε : Type) : Lawful (detachedStore ε) where
  Has _ _ _ := False
  read_has h := h.elim
  write_ok h := by cases h
  write_mono _ h := h

theorem readsSucceed_detached {ε : Type} (st : Unit) : ReadsSucceed (lawfulDetached ε) st := fun _ _ h => h.elim

theorem conv_downcast {σ ε : Type} {S : BlobStore σ ε} (L : Lawful S) {M : Lawful (detachedStore ε)} (st : σ) (g gb : Bool)
    (E P : Prop) (dbg : Bool) (ab) (B : Nat) :
    ConvOK (e := singleEnv S st dbg ab) L M g gb E P B (SConv.downcast ε) .downcast where
  node b m _ h := by
    rcases h.2 with hP | ⟨a, rfl⟩
    · cases b with
      | owned a => exact ⟨plain_rep (plain_detached _ _) _ _ h.1, id⟩
      | borrowed r => exact hP
    · exact ⟨plain_rep (plain_detached _ _) _ _ h.1, id⟩
  short b m k _ h := by
    rcases h.2 with hP | ⟨a, rfl⟩
    · cases b with
      | owned a =>
        exact rp_imp (cloneShortened_rep (fun hn => absurd (fun _ _ h => absurd h (plain_detached M () _ _)) hn) h.1 k) fun x hx =>
          plain_rep (plain_detached _ _) _ _ hx.1
      | borrowed r => exact hP
    · exact rp_imp (cloneShortened_rep (fun hn => absurd (fun _ _ h => absurd h (plain_detached M () _ _)) hn) h.1 k) fun x hx =>
        plain_rep (plain_detached _ _) _ _ hx.1
  value v y h := plain_val (plain_detached M ()) h

section
variable {σ ε : Type} {S : BlobStore σ ε} {L : Lawful S} {g : Bool} {st : σ}

theorem uok_single (dbg : Bool) (ab) (P : Prop) :
    UOK (e := singleEnv S st dbg ab) L (lawfulDetached ε) (¬ ReadsSucceed L st) P :=
  ⟨id, fun hn => absurd (readsSucceed_detached ()) hn, Or.inr (plain_detached _ _)⟩

theorem single_refOK (dbg : Bool) (ab) (P : Prop) (k v : Bytes) :
    RefOK (e := singleEnv S st dbg ab) (lawfulDetached ε) false P (singleRef k v) (single k v) :=
  ⟨embed_rep (single k v), Or.inr ⟨_, rfl⟩⟩

theorem insertS_repH {a : SNode} {n : Node} (h : Rep L g st a n) (hg : g = false ∨ Tidy n) (dbg : Bool) (ab)
    {fuel : Nat} (hf : n.height + 1 ≤ fuel) (k v : Bytes) :
    UP (¬ ReadsSucceed L st) False (insertS S st dbg ab fuel a k v) fun _ a' => Rep L g st a' (insert n k v) := by
  refine outerCombineWithS_repH (e := singleEnv S st dbg ab) (B := 1) (uok_single dbg ab False)
    (conv_downcast L st g false _ _ dbg ab 1) (ff := fun _ r => some r) ?_ (Or.inr fun _ _ => rfl) fuel a _ n (single k v)
    (by simpa [single, height, heightO] using hf) (by simp [single, height, heightO])
    (hg.imp id fun h => ⟨h, ord_single k v, shape_single k v⟩) h (single_refOK dbg ab _ k v)
  intro av bv x y _ hb
  exact plain_val (plain_detached (lawfulDetached ε) ()) hb

theorem removeS_repH {a : SNode} {n : Node} (h : Rep L false st a n) (hs : Shape n) (dbg : Bool) (ab)
    {fuel : Nat} (hf : n.height + 1 ≤ fuel) (k : Bytes) :
    UP (¬ ReadsSucceed L st) (dbg = true) (removeS S st dbg ab fuel a k) fun _ a' => Rep L false st a' (remove n k) := by
  refine leftCombineWithS_repH (e := singleEnv S st dbg ab) (uok_single dbg ab _) Or.inl (ff := fun _ _ => none) ?_ fuel a _ n
    (single k []) (by simpa [single, height, heightO] using hf) (Or.inl hs) h (single_refOK dbg ab _ k [])
  intro av bv x y _ hb
  exact rfl

theorem removePrefixS_repH {a : SNode} {n : Node} (h : Rep L false st a n) (hs : Shape n) (dbg : Bool) (ab)
    {fuel : Nat} (hf : n.height + 1 ≤ fuel) (p : Bytes) :
    UP (¬ ReadsSucceed L st) (dbg = true) (removePrefixS S st dbg ab fuel a p) fun _ a' =>
      Rep L false st a' (removePrefix n p) := by
  refine removePrefixWithS_repH (e := singleEnv S st dbg ab) (uok_single dbg ab _) Or.inl (ff := fun _ => true) ?_ fuel a _ n
    (single p []) (by simpa [single, height, heightO] using hf) (Or.inl hs) h (single_refOK dbg ab _ p [])
  intro bv y hb
  exact rfl

theorem insertS_rep {a : SNode} {n : Node} (h : Rep L g st a n) (hg : g = false ∨ Tidy n) (dbg : Bool) (ab)
    {fuel : Nat} (hf : n.nodes + 1 ≤ fuel) (k v : Bytes) :
    UP (¬ ReadsSucceed L st) False (insertS S st dbg ab fuel a k v) fun _ a' => Rep L g st a' (insert n k v) :=
  insertS_repH h hg dbg ab (by have := height_le_nodes n; omega) k v

theorem removeS_rep {a : SNode} {n : Node} (h : Rep L false st a n) (hs : Shape n) (dbg : Bool) (ab)
    {fuel : Nat} (hf : n.nodes + 1 ≤ fuel) (k : Bytes) :
    UP (¬ ReadsSucceed L st) (dbg = true) (removeS S st dbg ab fuel a k) fun _ a' => Rep L false st a' (remove n k) :=
  removeS_repH h hs dbg ab (by have := height_le_nodes n; omega) k

theorem removePrefixS_rep {a : SNode} {n : Node} (h : Rep L false st a n) (hs : Shape n) (dbg : Bool) (ab)
    {fuel : Nat} (hf : n.nodes + 1 ≤ fuel) (p : Bytes) :
    UP (¬ ReadsSucceed L st) (dbg = true) (removePrefixS S st dbg ab fuel a p) fun _ a' =>
      Rep L false st a' (removePrefix n p) :=
  removePrefixS_repH h hs dbg ab (by have := height_le_nodes n; omega) p

end

end Radix
