import Verif.Props.Format
import Verif.Props.Cost
import Verif.Proofs.SelfWritten

/-
Property C82, rules for writers: if everything of a tree that is in a store was written by this library, or by others who follow them (`FromDocs true`, in `Verif/Stored/SelfWritten.lean`), then what is saved has short
prefixes and short values inline and record sizes as documented, whatever was done with the tree before, and whatever the outcomes were.
-/

set_option linter.unusedVariables false

namespace Radix
open Node
open Radix.Spec.Format (Doc IsNode Valid Ordered mapOf entries literal reference)

section
variable {σ ε : Type} {S : BlobStore σ ε} {L : Lawful S}

/-- **C82**: whatever a program has done with its trees, with keys and values of any length, whichever calls have failed or panicked on the way: if a tree is saved, then the bytes under the id
that the user gets, and all blobs that they refer to, follow the documented format; with `ex` also the rules for writers, if everything that was in the store did. -/
theorem C82_always {ex : Bool} {st st' : σ} {a a' : SNode} {i : Bytes} (h : FromDocs ex S L st a) (he : tryReattach S a st = (.ok (a', i), st')) :
    ∃ bs d, L.Has st' i bs ∧ IsNode ⟨true, ex⟩ (L.Has st') d bs := (Self.reattach_ok (Self.self_ex h) he).2

/-- **C82**: if all calls were successful (`Att`; `m` is the map of the history), and no id is the id of two different blobs, then what is saved follows the documented format with the rules for
writers, and is a valid tree with the map of the history. If keys are short, no prefix is stored under an id. -/
theorem C82_save {long : Bool} {st st' : σ} {a a' : SNode} {m : Spec.Map} {i : Bytes} (h : Att S L long st a m) (hw : FromDocs true S L st a)
    (hl : long = false → ∀ k v, m k = some v → k.length < 128) (hu : ∀ i d d', L.Has st' i d → L.Has st' i d' → d = d') (he : tryReattach S a st = (.ok (a', i), st')) :
    ∃ bs d, L.Has st' i bs ∧ IsNode ⟨long, true⟩ (L.Has st') d bs ∧ Valid d ∧ ∀ k, mapOf d k = m k := by
  obtain ⟨bs, d, hh, hn, hv, hm⟩ := C82_save_any h hl he
  obtain ⟨bs', d', hh', hn'⟩ := C82_always hw he
  cases hu _ _ _ hh hh'
  exact ⟨bs, d, hh, (Self.joint_node hu d d' bs bs [] [] hn hn' rfl).2.2.2, hv, hm⟩

/-- **C82**: documented bytes describe one tree only. (If two trees have the same bytes in a store in which no id is the id of two different blobs, they are the same, whatever follows the bytes,
and whether or not the writers have followed the rules for writers.) -/
theorem C82_unambiguous {g e g' e' : Bool} {has : Bytes → Bytes → Prop} (hu : ∀ i d d', has i d → has i d' → d = d') {d d' : Doc} {bs bs' x y : Bytes} (h : IsNode ⟨g, e⟩ has d bs)
    (h' : IsNode ⟨g', e'⟩ has d' bs') (he : bs ++ x = bs' ++ y) : d = d' ∧ bs = bs' :=
  have := Self.joint_node hu d d' bs bs' x y h h' he
  ⟨this.1, this.2.1⟩

/-- If reads succeed, no id is the id of two different blobs. -/
theorem one_blob {st : σ} (h : ReadsSucceed L st) (i d d' : Bytes) (h1 : L.Has st i d) (h2 : L.Has st i d') : d = d' := by
  have := h _ _ h1
  rw [h _ _ h2] at this
  cases this; rfl

end

/-! ### The hypotheses are met -/

theorem mem_one (st : MemState) (i d d' : Bytes) (h1 : memLawful.Has st i d) (h2 : memLawful.Has st i d') : d = d' := by
  have := h1.2
  rw [h2.2] at this
  cases this; rfl

/-- `try_reattach` (src/node/mod.rs 3813-3819) of the tree after the insertion. -/
def wideSaved : Res Unit (SNode × Bytes) × MemState := tryReattach memStore (wideInsert 10).2 (memState wide)

/-- A tree with a long value is attached, an entry is inserted, and the tree is saved. -/
example : ∃ a a' i st' m, Att memStore memLawful false (memState wide) a m ∧ FromDocs true memStore memLawful (memState wide) a ∧ (∀ k v, m k = some v → k.length < 128) ∧
    tryReattach memStore a (memState wide) = (.ok (a', i), st') ∧ i = toBE 8 10 ∧ st'.length = 10 := by
  have e := memTree_eq (t := wide) (by decide +kernel)
  have h0 : Att memStore memLawful false (memState wide) (memTree wide) (get wide) := .attach (.fromIter _) (fun _ => wide_short) e
  have h1 : FromDocs true memStore memLawful (memState wide) (memTree wide) := .attach e
  have h : (wideInsert 10).1 = .ok () := by decide +kernel
  have ho := outcome_fuelP (f := wideInsert) (fun n => outerCombineWithS_fuel _ _ n _ _) (N := 10) (by rw [h]; simp)
  rw [show wideInsert 10 = (.ok (), (wideInsert 10).2) from Prod.ext h rfl] at ho
  have hs : okB wideSaved.1 = true := by decide +kernel
  have hi : (match wideSaved.1 with | .ok x => decide (x.2 = toBE 8 10) | _ => false) = true := by decide +kernel
  have hn : wideSaved.2.length = 10 := by decide +kernel
  rcases e2 : wideSaved with ⟨r, st'⟩
  rw [e2] at hs hi hn
  cases r with
  | ok x =>
    refine ⟨_, x.1, x.2, st', _, .insert true _ [2, 3] [9] h0 ho, .insert true [2, 3] [9] (fun d s => List.sublist_append_left d s) h1 ho, fun k v hk => ?_, e2, of_decide_eq_true hi, hn⟩
    unfold Spec.Map.insert at hk
    split at hk
    · rename_i hx; rw [hx]; decide
    · exact wide_short k v hk
  | _ => cases hs

/-- A function as it is usually passed: it loads the values and gives a value at hand. It makes up no ids. -/
example (st : MemState) : NoNewIds true memLawful st memLawful st (joinF st) := by
  intro av bv v _ _ _ _ h i e
  subst e
  unfold joinF at h
  cases h1 : av.load memStore st <;> rw [h1] at h <;> try cases h
  simp only [Res.bind] at h
  cases h2 : bv.load memStore st <;> rw [h2] at h <;> try cases h
  simp only at h
  split at h <;> cases h

end Radix
