import Verif.Props.AttMaps
import Verif.Proofs.Group

/-
Property C82: what is stored follows the documented format, and whatever follows the documented format is read.
The format is defined in `Verif/Spec/Format.lean`.

`L.Has st i d`: the store has the bytes `d` under the id `i`. `IsNode ⟨ids, exact⟩ (L.Has st) d bs`: the bytes are the tree `d` in the documented format; `ids` says whether prefixes may be
stored under an id, `exact` whether the rules for writers hold too.
-/

set_option linter.unusedVariables false

namespace Radix
open Node
open Radix.Spec.Format (Doc IsNode Valid Ordered mapOf entries literal reference)

section
variable {σ ε : Type} {S : BlobStore σ ε} {L : Lawful S}

theorem blob_again {b : BlobV} (h : b.Fits) (n : Nat) (st : σ) : b.serialize S n st = (.ok b.enc, st) := by
  cases b with
  | id i => rfl
  | data d =>
    have h : d.length < 128 := h
    simp only [BlobV.serialize]
    rw [if_pos h]; rfl

theorem ref_again {r : Rec} {i : Bytes} (h : r.Fits) (hc : r.ch = .id i) (st : σ) : (SNode.ref r.pfx r.val i).serialize S st = (.ok r.enc, st) := by
  simp only [SNode.serialize, blob_again h.1, blob_again h.2.1, stBind]
  rw [Rec.enc, hc]; rfl

theorem valid_ofNode {t : Node} (ho : Ord t) (hs : Shape t) : Valid (ofNode t) := by
  rw [← valid_toNode, toNode_ofNode]
  exact ⟨ord_detached _ ho, shape_detached hs⟩

theorem mapOf_ofNode {t : Node} (ho : Ord t) (k : Bytes) : mapOf (ofNode t) k = den t k := by
  have h : Ordered (ofNode t) := by rw [← ord_toNode, toNode_ofNode]; exact ord_detached _ ho
  rw [← den_mapOf h, toNode_ofNode, den_detached]

/-! ### C82 -/

/-- **C82**: a tree in memory is attached to a store and, at any later time, saved. The id that the user gets is the id of bytes that follow the documented format exactly, including
the rules for writers. The entries are those of the tree. -/
theorem C82_attach {t : Node} (ht : Proper t) {st st1 st2 st3 : σ} {a a' : SNode} {i : Bytes} (h1 : tryAttached S t st = (.ok a, st1)) (hm : Mono L st1 st2)
    (h2 : tryReattach S a st2 = (.ok (a', i), st3)) :
    ∃ bs d, L.Has st3 i bs ∧ IsNode ⟨true, true⟩ (L.Has st3) d bs ∧ Valid d ∧ entries [] d = iter t := by
  have hs := serialize_isNode (S := S) (L := L) t st
  unfold tryAttached at h1
  rcases he : (embed t).serialize S st with ⟨r, st'⟩
  rw [he] at h1 hs
  cases r with
  | ok bs =>
    have hs := hs.2.1
    simp only [stBind] at h1
    obtain ⟨q, j, e1, e2, e3, e4⟩ := isNode_rep _ _ hs
    have e5 : readOne bs = some (q, []) := by rw [e1]; simpa using readOne_enc e2 []
    rw [e5] at h1
    simp only [List.isEmpty_nil, if_pos, Rec.toOwned, e3] at h1
    cases h1
    unfold tryReattach at h2
    rw [ref_again e2 e3] at h2
    simp only [stBind] at h2
    rcases hw : S.write st2 q.enc with ⟨r, st4⟩
    rw [hw] at h2
    cases r with
    | ok i' =>
      simp only at h2
      have hi : i' = i ∧ st4 = st3 := by
        cases hd : deserialize S q.enc <;> rw [hd] at h2 <;> cases h2
        exact ⟨rfl, rfl⟩
      obtain ⟨rfl, rfl⟩ := hi
      refine ⟨bs, ofNode t, by rw [e1]; exact (L.write_ok hw).1, isNode_mono (hm.trans (mono_write hw)) _ _ hs, valid_ofNode (reach_ord ht) (proper_shape ht), ?_⟩
      rw [entries_ofNode, iter_eq]
    | err e => cases h2
    | panic => cases h2
    | deep => cases h2
  | err e => cases h1
  | panic => cases h1
  | deep => cases h1

/-- **C82**, the same for a tree that is attached from the start and has never been saved. -/
theorem C82_first_save {t : Node} (ht : Proper t) {st st' : σ} {a' : SNode} {i : Bytes} (h : tryReattach S (embed t) st = (.ok (a', i), st')) :
    ∃ bs d, L.Has st' i bs ∧ IsNode ⟨true, true⟩ (L.Has st') d bs ∧ Valid d ∧ entries [] d = iter t := by
  have hs := serialize_isNode (S := S) (L := L) t st
  unfold tryReattach at h
  rcases he : (embed t).serialize S st with ⟨r, st1⟩
  rw [he] at h hs
  cases r with
  | ok bs =>
    have hs := hs.2.1
    simp only [stBind] at h
    rcases hw : S.write st1 bs with ⟨r, st4⟩
    rw [hw] at h
    cases r with
    | ok i' =>
      simp only at h
      have hi : i' = i ∧ st4 = st' := by
        cases hd : deserialize S bs <;> rw [hd] at h <;> cases h
        exact ⟨rfl, rfl⟩
      obtain ⟨rfl, rfl⟩ := hi
      refine ⟨bs, ofNode t, (L.write_ok hw).1, isNode_mono (mono_write hw) _ _ hs, valid_ofNode (reach_ord ht) (proper_shape ht), ?_⟩
      rw [entries_ofNode, iter_eq]
    | err e => cases h
    | panic => cases h
    | deep => cases h
  | err e => cases h
  | panic => cases h
  | deep => cases h

/-- **C82**: whatever the history of an attached tree, what is saved follows the documented format, and is a valid tree with the map of the history. If keys are short, no prefix is stored
under an id. If the history has blobs of other programs, then short values need not be inline, and record sizes may be wrong, as they were; for other histories see `C82_save`, in
`Verif/Props/FormatExact.lean`. -/
theorem C82_save_any {long : Bool} {st st' : σ} {a a' : SNode} {m : Spec.Map} {i : Bytes} (h : Att S L long st a m) (hl : long = false → ∀ k v, m k = some v → k.length < 128)
    (he : tryReattach S a st = (.ok (a', i), st')) :
    ∃ bs d, L.Has st' i bs ∧ IsNode ⟨long, false⟩ (L.Has st') d bs ∧ Valid d ∧ ∀ k, mapOf d k = m k := by
  obtain ⟨t, ho, hs, hr, hd⟩ := att_stands h
  obtain ⟨_, _, bs, hh, hrec⟩ := post_of_ok (tryReattach_rep hr (hg_of ho hs hd hl)) he
  refine ⟨bs, ofNode t.detached, hh, rep_isNode _ _ hrec, valid_ofNode (ord_detached _ ho) (shape_detached hs), fun k => ?_⟩
  rw [mapOf_ofNode (ord_detached _ ho), den_detached, hd]

/-- **C82**: bytes in the store that follow the documented format, whoever has written them, are loaded, unless a read fails. If they are a valid tree, all theorems about attached trees hold
for the tree (`Att`): the values of record size bytes do not matter, nor whether short values are inline. -/
theorem C82_load {long : Bool} {st : σ} {i bs : Bytes} {d : Doc} (hh : L.Has st i bs) (hn : IsNode ⟨long, false⟩ (L.Has st) d bs) (hv : Valid d) :
    (∃ a, tryLoad S st i = .ok a ∧ Att S L long st a (mapOf d)) ∨ (∃ e, tryLoad S st i = .err e) ∧ ¬ ReadsSucceed L st := by
  have := tryLoad_rep (S := S) hh (isNode_rep d bs hn)
  cases e : tryLoad S st i with
  | ok a => exact Or.inl ⟨a, rfl, .foreign hh hn hv e⟩
  | err x => rw [e] at this; exact Or.inr ⟨⟨x, rfl⟩, this⟩
  | panic => rw [e] at this; exact this.elim
  | deep => rw [e] at this; exact this.elim

/-- **C82**: for reading it is enough that siblings are in order. Lookups and iteration see the documented entries, also if there are nodes without a value and with one child only, or with
none. -/
theorem C82_read {long : Bool} {st : σ} {i bs : Bytes} {d : Doc} (hh : L.Has st i bs) (hn : IsNode ⟨long, false⟩ (L.Has st) d bs) (hv : Ordered d) :
    (∃ a, tryLoad S st i = .ok a ∧ (∀ k, Agrees L st (fun fuel => getLoadS S fuel st a k) (mapOf d k)) ∧
      (∀ k, Agrees L st (fun fuel => containsKeyS S fuel st a k) (mapOf d k).isSome) ∧
      ∀ sts, Later L st sts → ∃ log, log.map (·.1) = sts ∧ IterLog (SIter.next S) (iterS a) log ∧ GoodLog L (SameEntry L) (entries [] d) log) ∨
    (∃ e, tryLoad S st i = .err e) ∧ ¬ ReadsSucceed L st := by
  have := tryLoad_rep (S := S) hh (isNode_rep d bs hn)
  cases e : tryLoad S st i with
  | ok a =>
    rw [e] at this
    have hr : Rep L long st a (toNode d) := this
    have ho := (ord_toNode d).2 hv
    refine Or.inl ⟨a, rfl, fun k => ?_, fun k => ?_, fun sts hl => ?_⟩
    · rw [← den_mapOf hv, ← get_eq_den _ _ ho]
      exact agrees_bind (fun n => getS_fuel a k n) (getS_rep ho hr (Nat.le_refl _) k) fun x hx => loadOptV_rep hx
    · rw [← den_mapOf hv, ← get_eq_den _ _ ho, ← containsKey_eq]
      exact rpost_agrees (fun n => containsKeyS_fuel a k n) (containsKeyS_rep ho hr (Nat.le_refl _) k)
    · rw [← ents_toNode, ← iter_eq, ← iter_stack]
      exact iter_log sts (iterS_rep hr) hl
  | err x => rw [e] at this; exact Or.inr ⟨⟨x, rfl⟩, this⟩
  | panic => rw [e] at this; exact this.elim
  | deep => rw [e] at this; exact this.elim

end

end Radix

namespace Radix.Kept
open Radix
open Radix.Heap.Att (Op Obs Sees Fine)
open Radix.Spec (Map)
open Radix.Spec.Kept
open Radix.Spec.Format (Doc IsNode Valid mapOf)

section
variable {σ ε : Type} {S : BlobStore σ ε} {mask : Nat → Nat → List Bool} {n : Nat} (L : Lawful S)

/-- The store has the map in the documented format under the id. -/
def Stores (st : σ) (id : Bytes) (m : Map) : Prop :=
  ∃ bs d, L.Has st id bs ∧ IsNode ⟨false, false⟩ (L.Has st) d bs ∧ Valid d ∧ ∀ k, mapOf d k = m k

theorem saved_iff {st : σ} {id : Bytes} {m : Map} : Saved L st id m ↔ Stores L st id m := by
  constructor
  · rintro ⟨t, bs, ho, hs, hd, hh, hr⟩
    exact ⟨bs, ofNode t, hh, rep_isNode _ _ hr, valid_ofNode ho hs, fun k => by rw [mapOf_ofNode ho, hd]⟩
  · rintro ⟨bs, d, hh, hn, hv, hm⟩
    obtain ⟨ho, hs⟩ := valid_toNode.2 hv
    exact ⟨toNode d, bs, ho, hs, fun k => by rw [den_mapOf hv.1, hm], hh, isNode_rep d bs hn⟩

/-- **C82** for programs: let the store have some maps, written in the documented format by whatever program, without ids for prefixes. A program that starts with nothing in its hands, where
things share memory, may load them; it sees what the maps say, call for call. At the end, all maps that it has saved and those that were there before are in the store in the documented
format. -/
theorem C82_programs {st st' : σ} {saved : Bytes → Option Map} {ops : List (Op σ ε)} {os : List (Obs ε)} {c : Nat} (hs : ∀ id m, saved id = some m → Stores L st id m)
    (hk : Keeping L ops) (hf : Fine S mask n st ops) (h : Sees S mask n st ops os st' c) :
    ∃ w, Run L st ⟨[], saved⟩ ops os st' w ∧ w.items.length = c ∧ ∀ id m, w.saved id = some m → Stores L st' id m := by
  have hr : Rel L st [] ⟨[], saved⟩ := ⟨⟨rfl, fun i ob x h => by cases h⟩, fun id m e => (saved_iff L).2 (hs id m e)⟩
  obtain ⟨w, h1, h2, h3⟩ := run_sees L hr hk hf h
  exact ⟨w, h1, h2, fun id m e => (saved_iff L).1 (h3 id m e)⟩

end
end Radix.Kept

namespace Radix
open Node
open Radix.Spec.Format

/-! ### Concrete cases -/

/-- The bytes that are saved for a tree, in an empty `MemStore`, and the blob that is stored first. -/
def savedBytes (t : Node) : Bytes × Option Bytes :=
  match (embed t).serialize memStore [] with
  | (.ok bs, st) => (bs, st.find 1)
  | _ => ([], none)

/-- The four examples of the documentation (src/lib.rs 134-200). -/
example : savedBytes (insert .empty [] []) = ([0x00, 0x00, 0x80], none) := by decide +kernel
example : savedBytes (insert .empty [0x68, 0x65, 0x6c, 0x6c, 0x6f] [0x77, 0x6f, 0x72, 0x6c, 0x64, 0x21]) =
    ([0x05, 0x68, 0x65, 0x6c, 0x6c, 0x6f, 0x06, 0x77, 0x6f, 0x72, 0x6c, 0x64, 0x21, 0x80], none) := by decide +kernel
example : savedBytes (insert .empty (List.replicate 256 0x61) (List.replicate 256 0x62)) =
    ([0x89, 0x61, 0, 0, 0, 0, 0, 0, 0, 1, 0x88, 0, 0, 0, 0, 0, 0, 0, 2, 0x80], some (List.replicate 256 0x61)) := by decide +kernel
example : savedBytes (insert (insert .empty [0x61, 0x61] []) [0x61, 0x62] []) =
    ([0x01, 0x61, 0x80, 0x89, 0x04, 0, 0, 0, 0, 0, 0, 0, 1], some [0x01, 0x61, 0x00, 0x80, 0x01, 0x62, 0x00, 0x80]) := by decide +kernel

/-- A tree with two short and one long value is attached to a `MemStore` and saved: the hypotheses of `C82_attach`. -/
def exTree : Node := insert (insert (insert .empty [1, 2] [3]) [1] (List.replicate 200 4)) [5] []
def exAttach : Option (Bytes × MemState) :=
  match tryAttached memStore exTree [] with
  | (.ok a, st1) =>
    match tryReattach memStore a (memStore.write st1 [7]).2 with
    | (.ok (_, i), st3) => some (i, st3)
    | _ => none
  | _ => none
example : ∃ a st1 a' i st3, tryAttached memStore exTree [] = (.ok a, st1) ∧ Mono memLawful st1 (memStore.write st1 [7]).2 ∧
    tryReattach memStore a (memStore.write st1 [7]).2 = (.ok (a', i), st3) := by
  have h : exAttach.isSome = true := by decide +kernel
  unfold exAttach at h
  split at h
  · rename_i a st1 e1
    split at h
    · rename_i a' i st3 e2; exact ⟨a, st1, a', i, st3, e1, fun _ _ h => memLawful.write_mono rfl h, e2⟩
    · cases h
  · cases h
example : Proper exTree := .insert _ _ (.insert _ _ (.insert _ _ .empty))

/-- A tree as another program might write it: a short value is stored under an id, and the record size byte is just wrong. -/
def exDoc : Doc := .node [1] none [.node [2] (some [9]) [], .node [3] (some []) []]
def exDocStore : MemState :=
  [(3, literal [1] ++ reference [] ++ reference (77 :: toBE 8 2)),
   (2, (literal [2] ++ reference (toBE 8 1) ++ reference []) ++ (literal [3] ++ literal [] ++ reference [])),
   (1, [9])]
theorem exDoc_has : memLawful.Has exDocStore (toBE 8 3) (literal [1] ++ reference [] ++ reference (77 :: toBE 8 2)) := by
  refine ⟨by decide, ?_⟩; decide +kernel
theorem exDoc_isNode (g : Bool) : IsNode ⟨g, false⟩ (memLawful.Has exDocStore) exDoc (literal [1] ++ reference [] ++ reference (77 :: toBE 8 2)) := by
  simp only [exDoc, IsNode, IsKids, IsNodes]
  refine ⟨_, _, _, rfl, Or.inl ⟨by decide, rfl⟩, rfl, 77, toBE 8 2, literal [2] ++ reference (toBE 8 1) ++ reference [], [literal [3] ++ literal [] ++ reference []], by decide, rfl,
    ⟨by decide, by decide +kernel⟩, by simp, ⟨_, _, _, rfl, Or.inl ⟨by decide, rfl⟩, Or.inr ⟨by simp, toBE 8 1, by decide, by decide, ⟨by decide, by decide +kernel⟩, rfl⟩, rfl⟩,
    _, [], rfl, ⟨_, _, _, rfl, Or.inl ⟨by decide, rfl⟩, Or.inl ⟨by decide, rfl⟩, rfl⟩, rfl⟩
theorem exDoc_valid : Valid exDoc := by
  simp [Valid, exDoc, Ordered, OrderedL, Spec.Format.Compact, CompactL, Doc.pfx, Doc.first]

/-- The hypotheses of `C82_load` and `C82_read` are met; the tree can be loaded and saved again (the hypotheses of `C82_save_any`). -/
def exResave : Option (Bytes × Option Bytes × Option Bytes × Option Bytes) :=
  match tryLoad memStore exDocStore (toBE 8 3) with
  | .ok a =>
    match tryReattach memStore a exDocStore with
    | (.ok x, st) => some (x.2, mapOf exDoc [1, 2], mapOf exDoc [1, 3], mapOf exDoc [1])
    | _ => none
  | _ => none
example : exResave = some (toBE 8 4, some [9], some [], none) := by decide +kernel
example : ∃ a a' i st', Att memStore memLawful false exDocStore a (mapOf exDoc) ∧ (∀ k v, mapOf exDoc k = some v → k.length < 128) ∧
    tryReattach memStore a exDocStore = (.ok (a', i), st') := by
  have h : exResave.isSome = true := by decide +kernel
  unfold exResave at h
  split at h
  · rename_i a e1
    split at h
    · rename_i x st e2
      refine ⟨a, x.1, x.2, st, .foreign exDoc_has (exDoc_isNode false) exDoc_valid e1, fun k v hk => ?_, e2⟩
      have he : entries [] exDoc = [([1, 2], [9]), ([1, 3], [])] := by simp [exDoc, entries, entriesL]
      unfold mapOf at hk
      rw [he] at hk
      simp only [List.find?_cons, List.find?_nil] at hk
      split at hk
      · rename_i hx; rw [← of_decide_eq_true hx]; decide
      · split at hk
        · rename_i hx; rw [← of_decide_eq_true hx]; decide
        · cases hk
    · cases h
  · cases h

end Radix

namespace Radix.Kept
open Radix
open Radix.Heap.Att (Op Obs Sees Fine exMask)
open Radix.Spec (Map)
open Radix.Spec.Format (mapOf)

/-- What is in the store: the tree that another program has written. -/
def exForeign : Bytes → Option Map := fun id => if id = toBE 8 3 then some (mapOf exDoc) else none

example : ∀ id m, exForeign id = some m → Stores memLawful exDocStore id m := by
  intro id m h
  unfold exForeign at h
  split at h <;> cases h
  subst_vars
  exact ⟨_, exDoc, exDoc_has, exDoc_isNode false, exDoc_valid, fun _ => rfl⟩

/-- A program loads it, changes it, and saves it. -/
def exProgram : List (Op MemState Unit) := [.load (toBE 8 3), .get 0 [1, 2], .loadValue 1, .insert 0 [1, 3, 4] [5], .reattach 0, .get 0 [1, 3, 4]]

example : Spec.Kept.Keeping memLawful exProgram := by simp [Spec.Kept.Keeping, exProgram]
example : Fine memStore exMask 20 exDocStore exProgram := by show Option.isSome _ = true; decide +kernel
example : (Radix.Heap.Att.prun memStore exMask 20 (exDocStore, []) exProgram).map (fun r => (r.1, r.2.2.length)) =
    some ([.unit, .value (some (.id (toBE 8 1))), .bytes [9], .unit, .bytes (toBE 8 6), .value (some (.data [5]))], 3) := by decide +kernel

end Radix.Kept
