import Verif.Props.StoredRead

/-
Properties C28 - C30 and C32: storing trees and loading them again.

`Lawful S`, `Mono`, `ReadsSucceed`, `CanWrite` and `NoPanic` (Verif/Stored/Store.lean) say what a conforming store does.
`HoldsTree L st a t` (Verif/Stored/History.lean): `try_detached` of `a`, now or at any later time, returns `t`; only if
some read of the store fails it may return an error.
-/

set_option linter.unusedVariables false

namespace Radix
open Node

section
variable {σ ε : Type} {S : BlobStore σ ε} {L : Lawful S}

/-- **C28**. `try_attached` succeeds if the store can take the blobs, nothing that the store had is lost, and at any later
time `try_detached` of the result has the same contents as the original. -/
theorem C28_attach_detach {t : Node} (h : Reachable t) {st : σ} (hw : CanWrite S (3 * t.nodes) st) :
    ∃ a st' u, tryAttached S t st = (.ok a, st') ∧ Mono L st st' ∧ HoldsTree L st' a u ∧
      (∀ k, get u k = get t k) ∧ iter u = iter t := by
  have ho := reach_ord h
  have hp := tryAttached_rep (S := S) (L := L) (g := true) t st (Or.inl rfl)
  rcases e : tryAttached S t st with ⟨r, st'⟩
  rw [e] at hp
  cases r with
  | ok a =>
    refine ⟨a, st', t.detached.detached, rfl, hp.1, holdsTree_of_rep hp.2.1, fun k => ?_, ?_⟩
    · rw [get_eq_den _ _ (ord_detached _ (ord_detached _ ho)), den_detached, den_detached, get_eq_den _ _ ho]
    · rw [iter_eq, ents_detached, ents_detached, iter_eq]
  | err _ => exact absurd hw hp.2
  | panic => exact absurd (CanWrite.noPanic hw) hp.2
  | deep => exact absurd (CanWrite.noPanic hw) hp.2

/-- **C28**: if writes can fail but do not panic, `try_attached` returns a tree or an error. -/
theorem C28_attach_no_panic {t : Node} {st : σ} (L : Lawful S) (hw : NoPanic S (3 * t.nodes) st) :
    (∃ a st', tryAttached S t st = (.ok a, st')) ∨ ∃ e st', tryAttached S t st = (.err e, st') := by
  have hp := tryAttached_rep (S := S) (L := L) (g := true) t st (Or.inl rfl)
  rcases e : tryAttached S t st with ⟨r, st'⟩
  rw [e] at hp
  cases r with
  | ok a => exact Or.inl ⟨a, st', rfl⟩
  | err x => exact Or.inr ⟨x, st', rfl⟩
  | panic => exact absurd hw hp.2
  | deep => exact absurd hw hp.2

/-- What a snapshot gives: lookups and `try_detached`, as on every detached tree with the same contents. -/
def Snapshot (L : Lawful S) (st : σ) (a : SNode) (m : Spec.Map) : Prop :=
  (∀ k, Agrees L st (fun fuel => getLoadS S fuel st a k) (m k)) ∧
  ∀ u, Proper u → (∀ k, get u k = m k) → HoldsTree L st a u.detached

theorem snapshot_of_rep {g : Bool} {st : σ} {a : SNode} {m : Spec.Map} {t : Node} (ho : Ord t) (hs : Shape t)
    (hd : ∀ k, den t k = m k) (hr : Rep L g st a t.detached) : Snapshot L st a m := by
  have ho' := ord_detached t ho
  refine ⟨fun k => ?_, fun u hu hm => ?_⟩
  · rw [← hd k, ← den_detached, ← get_eq_den _ _ ho']
    exact agrees_bind (fun n => getS_fuel a k n) (getS_rep ho' hr (Nat.le_refl _) k) fun x hx => loadOptV_rep hx
  · have := holdsTree_of_rep hr
    rwa [detached_nf _ (nf_detached t), shape_unique hs (proper_shape hu) ho (reach_ord hu) fun k => by
      rw [hd, ← hm, get_eq_den _ _ (reach_ord hu)]] at this

/-- **C29**. Let `try_reattach` have returned `id` on a tree with contents `m` (of any history). Then `try_load(id)`, at any
later time and whatever has been written since, returns a tree with contents `m`; only if a read fails it may
return an error. The tree that was re-attached itself still has contents `m`, too. -/
theorem C29_snapshot {long : Bool} {st st' : σ} {a a' : SNode} {m : Spec.Map} {i : Bytes} (h : Att S L long st a m)
    (he : tryReattach S a st = (.ok (a', i), st')) :
    Snapshot L st' a' m ∧ Mono L st st' ∧
    ∀ st'', Mono L st' st'' →
      (∃ a'', tryLoad S st'' i = .ok a'' ∧ Snapshot L st'' a'' m) ∨
      (∃ e, tryLoad S st'' i = .err e) ∧ ¬ ReadsSucceed L st'' := by
  obtain ⟨t, ho, hs, hr, hd⟩ := att_stands h
  obtain ⟨hm, hr', bs, hh, hrec⟩ := post_of_ok (tryReattach_rep (L := L) (g' := true) hr (Or.inl rfl)) he
  refine ⟨snapshot_of_rep ho hs hd hr', hm, fun st'' hm' => ?_⟩
  have := tryLoad_rep (hm' _ _ hh) (recRep_mono hm' hrec)
  cases e : tryLoad S st'' i with
  | ok a'' => rw [e] at this; exact Or.inl ⟨a'', rfl, snapshot_of_rep ho hs hd this⟩
  | err x => rw [e] at this; exact Or.inr ⟨⟨x, rfl⟩, this⟩
  | panic => rw [e] at this; exact this.elim
  | deep => rw [e] at this; exact this.elim

/-- **C29**: `try_reattach` does succeed if the store can take the blobs. -/
theorem C29_reattach_succeeds {long : Bool} {st : σ} {a : SNode} {m : Spec.Map} (h : Att S L long st a m)
    {u : Node} (hu : Proper u) (hm : ∀ k, get u k = m k) (hw : CanWrite S (6 * (iter u).length + 4) st) :
    ∃ a' i st', tryReattach S a st = (.ok (a', i), st') := by
  obtain ⟨t, hst⟩ := att_stands h
  have hi := iter_of_twin (hst.twin hu hm)
  have hn := shape_nodes hst.2.1
  rw [hi] at hn
  have hw' : CanWrite S (3 * t.nodes + 1) st := hw.le (by omega)
  have hp := tryReattach_rep (L := L) (g' := true) hst.2.2.1 (Or.inl rfl)
  rcases e : tryReattach S a st with ⟨r, st'⟩
  rw [e] at hp
  cases r with
  | ok x => exact ⟨x.1, x.2, st', rfl⟩
  | err _ => exact absurd hw' hp.2
  | panic => exact absurd (CanWrite.noPanic hw') hp.2
  | deep => exact absurd (CanWrite.noPanic hw') hp.2

/-! ### Records -/

/-- A field of a record as bytes: the length, with the top bit for ids, and the bytes. -/
def fieldBytes : BlobV → Bytes
  | .data d => UInt8.ofNat d.length :: d
  | .id i => UInt8.ofNat (128 + i.length) :: i

theorem fieldBytes_enc {b : BlobV} (h : b.slice.length < 128) : fieldBytes b = b.enc := by
  cases b with
  | data d =>
    simp only [BlobV.slice] at h
    simp only [fieldBytes, BlobV.enc, BlobV.hdr, BlobV.slice, Hdr.data, List.cons.injEq, and_true]
    rw [if_pos (by omega)]
  | id i =>
    simp only [BlobV.slice] at h
    simp only [fieldBytes, BlobV.enc, BlobV.hdr, BlobV.slice, List.cons.injEq, and_true]
    have : ∀ m : Fin 128, UInt8.ofNat (128 + m.1) = UInt8.ofNat m.1 ||| 0x80 := by decide +kernel
    exact this ⟨i.length, h⟩

/-- **C30**. Reading a record from the bytes of three fields followed by anything returns the three fields, and exactly
what followed. -/
theorem C30_read_one (p v c : BlobV) (hp : p.slice.length < 128) (hv : v.slice.length < 128) (hc : c.slice.length < 128)
    (rest : Bytes) : readOne (fieldBytes p ++ fieldBytes v ++ fieldBytes c ++ rest) = some (⟨p, v, c⟩, rest) := by
  rw [fieldBytes_enc hp, fieldBytes_enc hv, fieldBytes_enc hc]
  exact readOne_enc (r := ⟨p, v, c⟩) ⟨hp, hv, hc⟩ rest

/-- **C30**: and whatever can be read is of this form, so no two different records have the same bytes. -/
theorem C30_read_one_inv {bs rest : Bytes} {r : Rec} (h : readOne bs = some (r, rest)) :
    bs = fieldBytes r.pfx ++ fieldBytes r.val ++ fieldBytes r.ch ++ rest ∧
    r.pfx.slice.length < 128 ∧ r.val.slice.length < 128 ∧ r.ch.slice.length < 128 := by
  obtain ⟨⟨h1, h2, h3⟩, e⟩ := readOne_fits h
  rw [fieldBytes_enc h1, fieldBytes_enc h2, fieldBytes_enc h3]
  exact ⟨e, h1, h2, h3⟩

/-- **C30**. The record that `serialize` writes for a node, followed by anything, is read back as one node, the rest is
what followed, and the node is the one that was written. -/
theorem C30_serialize {t : Node} {st st' : σ} {bs : Bytes} (he : (embed t).serialize S st = (.ok bs, st'))
    (rest : Bytes) : ∃ r a, readOne (bs ++ rest) = some (r, rest) ∧ (r.toOwned : Res ε SNode) = .ok a ∧
      HoldsTree L st' a t.detached := by
  obtain ⟨_, r, i, rfl, hf, hc, hr⟩ := post_of_ok
    (serialize_rep (L := L) (g := false) (g' := true) (embed t) st t (embed_rep t) (Or.inl rfl)) he
  refine ⟨r, .ref r.pfx r.val i, readOne_enc hf rest, by simp [Rec.toOwned, hc], ?_⟩
  have := holdsTree_of_rep hr
  rwa [detached_nf _ (nf_detached t)] at this

/-- **C30**. The records of a list of nodes, one after the other as `serialize` writes the children of a node, are read
back as the same list of nodes. -/
theorem C30_concatenation {ts : List Node} {st st' : σ} {data : Bytes} {rs : Nat}
    (he : serializeL S (embedL ts) [] 0 st = (.ok (data, rs), st')) {st'' : σ} (hm : Mono L st' st'') :
    Agrees L st'' (fun fuel => detachedIterS S st'' fuel (.borrowed data)) (ts.map detached) := by
  obtain ⟨_, tail, e, hr⟩ := post_of_ok
    (serializeL_rep (L := L) (g := false) (g' := true) (embedL ts) [] 0 st ts (embedL_rep ts) (Or.inl rfl)) he
  simp only [List.nil_append] at e
  subst e
  have h1 : IterRep L true st'' (.borrowed data) (detachedL ts) := repR_mono hm _ _ hr
  have := rpost_agrees (fun n => (detachedS_fuel n).2 (.borrowed data)) (detachedS_rep.2 h1 (Nat.le_refl _))
  rwa [detachedL_nf _ (nf_detachedL ts), detachedL_eq_map] at this

theorem stBind_ok {α β : Type} {x : Res ε α × σ} {f : α → σ → Res ε β × σ} {b : β} {st' : σ}
    (h : stBind x f = (.ok b, st')) : ∃ a st1, x = (.ok a, st1) ∧ f a st1 = (.ok b, st') := by
  rcases x with ⟨_ | _ | _ | _, st1⟩
  · exact ⟨_, _, rfl, h⟩
  all_goals simp [stBind] at h

theorem serialize_ne_nil : ∀ {a : SNode} {st st' : σ} {bs : Bytes}, a.serialize S st = (.ok bs, st') → bs ≠ []
  | .arc p v l, st, st', bs, h => by
    simp only [SNode.serialize] at h
    obtain ⟨pb, s1, _, h⟩ := stBind_ok h
    obtain ⟨vb, s2, _, h⟩ := stBind_ok h
    split at h
    · cases h; simp
    · obtain ⟨⟨data, rs⟩, s3, _, h⟩ := stBind_ok h
      obtain ⟨i, s4, _, h⟩ := stBind_ok h
      split at h
      · cases h; simp
      · simp at h
  | .ref p v i, st, st', bs, h => by
    simp only [SNode.serialize] at h
    obtain ⟨pb, s1, _, h⟩ := stBind_ok h
    obtain ⟨vb, s2, _, h⟩ := stBind_ok h
    cases h; simp

theorem serializeL_sizes : ∀ {l : List SNode} {data0 data : Bytes} {rs0 rs : Nat} {st st' : σ},
    serializeL S l data0 rs0 st = (.ok (data, rs), st') → ∃ recs : List Bytes, data = data0 ++ recs.flatten ∧
      recs.length = l.length ∧ (∀ r ∈ recs, r ≠ []) ∧ rs = recs.foldl (fun rs r => nextRecordSize rs r.length) rs0
  | [], data0, data, rs0, rs, st, st', h => by
    simp only [serializeL, Prod.mk.injEq, Res.ok.injEq] at h
    exact ⟨[], by simp [h.1.1], rfl, by simp, h.1.2.symm⟩
  | a :: l, data0, data, rs0, rs, st, st', h => by
    simp only [serializeL] at h
    obtain ⟨b, s1, hb, h⟩ := stBind_ok h
    obtain ⟨recs, h1, h2, h3, h4⟩ := serializeL_sizes h
    refine ⟨b :: recs, by simp [h1], by simp [h2], ?_, h4⟩
    intro r hr
    rcases List.mem_cons.1 hr with rfl | hr
    · exact serialize_ne_nil hb
    · exact h3 r hr

omit S L in
theorem foldl_sizes (recs : List Bytes) (hne : ∀ r ∈ recs, r ≠ []) : ∀ rs0, rs0 ≠ 0 →
    (recs.foldl (fun rs r => nextRecordSize rs r.length) rs0 = rs0 ∧ (rs0 = usizeMax ∨ ∀ r ∈ recs, r.length = rs0)) ∨
    recs.foldl (fun rs r => nextRecordSize rs r.length) rs0 = usizeMax ∧ ∃ r ∈ recs, r.length ≠ rs0 := by
  induction recs with
  | nil => intro rs0 _; exact Or.inl ⟨rfl, Or.inr (by simp)⟩
  | cons r recs ih =>
    intro rs0 h0
    have ih := ih fun x hx => hne x (List.mem_cons_of_mem _ hx)
    simp only [List.foldl_cons]
    by_cases e : rs0 = r.length
    · have : nextRecordSize rs0 r.length = rs0 := by simp [nextRecordSize, h0, e]
      rw [this]
      rcases ih rs0 h0 with ⟨h1, h2⟩ | ⟨h1, x, hx, h2⟩
      · refine Or.inl ⟨h1, h2.imp id fun h2 x hx => ?_⟩
        rcases List.mem_cons.1 hx with rfl | hx
        · exact e.symm
        · exact h2 x hx
      · exact Or.inr ⟨h1, x, List.mem_cons_of_mem _ hx, h2⟩
    · have : nextRecordSize rs0 r.length = usizeMax := by simp [nextRecordSize, h0, e]
      rw [this]
      have hm : recs.foldl (fun rs r => nextRecordSize rs r.length) usizeMax = usizeMax := by
        rcases ih usizeMax (by decide) with ⟨h1, _⟩ | ⟨h1, _⟩ <;> exact h1
      exact Or.inr ⟨hm, r, List.mem_cons_self, fun h => e h.symm⟩

theorem serializeL_record_size {l : List SNode} {st st' : σ} {data : Bytes} {rs : Nat}
    (h : serializeL S l [] 0 st = (.ok (data, rs), st')) (hl : l ≠ []) :
    ∃ recs : List Bytes, data = recs.flatten ∧ recs.length = l.length ∧
      ∀ n : Nat, 0 < n → ((recordSizeByte rs).toNat = n ↔ n < 256 ∧ ∀ r ∈ recs, r.length = n) := by
  obtain ⟨recs, h1, h2, h3, h4⟩ := serializeL_sizes h
  refine ⟨recs, by simpa using h1, h2, ?_⟩
  cases recs with
  | nil => cases l <;> simp at h2 hl
  | cons r recs =>
    have hr : r.length ≠ 0 := by simpa using h3 r List.mem_cons_self
    simp only [List.foldl_cons] at h4
    have : nextRecordSize 0 r.length = r.length := by simp [nextRecordSize]
    rw [this] at h4
    have key : ∀ k < 256, (recordSizeByte k).toNat = k := by
      intro k hk; simp [recordSizeByte, hk]
    have key0 : ∀ k, ¬ k < 256 → (recordSizeByte k).toNat = 0 := by
      intro k hk; simp [recordSizeByte, hk]
    have hmax : ¬ usizeMax < 256 := by decide
    intro n hn
    rcases foldl_sizes recs (fun x hx => h3 x (List.mem_cons_of_mem _ hx)) r.length hr with ⟨e1, e2⟩ | ⟨e1, x, hx, e2⟩
    · rw [e1] at h4
      subst h4
      by_cases hk : r.length < 256
      · rw [key _ hk]
        have e2 := e2.resolve_left fun h => hmax (h ▸ hk)
        constructor
        · rintro rfl
          refine ⟨hk, fun x hx => ?_⟩
          rcases List.mem_cons.1 hx with rfl | hx
          · rfl
          · exact e2 x hx
        · exact fun h => h.2 r List.mem_cons_self
      · rw [key0 _ hk]
        constructor
        · intro h; omega
        · intro h; have := h.2 r List.mem_cons_self; omega
    · rw [e1] at h4
      subst h4
      rw [key0 _ hmax]
      constructor
      · intro h; omega
      · intro h
        exact absurd (by rw [h.2 x (List.mem_cons_of_mem _ hx), h.2 r List.mem_cons_self]) e2

/-- **C30**. Writing a node with children stores one block, the records of the children one after the other, and the
record of the node ends with the id of that block. The byte before the id is the size of the records of the children if
they all have the same size below 256, and 0 otherwise. -/
theorem C30_record_size {p v : BlobV} {l : List SNode} {st st' : σ} {bs : Bytes}
    (h : (SNode.arc p v l).serialize S st = (.ok bs, st')) (hl : l ≠ []) :
    ∃ (recs : List Bytes) (start id : Bytes) (size : UInt8) (st1 : σ),
      recs.length = l.length ∧ S.write st1 recs.flatten = (.ok id, st') ∧
      bs = start ++ size :: id ∧
      ∀ n : Nat, 0 < n → (size.toNat = n ↔ n < 256 ∧ ∀ r ∈ recs, r.length = n) := by
  simp only [SNode.serialize] at h
  obtain ⟨pb, s1, _, h⟩ := stBind_ok h
  obtain ⟨vb, s2, _, h⟩ := stBind_ok h
  rw [if_neg (by simpa using hl)] at h
  obtain ⟨⟨data, rs⟩, s3, h3, h⟩ := stBind_ok h
  obtain ⟨i, s4, h4, h⟩ := stBind_ok h
  obtain ⟨recs, e1, e2, e3⟩ := serializeL_record_size h3 hl
  split at h
  · rename_i hd _
    cases h
    exact ⟨recs, pb ++ vb ++ [hd], i, _, _, e2, e1 ▸ h4, by simp, e3⟩
  · simp at h

/-- Two leaves with records of 4 bytes, and one more with a record of 5 bytes. -/
example : (serializeL memStore (embedL [single [1] [], single [2] []]) [] 0 []).1 =
      .ok ([1, 1, 0, 0x80, 1, 2, 0, 0x80], 4) ∧
    (match (serializeL memStore (embedL [single [1] [], single [2] [7]]) [] 0 []).1 with
      | .ok (d, rs) => (d, recordSizeByte rs) == ([1, 1, 0, 0x80, 1, 2, 1, 7, 0x80], 0)
      | _ => false) = true ∧
    (match ((embed (mk [] none [single [1] [], single [2] []])).serialize memStore []).1 with
      | .ok bs => bs.drop 3 == [4, 0, 0, 0, 0, 0, 0, 0, 1]
      | _ => false) = true := by decide +kernel

/-! ### Malformed bytes -/

/-- **C32** (partial): exactly when `try_load` panics: if the store does, or if the blob is one well-formed record whose
children field is inline data. Missing: the latter blobs, for which the property is false (`C32_malformed_false`). -/
theorem C32_malformed_partial {e : ε} (hS : S.ofAnyhow = .err e) (st : σ) (i : Bytes) (hd : S.read st i ≠ .deep) :
    (tryLoad S st i = .panic ↔ S.read st i = .panic ∨ ∃ (p v : BlobV) (d : Bytes), p.slice.length < 128 ∧
      v.slice.length < 128 ∧ d.length < 128 ∧ S.read st i = .ok (fieldBytes p ++ fieldBytes v ++ fieldBytes (.data d))) ∧
    (tryLoad S st i = .panic ∨ (∃ x, tryLoad S st i = .err x) ∨ ∃ a, tryLoad S st i = .ok a) := by
  unfold tryLoad
  cases hr : S.read st i with
  | panic => exact ⟨by simp [Res.bind], Or.inl rfl⟩
  | err x => exact ⟨by simp [Res.bind], Or.inr (Or.inl ⟨x, rfl⟩)⟩
  | deep => exact absurd hr hd
  | ok bs =>
    simp only [Res.bind, deserialize, hS]
    cases h1 : readOne bs with
    | none =>
      refine ⟨⟨fun h => (by cases h), ?_⟩, Or.inr (Or.inl ⟨e, rfl⟩)⟩
      rintro (h | ⟨p, v, d, hp, hv, hd, h⟩)
      · cases h
      · cases h
        have := C30_read_one p v (.data d) hp hv hd []
        rw [List.append_nil] at this
        rw [this] at h1; cases h1
    | some x =>
      obtain ⟨r, rest⟩ := x
      cases rest with
      | cons b rest =>
        refine ⟨⟨fun h => (by cases h), ?_⟩, Or.inr (Or.inl ⟨e, rfl⟩)⟩
        rintro (h | ⟨p, v, d, hp, hv, hd, h⟩)
        · cases h
        · cases h
          have := C30_read_one p v (.data d) hp hv hd []
          rw [List.append_nil] at this
          rw [this] at h1; cases h1
      | nil =>
        obtain ⟨he, hp, hv, hc⟩ := C30_read_one_inv h1
        rw [List.append_nil] at he
        simp only [List.isEmpty_nil, if_true]
        cases hch : r.ch with
        | data d =>
          simp only [Rec.toOwned, hch]
          refine ⟨⟨fun _ => Or.inr ⟨r.pfx, r.val, d, hp, hv, by rw [hch] at hc; exact hc, ?_⟩, fun _ => trivial⟩, Or.inl trivial⟩
          rw [he, hch]
        | id j =>
          simp only [Rec.toOwned, hch]
          refine ⟨⟨fun h => (by cases h), ?_⟩, Or.inr (Or.inr ⟨_, rfl⟩)⟩
          rintro (h | ⟨p, v, d, hp, hv, hd, h⟩)
          · cases h
          · cases h
            have := C30_read_one p v (.data d) hp hv hd []
            rw [List.append_nil] at this
            rw [this] at h1; cases h1; cases hch

end

/-- The full claim is false: `try_load` of a `MemStore` blob with the four bytes `00 80 01 00` panics. -/
theorem C32_malformed_false : ∃ (st : MemState) (i : Bytes), memStore.write [] [0x00, 0x80, 0x01, 0x00] = (.ok i, st) ∧
    (match tryLoad memStore st i with | .panic => true | _ => false) = true :=
  ⟨[(1, [0x00, 0x80, 0x01, 0x00])], [0, 0, 0, 0, 0, 0, 0, 1], rfl, by decide +kernel⟩

/-! ### Concrete cases -/

example : ∃ a st' u, tryAttached memStore sampleA [] = (.ok a, st') ∧ Mono memLawful [] st' ∧
    HoldsTree memLawful st' a u ∧ (∀ k, get u k = get sampleA k) ∧ iter u = iter sampleA :=
  C28_attach_detach sampleA_reachable (mem_canWrite (by decide +kernel))

theorem short_of_iter {t : Node} (h : Reachable t) (hs : ((iter t).all fun e => decide (e.1.length < 128)) = true)
    (k v : Bytes) (hk : get t k = some v) : k.length < 128 := by
  have := (mem_iter (reach_ord h) k v).2 hk
  have := List.all_eq_true.1 hs _ this
  simpa using this

/-- A tree attached to a `MemStore` that has room for more. -/
theorem mem_att : ∃ a st, Att memStore memLawful false st a (get sampleA) ∧ ∀ n, n ≤ 1000 → CanWrite memStore n st := by
  have hp := tryAttached_rep (S := memStore) (L := memLawful) (g := true) sampleA [] (Or.inl rfl)
  have hw : ∀ n, n < 2 ^ 63 → CanWrite memStore n [] := fun n hn => mem_canWrite (by simp [MemState.max]; omega)
  have hn : sampleA.nodes < 100 := by decide +kernel
  rcases e : tryAttached memStore sampleA [] with ⟨r, st⟩
  rw [e] at hp
  cases r with
  | ok a =>
    refine ⟨a, st, .attach sampleA_proper (fun _ => short_of_iter sampleA_reachable (by decide +kernel)) e, ?_⟩
    exact fun n hn => (hp.2.2 n).1 (hw _ (by omega))
  | err _ => exact absurd (hw _ (by omega)) hp.2
  | panic => exact absurd (hw _ (by omega)).noPanic hp.2
  | deep => exact absurd (hw _ (by omega)).noPanic hp.2

/-- The snapshot theorem applies to it: it can be re-attached, and the id loads a snapshot. -/
example : ∃ a st a' i st', Att memStore memLawful false st a (get sampleA) ∧
    tryReattach memStore a st = (.ok (a', i), st') ∧ ∀ st'', Mono memLawful st' st'' → ∃ a'',
      tryLoad memStore st'' i = .ok a'' ∧ Snapshot memLawful st'' a'' (get sampleA) := by
  obtain ⟨a, st, h, hw⟩ := mem_att
  obtain ⟨a', i, st', e⟩ := C29_reattach_succeeds h sampleA_proper (fun _ => rfl)
    (hw _ (by decide +kernel))
  refine ⟨a, st, a', i, st', h, e, fun st'' hm => ?_⟩
  rcases (C29_snapshot h e).2.2 st'' hm with h1 | ⟨_, h1⟩
  · exact h1
  · exact absurd (mem_readsSucceed st'') h1

/-- A lookup and an iteration of it, with the store as it is now and after another client has written something. -/
example : ∃ a st, Att memStore memLawful false st a (get sampleA) ∧
    Outcome (fun fuel => getLoadS memStore fuel st a [97, 98]) (.ok (some [2])) ∧
    ∀ d, ∃ log, log.map (·.1) = [st, (memStore.write st d).2] ∧ IterLog (SIter.next memStore) (iterS a) log ∧
      GoodLog memLawful (SameEntry memLawful) (iter sampleA) log := by
  obtain ⟨a, st, h, hw⟩ := mem_att
  refine ⟨a, st, h, ?_, fun d => C35_iter h sampleA_proper (fun _ => rfl) _ ⟨Mono.refl _ _, mono_write rfl, trivial⟩⟩
  have := agrees_success (C33_get h [97, 98]) (mem_readsSucceed st)
  rwa [show get sampleA [97, 98] = some [2] by decide +kernel] at this

/-- `get_bytes` of the tests (src/tests.rs 43-48). -/
def getBytes (t : Node) : Res Unit Bytes :=
  (stBind (tryAttached vecStore t []) fun a st => stBind (tryReattach vecStore a st) fun x st => (vecStore.read st x.2, st)).1

/-! The examples of the test `serde_tests` (src/tests.rs 50-65). -/

example : getBytes (single [] []) = .ok [0x00, 0x00, 0x80] := by decide +kernel
example : getBytes (single [104, 101, 108, 108, 111] [119, 111, 114, 108, 100, 33]) =
    .ok [0x05, 0x68, 0x65, 0x6c, 0x6c, 0x6f, 0x06, 0x77, 0x6f, 0x72, 0x6c, 0x64, 0x21, 0x80] := by decide +kernel
example : getBytes (single (List.replicate 256 97) (List.replicate 256 98)) =
    .ok [0x89, 0x61, 0, 0, 0, 0, 0, 0, 1, 4, 0x88, 0, 0, 0, 0, 0, 0, 2, 8, 0x80] := by decide +kernel
example : getBytes (fromIter [([97, 97], []), ([97, 98], [])]) =
    .ok [0x01, 0x61, 0x80, 0x89, 0x04, 0, 0, 0, 0, 0, 0, 0, 0x0c] := by decide +kernel

end Radix
