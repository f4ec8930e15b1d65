import Verif.Stored.History
import Verif.Proofs.Fuel
import Verif.Proofs.ReadIter
import Verif.Proofs.UpdateApi
import Verif.Proofs.Scan
import Verif.Proofs.RetainExact
import Verif.Proofs.Format

/-
Proof-internal: the invariant of attached trees, and outcomes of calls on them.
-/

set_option linter.unusedVariables false

namespace Radix
open Node

/-! ### Short keys make short prefixes -/

theorem shortL_iff {l : List Node} : ShortL l ↔ ∀ c ∈ l, ShortP c := by
  induction l with
  | nil => simp [ShortL]
  | cons n l ih => simp [ShortL, ih]

theorem shortP_iff {n : Node} : ShortP n ↔ n.pfx.length < 128 ∧ ∀ c ∈ n.kids, ShortP c := by
  cases n with
  | mk p v c =>
    cases c with
    | none => simp [ShortP, ShortO, Node.pfx, Node.kids, Node.ch]
    | some l => simp [ShortP, ShortO, Node.pfx, Node.kids, Node.ch, shortL_iff]

theorem cmp_short {n : Node} (ho : Ord n) (hc : Cmp n) (pre : Bytes)
    (h : ∀ e ∈ ents pre n, e.1.length < 128) : ShortP n := by
  induction n using Node.kidsInduction generalizing pre with
  | step n ih =>
    have hk := (ord_iff n).1 ho
    refine shortP_iff.2 ⟨?_, fun c hcm => ?_⟩
    · obtain ⟨e, he⟩ := List.exists_mem_of_ne_nil _ (ents_ne_nil hc ho pre)
      obtain ⟨r, hr⟩ := ents_prefix ho he
      have := h e he
      rw [hr] at this
      simp at this; omega
    · refine ih c hcm (hk.mem hcm).2 (((cmp_iff n).1 hc).2 c hcm) (pre ++ n.pfx) fun e he => h e ?_
      rw [ents_eq]
      exact List.mem_append_right _ (mem_entsL.2 ⟨c, hcm, he⟩)

theorem shape_short {n : Node} (ho : Ord n) (hs : Shape n) (h : ∀ k v, den n k = some v → k.length < 128) : ShortP n := by
  rcases hs with rfl | hc
  · simp [Node.empty, ShortP, ShortO]
  · refine cmp_short ho hc [] fun e he => ?_
    obtain ⟨r, hr, hd⟩ := (mem_ents ho [] e.1 e.2).1 he
    rw [hr]; exact h _ _ (by simpa using hd)

section
variable {σ ε : Type} {S : BlobStore σ ε} {L : Lawful S}

/-! ### Outcomes -/

theorem outcome_fuel {α} {f : Nat → Res ε α} (hm : ∀ n, LeR (f n) (f (n + 1))) {N : Nat} (h : f N ≠ .deep) :
    Outcome f (f N) := ⟨N, fun m hm' => ((leR_le hm hm').resolve_left h).symm⟩

theorem outcome_fuelP {α β} {f : Nat → Res ε α × β} (hm : ∀ n, LeP (f n) (f (n + 1))) {N : Nat} (h : (f N).1 ≠ .deep) :
    Outcome f (f N) := ⟨N, fun m hm' => ((leP_le hm hm').resolve_left h).symm⟩

theorem outcome_unique {α : Type} {f : Nat → α} {x y : α} (h : Outcome f x) (h' : Outcome f y) : x = y := by
  obtain ⟨N, h⟩ := h
  obtain ⟨M, h'⟩ := h'
  rw [← h (max N M) (by omega), h' (max N M) (by omega)]

theorem rpost_not_deep {α} {st : σ} {x : Res ε α} {Q : α → Prop} (h : RPost L st x Q) : x ≠ .deep := by
  rintro rfl; exact h

/-- From a statement about large fuel to the outcome. -/
theorem rpost_outcome {α} {st : σ} {f : Nat → Res ε α} {Q : α → Prop} (hm : ∀ n, LeR (f n) (f (n + 1))) {N : Nat}
    (h : RPost L st (f N) Q) : ∃ r, Outcome f r ∧ RPost L st r Q := ⟨_, outcome_fuel hm (rpost_not_deep h), h⟩

theorem rpost_agrees {α} {st : σ} {f : Nat → Res ε α} {y : α} (hm : ∀ n, LeR (f n) (f (n + 1))) {N : Nat}
    (h : RPost L st (f N) (· = y)) : Agrees L st f y := by
  refine ⟨_, outcome_fuel hm (rpost_not_deep h), ?_⟩
  generalize f N = r at h
  cases r with
  | ok a => left; exact congrArg _ h
  | err e => exact Or.inr ⟨⟨e, rfl⟩, h⟩
  | panic => exact h.elim
  | deep => exact h.elim

theorem agrees_success {α} {st : σ} {f : Nat → Res ε α} {y : α} (h : Agrees L st f y) (hr : ReadsSucceed L st) :
    Outcome f (.ok y) := by
  obtain ⟨r, ho, rfl | ⟨_, hn⟩⟩ := h
  · exact ho
  · exact absurd hr hn

theorem loadOptV_rep {st : σ} {o : Option BlobV} {v : Option Bytes} (h : OValRep L st o v) :
    RPost L st (loadOptV S st o) (· = v) := by
  rcases oval_cases h with ⟨rfl, rfl⟩ | ⟨b, w, rfl, rfl, hv⟩
  · exact rfl
  · exact rpost_bind (load_rep hv) fun _ e => congrArg _ e

theorem loadOptE_rep {st : σ} {o : Option (Bytes × BlobV)} {v : Option (Bytes × Bytes)} (h : OEntRep L st o v) :
    RPost L st (loadOptE S st o) (· = v) := by
  cases o with
  | none => cases v with | none => exact rfl | some _ => exact h.elim
  | some e =>
    cases v with
    | none => exact h.elim
    | some e' =>
      obtain ⟨k, b⟩ := e
      obtain ⟨k', d⟩ := e'
      have h1 : k = k' := h.1
      subst h1
      exact rpost_bind (load_rep h.2) fun _ e => by
        show _ = _
        rw [show _ = d from e]

theorem holds_of_rep {st : σ} {b : BlobV} {d : Bytes} (h : ValRep L st b (some d)) : Holds L st b d := by
  intro st' hm
  have := load_rep (S := S) (valRep_mono hm h)
  generalize b.load S st' = r at this
  cases r with
  | ok a => left; exact congrArg _ this
  | err e => exact Or.inr ⟨⟨e, rfl⟩, this⟩
  | panic => exact this.elim
  | deep => exact this.elim

/-! ### The invariant -/

/-- The tree stands for an ordered and compact tree with contents `m`. -/
def Stands (L : Lawful S) (g : Bool) (st : σ) (a : SNode) (m : Spec.Map) (t : Node) : Prop :=
  Ord t ∧ Shape t ∧ Rep L g st a t ∧ ∀ k, den t k = m k

theorem recRep_rep {g : Bool} {n : Node} {bs : Bytes} {st : σ} (h : RecRep L g n bs st) :
    ∃ r rest, readOne bs = some (r, rest) ∧ rest = [] ∧ ∃ a, (r.toOwned : Res ε SNode) = .ok a ∧ Rep L g st a n := by
  obtain ⟨r, i, rfl, hf, hi, hr⟩ := h
  refine ⟨r, [], by simpa using readOne_enc hf [], rfl, .ref r.pfx r.val i, ?_, hr⟩
  simp [Rec.toOwned, hi]

theorem tryAttached_rep {g : Bool} (t : Node) (st : σ) (hg : g = true ∨ ShortP t) :
    Post L (3 * t.nodes) st (tryAttached S t st) fun a st' => Rep L g st' a t.detached := by
  unfold tryAttached
  refine post_le (n := 3 * t.nodes + 0) (by omega) (post_bind (serialize_rep (g := false) (g' := g) _ st t (embed_rep t)
    (hg.imp id fun h => ⟨rfl, h⟩)) fun bs st' _ h => ?_)
  obtain ⟨r, rest, e, rfl, a, ha, hr⟩ := recRep_rep (ε := ε) h
  rw [e]
  dsimp only
  rw [List.isEmpty_nil, if_pos rfl, ha]
  exact post_ok hr

theorem deserialize_rep {g : Bool} {n : Node} {bs : Bytes} {st : σ} (h : RecRep L g n bs st) :
    ∃ a, deserialize S bs = .ok a ∧ Rep L g st a n := by
  obtain ⟨r, rest, e, rfl, a, ha, hr⟩ := recRep_rep (ε := ε) h
  refine ⟨a, ?_, hr⟩
  unfold deserialize
  rw [e]
  dsimp only
  rw [List.isEmpty_nil, if_pos rfl, ha]

theorem tryReattach_rep {g g' : Bool} {a : SNode} {t : Node} {st : σ} (h : Rep L g st a t)
    (hg : g' = true ∨ g = false ∧ ShortP t) :
    Post L (3 * t.nodes + 1) st (tryReattach S a st) fun x st' => Rep L g' st' x.1 t.detached ∧
      ∃ bs, L.Has st' x.2 bs ∧ RecRep L g' t.detached bs st' := by
  unfold tryReattach
  refine post_bind (serialize_rep _ st t h hg) fun bs st1 _ h1 => ?_
  refine post_le (n := 1 + 0) (by omega) (post_bind (post_write st1 bs) fun i st2 m2 h2 => ?_)
  obtain ⟨a', e, hr⟩ := deserialize_rep (S := S) h1
  rw [e]
  refine post_ok ⟨rep_mono m2 _ _ hr, bs, h2.1, ?_⟩
  obtain ⟨r, i', e1, e2, e3, e4⟩ := h1
  exact ⟨r, i', e1, e2, e3, rep_mono m2 _ _ e4⟩

theorem recRep_mono {g : Bool} {n : Node} {bs : Bytes} {st st' : σ} (hm : Mono L st st') (h : RecRep L g n bs st) :
    RecRep L g n bs st' := by
  obtain ⟨r, i', e1, e2, e3, e4⟩ := h
  exact ⟨r, i', e1, e2, e3, rep_mono hm _ _ e4⟩

theorem tryLoad_rep {g : Bool} {n : Node} {bs i : Bytes} {st : σ} (hh : L.Has st i bs) (h : RecRep L g n bs st) :
    RPost L st (tryLoad S st i) fun a => Rep L g st a n := by
  refine rpost_bind (rpost_read hh) fun d e => ?_
  have e : d = bs := e
  subst e
  obtain ⟨a, ea, hr⟩ := deserialize_rep (S := S) h
  rw [ea]; exact hr

theorem post_of_ok {α} {n : Nat} {st st' : σ} {x : Res ε α × σ} {Q : α → σ → Prop} {a : α} (h : Post L n st x Q)
    (e : x = (.ok a, st')) : Mono L st st' ∧ Q a st' := by subst e; exact ⟨h.1, h.2.1⟩

theorem up_of_outcome {α τ} {E P : Prop} {f : Nat → Res ε α × τ} {Q : α → τ → Prop} {N : Nat} {a : α} {b : τ}
    (h : ∀ fuel, N ≤ fuel → UP E P (f fuel) Q) (ho : Outcome f (.ok a, b)) : Q a b := by
  obtain ⟨M, ho⟩ := ho
  have h1 := h (max N M) (by omega)
  rw [ho (max N M) (by omega)] at h1
  exact h1

theorem short_of {t : Node} {m : Spec.Map} (ho : Ord t) (hs : Shape t) (hd : ∀ k, den t k = m k)
    (h : ∀ k v, m k = some v → k.length < 128) : ShortP t :=
  shape_short ho hs fun k v hk => h k v (by rw [← hd, hk])

theorem hg_of {long : Bool} {t : Node} {m : Spec.Map} (ho : Ord t) (hs : Shape t) (hd : ∀ k, den t k = m k)
    (h : long = false → ∀ k v, m k = some v → k.length < 128) : long = true ∨ long = false ∧ ShortP t := by
  cases long with
  | true => exact Or.inl rfl
  | false => exact Or.inr ⟨rfl, short_of ho hs hd (h rfl)⟩

theorem isValue_iff {st : σ} {v : BlobV} {d : Bytes} : IsValue L st v d ↔ ValRep L st v (some d) := Iff.rfl

section
variable {τ : Type} {T : BlobStore τ ε} {M : Lawful T}

/-- Everything may fail. -/
theorem uok_any (e : UEnv σ τ ε) (LA : Lawful e.SA) (LB : Lawful e.SB) : UOK LA LB True True :=
  ⟨fun _ => trivial, fun _ => trivial, Or.inl trivial⟩

theorem computes_fok {st : σ} {st' : τ} {f : BlobV → BlobV → Res ε BlobV} {ff : Bytes → Bytes → Option Bytes} (dbg : Bool) (ab)
    (h : Computes L st M st' f fun x y w => w = ff x y) :
    FOK (e := ⟨S, st, T, st', dbg, ab⟩) L M True True f ff := by
  intro av bv x y ha hb
  cases e : f av bv with
  | ok v =>
    rcases (h av bv x y (isValue_iff.2 ha) (isValue_iff.2 hb)).2 v e with ⟨h1, h2⟩ | ⟨z, h1, h2⟩
    · show ValRep L st v (ff x y)
      rw [← h2]; exact h1
    · show ValRep L st v (ff x y)
      rw [← h2]; exact h1
  | err _ => trivial
  | panic => trivial
  | deep => exact absurd e (h av bv x y (isValue_iff.2 ha) (isValue_iff.2 hb)).1

theorem decides_pred {st : σ} {st' : τ} {p : BlobV → Res ε Bool} {pp : Bytes → Bool} (dbg : Bool) (ab)
    (h : Decides M st' p pp) : PredOK (e := ⟨S, st, T, st', dbg, ab⟩) M True True p pp := by
  intro bv y hb
  cases e : p bv with
  | ok r => exact (h bv y (isValue_iff.2 hb)).2 r e
  | err _ => trivial
  | panic => trivial
  | deep => exact absurd e (h bv y (isValue_iff.2 hb)).1

theorem readsSucceed_any (L : Lawful (detachedStore ε)) (st : Unit) : ReadsSucceed L st :=
  fun i d h => absurd h (plain_detached L st i d)

/-- The function fails on some values. -/
theorem computes_fokE {st : σ} {st' : τ} {f : BlobV → BlobV → Res ε BlobV} {ff : Bytes → Bytes → Option Bytes} (dbg : Bool)
    (ab) {E P : Prop} (h : Computes L st M st' f fun x y w => w = ff x y)
    (hE : ∀ av bv x y e, IsValue L st av x → IsValue M st' bv y → f av bv = .err e → E)
    (hP : ∀ av bv x y, IsValue L st av x → IsValue M st' bv y → f av bv = .panic → P) :
    FOK (e := ⟨S, st, T, st', dbg, ab⟩) L M E P f ff := by
  intro av bv x y ha hb
  have h1 := computes_fok dbg ab h av bv x y ha hb
  cases e : f av bv with
  | ok v => rw [e] at h1; exact h1
  | err _ => exact hE _ _ _ _ _ (isValue_iff.2 ha) (isValue_iff.2 hb) e
  | panic => exact hP _ _ _ _ (isValue_iff.2 ha) (isValue_iff.2 hb) e
  | deep => rw [e] at h1; exact h1

theorem decides_predE {st : σ} {st' : τ} {p : BlobV → Res ε Bool} {pp : Bytes → Bool} (dbg : Bool) (ab) {E P : Prop}
    (h : Decides M st' p pp) (hE : ∀ bv y e, IsValue M st' bv y → p bv = .err e → E)
    (hP : ∀ bv y, IsValue M st' bv y → p bv = .panic → P) :
    PredOK (e := ⟨S, st, T, st', dbg, ab⟩) M E P p pp := by
  intro bv y hb
  have h1 := decides_pred (S := S) (st := st) dbg ab h bv y hb
  cases e : p bv with
  | ok v => rw [e] at h1; exact h1
  | err _ => exact hE _ _ _ (isValue_iff.2 hb) e
  | panic => exact hP _ _ (isValue_iff.2 hb) e
  | deep => rw [e] at h1; exact h1

theorem conv_identity (st : σ) (g : Bool) (dbg : Bool) (ab) (B : Nat) {E : Prop} (hE : ¬ ReadsSucceed L st → E) :
    ConvOK (e := ⟨S, st, S, st, dbg, ab⟩) L L g g E True B (SConv.identity S st) .identity where
  node b m _ h := by
    have h1 := rp_of_rpost (E := E) (P := True) hE h.1.toOwned
    cases b with
    | owned a => exact ⟨h1, id⟩
    | borrowed r =>
      obtain ⟨i, e, h⟩ := h.1
      simp only [SConv.identity, Ref.toOwned, Rec.toOwned, e] at h1 ⊢
      exact ⟨h1, id⟩
  short b m k _ h := rp_imp (RefOK.cloneShortened (LA := L) ⟨hE, hE, Or.inl trivial⟩ h k) fun a ha => ha.1
  value v y h := h

theorem conv_detachTo {M : Lawful T} (L : Lawful S) (st : σ) (st' : τ) (gb : Bool) (dbg : Bool) (ab) {B fuel : Nat}
    (hf : B ≤ fuel) {E : Prop} (hE : ¬ ReadsSucceed M st' → E) (hE' : ¬ ReadsSucceed L st → E) :
    ConvOK (e := ⟨S, st, T, st', dbg, ab⟩) L M false gb E True B (SConv.detach T st' fuel) .detach where
  node b m hB h := by
    refine rp_bind (rp_of_rpost (L := M) hE (rpost_bind h.1.toOwned fun a ha => detachedS_repH.1 ha
      (Nat.le_trans hB hf))) fun n hn => ?_
    have hn : n = m.detached := hn
    subst hn
    refine ⟨embed_rep _, fun _ => ?_⟩
    generalize m.detached = d
    cases d with
    | mk p v c => cases c <;> rfl
  short b m k hB h := by
    refine rp_bind (RefOK.cloneShortened (LA := L) ⟨hE', hE, Or.inl trivial⟩ h k)
      fun a ha => ?_
    refine rp_bind (rp_of_rpost (L := M) hE (detachedS_repH.1 ha.1 ?_)) fun n hn => ?_
    · rw [height_cloneShortened]; omega
    · have hn : n = (m.cloneShortened k).detached := hn
      subst hn
      exact embed_rep _
  value v y h := by
    cases v with
    | data d =>
      rcases h with h | ⟨i, h, _⟩
      · exact Or.inl h
      · cases h
    | id i => trivial

theorem conv_detach {M : Lawful T} (L : Lawful (detachedStore ε)) (st' : τ) (gb : Bool) (dbg : Bool) (ab) {B fuel : Nat}
    (hf : B ≤ fuel) {E : Prop} (hE : ¬ ReadsSucceed M st' → E) :
    ConvOK (e := ⟨detachedStore ε, (), T, st', dbg, ab⟩) L M false gb E True B (SConv.detach T st' fuel) .detach :=
  conv_detachTo L () st' gb dbg ab hf hE fun h => absurd (readsSucceed_any L ()) h

end

theorem att_stands {ε σ : Type} {S : BlobStore σ ε} {L : Lawful S} {long : Bool} {st : σ} {a : SNode} {m : Spec.Map}
    (h : Att S L long st a m) : ∃ t, Stands L long st a m t := by
  induction h with
  | empty st => exact ⟨Node.empty, ord_empty, Or.inl rfl, empty_rep st, fun k => den_empty k⟩
  | @attach σ S L long t st st' a hp hl he =>
    have ho := reach_ord hp
    have hs := proper_shape hp
    have hg := hg_of (long := long) ho hs (fun k => (get_eq_den t k ho).symm) hl
    have := post_of_ok (tryAttached_rep (L := L) t st (hg.imp id And.right)) he
    exact ⟨t.detached, ord_detached _ ho, shape_detached hs, this.2, fun k => by rw [den_detached, get_eq_den _ _ ho]⟩
  | @insert σ S L long st a a' m dbg ab k v _ hoc ih =>
    obtain ⟨t, ho, hs, hr, hd⟩ := ih
    have := up_of_outcome (fun fuel hf => insertS_rep hr (Or.inr ⟨ho, hs⟩) dbg ab hf k v) hoc
    have hgd := insert_good t k v ho
    exact ⟨insert t k v, hgd.ord, hgd.shape hs (shape_single k v), this, fun k' => by
      rw [insert_den ho, hd]; rfl⟩
  | @remove σ S L long st a a' m dbg ab k hl _ hoc ih =>
    obtain ⟨t, ho, hs, hr, hd⟩ := ih
    subst hl
    have := up_of_outcome (fun fuel hf => removeS_rep hr hs dbg ab hf k) hoc
    have hgd := remove_good t k ho
    exact ⟨remove t k, hgd.ord, hgd.shape hs (shape_single k []), this, fun k' => by
      rw [remove_den ho, hd]; rfl⟩
  | @removePrefix σ S L long st a a' m dbg ab p hl _ hoc ih =>
    obtain ⟨t, ho, hs, hr, hd⟩ := ih
    subst hl
    have := up_of_outcome (fun fuel hf => removePrefixS_rep hr hs dbg ab hf p) hoc
    have hgd := removePrefix_good t p ho
    exact ⟨removePrefix t p, hgd.ord, hgd.shape hs (shape_single p []), this, fun k' => by
      rw [removePrefix_den ho, hd]; rfl⟩
  | @filterPrefix σ S L long st a a' m p s _ hn hoc ih =>
    obtain ⟨t, ho, hs, hr, hd⟩ := ih
    obtain ⟨M, hoc⟩ := hoc
    have h1 := filterPrefixS_rep ho hr (fuel := max t.nodes M) (by omega) p s
    rw [show filterPrefixS S (max t.nodes M) st a p s = _ from hoc _ (by omega)] at h1
    refine ⟨filterPrefix t p s, filterPrefix_ord ho p s, filterPrefix_shape' ho hs p s ?_, h1, fun k => ?_⟩
    · rcases hn with h | h | ⟨k, v, h⟩
      · exact Or.inl h
      · exact Or.inr (Or.inl h)
      · exact Or.inr (Or.inr ⟨k, v, by rw [get_eq_den _ _ ho, hd, h]⟩)
    · rw [filterPrefix_den ho, ← strip_filterPrefix]
      cases strip s k with
      | none => rfl
      | some r => exact hd _
  | later _ hm ih =>
    obtain ⟨t, ho, hs, hr, hd⟩ := ih
    exact ⟨t, ho, hs, rep_mono hm _ _ hr, hd⟩
  | reattach _ hl he ih =>
    obtain ⟨t, ho, hs, hr, hd⟩ := ih
    have := post_of_ok (tryReattach_rep hr (hg_of ho hs hd hl)) he
    exact ⟨t.detached, ord_detached _ ho, shape_detached hs, this.2.1, fun k => by rw [den_detached, hd]⟩
  | @foreign σ S L long st a i bs d hh hn hv hld =>
    obtain ⟨ho, hs⟩ := valid_toNode.2 hv
    have := tryLoad_rep (S := S) hh (isNode_rep d bs hn)
    rw [hld] at this
    exact ⟨toNode d, ho, hs, this, den_mapOf hv.1⟩
  | @load σ S L long _ _ _ _ _ _ _ _ _ hl he hm hld ih =>
    obtain ⟨t, ho, hs, hr, hd⟩ := ih
    obtain ⟨_, _, bs, hh, hrec⟩ := post_of_ok (tryReattach_rep hr (hg_of ho hs hd hl)) he
    have := tryLoad_rep (S := S) (hm _ _ hh) (recRep_mono hm hrec)
    rw [hld] at this
    exact ⟨t.detached, ord_detached _ ho, shape_detached hs, this, fun k => by rw [den_detached, hd]⟩
  | @plain σ S L long t st hp =>
    exact ⟨t, reach_ord hp, proper_shape hp, embed_rep t, fun k => (get_eq_den _ _ (reach_ord hp)).symm⟩
  | @outerDowncast σ S L M long long' st a a' b m m' dbg ab f ff hl _ _ hf hoc ih ih' =>
    obtain ⟨t, ho, hs, hr, hd⟩ := ih
    obtain ⟨u, ho', hs', hr', hd'⟩ := ih'
    subst hl
    have := up_of_outcome (fun fuel hfu => outerCombineWithS_rep (e := ⟨S, st, detachedStore ε, (), dbg, ab⟩) (uok_any _ _ _)
      (conv_downcast L (M := M) st false long' _ _ dbg ab u.nodes) (computes_fok dbg ab hf) (Or.inl rfl) fuel a (.owned b) t u hfu (Nat.le_refl _)
      (Or.inl rfl) hr ⟨hr', Or.inl trivial⟩) hoc
    have hgd := outerCombineWith_good .downcast ff t u ho ho'
    exact ⟨_, hgd.ord, hgd.shape hs hs', this, fun k => by rw [hgd.den k, hd, hd']; rfl⟩
  | @outerIdentity σ S L long st a a' b m m' dbg ab f ff hl _ _ hf hoc ih ih' =>
    obtain ⟨t, ho, hs, hr, hd⟩ := ih
    obtain ⟨u, ho', hs', hr', hd'⟩ := ih'
    subst hl
    have := up_of_outcome (fun fuel hfu => outerCombineWithS_rep (e := ⟨S, st, S, st, dbg, ab⟩) (uok_any _ _ _)
      (conv_identity st false dbg ab u.nodes fun _ => trivial) (computes_fok dbg ab hf) (Or.inl rfl) fuel a (.owned b) t u hfu (Nat.le_refl _)
      (Or.inl rfl) hr ⟨hr', Or.inl trivial⟩) hoc
    have hgd := outerCombineWith_good .identity ff t u ho ho'
    exact ⟨_, hgd.ord, hgd.shape hs hs', this, fun k => by rw [hgd.den k, hd, hd']; rfl⟩
  | @outerDetach τ T L M long long' st' a a' b m m' dbg ab f ff hl _ _ hf hoc ih ih' =>
    obtain ⟨t, ho, hs, hr, hd⟩ := ih
    obtain ⟨u, ho', hs', hr', hd'⟩ := ih'
    subst hl
    have := up_of_outcome (N := t.nodes + 3 * u.nodes) (fun fuel hfu => outerCombineWithS_rep
      (e := ⟨detachedStore ε, (), T, st', dbg, ab⟩) (uok_any _ _ _)
      (conv_detach L st' long' dbg ab (B := u.nodes) (fuel := fuel) (by omega) fun _ => trivial) (computes_fok dbg ab hf) (Or.inl rfl) fuel a (.owned b) t u (by omega)
      (Nat.le_refl _) (Or.inl rfl) hr ⟨hr', Or.inl trivial⟩) hoc
    have hgd := outerCombineWith_good .detach ff t u ho ho'
    exact ⟨_, hgd.ord, hgd.shape hs hs', this, fun k => by rw [hgd.den k, hd, hd']; rfl⟩
  | @innerWith σ τ S T L M long long' st st' a a' b m m' dbg ab f ff hl _ _ hf hoc ih ih' =>
    obtain ⟨t, ho, hs, hr, hd⟩ := ih
    obtain ⟨u, ho', hs', hr', hd'⟩ := ih'
    subst hl
    have := up_of_outcome (fun fuel hfu => innerCombineWithS_rep (e := ⟨S, st, T, st', dbg, ab⟩) (uok_any _ _ _)
      (computes_fok dbg ab hf) fuel a (.owned b) t u hfu hr ⟨hr', Or.inl trivial⟩) hoc
    have hgd := innerCombineWith_good ff t u ho ho'
    exact ⟨_, hgd.ord, hgd.shape hs hs', this, fun k => by rw [hgd.den k, hd, hd']; rfl⟩
  | @leftWith σ τ S T L M long long' st st' a a' b m m' dbg ab f ff hl _ _ hf hoc ih ih' =>
    obtain ⟨t, ho, hs, hr, hd⟩ := ih
    obtain ⟨u, ho', hs', hr', hd'⟩ := ih'
    subst hl
    have := up_of_outcome (fun fuel hfu => leftCombineWithS_rep (e := ⟨S, st, T, st', dbg, ab⟩) (uok_any _ _ _)
      (fun _ => Or.inl trivial) (computes_fok dbg ab hf) fuel a (.owned b) t u hfu (Or.inl hs) hr ⟨hr', Or.inl trivial⟩) hoc
    have hgd := leftCombineWith_good ff t u ho ho'
    exact ⟨_, hgd.ord, hgd.shape hs hs', this, fun k => by rw [hgd.den k, hd, hd']; rfl⟩
  | @removeWith σ τ S T L M long long' st st' a a' b m m' dbg ab p pp hl _ _ hf hoc ih ih' =>
    obtain ⟨t, ho, hs, hr, hd⟩ := ih
    obtain ⟨u, ho', hs', hr', hd'⟩ := ih'
    subst hl
    have := up_of_outcome (fun fuel hfu => removePrefixWithS_rep (e := ⟨S, st, T, st', dbg, ab⟩) (uok_any _ _ _)
      (fun _ => Or.inl trivial) (decides_pred dbg ab hf) fuel a (.owned b) t u hfu (Or.inl hs) hr ⟨hr', Or.inl trivial⟩) hoc
    have hgd := removePrefixWith_good pp t u ho ho'
    refine ⟨_, hgd.ord, hgd.shape hs hs', this, fun k => ?_⟩
    have hk := remove_with_den (f := pp) ho ho' k
    rw [show den u = m' from funext hd'] at hk
    unfold Spec.Map.removePrefix
    split
    · rename_i h; exact hk.1 h
    · rename_i h; rw [hk.2 h, hd]
  | @retainWith σ τ S T L M long long' st st' a a' b m m' dbg ab p pp hl _ _ hf hoc ih ih' =>
    obtain ⟨t, ho, hs, hr, hd⟩ := ih
    obtain ⟨u, ho', hs', hr', hd'⟩ := ih'
    subst hl
    have := up_of_outcome (fun fuel hfu => retainPrefixWithS_rep (e := ⟨S, st, T, st', dbg, ab⟩) (uok_any _ _ _)
      (fun _ => Or.inl trivial) (decides_pred dbg ab hf) fuel a (.owned b) t u hfu (Or.inl hs) hr ⟨hr', Or.inl trivial⟩) hoc
    have hgd := retainPrefixWith_good pp t u ho ho'
    refine ⟨_, hgd.ord, hgd.shape hs hs', this, fun k => ?_⟩
    rw [retain_exact hs ho ho', show den u = m' from funext hd', show den t = m from funext hd]

/-! ### Iterators -/

theorem next_outcome {g : Bool} {st : σ} {s : SIter} {s' : KVIter} (h : SIterRep L g st s s') :
    ∃ r s1, Outcome (fun fuel => SIter.next S st fuel s) (.ok (r, s1)) ∧
      ((∃ e, r = some (.error e) ∧ s1.stack = [] ∧ ¬ ReadsSucceed L st) ∨
       SIterRep L g st s1 s'.next0.2 ∧
        ((r = none ∧ s'.next0.1 = none) ∨
         ∃ x y, r = some (.ok x) ∧ s'.next0.1 = some y ∧ x.1 = y.1 ∧ ValRep L st x.2 (some y.2))) := by
  obtain ⟨r, ho, hr⟩ := rpost_outcome (fun n => next0_fuel (S := S) (st := st) n s)
    (next0_rep (fuel := stackSize s'.stack + 1) h (by omega))
  obtain ⟨N, ho⟩ := ho
  cases r with
  | ok x =>
    obtain ⟨o, s1⟩ := x
    obtain ⟨h1, h2⟩ := hr
    cases o with
    | none =>
      refine ⟨none, s1, ⟨N, fun fuel hf => by simp only [SIter.next, ho fuel hf]⟩, Or.inr ⟨h2, Or.inl ⟨rfl, ?_⟩⟩⟩
      cases hn : s'.next0.1 with
      | none => rfl
      | some y => rw [hn] at h1; exact h1.elim
    | some x =>
      refine ⟨some (.ok x), s1, ⟨N, fun fuel hf => by simp only [SIter.next, ho fuel hf]⟩, Or.inr ⟨h2, Or.inr ?_⟩⟩
      cases hn : s'.next0.1 with
      | none => rw [hn] at h1; exact h1.elim
      | some y => rw [hn] at h1; exact ⟨x, y, rfl, rfl, h1.1, h1.2⟩
  | err e =>
    exact ⟨some (.error e), ⟨s.path, []⟩, ⟨N, fun fuel hf => by simp only [SIter.next, ho fuel hf]⟩,
      Or.inl ⟨e, rfl, rfl, hr⟩⟩
  | panic => exact hr.elim
  | deep => exact hr.elim

theorem next_ended (s : SIter) (h : s.stack = []) (st : σ) :
    Outcome (fun fuel => SIter.next S st fuel s) (.ok (none, s)) := by
  refine ⟨1, fun fuel hf => ?_⟩
  obtain ⟨f, rfl⟩ : ∃ f, fuel = f + 1 := ⟨fuel - 1, by omega⟩
  simp only [SIter.next, SIter.next0, h]

theorem log_ended (s : SIter) (h : s.stack = []) : ∀ sts : List σ, ∃ log : List (σ × Option (Except ε (Bytes × BlobV))),
    log.map (·.1) = sts ∧ IterLog (SIter.next S) s log ∧ ∀ e ∈ log, e.2 = none
  | [] => ⟨[], rfl, .nil _, by simp⟩
  | st :: sts => by
    obtain ⟨log, h1, h2, h3⟩ := log_ended s h sts
    exact ⟨(st, none) :: log, by simp [h1], .cons (next_ended s h st) h2, by simpa using h3⟩

theorem next0_none_stack (s : KVIter) (h : s.next0.1 = none) : s.next0.2.stack = [] := by
  fun_induction KVIter.next0 s <;> simp_all

theorem iter_log {g : Bool} : ∀ (sts : List σ) {st : σ} {s : SIter} {s' : KVIter}, SIterRep L g st s s' → Later L st sts →
    ∃ log, log.map (·.1) = sts ∧ IterLog (SIter.next S) s log ∧
      GoodLog L (SameEntry L) (stackEnts s'.path s'.stack) log
  | [], st, s, s', h, hl => ⟨[], rfl, .nil _, by simp [GoodLog]⟩
  | st1 :: sts, st, s, s', h, hl => by
    have h := siterRep_mono hl.1 h
    obtain ⟨r, s1, hn, hc⟩ := next_outcome (S := S) h
    have hspec := next0_spec s'
    rcases hc with ⟨e, rfl, hs, hf⟩ | ⟨h1, ⟨rfl, hnone⟩ | ⟨x, y, rfl, hsome, hk, hv⟩⟩
    · obtain ⟨log, l1, l2, l3⟩ := log_ended (S := S) s1 hs sts
      exact ⟨(st1, some (.error e)) :: log, by simp [l1], .cons hn l2, by
        cases stackEnts s'.path s'.stack <;> exact ⟨hf, l3⟩⟩
    · have hst := next0_none_stack s' hnone
      have hs : s1.stack = [] := stackRep_nil (by have := h1.2; rw [hst] at this; exact this)
      obtain ⟨log, l1, l2, l3⟩ := log_ended (S := S) s1 hs sts
      rcases hq : s'.next0 with ⟨o, q⟩
      rw [hq] at hspec hnone
      cases hnone
      refine ⟨(st1, none) :: log, by simp [l1], .cons hn l2, ?_⟩
      rw [show stackEnts s'.path s'.stack = [] from hspec]
      exact l3
    · obtain ⟨log, l1, l2, l3⟩ := iter_log sts h1 hl.2
      rcases hq : s'.next0 with ⟨o, q⟩
      rw [hq] at hspec hsome l3
      cases hsome
      refine ⟨(st1, some (.ok x)) :: log, by simp [l1], .cons hn l2, ?_⟩
      rw [show stackEnts s'.path s'.stack = y :: stackEnts q.path q.stack from hspec]
      exact ⟨⟨hk, holds_of_rep hv⟩, l3⟩

theorem valNext_outcome {g : Bool} {st : σ} {s : List TIter} {s' : List (List Node)} (h : VStackRep L g st s s') :
    ∃ r s1, Outcome (fun fuel => valNextS S st fuel s) (.ok (r, s1)) ∧
      ((∃ e, r = some (.error e) ∧ s1 = [] ∧ ¬ ReadsSucceed L st) ∨
       VStackRep L g st s1 (valNext0 s').2 ∧
        ((r = none ∧ (valNext0 s').1 = none) ∨
         ∃ x y, r = some (.ok x) ∧ (valNext0 s').1 = some y ∧ ValRep L st x (some y))) := by
  obtain ⟨r, ho, hr⟩ := rpost_outcome (fun n => valNext0S_fuel (S := S) (st := st) n s)
    (valNext0_rep (fuel := vstackSize s' + 1) h (by omega))
  obtain ⟨N, ho⟩ := ho
  cases r with
  | ok x =>
    obtain ⟨o, s1⟩ := x
    obtain ⟨h1, h2⟩ := hr
    cases o with
    | none =>
      refine ⟨none, s1, ⟨N, fun fuel hf => by simp only [valNextS, ho fuel hf]⟩, Or.inr ⟨h2, Or.inl ⟨rfl, ?_⟩⟩⟩
      cases hn : (valNext0 s').1 with
      | none => rfl
      | some y => rw [hn] at h1; exact h1.elim
    | some x =>
      refine ⟨some (.ok x), s1, ⟨N, fun fuel hf => by simp only [valNextS, ho fuel hf]⟩, Or.inr ⟨h2, Or.inr ?_⟩⟩
      cases hn : (valNext0 s').1 with
      | none => rw [hn] at h1; exact h1.elim
      | some y => rw [hn] at h1; exact ⟨x, y, rfl, rfl, h1⟩
  | err e =>
    exact ⟨some (.error e), [], ⟨N, fun fuel hf => by simp only [valNextS, ho fuel hf]⟩, Or.inl ⟨e, rfl, rfl, hr⟩⟩
  | panic => exact hr.elim
  | deep => exact hr.elim

theorem vlog_ended : ∀ sts : List σ, ∃ log : List (σ × Option (Except ε BlobV)),
    log.map (·.1) = sts ∧ IterLog (valNextS S) [] log ∧ ∀ e ∈ log, e.2 = none
  | [] => ⟨[], rfl, .nil _, by simp⟩
  | st :: sts => by
    obtain ⟨log, h1, h2, h3⟩ := vlog_ended sts
    refine ⟨(st, none) :: log, by simp [h1], .cons (s' := []) ⟨1, fun fuel hf => ?_⟩ h2, by simpa using h3⟩
    obtain ⟨f, rfl⟩ : ∃ f, fuel = f + 1 := ⟨fuel - 1, by omega⟩
    simp only [valNextS, valNext0S]

theorem valNext0_none_stack (s : List (List Node)) (h : (valNext0 s).1 = none) : (valNext0 s).2 = [] := by
  fun_induction valNext0 s <;> simp_all

theorem val_log {g : Bool} : ∀ (sts : List σ) {st : σ} {s : List TIter} {s' : List (List Node)}, VStackRep L g st s s' →
    Later L st sts → ∃ log, log.map (·.1) = sts ∧ IterLog (valNextS S) s log ∧ GoodLog L (Holds L) (vstackVals s') log
  | [], st, s, s', h, hl => ⟨[], rfl, .nil _, by simp [GoodLog]⟩
  | st1 :: sts, st, s, s', h, hl => by
    have h := vstackRep_mono hl.1 h
    obtain ⟨r, s1, hn, hc⟩ := valNext_outcome (S := S) h
    have hspec := valNext0_spec s'
    rcases hc with ⟨e, rfl, rfl, hf⟩ | ⟨h1, ⟨rfl, hnone⟩ | ⟨x, y, rfl, hsome, hv⟩⟩
    · obtain ⟨log, l1, l2, l3⟩ := vlog_ended (S := S) sts
      exact ⟨(st1, some (.error e)) :: log, by simp [l1], .cons hn l2, by cases vstackVals s' <;> exact ⟨hf, l3⟩⟩
    · have hst := valNext0_none_stack s' hnone
      have hs : s1 = [] := by
        rw [hst] at h1
        cases s1 with
        | nil => rfl
        | cons _ _ => exact h1.elim
      subst hs
      obtain ⟨log, l1, l2, l3⟩ := vlog_ended (S := S) sts
      rcases hq : valNext0 s' with ⟨o, q⟩
      rw [hq] at hspec hnone
      cases hnone
      refine ⟨(st1, none) :: log, by simp [l1], .cons hn l2, ?_⟩
      rw [show vstackVals s' = [] from hspec]
      exact l3
    · obtain ⟨log, l1, l2, l3⟩ := val_log sts h1 hl.2
      rcases hq : valNext0 s' with ⟨o, q⟩
      rw [hq] at hspec hsome l3
      cases hsome
      refine ⟨(st1, some (.ok x)) :: log, by simp [l1], .cons hn l2, ?_⟩
      rw [show vstackVals s' = y :: vstackVals q from hspec]
      exact ⟨holds_of_rep hv, l3⟩

end

/-! ### Trees with the same contents -/

theorem childAt_map_detached (l : List Node) (c : UInt8) :
    childAt (l.map detached) c = (childAt l c).map detached := by
  unfold childAt
  induction l with
  | nil => rfl
  | cons n l ih =>
    have : n.detached.firstByte = n.firstByte := by cases n; rfl
    simp only [List.map_cons, List.find?_cons, this]
    cases n.firstByte == some c <;> simp [ih]

/-- `detached` on the result of `find`. -/
def FindResult.det : FindResult → FindResult
  | .found u => .found u.detached
  | .pre u m => .pre u.detached m
  | .notFound => .notFound

theorem loadChildren_detached (n : Node) : n.detached.loadChildren = n.loadChildren.map (·.map detached) := by
  rw [loadChildren_eq, loadChildren_eq, kids_detached]
  unfold arcOpt
  cases n.kids <;> simp

theorem findChild_detached {l : List Node} (h : OrdK l) (c : UInt8) :
    findChild (l.map detached) c = (findChild l c).map detached := by
  have h' : OrdK (l.map detached) := by
    have := ord_detached (mk [] none (some l)) (by rw [ord_iff]; exact h)
    rw [ord_iff, kids_detached] at this; exact this
  rw [findChild_eq h', findChild_eq h, childAt_map_detached]

theorem find_detached (n : Node) (p : Bytes) (ho : Ord n) : find n.detached p = (find n p).det := by
  fun_induction find n p with
  | case1 =>
    rename_i n p k rt rp hc
    rw [find.eq_def]; dsimp only; rw [pfx_detached, if_pos (by exact hc)]; rfl
  | case2 =>
    rename_i n p k rt rp hc hp
    rw [find.eq_def]; dsimp only; rw [pfx_detached, if_neg (by exact hc), if_pos (by exact hp)]; rfl
  | case3 =>
    rename_i n p k rt rp hc hp ht hd
    simp only [List.drop_eq_nil_iff] at hd; simp only [rp] at hp; omega
  | case4 =>
    rename_i n p k rt rp hc hp ht c rest hd hl
    rw [find.eq_def]; dsimp only; rw [pfx_detached, if_neg (by exact hc), if_neg (by exact hp), if_pos (by exact ht)]
    simp only [k] at hd
    rw [hd]; dsimp only
    split
    · rfl
    · rename_i cs hcs
      rw [loadChildren_detached, hl] at hcs; cases hcs
  | case5 =>
    rename_i n p k rt rp hc hp ht c rest hd cs hl hfc
    rw [find.eq_def]; dsimp only; rw [pfx_detached, if_neg (by exact hc), if_neg (by exact hp), if_pos (by exact ht)]
    simp only [k] at hd
    rw [hd]; dsimp only
    split
    · rfl
    · rename_i cs' hcs
      rw [loadChildren_detached, hl] at hcs; cases hcs
      split
      · rfl
      · rename_i child hch
        rw [findChild_detached (ord_loadChildren ho hl), hfc] at hch; cases hch
  | case6 =>
    rename_i n p k rt rp hc hp ht c rest hd cs hl child hfc ih
    rw [find.eq_def]; dsimp only; rw [pfx_detached, if_neg (by exact hc), if_neg (by exact hp), if_pos (by exact ht)]
    simp only [k] at hd
    rw [hd]; dsimp only
    have hok := ord_loadChildren ho hl
    split
    · rename_i hcs
      rw [loadChildren_detached, hl] at hcs; cases hcs
    · rename_i cs' hcs
      rw [loadChildren_detached, hl] at hcs; cases hcs
      split
      · rename_i hch
        rw [findChild_detached hok, hfc] at hch; cases hch
      · rename_i child' hch
        rw [findChild_detached hok, hfc] at hch; cases hch
        exact ih (hok.mem (findChild_mem hfc)).2
  | case7 =>
    rename_i n p k rt rp hc hp ht
    rw [find.eq_def]; dsimp only
    rw [pfx_detached, if_neg (by exact hc), if_neg (by exact hp), if_neg (by exact ht)]; rfl

theorem ents_detached (pre : Bytes) (n : Node) : ents pre n.detached = ents pre n := by
  induction n using Node.kidsInduction generalizing pre with
  | step n ih =>
    rw [ents_eq, ents_eq, pfx_detached, val_detached, kids_detached]
    congr 1
    generalize hk : n.kids = l
    rw [hk] at ih
    generalize pre ++ n.pfx = q
    clear hk
    induction l with
    | nil => rfl
    | cons c l ihl =>
      simp only [List.map_cons, entsL]
      rw [ih c (by simp), ihl fun c hc => ih c (by simp [hc])]

/-- Two ordered and compact trees with the same contents. -/
structure Twin (t u : Node) : Prop where
  ot : Ord t
  ou : Ord u
  det : t.detached = u.detached

theorem Twin.get {t u : Node} (h : Twin t u) (k : Bytes) : get t k = get u k := by
  rw [get_eq_den _ _ h.ot, get_eq_den _ _ h.ou, ← den_detached, h.det, den_detached]

theorem Twin.hasPrefix {t u : Node} (h : Twin t u) (p : Bytes) : hasPrefix t p = hasPrefix u p := by
  have h1 := find_detached t p h.ot
  rw [h.det, find_detached u p h.ou] at h1
  unfold Radix.hasPrefix
  cases ht : find t p <;> cases hu : find u p <;> rw [ht, hu] at h1 <;> first | rfl | cases h1

theorem Twin.scanPrefix {t u : Node} (h : Twin t u) (p : Bytes) : scanPrefix t p = scanPrefix u p := by
  have h1 := find_detached t p h.ot
  rw [h.det, find_detached u p h.ou] at h1
  have hb : below t p = below u p := by unfold below; rw [iter_ext h.ot h.ou h.get]
  have st := scanPrefix_spec h.ot p
  have su := scanPrefix_spec h.ou p
  cases ht : find t p <;> cases hu : find u p <;> rw [ht, hu] at h1 <;> try cases h1
  · rename_i x y
    rw [ht] at st; rw [hu] at su
    obtain ⟨_, _, _, e1⟩ := st
    obtain ⟨_, _, _, e2⟩ := su
    have hd : y.detached = x.detached := by injection h1
    rw [e1, e2, ← ents_detached, ← hd, ents_detached]
  · rw [ht] at st; rw [hu] at su
    rw [show Radix.scanPrefix t p = _ from st, show Radix.scanPrefix u p = _ from su, hb]
  · rw [ht] at st; rw [hu] at su
    rw [show Radix.scanPrefix t p = _ from st, show Radix.scanPrefix u p = _ from su, hb]

theorem Stands.twin {σ ε : Type} {S : BlobStore σ ε} {L : Lawful S} {g : Bool} {st : σ} {a : SNode} {m : Spec.Map}
    {t u : Node} (h : Stands L g st a m t) (hu : Proper u) (hm : ∀ k, get u k = m k) : Twin t u := by
  have ou := reach_ord hu
  refine ⟨h.1, ou, shape_unique h.2.1 (proper_shape hu) h.1 ou fun k => ?_⟩
  rw [h.2.2.2, ← hm, get_eq_den _ _ ou]

end Radix
