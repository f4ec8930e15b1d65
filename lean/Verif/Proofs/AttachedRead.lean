import Verif.Heap.AttRead
import Verif.Proofs.AttachedOps
import Verif.Proofs.HeapApi

/-
Lookups in trees in memory that may refer to a store, and writing and loading them, do what `Verif/Stored/Read.lean` and `Verif/Stored/Record.lean` do on plain
values.
-/

set_option linter.unusedVariables false

namespace Radix.Heap.Att

section
variable {σ ε : Type}

/-- A computation that only reads, and whose result stands for a plain value. -/
def OutR {α β : Type} (rel : β → α → Prop) (h : Mem) (x : H (Except ε β)) (v : Res ε α) : Prop :=
  match v with
  | .ok a => ∃ b, x h = some (.ok b, h) ∧ rel b a
  | .err e => x h = some (.error e, h)
  | .panic => True
  | .deep => True

theorem run_andThen_ok {α β : Type} {x : H (Except ε α)} {k : α → H (Except ε β)} {h h' a} (e : x h = some (.ok a, h')) :
    andThen x k h = k a h' := by unfold andThen; rw [run_bind e]

theorem run_andThen_err {α β : Type} {x : H (Except ε α)} {k : α → H (Except ε β)} {h h' e0} (e : x h = some (.error e0, h')) :
    andThen x k h = some (.error e0, h') := by unfold andThen; rw [run_bind e]; rfl

theorem OutP.outR {α : Type} {h : Mem} {x : H (Except ε α)} {v : Res ε α} (hx : OutP h x v) : OutR (fun a b => a = b) h x v := by
  cases v <;> first | exact ⟨_, hx, rfl⟩ | exact hx

theorem IterOut.outR {R h} {x : H (Except ε (Option HIter))} {v} (hx : IterOut R h x v) : OutR (BorIO R h) h x v := by
  cases v <;> exact hx

theorem OutR.andThen {α β α' β' : Type} {rel : β → α → Prop} {rel' : β' → α' → Prop} {h : Mem} {x : H (Except ε β)} {v : Res ε α} {k : β → H (Except ε β')}
    {kv : α → Res ε α'} (hx : OutR rel h x v) (hk : ∀ b a, v = .ok a → rel b a → OutR rel' h (k b) (kv a)) :
    OutR rel' h (Att.andThen x k) (v.bind kv) := by
  cases v with
  | ok a =>
    obtain ⟨b, e, r⟩ := hx
    have := hk b a rfl r
    unfold OutR at this ⊢
    rw [run_andThen_ok e]; exact this
  | err e => exact run_andThen_err hx
  | panic => trivial
  | deep => trivial

theorem OutR.andThenNew {α β ρ γ : Type} {rel : β → α → Prop} {rep : Mem → ρ → γ → Prop} {refs : ρ → List Heap.Ref} {R} {h : Mem} {x : H (Except ε β)}
    {v : Res ε α} {k : β → H (Except ε ρ)} {kv : α → Res ε γ} (hi : Inv h R) (hx : OutR rel h x v)
    (hk : ∀ b a, v = .ok a → rel b a → New rep refs R h (k b) (kv a)) : New rep refs R h (Att.andThen x k) (v.bind kv) := by
  cases v with
  | ok a =>
    obtain ⟨b, e, r⟩ := hx
    exact New.after (run_andThen_ok e) (Keep.refl _ _) (hk b a rfl r)
  | err e => exact ⟨h, run_andThen_err hx, hi, Keep.refl _ _⟩
  | panic => trivial
  | deep => trivial

/-! ### Search -/

theorem zipRankS_get : ∀ (l : List SNode) (xs : List Raw), xs.length = l.length → ∀ i : Nat,
    ((zipRankS l xs)[i]?).map (fun p : Nat × Raw => p.1) = (l[i]?).map fun m : SNode => Node.rank m.pfx.firstByte
  | [], [], _, i => by simp [zipRankS]
  | m :: l, x :: xs, hl, i => by
    cases i with
    | zero => simp [zipRankS]
    | succ i => simpa [zipRankS] using zipRankS_get l xs (by simpa using hl) i

theorem bsearchR_eqS {l : List SNode} {xs : List Raw} (hl : xs.length = l.length) (t a b : Nat) : bsearchR (zipRankS l xs) t a b = bsearchS l t a b := by
  fun_induction bsearchS l t a b with
  | case1 a b h mid hm =>
    rw [bsearchR, dif_pos h]
    have := zipRankS_get l xs hl mid
    rw [hm] at this
    simp only [Option.map_none, Option.map_eq_none_iff] at this
    simp only [mid] at this
    simp only [this]
  | case2 a b h mid x hm hlt ih =>
    rw [bsearchR, dif_pos h]
    have := zipRankS_get l xs hl mid
    rw [hm] at this
    simp only [Option.map_some, Option.map_eq_some_iff] at this
    obtain ⟨y, hy, e⟩ := this
    simp only [mid] at hy ih
    simp only [hy, e, if_pos hlt]; exact ih
  | case3 a b h mid x hm hlt hgt ih =>
    rw [bsearchR, dif_pos h]
    have := zipRankS_get l xs hl mid
    rw [hm] at this
    simp only [Option.map_some, Option.map_eq_some_iff] at this
    obtain ⟨y, hy, e⟩ := this
    simp only [mid] at hy ih
    simp only [hy, e, if_neg hlt, if_pos hgt]; exact ih
  | case4 a b h mid x hm hlt hgt =>
    rw [bsearchR, dif_pos h]
    have := zipRankS_get l xs hl mid
    rw [hm] at this
    simp only [Option.map_some, Option.map_eq_some_iff] at this
    obtain ⟨y, hy, e⟩ := this
    simp only [mid] at hy
    simp only [hy, e, if_neg hlt, if_neg hgt, mid]
  | case5 a b h => rw [bsearchR, dif_neg h]

/-- Both or none. -/
def BorSO (R : List Heap.Ref) (h : Mem) : Option Raw → Option SNode → Prop
  | some x, some m => BorS R h x m
  | none, none => True
  | _, _ => False

/-- Both or none. -/
def BorRO (R : List Heap.Ref) (h : Mem) : Option HRef → Option Radix.Ref → Prop
  | some x, some m => BorR R h x m
  | none, none => True
  | _, _ => False

theorem BorSO.map {R h o p} (hb : BorSO R h o p) : BorRO R h (o.map HRef.owned) (p.map Radix.Ref.owned) := by
  cases o <;> cases p <;> exact hb

theorem BorSL.get {R h} : ∀ {l xs}, BorSL R h xs l → ∀ i : Nat, BorSO R h xs[i]? l[i]?
  | [], xs, hb, i => by rw [BorSL.nil_iff] at hb; subst hb; simp [BorSO]
  | m :: l, xs, hb, i => by
    obtain ⟨y, ys, rfl, h1, h2⟩ := BorSL.cons_iff.1 hb
    cases i with
    | zero => simpa [BorSO] using h1
    | succ i => simpa using BorSL.get h2 i

theorem BorSL.getLast {R h l xs} (hb : BorSL R h xs l) : BorSO R h xs.getLast? l.getLast? := by
  rw [List.getLast?_eq_getElem?, List.getLast?_eq_getElem?, hb.1.length]
  exact hb.get _

theorem findChild_specS {R h l xs} (c : UInt8) (hb : BorSL R h xs l) : ∃ o, findChild xs c h = some (o, h) ∧ BorSO R h o (findOwned l c) := by
  unfold findChild findOwned
  rw [hb.1.length]
  by_cases h1 : l.length = 256
  · rw [if_pos h1, if_pos h1]
    exact ⟨_, rfl, hb.get _⟩
  · rw [if_neg h1, if_neg h1, run_bind (ranked_specS hb.1), bsearchR_eqS hb.1.length]
    refine ⟨_, rfl, ?_⟩
    cases bsearchS l (Node.rank (some c)) 0 l.length with
    | none => trivial
    | some i => exact hb.get i

theorem findBorrowed_ok : ∀ (n : Nat) (bs : Bytes) (c : UInt8) (r : Rec), bs.length ≤ n → findBorrowed bs c = some r → RecOk r := by
  intro n
  induction n with
  | zero =>
    intro bs c r hn h
    rw [findBorrowed] at h
    split at h
    · cases h
    · rename_i r' rest e
      have := readOne_lt e
      omega
  | succ n ih =>
    intro bs c r hn h
    rw [findBorrowed] at h
    split at h
    · cases h
    · rename_i r' rest e
      have := readOne_lt e
      split at h
      · exact ih rest c r (by omega) h
      · split at h
        · cases h
        · cases h; exact readOne_ok e

theorem lastBorrowed_ok : ∀ (n : Nat) (bs : Bytes) (acc : Option Rec) (r : Rec), bs.length ≤ n → (∀ r, acc = some r → RecOk r) →
    lastBorrowed bs acc = some r → RecOk r := by
  intro n
  induction n with
  | zero =>
    intro bs acc r hn ha h
    rw [lastBorrowed] at h
    split at h
    · exact ha r h
    · rename_i r' rest e
      have := readOne_lt e
      omega
  | succ n ih =>
    intro bs acc r hn ha h
    rw [lastBorrowed] at h
    split at h
    · exact ha r h
    · rename_i r' rest e
      have := readOne_lt e
      exact ih rest _ r (by omega) (fun r h => by cases h; exact readOne_ok e) h

theorem iter_find {R h it itv} (c : UInt8) (hb : BorI R h it itv) : ∃ o, it.find c h = some (o, h) ∧ BorRO R h o (itv.find c) := by
  cases it with
  | owned xs =>
    cases itv with
    | owned l =>
      obtain ⟨o, e, ho⟩ := findChild_specS c hb
      exact ⟨_, by unfold HIter.find; rw [run_bind e]; rfl, ho.map⟩
    | borrowed bs => cases hb
  | borrowed bs =>
    cases itv with
    | owned l => cases hb
    | borrowed bs' =>
      have hb' : bs = bs' := hb
      subst hb'
      refine ⟨_, rfl, ?_⟩
      show BorRO R h ((findBorrowed bs c).map .borrowed) ((findBorrowed bs c).map .borrowed)
      cases e : findBorrowed bs c with
      | none => trivial
      | some r => exact ⟨rfl, findBorrowed_ok _ bs c r (Nat.le_refl _) e⟩

theorem iter_last {R h it itv} (hb : BorI R h it itv) : BorRO R h it.last itv.last := by
  cases it with
  | owned xs =>
    cases itv with
    | owned l => exact (BorSL.getLast hb).map
    | borrowed bs => cases hb
  | borrowed bs =>
    cases itv with
    | owned l => cases hb
    | borrowed bs' =>
      have hb' : bs = bs' := hb
      subst hb'
      show BorRO R h ((lastBorrowed bs none).map .borrowed) ((lastBorrowed bs none).map .borrowed)
      cases e : lastBorrowed bs none with
      | none => trivial
      | some r => exact ⟨rfl, lastBorrowed_ok _ bs none r (Nat.le_refl _) (by simp) e⟩

/-- A result of `find`. -/
def BorF (R : List Heap.Ref) (h : Mem) : HFound → SFind → Prop
  | .found x, .found m => BorR R h x m
  | .pre x n, .pre m n' => BorR R h x m ∧ n = n'
  | .notFound, .notFound => True
  | _, _ => False

theorem find_specS {S : BlobStore σ ε} {st : σ} {R h} : ∀ (n : Nat) (x : HRef) (m : Radix.Ref) (p : Bytes), BorR R h x m →
    OutR (BorF R h) h (find S st n x p) (findS S st n m p) := by
  intro n
  induction n with
  | zero => intro x m p hb; trivial
  | succ n ih =>
    intro x m p hb
    unfold find findS
    refine (href_loadPrefix hb).outR.andThen ?_
    intro tp tp' _ he
    subst he
    dsimp only
    by_cases h1 : p.length - commonPrefix tp p = 0 ∧ tp.length - commonPrefix tp p = 0
    · rw [if_pos h1, if_pos h1]
      exact ⟨_, rfl, hb⟩
    · rw [if_neg h1, if_neg h1]
      by_cases h2 : p.length - commonPrefix tp p = 0
      · rw [if_pos h2, if_pos h2]
        exact ⟨_, rfl, hb, rfl⟩
      · rw [if_neg h2, if_neg h2]
        by_cases h3 : tp.length - commonPrefix tp p = 0
        · rw [if_pos h3, if_pos h3]
          cases hd : p.drop (commonPrefix tp p) with
          | nil => trivial
          | cons c rest =>
            dsimp only
            refine (href_loadChildren hb).outR.andThen ?_
            intro o o' _ ho
            cases o with
            | none =>
              cases o' with
              | none => exact ⟨_, rfl, trivial⟩
              | some it => cases ho
            | some it =>
              cases o' with
              | none => cases ho
              | some itv =>
                obtain ⟨f, e, hf⟩ := iter_find c ho
                dsimp only
                unfold OutR
                rw [run_bind e]
                cases f with
                | none =>
                  cases hv : itv.find c with
                  | none => exact ⟨_, rfl, trivial⟩
                  | some b => rw [hv] at hf; cases hf
                | some b =>
                  cases hv : itv.find c with
                  | none => rw [hv] at hf; cases hf
                  | some bv =>
                    rw [hv] at hf
                    exact ih b bv (c :: rest) hf
        · rw [if_neg h3, if_neg h3]
          exact ⟨_, rfl, trivial⟩

/-! ### Values -/

/-- An optional value. -/
def RepOBV (h : Mem) : Option Fld → Option BlobV → Prop
  | some f, some b => RepBV h f b
  | none, none => True
  | _, _ => False

/-- An optional entry. -/
def RepOE (h : Mem) : Option (Bytes × Fld) → Option (Bytes × BlobV) → Prop
  | some (k, f), some (k', b) => k = k' ∧ RepBV h f b
  | none, none => True
  | _, _ => False

/-- What an optional entry refers to. -/
def oeRefsS : Option (Bytes × Fld) → List Heap.Ref
  | some (_, f) => f.refs
  | none => []

theorem postRefl {R h} (hi : Inv h R) : Post R h h [] := ⟨hi, Keep.refl _ _⟩

theorem ownValue_spec {R h x} {n : Radix.Ref} (hi : Inv h R) (hb : BorR R h x n) :
    ∃ o h', ownValue x.valueOpt h = some (o, h') ∧ Post R h h' (ovRefs o) ∧ RepOBV h' o n.val.valueOpt := by
  rcases href_valueOpt hb with ⟨h1, h2⟩ | ⟨hv, bv, h1, h2, h3⟩
  · rw [h1, h2]
    exact ⟨none, h, rfl, postRefl hi, trivial⟩
  · rw [h1, h2]
    obtain ⟨f, h', e, p, r⟩ := hval_toOwned hi h3
    exact ⟨some f, h', by unfold ownValue; rw [run_bind e]; rfl, p, r⟩

theorem ownEntry_spec {R h x} {n : Radix.Ref} (k : Bytes) (hi : Inv h R) (hb : BorR R h x n) :
    ∃ o h', ownEntry k x.valueOpt h = some (o, h') ∧ Post R h h' (oeRefsS o) ∧ RepOE h' o (n.val.valueOpt.map fun v => (k, v)) := by
  rcases href_valueOpt hb with ⟨h1, h2⟩ | ⟨hv, bv, h1, h2, h3⟩
  · rw [h1, h2]
    exact ⟨none, h, rfl, postRefl hi, trivial⟩
  · rw [h1, h2]
    obtain ⟨f, h', e, p, r⟩ := hval_toOwned hi h3
    exact ⟨some (k, f), h', by unfold ownEntry; rw [run_bind e]; rfl, p, rfl, r⟩

/-- A call that gives an optional value. -/
abbrev NewV (R : List Heap.Ref) (h : Mem) (x : H (Except ε (Option Fld))) (v : Res ε (Option BlobV)) : Prop := New RepOBV ovRefs R h x v

/-- A call that gives an optional entry. -/
abbrev NewE (R : List Heap.Ref) (h : Mem) (x : H (Except ε (Option (Bytes × Fld)))) (v : Res ε (Option (Bytes × BlobV))) : Prop := New RepOE oeRefsS R h x v

theorem newV_none {R h} (hi : Inv h R) : NewV (ε := ε) R h (return .ok none) (.ok none) := ⟨none, h, rfl, postRefl hi, trivial⟩

theorem newV_own {R h x} {n : Radix.Ref} (hi : Inv h R) (hb : BorR R h x n) :
    NewV (ε := ε) R h (do let v ← ownValue x.valueOpt; return .ok v) (.ok n.val.valueOpt) := by
  obtain ⟨o, h', e, p, r⟩ := ownValue_spec hi hb
  exact ⟨o, h', by rw [run_bind e]; rfl, p, r⟩

theorem get_specS {S : BlobStore σ ε} {st : σ} {R h x m} (n : Nat) (k : Bytes) (hi : Inv h R) (hb : BorS R h x m) :
    NewV R h (get S st n x k) (getS S n st m k) := by
  unfold get getS
  refine (find_specS n (.owned x) (.owned m) k hb).andThenNew hi ?_
  intro f fv _ hf
  cases f with
  | found u =>
    cases fv with
    | found uv => exact newV_own hi hf
    | _ => cases hf
  | pre u a => cases fv <;> first | cases hf; done | exact newV_none hi
  | notFound => cases fv <;> first | cases hf; done | exact newV_none hi

theorem isSome_valueOpt {R h x} {n : Radix.Ref} (hb : BorR R h x n) : x.valueOpt.isSome = n.val.valueOpt.isSome := by
  rcases href_valueOpt hb with ⟨h1, h2⟩ | ⟨hv, bv, h1, h2, h3⟩ <;> rw [h1, h2] <;> rfl

theorem containsKey_specS {S : BlobStore σ ε} {st : σ} {R h x m} (n : Nat) (k : Bytes) (hb : BorS R h x m) :
    OutR (fun a b => a = b) h (containsKey S st n x k) (containsKeyS S n st m k) := by
  unfold containsKey containsKeyS
  refine (find_specS n (.owned x) (.owned m) k hb).andThen ?_
  intro f fv _ hf
  cases f with
  | found u =>
    cases fv with
    | found uv => exact ⟨_, rfl, isSome_valueOpt hf⟩
    | _ => cases hf
  | pre u a => cases fv <;> first | cases hf; done | exact ⟨_, rfl, rfl⟩
  | notFound => cases fv <;> first | cases hf; done | exact ⟨_, rfl, rfl⟩

theorem hasPrefix_specS {S : BlobStore σ ε} {st : σ} {R h x m} (n : Nat) (k : Bytes) (hb : BorS R h x m) :
    OutR (fun a b => a = b) h (hasPrefix S st n x k) (hasPrefixS S n st m k) := by
  unfold hasPrefix hasPrefixS
  refine (find_specS n (.owned x) (.owned m) k hb).andThen ?_
  intro f fv _ hf
  cases f <;> cases fv <;> first | cases hf; done | exact ⟨_, rfl, rfl⟩

theorem withPrefix_spec {R h u uv} (p : Bytes) (hi : Inv h R) (hb : BorR R h u uv) :
    NewN (ε := ε) R h (withPrefix u p) ((Radix.Ref.toOwned uv).bind fun r => .ok (r.setPrefix p)) := by
  cases e0 : (Radix.Ref.toOwned uv : Res ε SNode) with
  | ok r =>
    obtain ⟨y, h1, e1, p1, r1⟩ := href_toOwned hi hb e0
    obtain ⟨z, h2, e2, p2, r2, _⟩ := setPrefix_specS p p1.inv r1
    exact ⟨z, h2, by unfold withPrefix; rw [run_bind e1, run_bind e2]; rfl, ⟨p2.inv, p1.keep.trans p2.keep⟩, r2⟩
  | err e => exact (toOwned_noErr e0).elim
  | panic => trivial
  | deep => trivial

theorem repS_empty (h : Mem) : RepS h Raw.empty SNode.empty := repS_leaf (repBV_empty h) (repBV_none h)

theorem filterPrefix_specS {S : BlobStore σ ε} {st : σ} {R h x m} (n : Nat) (p s : Bytes) (hi : Inv h R) (hb : BorS R h x m) :
    NewN R h (filterPrefix S st n x p s) (filterPrefixS S n st m p s) := by
  unfold filterPrefix filterPrefixS
  refine (find_specS n (.owned x) (.owned m) p hb).andThenNew hi ?_
  intro f fv _ hf
  cases f with
  | found u =>
    cases fv with
    | found uv => exact withPrefix_spec s hi hf
    | _ => cases hf
  | pre u a =>
    cases fv with
    | pre uv b =>
      obtain ⟨h1, rfl⟩ := hf
      refine (href_loadPrefix h1).outR.andThenNew hi ?_
      intro tp tp' _ he
      subst he
      exact withPrefix_spec _ hi h1
    | _ => cases hf
  | notFound => cases fv <;> first | cases hf; done | exact ⟨_, h, rfl, postRefl hi, repS_empty h⟩

theorem firstValue_specS {S : BlobStore σ ε} {st : σ} {R h} (hi : Inv h R) : ∀ (n : Nat) (x : HRef) (m : Radix.Ref), BorR R h x m →
    NewV R h (firstValue S st n x) (firstValueS S st n m) := by
  intro n
  induction n with
  | zero => intro x m hb; trivial
  | succ n ih =>
    intro x m hb
    unfold firstValue firstValueS
    rcases href_valueOpt hb with ⟨h1, h2⟩ | ⟨hv, bv, h1, h2, h3⟩
    · rw [h1, h2]
      dsimp only
      refine (href_loadChildren hb).outR.andThenNew hi ?_
      intro o o' _ ho
      cases o with
      | none => cases o' <;> first | cases ho; done | exact newV_none hi
      | some it =>
        cases o' with
        | none => cases ho
        | some itv =>
          dsimp only
          rcases iter_next ho with ⟨e1, e2⟩ | ⟨b, it', bv, itv', e1, e2, hb1, _⟩
          · rw [e2]; trivial
          · rw [e1, e2]; exact ih b bv hb1
    · rw [h1, h2]
      dsimp only
      obtain ⟨f, h', e, p, r⟩ := hval_toOwned hi h3
      exact ⟨some f, h', by rw [run_bind e]; rfl, p, r⟩

theorem lastValue_specS {S : BlobStore σ ε} {st : σ} {R h} (hi : Inv h R) : ∀ (n : Nat) (x : HRef) (m : Radix.Ref), BorR R h x m →
    NewV R h (lastValue S st n x) (lastValueS S st n m) := by
  intro n
  induction n with
  | zero => intro x m hb; trivial
  | succ n ih =>
    intro x m hb
    unfold lastValue lastValueS
    refine (href_loadChildren hb).outR.andThenNew hi ?_
    intro o o' _ ho
    cases o with
    | none => cases o' <;> first | cases ho; done | exact newV_own hi hb
    | some it =>
      cases o' with
      | none => cases ho
      | some itv =>
        dsimp only
        have hl := iter_last ho
        cases e1 : it.last with
        | none =>
          cases e2 : itv.last with
          | none => trivial
          | some b => rw [e1, e2] at hl; cases hl
        | some b =>
          cases e2 : itv.last with
          | none => rw [e1, e2] at hl; cases hl
          | some bv => rw [e1, e2] at hl; exact ih b bv hl

theorem newE_none {R h} (hi : Inv h R) : NewE (ε := ε) R h (return .ok none) (.ok none) := ⟨none, h, rfl, postRefl hi, trivial⟩

theorem firstEntry_specS {S : BlobStore σ ε} {st : σ} {R h} (hi : Inv h R) : ∀ (n : Nat) (pre : Bytes) (x : HRef) (m : Radix.Ref), BorR R h x m →
    NewE R h (firstEntry S st n pre x) (firstEntryS S st n pre m) := by
  intro n
  induction n with
  | zero => intro pre x m hb; trivial
  | succ n ih =>
    intro pre x m hb
    unfold firstEntry firstEntryS
    refine (href_loadPrefix hb).outR.andThenNew hi ?_
    intro p p' _ he
    subst he
    rcases href_valueOpt hb with ⟨h1, h2⟩ | ⟨hv, bv, h1, h2, h3⟩
    · rw [h1, h2]
      dsimp only
      refine (href_loadChildren hb).outR.andThenNew hi ?_
      intro o o' _ ho
      cases o with
      | none => cases o' <;> first | cases ho; done | exact newE_none hi
      | some it =>
        cases o' with
        | none => cases ho
        | some itv =>
          dsimp only
          rcases iter_next ho with ⟨e1, e2⟩ | ⟨b, it', bv, itv', e1, e2, hb1, _⟩
          · rw [e2]; trivial
          · rw [e1, e2]; exact ih _ b bv hb1
    · rw [h1, h2]
      dsimp only
      obtain ⟨f, h', e, q, r⟩ := hval_toOwned hi h3
      exact ⟨some (pre ++ p, f), h', by rw [run_bind e]; rfl, q, rfl, r⟩

theorem lastEntry_specS {S : BlobStore σ ε} {st : σ} {R h} (hi : Inv h R) : ∀ (n : Nat) (pre : Bytes) (x : HRef) (m : Radix.Ref), BorR R h x m →
    NewE R h (lastEntry S st n pre x) (lastEntryS S st n pre m) := by
  intro n
  induction n with
  | zero => intro pre x m hb; trivial
  | succ n ih =>
    intro pre x m hb
    unfold lastEntry lastEntryS
    refine (href_loadPrefix hb).outR.andThenNew hi ?_
    intro p p' _ he
    subst he
    refine (href_loadChildren hb).outR.andThenNew hi ?_
    intro o o' _ ho
    cases o with
    | none =>
      cases o' with
      | none =>
        obtain ⟨v, h', e, q, r⟩ := ownEntry_spec (pre ++ p) hi hb
        exact ⟨v, h', by dsimp only; rw [run_bind e]; rfl, q, r⟩
      | some _ => cases ho
    | some it =>
      cases o' with
      | none => cases ho
      | some itv =>
        dsimp only
        have hl := iter_last ho
        cases e1 : it.last with
        | none =>
          cases e2 : itv.last with
          | none => trivial
          | some b => rw [e1, e2] at hl; cases hl
        | some b =>
          cases e2 : itv.last with
          | none => rw [e1, e2] at hl; cases hl
          | some bv => rw [e1, e2] at hl; exact ih _ b bv hl

theorem valueLoad_spec {S : BlobStore σ ε} {st : σ} {h f b} (hr : RepBV h f b) : OutP h (valueLoad S st f) (b.load S st) :=
  OutP.bind (blobV_spec hr) (ofRes_spec _)

/-! ### Writing and loading -/

/-- A computation that changes the state of the store, and not what is in memory. -/
abbrev SimSt {α : Type} (R : List Heap.Ref) (h : Mem) (x : H (Except ε α × σ)) (v : Res ε α × σ) : Prop :=
  Sim (fun _ a b => a = b) (fun _ => []) R h x v

theorem ofResSt_spec {α : Type} {R h} (hi : Inv h R) (v : Res ε α × σ) : SimSt R h (ofResSt v) v := by
  obtain ⟨r, st⟩ := v
  cases r with
  | ok a => exact ⟨st, h, rfl, postRefl hi, rfl⟩
  | err e => exact ⟨st, h, rfl, postRefl hi, rfl⟩
  | panic => trivial
  | deep => trivial

theorem serializeBlob_spec {S : BlobStore σ ε} {R h f b} (n : Nat) (st : σ) (hi : Inv h R) (hr : RepBV h f b) :
    SimSt R h (serializeBlob S n f st) (b.serialize S n st) :=
  Sim.after (h' := h) (by unfold serializeBlob; rw [run_bind (blobV_spec hr)]) (Keep.refl _ _) (ofResSt_spec hi _)

/-- What `serialize` of a borrowed node does. -/
def SerS (S : BlobStore σ ε) (f : Raw → σ → H (Except ε Bytes × σ)) (N : Nat) : Prop :=
  ∀ R h x m st, levels m ≤ N → Inv h R → BorS R h x m → SimSt R h (f x st) (m.serialize S st)

theorem serializeAll_spec {S : BlobStore σ ε} {f : Raw → σ → H (Except ε Bytes × σ)} {N : Nat} (hf : SerS S f N) : ∀ (l : List SNode) (xs : List Raw) (R : List Heap.Ref)
    (h : Mem) (data : Bytes) (rs : Nat) (st : σ), levelsL l ≤ N → Inv h R → BorSL R h xs l → SimSt R h (serializeAll f xs data rs st) (serializeL S l data rs st) := by
  intro l
  induction l with
  | nil =>
    intro xs R h data rs st hl hi hb
    rw [BorSL.nil_iff] at hb
    subst hb
    unfold serializeAll serializeL
    exact ⟨st, h, rfl, postRefl hi, rfl⟩
  | cons m l ih =>
    intro xs R h data rs st hl hi hb
    obtain ⟨y, ys, rfl, h1, h2⟩ := BorSL.cons_iff.1 hb
    unfold serializeAll serializeL
    simp only [levelsL] at hl
    refine Sim.bind (hf R h y m st (by omega) hi h1) ?_
    intro b st' h' _ hi' hk he
    subst he
    exact ih ys R h' _ _ _ (by omega) hi' (h2.keep hk)

theorem serialize_spec {S : BlobStore σ ε} : ∀ n, SerS S (serialize S n) n := by
  intro n
  induction n with
  | zero =>
    intro R h x m st hl hi hb
    cases m <;> simp [levels] at hl
  | succ n ih =>
    intro R h x m st hl hi hb
    unfold serialize
    have key : SimSt R h (seq (serializeBlob S 1 x.pfx st) fun pb st =>
        seq (serializeBlob S 0 x.val st) fun vb st =>
        if x.ch.hdr.isId then do
          let i ← x.ch.slice
          return (.ok (pb ++ vb ++ x.ch.hdr :: i), st)
        else do
          match ← x.ch.children with
          | none => fail
          | some l =>
            if l.isEmpty then return (.ok (pb ++ vb ++ [Hdr.none]), st)
            else seq (serializeAll (serialize S n) l [] 0 st) fun (data, rs) st => writeChildren S pb vb data rs st)
        (stBind (m.pfx.serialize S 1 st) fun pb st =>
         stBind (m.val.serialize S 0 st) fun vb st =>
         match m.children with
         | .inl l =>
          if l.isEmpty then (.ok (pb ++ vb ++ [Hdr.none]), st)
          else
            stBind (serializeL S l [] 0 st) fun (data, rs) st =>
            stBind (S.write st data) fun i st =>
            match Hdr.id? (i.length + 1) with
            | some h => (.ok (pb ++ vb ++ h :: recordSizeByte rs :: i), st)
            | none => (.panic, st)
         | .inr i => (.ok (pb ++ vb ++ (BlobV.id i).hdr :: i), st)) := by
      refine Sim.bind (serializeBlob_spec 1 st hi hb.1.pfx) ?_
      intro pb st1 h1 _ hi1 hk1 e1
      subst e1
      have hb1 := hb.keep hk1
      refine Sim.bind (serializeBlob_spec 0 _ hi1 hb1.1.val) ?_
      intro vb st2 h2 _ hi2 hk2 e2
      subst e2
      have hb2 := hb1.keep hk2
      rcases RepCh.refs hb2.1.ch with ⟨i, hc, hr, hid⟩ | ⟨hh, a, xs, l, hc, hw, hrefs, hk, hl2⟩
      · rw [hc, if_pos hid]
        dsimp only
        refine ⟨_, h2, by rw [run_bind (slice_specS hr), hr.2.1]; rfl, postRefl hi2, rfl⟩
      · rw [hc, hh, hdr_arc_isId]
        simp only [Bool.false_eq_true, if_false]
        have e : x.ch.children h2 = some (some xs, h2) := by
          unfold Fld.children
          rw [hh, hdr_arc_isId]; simp only [Bool.false_eq_true, if_false]
          rw [if_pos hdr_arc_len, hw]
          show (readKids a >>= fun x => pure (some x)) h2 = _; rw [run_bind (readKids_spec hk)]; rfl
        refine Sim.after (run_bind e) (Keep.refl _ _) ?_
        dsimp only
        rw [hl2.isEmpty]
        by_cases he : l.isEmpty = true
        · rw [if_pos he, if_pos he]
          exact ⟨_, h2, rfl, postRefl hi2, rfl⟩
        · rw [if_neg he, if_neg he]
          have hbl : BorSL R h2 xs l := ⟨hl2, fun r hr => .step (hb2.2 (.kids a) (by simp [Raw.refs, hrefs])) hk hr⟩
          have hlev : levelsL l ≤ n := by
            cases m with
            | arc p v l' => cases hc; simp only [levels] at hl; omega
            | ref p v i => cases hc
          refine Sim.bind (serializeAll_spec ih l xs R h2 [] 0 _ hlev hi2 hbl) ?_
          intro dr st3 h3 _ hi3 hk3 e3
          subst e3
          obtain ⟨data, rs⟩ := dr
          dsimp only
          unfold writeChildren
          refine Sim.bind (ofResSt_spec hi3 _) ?_
          intro i st4 h4 _ hi4 hk4 e4
          subst e4
          cases Hdr.id? (i.length + 1) with
          | none => trivial
          | some hd => exact ⟨_, h4, rfl, postRefl hi4, rfl⟩
    cases m <;> rw [SNode.serialize] <;> exact key

/-- What `attach` gives: a new node and the state of the store. -/
def NewSt (R : List Heap.Ref) (h : Mem) (x : H (Except ε Raw × σ)) (v : Res ε SNode × σ) : Prop :=
  match v.1 with
  | .ok m => ∃ y h', x h = some ((.ok y, v.2), h') ∧ Post R h h' y.refs ∧ RepS h' y m
  | .err e => ∃ h', x h = some ((.error e, v.2), h') ∧ Inv h' R ∧ Keep R h h'
  | .panic => True
  | .deep => True

theorem attach_spec {S : BlobStore σ ε} {R h x m} (n : Nat) (st : σ) (hn : levels m ≤ n) (hi : Inv h R) (hb : BorS R h x m) :
    NewSt R h (attach S n x st) (attachS S m st) := by
  have h1 := serialize_spec (S := S) n R h x m st hn hi hb
  unfold attach attachS
  generalize e : m.serialize S st = v at h1
  obtain ⟨r, st1⟩ := v
  cases r with
  | ok bs =>
    obtain ⟨st2, h2, e2, p2, rfl⟩ := h1
    dsimp only [stBind]
    cases e3 : readOne bs with
    | none => trivial
    | some q =>
      obtain ⟨r, rest⟩ := q
      dsimp only
      by_cases he : rest.isEmpty = true
      · rw [if_pos he]
        cases e4 : (r.toOwned : Res ε SNode) with
        | ok m' =>
          obtain ⟨y, h5, e5, p5, r5⟩ := recToOwned_spec p2.inv (readOne_ok e3) e4
          refine ⟨y, h5, ?_, ⟨p5.inv, p2.keep.trans p5.keep⟩, r5⟩
          rw [run_bind e2]
          dsimp only
          rw [e3]
          dsimp only
          rw [if_pos he, run_bind e5]; rfl
        | err e => exact (recToOwned_noErr e4).elim
        | panic => trivial
        | deep => trivial
      · rw [if_neg he]; trivial
  | err e1 =>
    obtain ⟨st2, h2, e2, p2, rfl⟩ := h1
    exact ⟨h2, by rw [run_bind e2]; rfl, p2.inv, p2.keep⟩
  | panic => trivial
  | deep => trivial

theorem deserialize_spec {S : BlobStore σ ε} {R h} (bs : Bytes) (hi : Inv h R) : NewN R h (deserialize S bs) (Radix.deserialize S bs) := by
  have hany : NewN (ε := ε) R h (ofRes (S.ofAnyhow.bind Empty.elim)) (S.ofAnyhow.bind Empty.elim) := by
    cases S.ofAnyhow with
    | ok a => exact a.elim
    | err e => exact ⟨h, rfl, hi, Keep.refl _ _⟩
    | panic => trivial
    | deep => trivial
  unfold deserialize Radix.deserialize
  cases e3 : readOne bs with
  | none => exact hany
  | some q =>
    obtain ⟨r, rest⟩ := q
    dsimp only
    by_cases he : rest.isEmpty = true
    · rw [if_pos he, if_pos he]
      cases e4 : (r.toOwned : Res ε SNode) with
      | ok m' =>
        obtain ⟨y, h5, e5, p5, r5⟩ := recToOwned_spec hi (readOne_ok e3) e4
        exact ⟨y, h5, by rw [run_bind e5]; rfl, p5, r5⟩
      | err e => exact (recToOwned_noErr e4).elim
      | panic => trivial
      | deep => trivial
    · rw [if_neg he, if_neg he]; exact hany

theorem load_spec {S : BlobStore σ ε} {st : σ} {R h} (i : Bytes) (hi : Inv h R) : NewN R h (load S st i) (tryLoad S st i) := by
  unfold load tryLoad
  refine (ofRes_spec (S.read st i)).outR.andThenNew hi ?_
  intro b a _ he
  subst he
  exact deserialize_spec b hi

/-- What `reattach` gives: the id, the node and the state of the store. -/
def SimSt2 (R : List Heap.Ref) (h : Mem) (x : H ((Except ε Bytes × Raw) × σ)) (v : (Res ε Bytes × SNode) × σ) : Prop :=
  match v.1.1 with
  | .ok a => ∃ y h', x h = some (((.ok a, y), v.2), h') ∧ Post R h h' y.refs ∧ RepS h' y v.1.2
  | .err e => ∃ y h', x h = some (((.error e, y), v.2), h') ∧ Post R h h' y.refs ∧ RepS h' y v.1.2
  | .panic => True
  | .deep => True

theorem reattach_spec {S : BlobStore σ ε} {R h x m} (n : Nat) (st : σ) (hn : levels m ≤ n) (hi : Inv h (x.refs ++ R)) (hr : RepS h x m) :
    SimSt2 R h (reattach S n x st) (reattachS S m st) := by
  have hb : BorS (x.refs ++ R) h x m := ⟨hr, fun r hm => .root (by simp [hm])⟩
  have h1 : SimSt (x.refs ++ R) h (seq (serialize S n x st) fun bs st => seq (ofResSt (S.write st bs)) fun i st => return (.ok (bs, i), st))
      (stBind (m.serialize S st) fun bs st => stBind (S.write st bs) fun i st => (.ok (bs, i), st)) := by
    refine Sim.bind (serialize_spec (S := S) n _ h x m st hn hi hb) ?_
    intro bs st1 h1 _ hi1 hk1 e1
    subst e1
    refine Sim.bind (ofResSt_spec hi1 _) ?_
    intro i st2 h2 _ hi2 hk2 e2
    subst e2
    exact ⟨_, h2, rfl, postRefl hi2, rfl⟩
  have hv : tryReattach S m st = stBind (stBind (m.serialize S st) fun bs st => stBind (S.write st bs) fun i st => (.ok (bs, i), st))
      fun p st => ((Radix.deserialize S p.1).bind fun a' => .ok (a', p.2), st) := by
    unfold tryReattach
    rcases m.serialize S st with ⟨_ | _ | _ | _, st1⟩ <;> simp only [stBind]
    rename_i bs
    rcases S.write st1 bs with ⟨_ | _ | _ | _, st2⟩ <;> rfl
  unfold reattachS
  rw [hv]
  unfold reattach
  generalize (stBind (m.serialize S st) fun bs st => stBind (S.write st bs) fun i st => ((.ok (bs, i), st) : Res ε (Bytes × Bytes) × σ)) = v at h1 ⊢
  obtain ⟨r, st1⟩ := v
  cases r with
  | ok bi =>
    obtain ⟨st2, h2, e2, p2, rfl⟩ := h1
    obtain ⟨bs, i⟩ := bi
    dsimp only [stBind]
    have hb2 := hb.keep p2.keep
    have h3 := deserialize_spec (S := S) (R := x.refs ++ R) bs p2.inv
    cases e3 : Radix.deserialize S bs with
    | ok m' =>
      rw [e3] at h3
      obtain ⟨y, h4, e4, p4, r4⟩ := h3
      have hi4 : Inv h4 (x.refs ++ (y.refs ++ R)) := p4.inv.mono (by intro r; simp only [List.count_append]; omega)
      have hx4 : RepS h4 x m := (hb2.keep p4.keep).1
      obtain ⟨h5, e5, i5, k5⟩ := dropOne_specS hi4 hx4
      refine ⟨y, h5, ?_, ⟨i5, ?_⟩, ?_⟩
      · rw [run_bind e2]; dsimp only
        rw [run_bind e4]; dsimp only
        rw [run_bind e5]; rfl
      · exact ((p2.keep.trans p4.keep).mono (by simp +contextual)).trans (k5.mono (by simp +contextual))
      · exact RepS.keep k5 (fun r hm => .root (by simp [hm])) r4
    | err e =>
      rw [e3] at h3
      obtain ⟨h4, e4, i4, k4⟩ := h3
      refine ⟨x, h4, ?_, ⟨i4, ?_⟩, (hb2.keep k4).1⟩
      · rw [run_bind e2]; dsimp only
        rw [run_bind e4]; rfl
      · exact (p2.keep.trans k4).mono (by simp +contextual)
    | panic => trivial
    | deep => trivial
  | err e1 =>
    obtain ⟨st2, h2, e2, p2, rfl⟩ := h1
    refine ⟨x, h2, by rw [run_bind e2]; rfl, ⟨p2.inv, ?_⟩, (hb.keep p2.keep).1⟩
    exact p2.keep.mono (by simp +contextual)
  | panic => trivial
  | deep => trivial

end

end Radix.Heap.Att
