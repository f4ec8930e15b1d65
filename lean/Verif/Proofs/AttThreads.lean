import Verif.Spec.AttThreads
import Verif.Proofs.Caught
import Verif.Proofs.HeapThreads

/-
Threads with a store: whatever the schedule, no call uses memory that was freed, and each call gives what it gives on plain values.
-/

set_option linter.unusedVariables false

namespace Radix.Heap.Att

variable {σ ε : Type}

/-! ### Calls under interference -/

/-- The call gives the plain result `p`, whatever the others do. `total` are the references of all threads. -/
def TOK (x : H (Obs ε × World σ)) (p : Obs ε × PWorld σ) (cells : Heap) (own total : List Ref) : Prop :=
  ∀ others env, Parts own [] others total → (∀ n, Valid (env n)) →
    ∃ l' m', H.run x ⟨cells, own, [], others, env⟩ = some ((p.1, p.2.1, l'), m') ∧ Good m' l' p.2.2

theorem TOK.total {x : H (Obs ε × World σ)} {p cells own total total'} (h : TOK x p cells own total) (ht : ∀ r, total'.count r = total.count r) : TOK x p cells own total' :=
  fun others env hc hv => h others env (fun r => by rw [← ht]; exact hc r) hv

/-- The next step of a call. -/
theorem TOK.next {y : Act} {k : y.Res → H (Obs ε × World σ)} {p cells own total} (h : TOK (.act y k) p cells own total) (hle : Fits own [] total) :
    ∃ b h', y.exec cells = some (b, h') ∧ Allowed own [] cells y ∧
      ∀ total', (∀ r, total'.count r + own.count r = total.count r + (after own y b).count r) → TOK (k b) p h' (after own y b) total' := by
  have inst := h _ (fun _ => id) hle.parts (fun _ => valid_id)
  obtain ⟨l0, m0, e0, _⟩ := inst
  simp only [H.run] at e0
  cases hy : y.reads with
  | true =>
    cases e1 : y.run ⟨cells, own, [], minus total (own ++ loanRefs []), fun _ => id⟩ with
    | none => rw [e1] at e0; cases e0
    | some q =>
      obtain ⟨b, m1⟩ := q
      obtain ⟨rfl, h2, h3, h4⟩ := run_read hy e1
      refine ⟨b, cells, h2, h3, fun total' ht others env hc hv => ?_⟩
      dsimp only at h4
      rw [h4] at hc ht ⊢
      obtain ⟨l, m, e, g⟩ := h others env (fun r => by have := hc r; have := ht r; omega) hv
      simp only [H.run] at e
      cases e3 : y.run ⟨cells, own, [], others, env⟩ with
      | none => rw [e3] at e; cases e
      | some q =>
        obtain ⟨b', m2⟩ := q
        obtain ⟨rfl, h5, _, _⟩ := run_read hy e3
        dsimp only at h2 h5
        rw [h2] at h5
        cases h5
        rw [e3] at e
        exact ⟨l, m, e, g⟩
  | false =>
    rw [run_change hy] at e0
    cases e1 : y.change ⟨cells, own, [], minus total (own ++ loanRefs []), fun _ => id⟩ with
    | none => rw [e1] at e0; cases e0
    | some q =>
      obtain ⟨b, m1⟩ := q
      obtain ⟨h2, h3, h4⟩ := change_some e1
      refine ⟨b, m1.cells, h3, h2, fun total' ht others env hc hv => ?_⟩
      obtain ⟨l, m, e, g⟩ := h others (after1 id env) (fun r => by have := hc r; have := ht r; omega) (after1_valid valid_id hv)
      simp only [H.run] at e
      rw [run_change hy] at e
      cases e3 : y.change ⟨cells, own, [], others, after1 id env⟩ with
      | none => rw [e3] at e; cases e
      | some q =>
        obtain ⟨b', m2⟩ := q
        obtain ⟨h5, h6, h7⟩ := change_some e3
        have h3' : y.exec cells = some (b, m1.cells) := h3
        have h6' : y.exec cells = some (b', m2.cells) := h6
        rw [h3'] at h6'
        simp only [Option.some.injEq, Prod.mk.injEq] at h6'
        obtain ⟨rfl, h8⟩ := h6'
        rw [e3, h7, ← h8] at e
        exact ⟨l, m, e, g⟩

/-- What a thread holds stays the same while others make steps. -/
theorem Good.moved {cells own others env} {l : List Slot} {o : List Obj} {cells' : Heap} {others' : List Ref} {env' : Nat → Move} (g : Good ⟨cells, own, [], others, env⟩ l o)
    (hi : Cells.Inv cells' (own ++ others')) (hk : Cells.Keep own cells cells') (hv : ∀ n, Valid (env' n)) :
    Good ⟨cells', own, [], others', env'⟩ l o := by
  have hm : ∀ r ∈ slotsRefs l, r ∈ own := fun r hr => g.1.mem hr
  refine ⟨⟨by simpa [Mem.roots, loanRefs] using hi, g.1.le, fun r hr => ?_, hv⟩,
    g.2.keep (Keep.of_cells (m := ⟨cells, own, [], others, env⟩) (m' := ⟨cells', own, [], others', env'⟩) hm hm rfl (hk.mono (by simpa [loanRefs] using hm)))⟩
  rcases Nat.eq_zero_or_pos (own.count r) with h3 | h3
  · have := g.1.le r; show _ = own.count r; dsimp only at this; omega
  · refine g.1.eq r ?_
    dsimp only at hr ⊢
    rw [← hk r (.root (List.count_pos_iff.1 h3))]
    exact hr

/-- The others made a step. -/
theorem TOK.moved {x : H (Obs ε × World σ)} {p cells own total} {cells' : Heap} {total' : List Ref} (h : TOK x p cells own total) (hi : Cells.Inv cells' total')
    (hk : Cells.Keep own cells cells') (hle : Fits own [] total)
    (hmv : ∀ others', Parts own [] others' total' →
      ∃ others e, Parts own [] others total ∧ Valid e ∧ e (cells, others) = (cells', others')) : TOK x p cells' own total' := by
  induction x with
  | done a =>
    intro others' env hc hv
    obtain ⟨others, e, hc', _, _⟩ := hmv others' hc
    obtain ⟨l, m, e1, g⟩ := h others env hc' hv
    simp only [H.run, Option.some.injEq, Prod.mk.injEq] at e1
    obtain ⟨rfl, rfl⟩ := e1
    exact ⟨l, _, rfl, g.moved (hi.mono fun r => by have := hc r; simp only [List.count_append, loanRefs, List.flatMap_nil, List.count_nil] at *; omega) hk hv⟩
  | stop =>
    intro others' env hc hv
    obtain ⟨others, e, hc', _, _⟩ := hmv others' hc
    obtain ⟨l, m, e1, g⟩ := h others env hc' hv
    simp only [H.run] at e1
    cases e1
  | act y k ih =>
    intro others' env hc hv
    obtain ⟨others, e, hc', he, hee⟩ := hmv others' hc
    cases hy : y.reads with
    | true =>
      obtain ⟨b, h1, e1, ha, hn⟩ := h.next hle
      obtain ⟨l, m, e2, g⟩ := h others env hc' hv
      simp only [H.run] at e2
      cases e3 : y.run ⟨cells, own, [], others, env⟩ with
      | none => rw [e3] at e2; cases e2
      | some q =>
        obtain ⟨b', m2⟩ := q
        obtain ⟨rfl, h5, hx, h6⟩ := run_read hy e3
        clear hx
        dsimp only at h5 h6
        rw [e1] at h5
        cases h5
        have hn' := hn total (fun r => by rw [h6])
        rw [h6] at hn'
        obtain ⟨l', m', e4, g'⟩ := ih b hn' others' env hc hv
        have e5 : y.run ⟨cells', own, [], others', env⟩ = some (b, ⟨cells', own, [], others', env⟩) := by
          clear h hn hn' ih e2 e4 h6
          have hcont : ∀ r, Cells.Reach cells (own ++ loanRefs []) r → content ⟨cells', own, [], others', env⟩ r = content ⟨cells, own, [], others, env⟩ r := by
            intro r hr
            have hk' : Cells.Keep (own ++ loanRefs []) cells cells' := by simpa [loanRefs] using hk
            rw [content_reach (m := ⟨cells, own, [], others, env⟩) hr, content_reach (m := ⟨cells', own, [], others', env⟩) (hk'.reach hr)]
            exact hk' r hr
          cases y <;> first | (cases hy; done) | skip
          case readBlob a =>
            have e3 : (cB (⟨cells, own, [], others, env⟩ : Mem) a).map (fun d => (d, (⟨cells, own, [], others, env⟩ : Mem))) = some (b, _) := e3
            obtain ⟨d, q1, q2⟩ := Option.map_eq_some_iff.1 e3
            cases q2
            show (cB (⟨cells', own, [], others', env⟩ : Mem) a).map _ = _
            rw [content_cB (hcont _ ha) q1]; rfl
          case readKids a =>
            have e3 : (cK (⟨cells, own, [], others, env⟩ : Mem) a).map (fun d => (d, (⟨cells, own, [], others, env⟩ : Mem))) = some (b, _) := e3
            obtain ⟨d, q1, q2⟩ := Option.map_eq_some_iff.1 e3
            cases q2
            show (cK (⟨cells', own, [], others', env⟩ : Mem) a).map _ = _
            rw [content_cK (hcont _ ha) q1]; rfl
        refine ⟨l', m', ?_, g'⟩
        simp only [H.run]
        rw [e5]; exact e4
    | false =>
      have hve : Valid (fun s => env 0 (e s)) := by
        intro h T R hR
        obtain ⟨a1, a2⟩ := he h T R hR
        obtain ⟨b1, b2⟩ := hv 0 _ _ R a1
        exact ⟨b1, a2.trans b2⟩
      obtain ⟨l, m, e2, g⟩ := h others (after1 (fun s => env 0 (e s)) (fun n => env (n + 1))) hc' (after1_valid hve fun n => hv _)
      refine ⟨l, m, ?_, g⟩
      simp only [H.run] at e2 ⊢
      rw [run_change hy] at e2 ⊢
      have : y.change ⟨cells', own, [], others', env⟩ = y.change ⟨cells, own, [], others, after1 (fun s => env 0 (e s)) (fun n => env (n + 1))⟩ := by
        have hmm : (⟨cells, own, [], others, after1 (fun s => env 0 (e s)) (fun n => env (n + 1))⟩ : Mem).moved = (⟨cells', own, [], others', env⟩ : Mem).moved := by
          simp only [Mem.moved, after1]
          rw [hee]
        unfold Act.change
        rw [hmm]
      rw [this]; exact e2

open Classical in
/-- Another thread made a step. -/
theorem TOK.other {x : H (Obs ε × World σ)} {p cells own total} {y : Act} {b : y.Res} {own2 loan2 : List Ref} {cells' : Heap} {total' : List Ref} (h : TOK x p cells own total)
    (hi : Cells.Inv cells total) (hle : ∀ r, own.count r + own2.count r ≤ total.count r) (ha : Allowed own2 loan2 cells y)
    (e : y.exec cells = some (b, cells'))
    (ht : ∀ r, total'.count r + own2.count r = total.count r + (after own2 y b).count r) : TOK x p cells' own total' := by
  have hm := count_minus (own ++ own2) total (fun r => by simp only [List.count_append]; exact hle r)
  generalize minus total (own ++ own2) = rest at hm
  simp only [List.count_append] at hm
  have key : ∀ R, (∀ r, (R ++ (own2 ++ rest)).count r = (own2 ++ (R ++ rest)).count r) := fun R r => by
    simp only [List.count_append]; omega
  have hz : ∀ r, (loanRefs []).count r = 0 := fun r => rfl
  have g := guarantee (own := own2) (F := own ++ rest) (hi.mono (fun r => by have := hm r; simp only [List.count_append]; omega)) ha e
  refine h.moved (g.1.mono fun r => ?_) (g.2.mono fun r h => List.mem_append_left _ h) (fun r => by have := hle r; have := hz r; omega) (fun others' hc => ?_)
  · have := hm r; have := ht r; simp only [List.count_append]; omega
  · refine ⟨own2 ++ rest, fun s => if s = (cells, own2 ++ rest) then (cells', others') else s, fun r => ?_, ?_, ?_⟩
    · have := hm r; have := hz r; simp only [List.count_append]; omega
    · intro h T R hR
      dsimp only
      by_cases hs : (h, T) = (cells, own2 ++ rest)
      · rw [if_pos hs]
        cases hs
        obtain ⟨g1, g2⟩ := guarantee (own := own2) (F := R ++ rest) (hR.mono fun r => (key R r).symm) ha e
        refine ⟨g1.mono fun r => ?_, g2.mono fun r h => List.mem_append_left _ h⟩
        have := hm r; have := ht r; have := hc r; have := hz r; simp only [List.count_append]; omega
      · rw [if_neg hs]; exact ⟨hR, .refl _ _⟩
    · dsimp only; rw [if_pos rfl]

/-! ### All threads -/

/-- A thread in memory and a thread with plain values. -/
def Tell (S : BlobStore σ ε) (mask : Nat → Nat → List Bool) (n : Nat) (cells : Heap) (own total : List Ref) : TThread σ ε → TWorker σ ε → Prop
  | .idle l, ⟨o, none⟩ => ∀ others env, Parts own [] others total → (∀ n, Valid (env n)) → Good ⟨cells, own, [], others, env⟩ l o
  | .busy x, ⟨o, some (c, st)⟩ => ∃ p, pstepC S mask n (st, o) c = some p ∧ TOK x p cells own total
  | _, _ => False

/-- What all threads hold is right. -/
structure WTell (S : BlobStore σ ε) (mask : Nat → Nat → List Bool) (n : Nat) (w : TWorld σ ε) (P : List (TWorker σ ε)) (owns : List (List Ref)) : Prop where
  lenO : owns.length = w.threads.length
  lenP : P.length = w.threads.length
  inv : Cells.Inv w.cells owns.flatten
  each : ∀ (i : Nat) (t : TThread σ ε) (q : TWorker σ ε) (own : List Ref), w.threads[i]? = some t → P[i]? = some q → owns[i]? = some own → Tell S mask n w.cells own owns.flatten t q

section
variable {S : BlobStore σ ε} {mask : Nat → Nat → List Bool} {n : Nat} {w : TWorld σ ε} {P : List (TWorker σ ε)} {owns : List (List Ref)}

theorem WTell.get {i : Nat} {t : TThread σ ε} (h : WTell S mask n w P owns) (e : w.threads[i]? = some t) :
    ∃ q own, P[i]? = some q ∧ owns[i]? = some own ∧ Tell S mask n w.cells own owns.flatten t q := by
  have hl := (List.getElem?_eq_some_iff.1 e).1
  have e2 : P[i]? = some (P[i]'(by rw [h.lenP]; exact hl)) := List.getElem?_eq_getElem _
  have e3 : owns[i]? = some (owns[i]'(by rw [h.lenO]; exact hl)) := List.getElem?_eq_getElem _
  exact ⟨_, _, e2, e3, h.each i _ _ _ e e2 e3⟩

theorem tfits {i : Nat} {own : List Ref} (e : owns[i]? = some own) : Fits own [] owns.flatten := fun r => by
  have := count_flatten_set owns i own [] e r
  have hz : (loanRefs []).count r = 0 := rfl
  rw [List.count_nil] at this; omega

theorem Tell.total {cells own total total'} {t : TThread σ ε} {q : TWorker σ ε} (h : Tell S mask n cells own total t q) (ht : ∀ r, total'.count r = total.count r) :
    Tell S mask n cells own total' t q := by
  rcases t with l | x <;> rcases q with ⟨o, _ | ⟨c, st⟩⟩ <;> simp only [Tell] at h ⊢
  · exact fun others env hc hv => h others env (fun r => by rw [← ht]; exact hc r) hv
  · obtain ⟨p, e, h⟩ := h; exact ⟨p, e, h.total ht⟩

/-- An idle thread as a call that is done. -/
theorem Tell.idle_tok {cells own total} {l : List Slot} {o : List Obj} {st : σ} (h : ∀ others env, Parts own [] others total → (∀ n, Valid (env n)) → Good ⟨cells, own, [], others, env⟩ l o) :
    TOK (.done (Obs.unit (ε := ε), st, l)) (.unit, st, o) cells own total := fun others env hc hv => ⟨l, _, rfl, h others env hc hv⟩

theorem Tell.other {cells own total} {t : TThread σ ε} {q : TWorker σ ε} {y : Act} {b : y.Res} {own2 loan2 : List Ref} {cells' : Heap} {total' : List Ref} (h : Tell S mask n cells own total t q)
    (hi : Cells.Inv cells total) (hle : ∀ r, own.count r + own2.count r ≤ total.count r) (ha : Allowed own2 loan2 cells y)
    (e : y.exec cells = some (b, cells'))
    (ht : ∀ r, total'.count r + own2.count r = total.count r + (after own2 y b).count r) : Tell S mask n cells' own total' t q := by
  rcases t with l | x <;> rcases q with ⟨o, _ | ⟨c, st⟩⟩ <;> simp only [Tell] at h ⊢
  · intro others env hc hv
    obtain ⟨l', m', e1, g⟩ := (Tell.idle_tok (σ := Unit) (ε := Unit) (st := ()) h).other hi hle ha e ht others env hc hv
    cases e1; exact g
  · obtain ⟨p, e1, h⟩ := h; exact ⟨p, e1, h.other hi hle ha e ht⟩

theorem WTell.set {i : Nat} {t : TThread σ ε} {q : TWorker σ ε} {own own' : List Ref} {cells' : Heap} (h : WTell S mask n w P owns) (e3 : owns[i]? = some own)
    (hb : Cells.Inv cells' (owns.set i own').flatten) (ht : Tell S mask n cells' own' (owns.set i own').flatten t q)
    (ho : ∀ (j : Nat) (t : TThread σ ε) (q : TWorker σ ε) (own : List Ref), i ≠ j → w.threads[j]? = some t → P[j]? = some q → owns[j]? = some own → Tell S mask n cells' own (owns.set i own').flatten t q) :
    WTell S mask n ⟨cells', w.threads.set i t⟩ (P.set i q) (owns.set i own') := by
  refine ⟨by simp [h.lenO], by simp [h.lenP], hb, fun j t1 q1 own1 a1 a2 a3 => ?_⟩
  rcases getElem?_set_cases a1 with ⟨rfl, rfl⟩ | ⟨hj, a1⟩
  · rcases getElem?_set_cases a2 with ⟨_, rfl⟩ | ⟨hj, _⟩
    · rcases getElem?_set_cases a3 with ⟨_, rfl⟩ | ⟨hj, _⟩
      · exact ht
      · exact absurd rfl hj
    · exact absurd rfl hj
  · rw [List.getElem?_set_ne hj] at a2 a3
    exact ho j t1 q1 own1 hj a1 a2 a3

/-- An idle thread. -/
theorem WTell.idle (i : Nat) (h : WTell S mask n w P owns) : (∀ o, ¬ THas P i o) ∧ (∀ l, w.threads[i]? ≠ some (.idle l)) ∨
    ∃ l o own, w.threads[i]? = some (.idle l) ∧ THas P i o ∧ owns[i]? = some own ∧
      ∀ others env, Parts own [] others owns.flatten → (∀ n, Valid (env n)) → Good ⟨w.cells, own, [], others, env⟩ l o := by
  cases e1 : w.threads[i]? with
  | none =>
    refine .inl ⟨fun o h1 => ?_, fun l h => by cases h⟩
    have h2 := (List.getElem?_eq_some_iff.1 h1).1
    have h3 := List.getElem?_eq_none_iff.1 e1
    have h4 := h.lenP
    omega
  | some t =>
    obtain ⟨q, own, e2, e3, ht⟩ := h.get e1
    rcases t with l | x <;> rcases q with ⟨o, _ | ⟨c, st⟩⟩ <;> simp only [Tell] at ht
    · exact .inr ⟨l, o, own, rfl, e2, e3, ht⟩
    · refine .inl ⟨fun o' h1 => ?_, fun l h => by cases h⟩
      rw [THas, e2] at h1; cases h1

theorem RepAll.at {m : Mem} {l : List Slot} {o : List Obj} (h : RepAll m l o) {k : Nat} {s : Slot} (e : l[k]? = some s) : ∃ ob, o[k]? = some ob ∧ RepSlot m s ob := by
  have h2 := (List.getElem?_eq_some_iff.1 e).1
  have e2 : o[k]? = some (o[k]'(by rw [← h.1]; exact h2)) := List.getElem?_eq_getElem _
  exact ⟨_, e2, h.2 k s _ e e2⟩

theorem RepAll.at' {m : Mem} {l : List Slot} {o : List Obj} (h : RepAll m l o) {k : Nat} {ob : Obj} (e : o[k]? = some ob) : ∃ s, l[k]? = some s ∧ RepSlot m s ob := by
  have h2 := (List.getElem?_eq_some_iff.1 e).1
  have e2 : l[k]? = some (l[k]'(by rw [h.1]; exact h2)) := List.getElem?_eq_getElem _
  exact ⟨_, e2, h.2 k _ ob e2 e⟩

/-! ### Events -/

theorem tcall_event {i : Nat} {c : Call σ ε} {st : σ} (h : WTell S mask n w P owns) : TStuck S mask n P (.call i c st) ∨
    ∃ w' s P' owns', w.step S mask n (.call i c st) = some (w', s) ∧ WTell S mask n w' P' owns' ∧ THappens S mask n P (.call i c st) s P' := by
  rcases h.idle i with ⟨hp, hw⟩ | ⟨l, o, own, e1, e2, e3, ht⟩
  · refine .inr ⟨w, [], P, owns, ?_, h, .noCall hp⟩
    unfold TWorld.step
    dsimp only
    split
    · rename_i l e; exact absurd e (hw l)
    · rfl
  · cases hs : pstepC S mask n (st, o) c with
    | none => exact .inl ⟨o, e2, hs⟩
    | some p =>
      refine .inr ⟨_, _, P.set i ⟨o, some (c, st)⟩, owns.set i own, by simp only [TWorld.step]; rw [e1], ?_, .call e2⟩
      have hown : owns.set i own = owns := set_same e3
      refine h.set e3 (by rw [hown]; exact h.inv) ?_ (fun j t q own' hj q1 q2 q3 => by rw [hown]; exact h.each j t q own' q1 q2 q3)
      refine ⟨p, hs, fun others env hc hv => ?_⟩
      rw [hown] at hc
      obtain ⟨l', m', e4, g'⟩ := stepC_ok (S := S) (mask := mask) (n := n) (st := st) c (ht others env hc hv) p.1 p.2.1 p.2.2 hs
      exact ⟨l', m', e4, g'⟩

theorem ttick_event {i : Nat} (h : WTell S mask n w P owns) :
    ∃ w' s P' owns', w.step S mask n (.tick i) = some (w', s) ∧ WTell S mask n w' P' owns' ∧ THappens S mask n P (.tick i) s P' := by
  simp only [TWorld.step]
  cases e1 : w.threads[i]? with
  | none => exact ⟨w, [], P, owns, rfl, h, .tick⟩
  | some t =>
    obtain ⟨q, own, e2, e3, ht⟩ := h.get e1
    rcases t with l | x <;> rcases q with ⟨o, _ | ⟨c, st⟩⟩ <;> simp only [Tell] at ht
    · exact ⟨w, [], P, owns, rfl, h, .tick⟩
    obtain ⟨p, hp, ht⟩ := ht
    cases x with
    | stop =>
      obtain ⟨l, m, e4, _⟩ := ht _ (fun _ => id) (tfits e3).parts (fun _ => valid_id)
      simp only [H.run] at e4; cases e4
    | done a =>
      obtain ⟨ob, st1, l⟩ := a
      obtain ⟨a1, a2, a3⟩ := p
      have hown : owns.set i own = owns := set_same e3
      obtain ⟨l0, m0, e0, -⟩ := ht _ (fun _ => id) (tfits e3).parts (fun _ => valid_id)
      simp only [H.run, Option.some.injEq, Prod.mk.injEq] at e0
      obtain ⟨⟨rfl, rfl, rfl⟩, -⟩ := e0
      refine ⟨_, _, P.set i ⟨a3, none⟩, owns.set i own, rfl, ?_, .ret e2 hp⟩
      refine h.set e3 (by rw [hown]; exact h.inv) ?_ (fun j t q own' hj q1 q2 q3 => by rw [hown]; exact h.each j t q own' q1 q2 q3)
      intro others env hc hv
      rw [hown] at hc
      obtain ⟨l1, m1, e4, g⟩ := ht others env hc hv
      simp only [H.run, Option.some.injEq, Prod.mk.injEq] at e4
      obtain ⟨⟨-, -, rfl⟩, rfl⟩ := e4
      exact g
    | act y k =>
      obtain ⟨b, h', e4, ha, hk⟩ := TOK.next ht (tfits e3)
      have hf := count_flatten_set owns i own (after own y b) e3
      have hm := count_minus own owns.flatten (fun r => by have := tfits e3 r; omega)
      have g := guarantee (F := minus owns.flatten own) (h.inv.mono fun r => by have := hm r; simp only [List.count_append]; omega) ha e4
      refine ⟨⟨h', w.threads.set i (.busy (k b))⟩, [], P, owns.set i (after own y b), ?_, ?_, .tick⟩
      · simp only [H.next, e4]
      · have hP : P.set i ⟨o, some (c, st)⟩ = P := set_same e2
        have := h.set (t := .busy (k b)) (q := ⟨o, some (c, st)⟩) (cells' := h') e3 (g.1.mono fun r => by have := hm r; have := hf r; simp only [List.count_append]; omega)
          ⟨p, hp, hk _ hf⟩ (fun j t q own' hj q1 q2 q3 => (h.each j t q own' q1 q2 q3).other h.inv (fun r => by have := count_flatten_two (Ne.symm hj) q3 e3 r; omega) ha e4 hf)
        rw [hP] at this
        exact this

theorem tsend_event {i j k : Nat} (h : WTell S mask n w P owns) :
    ∃ w' s P' owns', w.step S mask n (.send i j k) = some (w', s) ∧ WTell S mask n w' P' owns' ∧ THappens S mask n P (.send i j k) s P' := by
  simp only [TWorld.step]
  rcases h.idle i with ⟨hp, hw⟩ | ⟨l, o, own, e1, e2, e3, gi⟩
  · refine ⟨w, [], P, owns, ?_, h, .noSend (fun ⟨o, o', ob, _, h1, _⟩ => hp o h1)⟩
    split
    · exact absurd ‹w.threads[i]? = some (.idle _)› (hw _)
    · rfl
  rcases h.idle j with ⟨hp, hw⟩ | ⟨l', o', own', f1, f2, f3, gj⟩
  · refine ⟨w, [], P, owns, ?_, h, .noSend (fun ⟨o, o', ob, _, _, h1, _⟩ => hp o' h1)⟩
    split
    · exact absurd ‹w.threads[j]? = some (.idle _)› (hw _)
    · rfl
  rw [e1, f1]
  dsimp only
  have gi0 := gi _ (fun _ => id) (tfits e3).parts (fun _ => valid_id)
  cases g1 : l[k]? with
  | none =>
    refine ⟨w, [], P, owns, rfl, h, .noSend (fun ⟨o1, o', ob, _, h1, _, h2⟩ => ?_)⟩
    rw [THas, e2] at h1; cases h1
    obtain ⟨s, h3, _⟩ := gi0.2.at' h2
    rw [g1] at h3; cases h3
  | some s =>
    obtain ⟨ob, g2, _⟩ := gi0.2.at g1
    by_cases hij : i = j
    · dsimp only; rw [if_pos hij]
      exact ⟨w, [], P, owns, rfl, h, .noSend (fun ⟨o1, _, ob1, h1, _⟩ => h1 hij)⟩
    · dsimp only; rw [if_neg hij]
      have hso : ∀ r, s.refs.count r ≤ own.count r := fun r => by
        have h1 := gi0.1.le r
        have h2 := count_set l k s .free r g1
        have h3 : (Slot.free.refs).count r = 0 := rfl
        dsimp only at h1
        omega
      have ho := fun r => count_minus s.refs own hso r
      have c1 := count_flatten_set owns i own (minus own s.refs) e3
      have f4 : (owns.set i (minus own s.refs))[j]? = some own' := by rw [List.getElem?_set_ne hij]; exact f3
      have c2 := count_flatten_set (owns.set i (minus own s.refs)) j own' (s.refs ++ own') f4
      have htot : ∀ r, ((owns.set i (minus own s.refs)).set j (s.refs ++ own')).flatten.count r = owns.flatten.count r := fun r => by
        have := c1 r; have := c2 r; have := ho r
        simp only [List.count_append] at *; omega
      have hb : Cells.Inv w.cells ((owns.set i (minus own s.refs)).set j (s.refs ++ own')).flatten := h.inv.mono fun r => htot r
      have f5 : (P.set i ⟨o.set k .free, none⟩)[j]? = some ⟨o', none⟩ := by rw [List.getElem?_set_ne hij]; exact f2
      have hz : ∀ r, (loanRefs []).count r = 0 := fun r => rfl
      refine ⟨_, _, (P.set i ⟨o.set k .free, none⟩).set j ⟨o' ++ [ob], none⟩, (owns.set i (minus own s.refs)).set j (s.refs ++ own'), rfl, ⟨by simp [h.lenO], by simp [h.lenP], hb, ?_⟩, .send hij e2 f2 g2⟩
      intro a t q own1 a1 a2 a3
      rcases getElem?_set_cases a1 with ⟨rfl, rfl⟩ | ⟨haj, a1⟩
      · rcases getElem?_set_cases a2 with ⟨_, rfl⟩ | ⟨hj, _⟩
        · rcases getElem?_set_cases a3 with ⟨_, rfl⟩ | ⟨hj, _⟩
          · intro others env hc hv
            have g := gj (minus owns.flatten (own' ++ loanRefs [])) env (tfits f3).parts hv
            have hroots : Cells.Inv w.cells ((s.refs ++ own') ++ others) := hb.mono fun r => by
              have := hc r; have := hz r; simp only [List.count_append] at *; omega
            have hmem : ∀ r ∈ slotsRefs l', r ∈ own' := fun r hr => g.1.mem hr
            refine ⟨⟨by simpa [Mem.roots, loanRefs] using hroots, fun r => ?_, fun r hr => ?_, hv⟩, RepAll.append ?_ ?_⟩
            · have := g.1.le r
              rw [slotsRefs_append, slotsRefs_one]
              simp only [List.count_append] at *; omega
            · have := g.1.eq r hr
              rw [slotsRefs_append, slotsRefs_one]
              simp only [List.count_append] at *; omega
            · exact g.2.keep (Keep.of_cells (m := ⟨w.cells, own', [], _, env⟩) (m' := ⟨w.cells, s.refs ++ own', [], others, env⟩) hmem (fun r hr => List.mem_append_right _ (hmem r hr)) rfl (.refl _ _))
            · obtain ⟨ob', g2', hrs⟩ := gi0.2.at g1
              rw [g2] at g2'; cases g2'
              refine hrs.keep (R := s.refs) (Keep.of_cells (m' := ⟨w.cells, s.refs ++ own', [], others, env⟩) (fun r hr => gi0.1.mem (mem_slotsRefs g1 hr)) (fun r hr => List.mem_append_left _ hr) rfl (.refl _ _)) (fun r hr => .root hr)
          · exact absurd rfl hj
        · exact absurd rfl hj
      · rw [List.getElem?_set_ne haj] at a2 a3
        rcases getElem?_set_cases a1 with ⟨rfl, rfl⟩ | ⟨hai, a1⟩
        · rcases getElem?_set_cases a2 with ⟨_, rfl⟩ | ⟨hj, _⟩
          · rcases getElem?_set_cases a3 with ⟨_, rfl⟩ | ⟨hj, _⟩
            · intro others env hc hv
              have g := gi (minus owns.flatten (own ++ loanRefs [])) env (tfits e3).parts hv
              obtain ⟨hti, htr⟩ := g.take g1
              have hroots : Cells.Inv w.cells (minus own s.refs ++ others) := hb.mono fun r => by
                have := hc r; have := hz r; simp only [List.count_append] at *; omega
              have hle : ∀ r, (slotsRefs (l.set k .free)).count r ≤ (minus own s.refs).count r := fun r => by
                have := g.1.le r; have := count_set l k s .free r g1; have := ho r
                have h3 : (Slot.free.refs).count r = 0 := rfl
                dsimp only at *; omega
              have hmem : ∀ r ∈ slotsRefs (l.set k .free), r ∈ minus own s.refs := fun r hr => List.count_pos_iff.1 (by have := hle r; have := List.count_pos_iff.2 hr; omega)
              refine ⟨⟨by simpa [Mem.roots, loanRefs] using hroots, hle, fun r hr => ?_, hv⟩, ?_⟩
              · have := g.1.eq r hr; have := count_set l k s .free r g1; have := ho r
                have h3 : (Slot.free.refs).count r = 0 := rfl
                dsimp only at *; omega
              · refine htr.keep (Keep.of_cells (m := ⟨w.cells, own, [], _, env⟩) (m' := ⟨w.cells, minus own s.refs, [], others, env⟩) (fun r hr => ?_) hmem rfl (.refl _ _))
                have h1 := List.count_pos_iff.2 (hmem r hr)
                have := ho r
                have h2 : 0 < own.count r := by omega
                exact List.count_pos_iff.1 h2
            · exact absurd rfl hj
          · exact absurd rfl hj
        · rw [List.getElem?_set_ne hai] at a2 a3
          exact (h.each a t q own1 a1 a2 a3).total htot

theorem tstep_event (h : WTell S mask n w P owns) (e : TEvent σ ε) : TStuck S mask n P e ∨
    ∃ w' s P' owns', w.step S mask n e = some (w', s) ∧ WTell S mask n w' P' owns' ∧ THappens S mask n P e s P' := by
  cases e with
  | call i c st => exact tcall_event h
  | tick i => exact .inr (ttick_event h)
  | send i j k => exact .inr (tsend_event h)

end

section
variable {S : BlobStore σ ε} {mask : Nat → Nat → List Bool} {n : Nat}

/-- A schedule runs to its end, or up to a call that has no result on plain values. -/
theorem trun_events : ∀ (es : List (TEvent σ ε)) (w : TWorld σ ε) (P : List (TWorker σ ε)) (owns : List (List Ref)), WTell S mask n w P owns →
    (∃ w' s P' owns', w.run S mask n es = some (w', s) ∧ WTell S mask n w' P' owns' ∧ THappensAll S mask n P es s P') ∨
    ∃ es1 e es2 w' s P' owns', es = es1 ++ e :: es2 ∧ w.run S mask n es1 = some (w', s) ∧ WTell S mask n w' P' owns' ∧ THappensAll S mask n P es1 s P' ∧ TStuck S mask n P' e
  | [], w, P, owns, h => .inl ⟨w, [], P, owns, rfl, h, .nil⟩
  | e :: es, w, P, owns, h => by
    rcases tstep_event h e with hs | ⟨w1, s1, P1, owns1, e1, h1, p1⟩
    · exact .inr ⟨[], e, es, w, [], P, owns, rfl, rfl, h, .nil, hs⟩
    · rcases trun_events es w1 P1 owns1 h1 with ⟨w2, s2, P2, owns2, e2, h2, p2⟩ | ⟨es1, e', es2, w2, s2, P2, owns2, rfl, e2, h2, p2, hs⟩
      · exact .inl ⟨w2, s1 ++ s2, P2, owns2, by simp only [TWorld.run, e1, e2], h2, .cons p1 p2⟩
      · exact .inr ⟨e :: es1, e', es2, w2, s1 ++ s2, P2, owns2, rfl, by simp only [TWorld.run, e1, e2], h2, .cons p1 p2, hs⟩

theorem WTell.init (c : Nat) : WTell S mask n (TWorld.init c) (tworkers c) (List.replicate c []) := by
  have hf : (List.replicate c ([] : List Ref)).flatten = [] := by simp
  have hb : Cells.Inv [] [] := Heap.Inv.alone (m := Mem.init) Heap.good_init.1 rfl rfl
  refine ⟨by simp [TWorld.init], by simp [TWorld.init, tworkers], by rw [hf]; exact hb, fun i t q own e1 e2 e3 => ?_⟩
  simp only [TWorld.init, tworkers, List.getElem?_replicate] at e1 e2 e3
  split at e1
  · rename_i hi
    rw [if_pos hi] at e2 e3
    cases e1; cases e2; cases e3
    rw [hf]
    intro others env hc hv
    have ho : others = [] := List.eq_nil_iff_forall_not_mem.2 fun r hr => by
      have h1 := hc r; have h2 := List.count_pos_iff.2 hr; rw [List.count_nil] at h1; omega
    subst ho
    exact ⟨⟨hb, fun r => by simp [slotsRefs], fun r _ => by simp [slotsRefs], hv⟩, rfl, fun i s ob e => by simp at e⟩
  · cases e1

/-! ### One thread alone -/

theorem oneByOne_append (a b : List (Call σ ε × σ)) : oneByOne (a ++ b) = oneByOne a ++ oneByOne b := by simp [oneByOne]

theorem withUnits_append (a b : List (Obs ε)) : withUnits (a ++ b) = withUnits a ++ withUnits b := by simp [withUnits]

theorem THappens.alone {P : List (TWorker σ ε)} {e : TEvent σ ε} {s : List (TSeen σ ε)} {P' : List (TWorker σ ε)} {i : Nat} {q : TWorker σ ε} (h : THappens S mask n P e s P') (he : e.apart i) (hq : P[i]? = some q) (st0 : σ) :
    ∃ q' cs st', P'[i]? = some q' ∧ q.call.toList ++ tcallsOf i s = cs ++ q'.call.toList ∧ prunC S mask n (st0, q.things) (oneByOne cs) = some (withUnits (tretsOf i s), st', q'.things) := by
  have same : ∀ {P' : List (TWorker σ ε)}, P'[i]? = P[i]? → tcallsOf i s = [] → tretsOf i s = [] →
      ∃ q' cs st', P'[i]? = some q' ∧ q.call.toList ++ tcallsOf i s = cs ++ q'.call.toList ∧ prunC S mask n (st0, q.things) (oneByOne cs) = some (withUnits (tretsOf i s), st', q'.things) := by
    intro P' h1 h2 h3
    exact ⟨q, [], st0, by rw [h1, hq], by rw [h2]; simp, by rw [h3]; rfl⟩
  have hl : i < P.length := (List.getElem?_eq_some_iff.1 hq).1
  cases h with
  | @call j o c st e =>
    by_cases hj : j = i
    · subst hj
      rw [THas, hq] at e; cases e
      exact ⟨⟨o, some (c, st)⟩, [], st0, by simp [hl], by simp [tcallsOf], rfl⟩
    · refine same (List.getElem?_set_ne hj) ?_ ?_ <;> simp [tcallsOf, tretsOf, hj]
  | noCall e => exact same rfl rfl rfl
  | tick => exact same rfl rfl rfl
  | @ret j o c st a st' o' e hp =>
    by_cases hj : j = i
    · subst hj
      rw [hq] at e; cases e
      refine ⟨⟨o', none⟩, [(c, st)], st', by simp [hl], by simp [tcallsOf], ?_⟩
      have e1 : prunC S mask n (st, o) [c] = some ([a], st', o') := by rw [prunC_one, hp]; rfl
      have e2 : tretsOf j [TSeen.ret j a st'] = [a] := by simp [tretsOf]
      rw [e2]
      exact prunC_append S mask n [.op (.outside fun _ => st)] [c] (st0, o) (os := [.unit]) (os' := [a]) (w1 := (st, o)) rfl e1
    · refine same (List.getElem?_set_ne hj) ?_ ?_ <;> simp [tcallsOf, tretsOf, hj]
  | send hij e e' e'' =>
    refine same ?_ rfl rfl
    rw [List.getElem?_set_ne he.2, List.getElem?_set_ne he.1]
  | noSend e => exact same rfl rfl rfl

theorem THappensAll.alone {P : List (TWorker σ ε)} {es : List (TEvent σ ε)} {s : List (TSeen σ ε)} {P' : List (TWorker σ ε)} (h : THappensAll S mask n P es s P') {i : Nat} (he : ∀ e ∈ es, e.apart i) {q : TWorker σ ε} (hq : P[i]? = some q) (st0 : σ) :
    ∃ q' cs st', P'[i]? = some q' ∧ q.call.toList ++ tcallsOf i s = cs ++ q'.call.toList ∧ prunC S mask n (st0, q.things) (oneByOne cs) = some (withUnits (tretsOf i s), st', q'.things) := by
  induction h generalizing q st0 with
  | nil => exact ⟨q, [], st0, hq, by simp [tcallsOf], rfl⟩
  | @cons ws e s ws' es ss ws'' h1 _ ih =>
    obtain ⟨q1, cs1, st1, a1, a2, a3⟩ := h1.alone (he _ (by simp)) hq st0
    obtain ⟨q2, cs2, st2, b1, b2, b3⟩ := ih (fun e h => he e (by simp [h])) a1 st1
    refine ⟨q2, cs1 ++ cs2, st2, b1, ?_, ?_⟩
    · have : tcallsOf i (s ++ ss) = tcallsOf i s ++ tcallsOf i ss := by simp [tcallsOf]
      rw [this, ← List.append_assoc, a2, List.append_assoc, b2, List.append_assoc]
    · have : tretsOf i (s ++ ss) = tretsOf i s ++ tretsOf i ss := by simp [tretsOf]
      rw [oneByOne_append, this, withUnits_append]
      exact prunC_append S mask n _ _ _ a3 b3

theorem THappensAll.length {P : List (TWorker σ ε)} {es : List (TEvent σ ε)} {s : List (TSeen σ ε)} {P' : List (TWorker σ ε)} (h : THappensAll S mask n P es s P') : P'.length = P.length := by
  induction h with
  | nil => rfl
  | cons h1 _ ih => rw [ih]; cases h1 <;> simp

/-! ### Calls return -/

theorem TWorld.run_cons {w w2 : TWorld σ ε} {e : TEvent σ ε} {es : List (TEvent σ ε)} {s : List (TSeen σ ε)} (h : w.run S mask n (e :: es) = some (w2, s)) :
    ∃ w1 s1 s2, w.step S mask n e = some (w1, s1) ∧ w1.run S mask n es = some (w2, s2) ∧ s = s1 ++ s2 := by
  simp only [TWorld.run] at h
  cases h1 : w.step S mask n e with
  | none => rw [h1] at h; cases h
  | some q =>
    obtain ⟨w3, s3⟩ := q
    rw [h1] at h
    dsimp only at h
    cases h2 : w3.run S mask n es with
    | none => rw [h2] at h; cases h
    | some q =>
      obtain ⟨w4, s4⟩ := q
      rw [h2] at h
      simp only [Option.some.injEq, Prod.mk.injEq] at h
      obtain ⟨rfl, rfl⟩ := h
      exact ⟨w3, s3, s4, rfl, h2, rfl⟩

theorem TWorld.run_append : ∀ (es fs : List (TEvent σ ε)) (w w1 w2 : TWorld σ ε) (s t : List (TSeen σ ε)), w.run S mask n es = some (w1, s) → w1.run S mask n fs = some (w2, t) →
    w.run S mask n (es ++ fs) = some (w2, s ++ t)
  | [], fs, w, w1, w2, s, t, h, h' => by simp only [TWorld.run, Option.some.injEq, Prod.mk.injEq] at h; obtain ⟨rfl, rfl⟩ := h; exact h'
  | e :: es, fs, w, w1, w2, s, t, h, h' => by
    obtain ⟨w3, s3, s4, h1, h2, rfl⟩ := TWorld.run_cons h
    rw [List.cons_append, TWorld.run, h1]
    dsimp only
    rw [TWorld.run_append es fs w3 w1 w2 s4 t h2 h']
    simp

theorem tticks_add (f : Nat → Nat) (m m' : Nat) : tticks (σ := σ) (ε := ε) f (m + m') = tticks f m ++ tticks (fun k => f (m + k)) m' := by
  simp only [tticks, List.range_add, List.map_append, List.map_map]
  congr 1

theorem mem_tticks {f m} {e : TEvent σ ε} (h : e ∈ tticks f m) : ∃ k, k < m ∧ e = .tick (f k) := by
  simp only [tticks, List.mem_map, List.mem_range] at h
  obtain ⟨k, hk, rfl⟩ := h
  exact ⟨k, hk, rfl⟩

/-- Steps only: the schedule runs to its end. -/
theorem tticks_run (f : Nat → Nat) (m : Nat) {w : TWorld σ ε} {P : List (TWorker σ ε)} {owns : List (List Ref)} (h : WTell S mask n w P owns) :
    ∃ w' s P' owns', w.run S mask n (tticks f m) = some (w', s) ∧ WTell S mask n w' P' owns' := by
  rcases trun_events (tticks f m) w P owns h with ⟨w', s, P', owns', e, h', _⟩ | ⟨es1, e, es2, w', s, P', owns', h1, _, _, _, hs⟩
  · exact ⟨w', s, P', owns', e, h'⟩
  · obtain ⟨k, _, rfl⟩ := mem_tticks (f := f) (m := m) (e := e) (by rw [h1]; simp)
    exact hs.elim

/-- A step of another thread does not change what a thread is doing. -/
theorem tstep_other {w w' : TWorld σ ε} {i j : Nat} {s : List (TSeen σ ε)} (e : w.step S mask n (.tick j) = some (w', s)) (h : j ≠ i) : w'.threads[i]? = w.threads[i]? := by
  simp only [TWorld.step] at e
  split at e
  · cases e; exact List.getElem?_set_ne h
  · split at e
    · cases e; exact List.getElem?_set_ne h
    · cases e
  · cases e; rfl

theorem tstep_idle {w w' : TWorld σ ε} {i j : Nat} {s : List (TSeen σ ε)} {l : List Slot} (e : w.step S mask n (.tick j) = some (w', s)) (h : w.threads[i]? = some (.idle l)) : w'.threads[i]? = some (.idle l) := by
  by_cases hj : j = i
  · subst hj
    simp only [TWorld.step, h] at e
    cases e; exact h
  · rw [tstep_other e hj]; exact h

theorem trun_idle {i : Nat} {l : List Slot} : ∀ (es : List (TEvent σ ε)) (w w' : TWorld σ ε) (s : List (TSeen σ ε)), (∀ e ∈ es, ∃ i, e = .tick i) → w.run S mask n es = some (w', s) → w.threads[i]? = some (.idle l) →
    w'.threads[i]? = some (.idle l)
  | [], w, w', s, _, e, h => by simp only [TWorld.run, Option.some.injEq, Prod.mk.injEq] at e; obtain ⟨rfl, rfl⟩ := e; exact h
  | e :: es, w, w', s, ht, h, hi => by
    obtain ⟨j, rfl⟩ := ht e (by simp)
    obtain ⟨w3, s3, s4, h1, h2, rfl⟩ := TWorld.run_cons h
    exact trun_idle es w3 w' s4 (fun e he => ht e (by simp [he])) h2 (tstep_idle h1 hi)

theorem trun_others {i : Nat} : ∀ (es : List (TEvent σ ε)) (w w' : TWorld σ ε) (s : List (TSeen σ ε)), (∀ e ∈ es, ∃ j, e = .tick j ∧ j ≠ i) → w.run S mask n es = some (w', s) → w'.threads[i]? = w.threads[i]?
  | [], w, w', s, _, e => by simp only [TWorld.run, Option.some.injEq, Prod.mk.injEq] at e; obtain ⟨rfl, rfl⟩ := e; rfl
  | e :: es, w, w', s, ht, h => by
    obtain ⟨j, rfl, hj⟩ := ht e (by simp)
    obtain ⟨w3, s3, s4, h1, h2, rfl⟩ := TWorld.run_cons h
    rw [trun_others es w3 w' s4 (fun e he => ht e (by simp [he])) h2, tstep_other h1 hj]

theorem tstep_length {w w' : TWorld σ ε} {e : TEvent σ ε} {s : List (TSeen σ ε)} (h : w.step S mask n e = some (w', s)) : w'.threads.length = w.threads.length := by
  cases e with
  | call i c st => simp only [TWorld.step] at h; split at h <;> cases h <;> simp
  | tick i =>
    simp only [TWorld.step] at h
    split at h
    · cases h; simp
    · split at h
      · cases h; simp
      · cases h
    · cases h; rfl
  | send i j k =>
    simp only [TWorld.step] at h
    split at h
    · split at h
      · split at h <;> cases h <;> simp
      · cases h; rfl
    · cases h; rfl

theorem trun_length : ∀ (es : List (TEvent σ ε)) (w : TWorld σ ε) {w' : TWorld σ ε} {s : List (TSeen σ ε)}, w.run S mask n es = some (w', s) → w'.threads.length = w.threads.length
  | [], w, w', s, e => by simp only [TWorld.run, Option.some.injEq, Prod.mk.injEq] at e; obtain ⟨rfl, rfl⟩ := e; rfl
  | e :: es, w, w', s, h => by
    obtain ⟨w3, s3, s4, h1, h2, rfl⟩ := TWorld.run_cons h
    rw [trun_length es w3 h2, tstep_length h1]

theorem treturns_one {i : Nat} (x : H (Obs ε × World σ)) : ∀ (w : TWorld σ ε) (P : List (TWorker σ ε)) (owns : List (List Ref)) (f : Nat → Nat), WTell S mask n w P owns → w.threads[i]? = some (.busy x) →
    (∀ m, ∃ m', m ≤ m' ∧ f m' = i) → ∃ m w' s l, w.run S mask n (tticks f m) = some (w', s) ∧ w'.threads[i]? = some (.idle l) := by
  have main : ∀ (y : H (Obs ε × World σ)), (∀ (w : TWorld σ ε) (P : List (TWorker σ ε)) (owns : List (List Ref)) (f : Nat → Nat), WTell S mask n w P owns → w.threads[i]? = some (.busy y) →
      (∀ m, ∃ m', m ≤ m' ∧ f m' = i) → ∃ m0 w1 s1 w2 s2, w.run S mask n (tticks f m0) = some (w1, s1) ∧ w1.threads[i]? = some (.busy y) ∧ w1.step S mask n (.tick i) = some (w2, s2) ∧
        w.run S mask n (tticks f (m0 + 1)) = some (w2, s1 ++ s2) ∧ ∃ P2 owns2, WTell S mask n w2 P2 owns2) := by
    intro y w P owns f h hi hf
    obtain ⟨m, _, hm⟩ := hf 0
    obtain ⟨m0, h0, hlt⟩ := first_turn f i m hm
    obtain ⟨w1, s1, P1, owns1, e1, h1⟩ := tticks_run f m0 h
    have hi1 : w1.threads[i]? = some (.busy y) := by
      rw [trun_others (i := i) (tticks f m0) w w1 s1 ?_ e1]
      · exact hi
      · intro e he
        obtain ⟨k, hk, rfl⟩ := mem_tticks he
        exact ⟨_, rfl, hlt k hk⟩
    obtain ⟨w2, s2, P2, owns2, e2, h2, _⟩ := ttick_event (i := i) h1
    refine ⟨m0, w1, s1, w2, s2, e1, hi1, e2, ?_, P2, owns2, h2⟩
    rw [tticks_add]
    refine TWorld.run_append _ _ w w1 w2 s1 s2 e1 ?_
    simp [tticks, h0, TWorld.run, e2]
  induction x with
  | done a =>
    intro w P owns f h hi hf
    obtain ⟨m0, w1, s1, w2, s2, _, hi1, e2, e3, _⟩ := main _ w P owns f h hi hf
    obtain ⟨o, st, l⟩ := a
    have hl : i < w1.threads.length := (List.getElem?_eq_some_iff.1 hi1).1
    simp only [TWorld.step, hi1] at e2
    cases e2
    exact ⟨m0 + 1, _, _, l, e3, by simp [hl]⟩
  | stop =>
    intro w P owns f h hi hf
    obtain ⟨m0, w1, s1, w2, s2, _, hi1, e2, e3, _⟩ := main _ w P owns f h hi hf
    simp only [TWorld.step, hi1, H.next] at e2
    cases e2
  | act y k ih =>
    intro w P owns f h hi hf
    obtain ⟨m0, w1, s1, w2, s2, _, hi1, e2, e3, P2, owns2, h2⟩ := main _ w P owns f h hi hf
    have hl : i < w1.threads.length := (List.getElem?_eq_some_iff.1 hi1).1
    simp only [TWorld.step, hi1, H.next] at e2
    cases ey : y.exec w1.cells with
    | none => rw [ey] at e2; cases e2
    | some q =>
      obtain ⟨b, h'⟩ := q
      rw [ey] at e2
      simp only [Option.some.injEq, Prod.mk.injEq] at e2
      obtain ⟨rfl, rfl⟩ := e2
      obtain ⟨m, w3, s3, l, e4, hi3⟩ := ih b _ P2 owns2 (fun k => f (m0 + 1 + k)) h2 (by simp [hl]) (fun m => by
        obtain ⟨m', h5, h6⟩ := hf (m0 + 1 + m)
        exact ⟨m' - (m0 + 1), by omega, by rw [← h6]; congr 1; omega⟩)
      have e5 := TWorld.run_append _ _ w _ w3 _ _ e3 e4
      rw [← tticks_add] at e5
      exact ⟨m0 + 1 + m, w3, _, l, e5, hi3⟩

/-- If every thread gets its turn again and again, all calls return. -/
theorem treturns_all {w : TWorld σ ε} {P : List (TWorker σ ε)} {owns : List (List Ref)} (f : Nat → Nat) (h : WTell S mask n w P owns) (hf : ∀ i, i < w.threads.length → ∀ m, ∃ m', m ≤ m' ∧ f m' = i) :
    ∀ c, c ≤ w.threads.length → ∃ m, ∀ m', m ≤ m' → ∃ w' s, w.run S mask n (tticks f m') = some (w', s) ∧ ∀ i, i < c → ∃ l, w'.threads[i]? = some (.idle l) := by
  intro c
  induction c with
  | zero =>
    intro _
    refine ⟨0, fun m' _ => ?_⟩
    obtain ⟨w1, s1, P1, owns1, e1, h1⟩ := tticks_run f m' h
    exact ⟨w1, s1, e1, fun i hi => by omega⟩
  | succ c ih =>
    intro hc
    obtain ⟨m, hm⟩ := ih (by omega)
    obtain ⟨m1, w1, s1, l, e1, hl⟩ : ∃ m1 w1 s1 l, w.run S mask n (tticks f m1) = some (w1, s1) ∧ w1.threads[c]? = some (.idle l) := by
      cases e : w.threads[c]? with
      | none => have := List.getElem?_eq_none_iff.1 e; omega
      | some t =>
        cases t with
        | idle l => exact ⟨0, w, [], l, rfl, e⟩
        | busy x => exact treturns_one x w P owns f h e (hf c (by omega))
    refine ⟨max m m1, fun m' hm' => ?_⟩
    obtain ⟨w2, s2, e2, hi⟩ := hm m' (by omega)
    refine ⟨w2, s2, e2, fun i hic => ?_⟩
    rcases Nat.lt_or_ge i c with h1 | h1
    · exact hi i h1
    · have : i = c := by omega
      subst this
      obtain ⟨d, rfl⟩ : ∃ d, m' = m1 + d := ⟨m' - m1, by omega⟩
      obtain ⟨w3, s3, P3, owns3, e3, h3⟩ := tticks_run f m1 h
      rw [e1] at e3
      simp only [Option.some.injEq, Prod.mk.injEq] at e3
      obtain ⟨rfl, rfl⟩ := e3
      obtain ⟨w4, s4, _, _, e4, _⟩ := tticks_run (fun k => f (m1 + k)) d h3
      have := TWorld.run_append _ _ w w1 w4 _ _ e1 e4
      rw [← tticks_add, e2] at this
      simp only [Option.some.injEq, Prod.mk.injEq] at this
      obtain ⟨rfl, rfl⟩ := this
      exact ⟨l, trun_idle _ w1 w2 s4 (fun e h => by obtain ⟨k, _, rfl⟩ := mem_tticks h; exact ⟨_, rfl⟩) e4 hl⟩

/-! ### Data races, and memory given back -/

theorem t_no_race {w w' : TWorld σ ε} {P : List (TWorker σ ε)} {owns : List (List Ref)} {i j : Nat} {s : List (TSeen σ ε)} {y : Act} {k : y.Res → H (Obs ε × World σ)}
    {r : Ref} (h : WTell S mask n w P owns) (hij : i ≠ j) (hj : w.threads[j]? = some (.busy (.act y k))) (hr : y.uses = some r)
    (e : w.step S mask n (.tick i) = some (w', s)) : Cells.content w.cells r ≠ none ∧ Cells.content w'.cells r = Cells.content w.cells r := by
  obtain ⟨q, own, e2, e3, ht⟩ := h.get hj
  rcases q with ⟨o, _ | ⟨c, st⟩⟩ <;> simp only [Tell] at ht
  obtain ⟨p, _, ht⟩ := ht
  obtain ⟨_, _, _, ha, _⟩ := TOK.next ht (tfits e3)
  have hreach : Cells.Reach w.cells own r := by simpa using uses_reach ha hr
  refine ⟨content_of_cnt (Cells.Reach.live h.inv (hreach.mono fun r hr => ?_)), ?_⟩
  · have h1 := List.count_pos_iff.2 hr
    have h2 := tfits e3 r
    exact List.count_pos_iff.1 (by omega)
  · simp only [TWorld.step] at e
    cases e1 : w.threads[i]? with
    | none => rw [e1] at e; cases e; rfl
    | some t =>
      obtain ⟨q', own', f2, f3, ht'⟩ := h.get e1
      rcases t with l | x
      · rw [e1] at e; cases e; rfl
      · rcases q' with ⟨o', _ | ⟨c', st'⟩⟩ <;> simp only [Tell] at ht'
        obtain ⟨p', _, ht'⟩ := ht'
        cases x with
        | stop => rw [e1] at e; cases e
        | done a => rw [e1] at e; cases e; rfl
        | act z k' =>
          obtain ⟨b, h', e4, ha', _⟩ := TOK.next ht' (tfits f3)
          rw [e1] at e
          simp only [H.next, e4] at e
          cases e
          have hm := count_minus own' owns.flatten (fun r => by have := tfits f3 r; omega)
          have g := guarantee (F := minus owns.flatten own') (h.inv.mono fun r => by have := hm r; simp only [List.count_append]; omega) ha' e4
          refine g.2 r (hreach.mono fun r hr => ?_)
          have h1 := List.count_pos_iff.2 hr
          have h2 := count_flatten_two (Ne.symm hij) e3 f3 r
          have := hm r
          exact List.count_pos_iff.1 (by omega)

/-- What the threads hold. -/
def TWorld.refs (w : TWorld σ ε) : List Ref := w.threads.flatMap fun t => match t with | .idle l => slotsRefs l | .busy _ => []

theorem WTell.reach {w : TWorld σ ε} {P : List (TWorker σ ε)} {owns : List (List Ref)} (h : WTell S mask n w P owns) (hi : ∀ t ∈ w.threads, ∃ l, t = .idle l) {r : Ref}
    (hc : Cells.content w.cells r ≠ none) (hn : Cells.content w.cells r ≠ some (.inr [])) : Cells.Reach w.cells w.refs r := by
  refine (h.inv.reach w.cells.length r (by omega) hc hn).skip (fun r hr hn => ?_) hn
  obtain ⟨own, h1, h2⟩ := List.mem_flatten.1 hr
  obtain ⟨i, e3⟩ := List.getElem?_of_mem h1
  have hl : i < w.threads.length := by rw [← h.lenO]; exact (List.getElem?_eq_some_iff.1 e3).1
  have e1 : w.threads[i]? = some w.threads[i] := List.getElem?_eq_getElem hl
  obtain ⟨l, hl'⟩ := hi _ (List.mem_of_getElem? e1)
  rw [hl'] at e1
  rcases h.idle i with ⟨_, hw⟩ | ⟨l', o, own', e1', e2, e3', ht⟩
  · exact absurd e1 (hw l)
  · rw [e3] at e3'; cases e3'
    rw [e1] at e1'; cases e1'
    have g := ht _ (fun _ => id) (tfits e3).parts (fun _ => valid_id)
    have h5 := g.1.eq r hn
    have h6 := List.count_pos_iff.2 h2
    have h7 : 0 < (slotsRefs l).count r := by rw [h5]; exact h6
    exact List.mem_flatMap.2 ⟨.idle l, List.mem_of_getElem? e1, List.count_pos_iff.1 h7⟩

end

end Radix.Heap.Att
