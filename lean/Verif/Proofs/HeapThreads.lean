import Verif.Heap.Threads
import Verif.Proofs.HeapSession
import Verif.Proofs.SessionMap
import Verif.Spec.Threads

/-
Threads that share memory: whatever the schedule, no call uses memory that was freed, and each call gives what it gives on plain values.
-/

set_option linter.unusedVariables false

namespace Radix.Heap

/-! ### What a step of one thread means for the others -/

/-- A step of a thread keeps the counts right and leaves alone what can be reached from the references of the others. -/
theorem guarantee {own loan F : List Ref} {h h' : Heap} {x : Act} {b : x.Res} (hi : Cells.Inv h (own ++ F)) (ha : Allowed own loan h x) (e : x.exec h = some (b, h')) :
    Cells.Inv h' (after own x b ++ F) ∧ Cells.Keep F h h' := by
  have split : ∀ {r}, r ∈ own → Cells.Inv h (r :: (own.erase r ++ F)) := fun {r} hr => hi.mono (fun q => by
    have := count_erase_add hr q
    simp only [List.count_cons, List.count_append] at *; omega)
  cases x with
  | alloc c =>
    obtain ⟨ha1, ha2⟩ := ha
    have hc : ∀ r, cnt [some c] r ≤ 1 := by
      intro r
      cases c <;> rcases r with a | a <;> rcases a with _ | a <;> simp [cnt, ocnt, Ref.addr] at ha1 ⊢ <;> omega
    have hm := count_minus _ _ ha2
    obtain ⟨e1, _, i, k⟩ := Cells.alloc_spec (R := minus own (orefs (some c)) ++ F) c hc ha1 (hi.mono (fun r => by
      have := hm r; simp only [List.count_append] at *; omega))
    rw [e1] at e; cases e
    exact ⟨i, k.mono fun r h => by simp [h]⟩
  | readBlob a =>
    simp only [Act.exec] at e
    split at e
    · cases e; exact ⟨hi, .refl _ _⟩
    · cases e
  | readKids a =>
    simp only [Act.exec] at e
    split at e
    · cases e; exact ⟨hi, .refl _ _⟩
    · cases e
  | incBlob a =>
    have hl : 1 ≤ cnt h (.blob a) := by
      refine hi.pos _ ?_
      simp only [Act.exec] at e
      split at e
      · rename_i e1; simp [Cells.content, Cells.cB, Cells.cK, e1]
      · cases e
    obtain ⟨h1, e1, i, k⟩ := Cells.incBlob_spec hi hl
    rw [e1] at e; cases e
    exact ⟨i, .of_content k⟩
  | incKids a =>
    have hl : 1 ≤ cnt h (.kids a) := by
      refine hi.pos _ ?_
      simp only [Act.exec] at e
      split at e
      · rename_i e1; simp [Cells.content, Cells.cB, Cells.cK, e1]
      · cases e
    obtain ⟨h1, e1, i, k⟩ := Cells.incKids_spec hi hl
    rw [e1] at e; cases e
    exact ⟨i, .of_content k⟩
  | decBlob a =>
    obtain ⟨h1, e1, i, k⟩ := Cells.decBlob_spec (split ha)
    rw [e1] at e; cases e
    exact ⟨i, k.mono fun r h => List.mem_append_right _ h⟩
  | decKids a =>
    obtain ⟨ns, h1, e1, i, _, k, _⟩ := Cells.decKids_spec (split ha)
    rw [e1] at e; cases e
    exact ⟨i.mono (fun r => by simp only [after, List.count_append]; omega), k.mono fun r h => List.mem_append_right _ h⟩
  | takeBlob a =>
    obtain ⟨n, d, e1⟩ := Cells.live_blob (hi.cnt_pos (r := .blob a) (List.mem_append_left _ ha))
    by_cases hn : n = 0
    · subst hn
      have e3 : (Act.takeBlob a).exec h = some (some d, h.set a none) := by simp only [Act.exec, e1]; rfl
      have e2 : (Act.decBlob a).exec h = some ((), h.set a none) := by simp only [Act.exec, e1]; rfl
      rw [e3] at e; cases e
      obtain ⟨h1, e1, i, k⟩ := Cells.decBlob_spec (split ha)
      rw [e2] at e1; cases e1
      exact ⟨i, k.mono fun r h => List.mem_append_right _ h⟩
    · have e3 : (Act.takeBlob a).exec h = some ((none : Option Bytes), h) := by
        simp only [Act.exec, e1]; rw [if_neg (by omega)]; rfl
      rw [e3] at e; cases e
      exact ⟨hi, .refl _ _⟩
  | takeKids a =>
    obtain ⟨n, d, e1⟩ := Cells.live_kids (hi.cnt_pos (r := .kids a) (List.mem_append_left _ ha))
    by_cases hn : n = 0
    · subst hn
      have e3 : (Act.takeKids a).exec h = some (some d, h.set a none) := by simp only [Act.exec, e1]; rfl
      have e2 : (Act.decKids a).exec h = some (d, h.set a none) := by simp only [Act.exec, e1]; rfl
      rw [e3] at e; cases e
      obtain ⟨ns, h1, e1, i, _, k, _⟩ := Cells.decKids_spec (split ha)
      rw [e2] at e1; cases e1
      exact ⟨i.mono (fun r => by simp only [after, List.count_append]; omega), k.mono fun r h => List.mem_append_right _ h⟩
    · have e3 : (Act.takeKids a).exec h = some ((none : Option (List Raw)), h) := by
        simp only [Act.exec, e1]; rw [if_neg (by omega)]; rfl
      rw [e3] at e; cases e
      exact ⟨hi, .refl _ _⟩
  | size => simp only [Act.exec] at e; cases e; exact ⟨hi, .refl _ _⟩

/-- The steps that only read. -/
def Act.reads : Act → Bool
  | .readBlob _ | .readKids _ => true
  | _ => false

theorem run_change {x : Act} (hx : x.reads = false) (m : Mem) : x.run m = x.change m := by
  cases x <;> first | rfl | cases hx

theorem run_read {x : Act} (hx : x.reads = true) {m m' : Mem} {b : x.Res} (e : x.run m = some (b, m')) :
    m' = m ∧ x.exec m.cells = some (b, m.cells) ∧ Allowed m.own (loanRefs m.lent) m.cells x ∧ after m.own x b = m.own := by
  cases x <;> first | (cases hx; done) | skip
  case readBlob a =>
    have e : (cB m a).map (fun d => (d, m)) = some (b, m') := e
    obtain ⟨d, h1, h2⟩ := Option.map_eq_some_iff.1 e
    cases h2
    refine ⟨rfl, ?_, (cB_some h1).1, rfl⟩
    have h3 := (cB_some h1).2
    unfold Cells.cB at h3
    simp only [Act.exec]
    split at h3
    · rename_i e1; cases h3; rw [e1]
    · cases h3
  case readKids a =>
    have e : (cK m a).map (fun d => (d, m)) = some (b, m') := e
    obtain ⟨d, h1, h2⟩ := Option.map_eq_some_iff.1 e
    cases h2
    refine ⟨rfl, ?_, (cK_some h1).1, rfl⟩
    have h3 := (cK_some h1).2
    unfold Cells.cK at h3
    simp only [Act.exec]
    split at h3
    · rename_i e1; cases h3; rw [e1]
    · cases h3

theorem change_some {x : Act} {m m' : Mem} {b : x.Res} (e : x.change m = some (b, m')) :
    Allowed m.own (loanRefs m.lent) m.moved.cells x ∧ x.exec m.moved.cells = some (b, m'.cells) ∧ m' = ⟨m'.cells, after m.own x b, m.lent, m.moved.others, m.moved.env⟩ := by
  unfold Act.change at e
  split at e
  · rename_i ha
    cases h2 : x.exec m.moved.cells with
    | none => rw [h2] at e; cases e
    | some q => obtain ⟨c, h⟩ := q; rw [h2] at e; cases e; exact ⟨ha, rfl, rfl⟩
  · cases e

/-- The references are all there are: those of the thread, those of the trees lent to it, and the others. -/
def Parts (own : List Ref) (lent : List (Nat × Raw)) (others total : List Ref) : Prop := ∀ r, own.count r + (loanRefs lent).count r + others.count r = total.count r

/-- There is enough for the thread. -/
def Fits (own : List Ref) (lent : List (Nat × Raw)) (total : List Ref) : Prop := ∀ r, own.count r + (loanRefs lent).count r ≤ total.count r

theorem Fits.parts {own lent total} (h : Fits own lent total) : Parts own lent (minus total (own ++ loanRefs lent)) total := fun r => by
  have := count_minus (own ++ loanRefs lent) total (fun r => by rw [List.count_append]; exact h r) r
  simp only [List.count_append] at this; omega

/-- The call gives the plain result `p`, whatever the others do. `total` are the references of all threads and those of lent trees. -/
def OK (x : H (Obs × List Slot)) (p : Obs × List Obj) (cells : Heap) (own : List Ref) (lent : List (Nat × Raw)) (total : List Ref) : Prop :=
  ∀ others env, Parts own lent others total → (∀ n, Valid (env n)) →
    ∃ l' m', H.run x ⟨cells, own, lent, others, env⟩ = some ((p.1, l'), m') ∧ Good m' l' p.2

/-- First nothing, and then what `env` says. -/
def after1 (e : Move) (env : Nat → Move) : Nat → Move
  | 0 => e
  | n + 1 => env n

theorem after1_valid {e env} (he : Valid e) (h : ∀ n, Valid (env n)) : ∀ n, Valid (after1 e env n)
  | 0 => he
  | n + 1 => h n

theorem OK.total {x p cells own lent total total'} (h : OK x p cells own lent total) (ht : ∀ r, total'.count r = total.count r) : OK x p cells own lent total' :=
  fun others env hc hv => h others env (fun r => by rw [← ht]; exact hc r) hv

/-- The next step of a call. -/
theorem OK.next {y : Act} {k : y.Res → H (Obs × List Slot)} {p cells own lent total} (h : OK (.act y k) p cells own lent total) (hle : Fits own lent total) :
    ∃ b h', y.exec cells = some (b, h') ∧ Allowed own (loanRefs lent) cells y ∧
      ∀ total', (∀ r, total'.count r + own.count r = total.count r + (after own y b).count r) → OK (k b) p h' (after own y b) lent total' := by
  have inst := h _ (fun _ => id) hle.parts (fun _ => valid_id)
  obtain ⟨l0, m0, e0, _⟩ := inst
  simp only [H.run] at e0
  cases hy : y.reads with
  | true =>
    cases e1 : y.run ⟨cells, own, lent, minus total (own ++ loanRefs lent), fun _ => id⟩ with
    | none => rw [e1] at e0; cases e0
    | some q =>
      obtain ⟨b, m1⟩ := q
      obtain ⟨rfl, h2, h3, h4⟩ := run_read hy e1
      refine ⟨b, cells, h2, h3, fun total' ht others env hc hv => ?_⟩
      dsimp only at h4
      rw [h4] at hc ht ⊢
      obtain ⟨l, m, e, g⟩ := h others env (fun r => by have := hc r; have := ht r; omega) hv
      simp only [H.run] at e
      cases e3 : y.run ⟨cells, own, lent, others, env⟩ with
      | none => rw [e3] at e; cases e
      | some q =>
        obtain ⟨b', m2⟩ := q
        obtain ⟨rfl, h5, _, _⟩ := run_read hy e3
        dsimp only at h2 h5
        rw [h2] at h5
        cases h5
        rw [e3] at e
        exact ⟨l, m, e, g⟩
  | false =>
    rw [run_change hy] at e0
    cases e1 : y.change ⟨cells, own, lent, minus total (own ++ loanRefs lent), fun _ => id⟩ with
    | none => rw [e1] at e0; cases e0
    | some q =>
      obtain ⟨b, m1⟩ := q
      obtain ⟨h2, h3, h4⟩ := change_some e1
      refine ⟨b, m1.cells, h3, h2, fun total' ht others env hc hv => ?_⟩
      obtain ⟨l, m, e, g⟩ := h others (after1 id env) (fun r => by have := hc r; have := ht r; omega) (after1_valid valid_id hv)
      simp only [H.run] at e
      rw [run_change hy] at e
      cases e3 : y.change ⟨cells, own, lent, others, after1 id env⟩ with
      | none => rw [e3] at e; cases e
      | some q =>
        obtain ⟨b', m2⟩ := q
        obtain ⟨h5, h6, h7⟩ := change_some e3
        have h3' : y.exec cells = some (b, m1.cells) := h3
        have h6' : y.exec cells = some (b', m2.cells) := h6
        rw [h3'] at h6'
        simp only [Option.some.injEq, Prod.mk.injEq] at h6'
        obtain ⟨rfl, h8⟩ := h6'
        rw [e3, h7, ← h8] at e
        exact ⟨l, m, e, g⟩

/-- What a thread holds stays the same while others make steps. -/
theorem Good.moved {cells own lent others env l o} {cells' : Heap} {others' : List Ref} {env' : Nat → Move} (g : Good ⟨cells, own, lent, others, env⟩ l o)
    (hi : Cells.Inv cells' (own ++ loanRefs lent ++ others')) (hk : Cells.Keep (own ++ loanRefs lent) cells cells') (hv : ∀ n, Valid (env' n)) :
    Good ⟨cells', own, lent, others', env'⟩ l o := by
  have hm : ∀ r ∈ slotsRefs l, r ∈ own := fun r hr => g.1.mem hr
  refine ⟨⟨hi, g.1.le, fun r hr => ?_, hv⟩,
    g.2.keep (Keep.of_cells (m := ⟨cells, own, lent, others, env⟩) (m' := ⟨cells', own, lent, others', env'⟩) hm hm rfl (hk.mono (app_sub hm)))⟩
  rcases Nat.eq_zero_or_pos (own.count r) with h3 | h3
  · have := g.1.le r; show _ = own.count r; dsimp only at this; omega
  · refine g.1.eq r ?_
    dsimp only at hr ⊢
    rw [← hk r (.root (List.mem_append_left _ (List.count_pos_iff.1 h3)))]
    exact hr

/-- The others made a step. -/
theorem OK.moved {x p cells own lent total} {cells' : Heap} {total' : List Ref} (h : OK x p cells own lent total) (hi : Cells.Inv cells' total')
    (hk : Cells.Keep (own ++ loanRefs lent) cells cells') (hle : Fits own lent total)
    (hmv : ∀ others', Parts own lent others' total' →
      ∃ others e, Parts own lent others total ∧ Valid e ∧ e (cells, others) = (cells', others')) : OK x p cells' own lent total' := by
  induction x with
  | done a =>
    intro others' env hc hv
    obtain ⟨others, e, hc', _, _⟩ := hmv others' hc
    obtain ⟨l, m, e1, g⟩ := h others env hc' hv
    simp only [H.run, Option.some.injEq, Prod.mk.injEq] at e1
    obtain ⟨rfl, rfl⟩ := e1
    exact ⟨l, _, rfl, g.moved (hi.mono fun r => by simp only [List.count_append]; exact hc r) hk hv⟩
  | stop =>
    intro others' env hc hv
    obtain ⟨others, e, hc', _, _⟩ := hmv others' hc
    obtain ⟨l, m, e1, g⟩ := h others env hc' hv
    simp only [H.run] at e1
    cases e1
  | act y k ih =>
    intro others' env hc hv
    obtain ⟨others, e, hc', he, hee⟩ := hmv others' hc
    cases hy : y.reads with
    | true =>
      obtain ⟨b, h1, e1, ha, hn⟩ := h.next hle
      obtain ⟨l, m, e2, g⟩ := h others env hc' hv
      simp only [H.run] at e2
      cases e3 : y.run ⟨cells, own, lent, others, env⟩ with
      | none => rw [e3] at e2; cases e2
      | some q =>
        obtain ⟨b', m2⟩ := q
        obtain ⟨rfl, h5, hx, h6⟩ := run_read hy e3
        clear hx
        dsimp only at h5 h6
        rw [e1] at h5
        cases h5
        have hn' := hn total (fun r => by rw [h6])
        rw [h6] at hn'
        obtain ⟨l', m', e4, g'⟩ := ih b hn' others' env hc hv
        have e5 : y.run ⟨cells', own, lent, others', env⟩ = some (b, ⟨cells', own, lent, others', env⟩) := by
          clear h hn hn' ih e2 e4 h6
          have hcont : ∀ r, Cells.Reach cells (own ++ loanRefs lent) r → content ⟨cells', own, lent, others', env⟩ r = content ⟨cells, own, lent, others, env⟩ r := by
            intro r hr
            rw [content_reach (m := ⟨cells, own, lent, others, env⟩) hr, content_reach (m := ⟨cells', own, lent, others', env⟩) (hk.reach hr)]
            exact hk r hr
          cases y <;> first | (cases hy; done) | skip
          case readBlob a =>
            have e3 : (cB (⟨cells, own, lent, others, env⟩ : Mem) a).map (fun d => (d, (⟨cells, own, lent, others, env⟩ : Mem))) = some (b, _) := e3
            obtain ⟨d, q1, q2⟩ := Option.map_eq_some_iff.1 e3
            cases q2
            show (cB (⟨cells', own, lent, others', env⟩ : Mem) a).map _ = _
            rw [content_cB (hcont _ ha) q1]; rfl
          case readKids a =>
            have e3 : (cK (⟨cells, own, lent, others, env⟩ : Mem) a).map (fun d => (d, (⟨cells, own, lent, others, env⟩ : Mem))) = some (b, _) := e3
            obtain ⟨d, q1, q2⟩ := Option.map_eq_some_iff.1 e3
            cases q2
            show (cK (⟨cells', own, lent, others', env⟩ : Mem) a).map _ = _
            rw [content_cK (hcont _ ha) q1]; rfl
        refine ⟨l', m', ?_, g'⟩
        simp only [H.run]
        rw [e5]; exact e4
    | false =>
      have hve : Valid (fun s => env 0 (e s)) := by
        intro h T R hR
        obtain ⟨a1, a2⟩ := he h T R hR
        obtain ⟨b1, b2⟩ := hv 0 _ _ R a1
        exact ⟨b1, a2.trans b2⟩
      obtain ⟨l, m, e2, g⟩ := h others (after1 (fun s => env 0 (e s)) (fun n => env (n + 1))) hc' (after1_valid hve fun n => hv _)
      refine ⟨l, m, ?_, g⟩
      simp only [H.run] at e2 ⊢
      rw [run_change hy] at e2 ⊢
      have : y.change ⟨cells', own, lent, others', env⟩ = y.change ⟨cells, own, lent, others, after1 (fun s => env 0 (e s)) (fun n => env (n + 1))⟩ := by
        have hmm : (⟨cells, own, lent, others, after1 (fun s => env 0 (e s)) (fun n => env (n + 1))⟩ : Mem).moved = (⟨cells', own, lent, others', env⟩ : Mem).moved := by
          simp only [Mem.moved, after1]
          rw [hee]
        unfold Act.change
        rw [hmm]
      rw [this]; exact e2

open Classical in
/-- Another thread made a step. -/
theorem OK.other {x p cells own lent total} {y : Act} {b : y.Res} {own2 loan2 : List Ref} {cells' : Heap} {total' : List Ref} (h : OK x p cells own lent total)
    (hi : Cells.Inv cells total) (hle : ∀ r, own.count r + (loanRefs lent).count r + own2.count r ≤ total.count r) (ha : Allowed own2 loan2 cells y)
    (e : y.exec cells = some (b, cells'))
    (ht : ∀ r, total'.count r + own2.count r = total.count r + (after own2 y b).count r) : OK x p cells' own lent total' := by
  have hm := count_minus ((own ++ loanRefs lent) ++ own2) total (fun r => by simp only [List.count_append]; exact hle r)
  generalize minus total ((own ++ loanRefs lent) ++ own2) = rest at hm
  simp only [List.count_append] at hm
  have key : ∀ R, (∀ r, (R ++ (own2 ++ rest)).count r = (own2 ++ (R ++ rest)).count r) := fun R r => by
    simp only [List.count_append]; omega
  have g := guarantee (own := own2) (F := (own ++ loanRefs lent) ++ rest) (hi.mono (fun r => by have := hm r; simp only [List.count_append]; omega)) ha e
  refine h.moved (g.1.mono fun r => ?_) (g.2.mono fun r h => List.mem_append_left _ h) (fun r => by have := hle r; omega) (fun others' hc => ?_)
  · have := hm r; have := ht r; simp only [List.count_append]; omega
  · refine ⟨own2 ++ rest, fun s => if s = (cells, own2 ++ rest) then (cells', others') else s, fun r => ?_, ?_, ?_⟩
    · have := hm r; simp only [List.count_append]; omega
    · intro h T R hR
      dsimp only
      by_cases hs : (h, T) = (cells, own2 ++ rest)
      · rw [if_pos hs]
        cases hs
        obtain ⟨g1, g2⟩ := guarantee (own := own2) (F := R ++ rest) (hR.mono fun r => (key R r).symm) ha e
        refine ⟨g1.mono fun r => ?_, g2.mono fun r h => List.mem_append_left _ h⟩
        have := hm r; have := ht r; have := hc r; simp only [List.count_append]; omega
      · rw [if_neg hs]; exact ⟨hR, .refl _ _⟩
    · dsimp only; rw [if_pos rfl]

/-! ### Lent trees -/

/-- Those of the lent trees that the things are about. -/
def lentOf (loans : List (Nat × Raw)) (o : List Obj) : List (Nat × Raw) := loans.filter fun p => (o.filterMap Obj.loan).any (·.2 == p.1)

theorem mem_lentOf {loans o p} : p ∈ lentOf loans o ↔ p ∈ loans ∧ ∃ b, (b, p.1) ∈ o.filterMap Obj.loan := by
  unfold lentOf
  rw [List.mem_filter, List.any_eq_true]
  constructor
  · rintro ⟨h1, ⟨b, id⟩, h2, h3⟩
    have h3 : id = p.1 := by simpa using h3
    exact ⟨h1, b, h3 ▸ h2⟩
  · rintro ⟨h1, b, h2⟩
    exact ⟨h1, _, h2, by simp⟩

theorem lentOf_same {loans o o'} (h : ∀ id, (∃ b, (b, id) ∈ o.filterMap Obj.loan) ↔ ∃ b, (b, id) ∈ o'.filterMap Obj.loan) : lentOf loans o = lentOf loans o' := by
  unfold lentOf
  refine List.filter_congr fun p hp => ?_
  have h1 := h p.1
  have key : ∀ o : List Obj, (o.filterMap Obj.loan).any (·.2 == p.1) = true ↔ ∃ b, (b, p.1) ∈ o.filterMap Obj.loan := by
    intro o
    rw [List.any_eq_true]
    constructor
    · rintro ⟨⟨b, id⟩, h2, h3⟩
      have h3 : id = p.1 := by simpa using h3
      exact ⟨b, h3 ▸ h2⟩
    · rintro ⟨b, h2⟩; exact ⟨_, h2, by simp⟩
  rw [Bool.eq_iff_iff, key, key]; exact h1

theorem loanRefs_filter_le (f : Nat × Raw → Bool) (r : Ref) : ∀ loans, (loanRefs (loans.filter f)).count r ≤ (loanRefs loans).count r
  | [] => Nat.le_refl _
  | p :: loans => by
    have := loanRefs_filter_le f r loans
    simp only [loanRefs] at this
    rw [List.filter_cons]
    split <;> simp only [loanRefs, List.flatMap_cons, List.count_append] <;> omega

theorem lentOf_le (loans o) (r : Ref) : (loanRefs (lentOf loans o)).count r ≤ (loanRefs loans).count r := loanRefs_filter_le _ r loans

theorem RepSlot.loan {m s ob} (h : RepSlot m s ob) : s.loan = ob.loan := by
  cases s <;> cases ob <;> simp only [RepSlot] at h <;> first | rfl | (obtain ⟨rfl, rfl, _⟩ := h; rfl)

theorem RepAll.loans {m l o} (h : RepAll m l o) : l.map Slot.loan = o.map Obj.loan := by
  refine List.ext_getElem? fun i => ?_
  rw [List.getElem?_map, List.getElem?_map]
  cases e1 : l[i]? with
  | none =>
    have : o[i]? = none := by rw [List.getElem?_eq_none_iff] at e1 ⊢; rw [← h.1]; exact e1
    rw [this]; rfl
  | some s =>
    cases e2 : o[i]? with
    | none => rw [List.getElem?_eq_none_iff, ← h.1, ← List.getElem?_eq_none_iff, e1] at e2; cases e2
    | some ob => simp [(h.2 i s ob e1 e2).loan]

theorem mem_loan_of {o : List Obj} {i : Nat} {ob : Obj} {a} (e : o[i]? = some ob) (h : ob.loan = some a) : a ∈ o.filterMap Obj.loan :=
  List.mem_filterMap.2 ⟨ob, List.mem_of_getElem? e, h⟩

/-- Whatever a slot of a thread refers to is lent to the thread. -/
theorem RepAll.lent {m l o} {loans : List (Nat × Raw)} (h : RepAll m l o) (hl : ∀ p ∈ m.lent, p ∈ loans) {b id x} (hs : Slot.ref b id x ∈ l) : (id, x) ∈ loans ∧ (b, id) ∈ o.filterMap Obj.loan := by
  obtain ⟨i, e⟩ := List.getElem?_of_mem hs
  have hi : i < o.length := by rw [← h.1]; exact (List.getElem?_eq_some_iff.1 e).1
  have e2 : o[i]? = some o[i] := List.getElem?_eq_getElem hi
  have hr := h.2 i _ _ e e2
  have h1 := hr.loan
  refine ⟨?_, mem_loan_of e2 h1.symm⟩
  revert hr
  generalize o[i] = ob
  intro hr
  cases ob <;> simp only [RepSlot] at hr
  exact hl _ hr.2.2.1

theorem Rep.to {m m' : Mem} {x t} (h : Rep m x t) (hc : m'.cells = m.cells) (hs : ∀ r ∈ x.refs, r ∈ m.roots) (hs' : ∀ r ∈ x.refs, r ∈ m'.roots) : Rep m' x t :=
  Rep.core (S := x.refs) (Core.of_cells (fun r h => .root (hs r h)) (fun r h => .root (hs' r h)) (by rw [hc]; exact .refl _ _)) (fun r h => .root h) h

theorem RepSlot.to {m m' : Mem} {s ob} (h : RepSlot m s ob) (hc : m'.cells = m.cells) (hs : ∀ r ∈ s.refs, r ∈ m.own) (hs' : ∀ r ∈ s.refs, r ∈ m'.own)
    (hl : ∀ b id x, s = .ref b id x → (id, x) ∈ m'.lent) : RepSlot m' s ob := by
  have core : Core s.refs m m' := Core.of_cells (fun r h => .root (List.mem_append_left _ (hs r h))) (fun r h => .root (List.mem_append_left _ (hs' r h))) (by rw [hc]; exact .refl _ _)
  cases s <;> cases ob <;> simp only [RepSlot] at h ⊢
  · exact Rep.core core (fun r h => .root h) h
  · have h1 := hl _ _ _ rfl
    exact ⟨h.1, h.2.1, h1, h.2.2.2.to hc (fun r hr => List.mem_append_right _ (mem_loan h.2.2.1 hr)) (fun r hr => List.mem_append_right _ (mem_loan h1 hr))⟩
  · exact RepB.core core (fun r h => .root h) h
  · rename_i a d
    exact content_cB (core (.blob a) (.root (by simp [Slot.refs]))) h
  · exact RepKV.core core (fun r h => .root h) h
  · exact ⟨h.1, RepKV.core core (fun r h => .root h) h.2⟩
  · exact RepIts.core core (fun r h => .root h) h

theorem RepAll.to {m m' : Mem} {l o} (h : RepAll m l o) (hc : m'.cells = m.cells) (hs : ∀ r ∈ slotsRefs l, r ∈ m.own) (hs' : ∀ r ∈ slotsRefs l, r ∈ m'.own)
    (hl : ∀ b id x, Slot.ref b id x ∈ l → (id, x) ∈ m'.lent) : RepAll m' l o :=
  ⟨h.1, fun i s ob e1 e2 => (h.2 i s ob e1 e2).to hc (fun r hr => hs r (mem_slotsRefs e1 hr)) (fun r hr => hs' r (mem_slotsRefs e1 hr))
    fun b id x hx => hl b id x (hx ▸ List.mem_of_getElem? e1)⟩

/-- Other trees are lent to the thread. -/
theorem Good.shift {cells own lent others env l o} {lent' : List (Nat × Raw)} {others' : List Ref} {env' : Nat → Move} (g : Good ⟨cells, own, lent, others, env⟩ l o)
    (hb : Cells.Inv cells (own ++ loanRefs lent' ++ others')) (hv : ∀ n, Valid (env' n)) (hl : ∀ b id x, Slot.ref b id x ∈ l → (id, x) ∈ lent') :
    Good ⟨cells, own, lent', others', env'⟩ l o :=
  ⟨⟨hb, g.1.le, g.1.eq, hv⟩, g.2.to rfl (fun r h => g.1.mem h) (fun r h => g.1.mem h) hl⟩

/-- Another thing in a slot. -/
theorem Good.change {cells own lent others env l o} {k : Nat} {s s' : Slot} {ob' : Obj} {own' : List Ref} {lent' : List (Nat × Raw)} {others' : List Ref} {env' : Nat → Move}
    (g : Good ⟨cells, own, lent, others, env⟩ l o) (e : l[k]? = some s) (ho : ∀ r, own'.count r + s.refs.count r = own.count r + s'.refs.count r)
    (hb : Cells.Inv cells (own' ++ loanRefs lent' ++ others')) (hv : ∀ n, Valid (env' n)) (hl : ∀ b id x, Slot.ref b id x ∈ l.set k .free → (id, x) ∈ lent')
    (hr : RepSlot ⟨cells, own', lent', others', env'⟩ s' ob') : Good ⟨cells, own', lent', others', env'⟩ (l.set k s') (o.set k ob') := by
  obtain ⟨hi, hr0⟩ := g.take e
  have hc : ∀ r, (slotsRefs (l.set k .free)).count r + s.refs.count r ≤ own.count r := fun r => by have := hi.le r; simp only [List.count_append] at this; omega
  have hc' : ∀ r, (slotsRefs (l.set k s')).count r = (slotsRefs (l.set k .free)).count r + s'.refs.count r := fun r => by
    have h1 := count_set l k s .free r e
    have h2 := count_set l k s s' r e
    have h3 : (Slot.refs .free).count r = 0 := rfl
    omega
  refine ⟨⟨hb, fun r => ?_, fun r h => ?_, hv⟩, ?_⟩
  · have := hc r; have := hc' r; have := ho r; show _ ≤ own'.count r; omega
  · have h1 := hi.eq r h
    have h2 := ho r
    have h3 := hc' r
    rw [List.count_append] at h1
    show _ = own'.count r
    dsimp only at h1
    omega
  · have h1 := hr0.to (m' := ⟨cells, own', lent', others', env'⟩) rfl (fun r h => ?_) (fun r h => ?_) hl
    · have := h1.set k hr
      rwa [List.set_set, List.set_set] at this
    · have := hc r; have := List.count_pos_iff.2 h
      exact List.count_pos_iff.1 (by show 0 < own.count r; omega)
    · have := hc r; have := List.count_pos_iff.2 h; have := ho r
      exact List.count_pos_iff.1 (by show 0 < own'.count r; omega)

/-- One more thing. -/
theorem Good.add {cells own lent others env l o} {s : Slot} {ob : Obj} {own' : List Ref} {lent' : List (Nat × Raw)} {others' : List Ref} {env' : Nat → Move}
    (g : Good ⟨cells, own, lent, others, env⟩ l o) (ho : ∀ r, own'.count r = own.count r + s.refs.count r)
    (hb : Cells.Inv cells (own' ++ loanRefs lent' ++ others')) (hv : ∀ n, Valid (env' n)) (hl : ∀ b id x, Slot.ref b id x ∈ l → (id, x) ∈ lent')
    (hr : RepSlot ⟨cells, own', lent', others', env'⟩ s ob) : Good ⟨cells, own', lent', others', env'⟩ (l ++ [s]) (o ++ [ob]) := by
  refine ⟨⟨hb, fun r => ?_, fun r h => ?_, hv⟩, (g.2.to (m' := ⟨cells, own', lent', others', env'⟩) rfl (fun r h => g.1.mem h) (fun r h => ?_) hl).append hr⟩
  · have := g.1.le r
    rw [slotsRefs_append, slotsRefs_one, List.count_append]
    show _ ≤ own'.count r
    have := ho r
    dsimp only at *; omega
  · have := g.1.eq r h
    rw [slotsRefs_append, slotsRefs_one, List.count_append]
    show _ = own'.count r
    have := ho r
    dsimp only at *; omega
  · have h1 := List.count_pos_iff.2 (g.1.mem h); have := ho r
    exact List.count_pos_iff.1 (by show 0 < own'.count r; dsimp only at h1; omega)

/-! ### Worlds -/

/-- A thread on plain values: what it holds, and the call it is in the middle of. -/
inductive PThread where
  | idle (o : List Obj)
  | busy (op : Op) (o : List Obj)

def PThread.pending : PThread → Option Op
  | .idle _ => none
  | .busy op _ => some op

def PThread.objs : PThread → List Obj
  | .idle o => o
  | .busy _ o => o

/-- The lent trees that the things of a thread are about. -/
def PThread.loans (q : PThread) : List (Bool × Nat) := q.objs.filterMap Obj.loan

/-- What a thread holds, or will give, is what it is on plain values. -/
def TOK (cells : Heap) (own : List Ref) (lent : List (Nat × Raw)) (total : List Ref) : Thread → PThread → Prop
  | .idle l, .idle o => OK (.done (.unit, l)) (.unit, o) cells own lent total
  | .busy l x, .busy op o => l.map Slot.loan = o.map Obj.loan ∧ OK x (pstep o op) cells own lent total
  | _, _ => False

/-- All references: those of the threads and those of lent trees. -/
def allRefs (owns : List (List Ref)) (loans : List (Nat × Raw)) : List Ref := owns.flatten ++ loanRefs loans

/-- All threads are right, and so are the lent trees. -/
structure WOK (w : World) (P : List PThread) (owns : List (List Ref)) (loans : List (Nat × Raw)) : Prop where
  lenO : owns.length = w.threads.length
  lenP : P.length = w.threads.length
  inv : Cells.Inv w.cells (allRefs owns loans)
  nodup : (loans.map Prod.fst).Nodup
  lt : ∀ p ∈ loans, p.1 < w.next
  ids : ∀ q ∈ P, ∀ a ∈ q.loans, a.2 < w.next
  owner : ∀ p ∈ loans, ∃ q ∈ P, (true, p.1) ∈ q.loans
  each : ∀ (i : Nat) (t : Thread) (q : PThread) (own : List Ref), w.threads[i]? = some t → P[i]? = some q → owns[i]? = some own →
    TOK w.cells own (lentOf loans q.objs) (allRefs owns loans) t q

/-- The number of things of all threads that are about a lent tree. -/
def pheld (P : List PThread) (id : Nat) : Nat := ((P.flatMap PThread.objs).filterMap Obj.loan).countP (·.2 == id)

/-- The tree itself, while it is lent. -/
def Obj.lends : Obj → Bool
  | .ref own _ _ => own
  | _ => false

/-- One event on plain values. -/
inductive PHappens : List PThread → Event → List Seen → List PThread → Prop where
  | call {P i o op} : P[i]? = some (.idle o) → PHappens P (.call i op) [.call i op] (P.set i (.busy op o))
  | noCall {P i op} : (∀ o, P[i]? ≠ some (.idle o)) → PHappens P (.call i op) [] P
  | tick {P i} : PHappens P (.tick i) [] P
  | ret {P i o op} : P[i]? = some (.busy op o) → PHappens P (.tick i) [.ret i (pstep o op).1] (P.set i (.idle (pstep o op).2))
  | send {P i j k o o' ob} : i ≠ j → P[i]? = some (.idle o) → P[j]? = some (.idle o') → o[k]? = some ob → ob.lends = false →
      PHappens P (.send i j k) [.send i j k] ((P.set i (.idle (o.set k .free))).set j (.idle (o' ++ [ob])))
  | noSend {P i j k} : (¬ ∃ o o' ob, i ≠ j ∧ P[i]? = some (.idle o) ∧ P[j]? = some (.idle o') ∧ o[k]? = some ob ∧ ob.lends = false) → PHappens P (.send i j k) [] P
  | lend {P i k o m id} : P[i]? = some (.idle o) → o[k]? = some (.tree m) → (∀ q ∈ P, ∀ a ∈ q.loans, a.2 ≠ id) →
      PHappens P (.lend i k) [.lend i k] (P.set i (.idle (o.set k (.ref true id m))))
  | noLend {P i k} : (¬ ∃ o m, P[i]? = some (.idle o) ∧ o[k]? = some (.tree m)) → PHappens P (.lend i k) [] P
  | borrow {P i j k o o' b id m} : P[i]? = some (.idle o) → P[j]? = some (.idle o') → o[k]? = some (.ref b id m) →
      PHappens P (.borrow i j k) [.borrow i j k] (P.set j (.idle (o' ++ [.ref false id m])))
  | noBorrow {P i j k} : (¬ ∃ o o' b id m, P[i]? = some (.idle o) ∧ P[j]? = some (.idle o') ∧ o[k]? = some (.ref b id m)) → PHappens P (.borrow i j k) [] P
  | unlend {P i k o id m} : P[i]? = some (.idle o) → o[k]? = some (.ref true id m) → pheld P id = 1 →
      PHappens P (.unlend i k) [.unlend i k] (P.set i (.idle (o.set k (.tree m))))
  | noUnlend {P i k} : (¬ ∃ o id m, P[i]? = some (.idle o) ∧ o[k]? = some (.ref true id m) ∧ pheld P id = 1) → PHappens P (.unlend i k) [] P

inductive PHappensAll : List PThread → List Event → List Seen → List PThread → Prop where
  | nil {P} : PHappensAll P [] [] P
  | cons {P e s P' es ss P''} : PHappens P e s P' → PHappensAll P' es ss P'' → PHappensAll P (e :: es) (s ++ ss) P''

theorem count_flatten_set : ∀ (owns : List (List Ref)) (i : Nat) (own own' : List Ref), owns[i]? = some own →
    ∀ r, (owns.set i own').flatten.count r + own.count r = owns.flatten.count r + own'.count r
  | [], i, own, own', e, r => by simp at e
  | x :: owns, 0, own, own', e, r => by
    simp only [List.getElem?_cons_zero, Option.some.injEq] at e; subst e
    simp only [List.set_cons_zero, List.flatten_cons, List.count_append]; omega
  | x :: owns, i + 1, own, own', e, r => by
    have := count_flatten_set owns i own own' (by simpa using e) r
    simp only [List.set_cons_succ, List.flatten_cons, List.count_append] at this ⊢; omega

theorem count_flatten_le {owns : List (List Ref)} {i : Nat} {own : List Ref} (e : owns[i]? = some own) (r : Ref) : own.count r ≤ owns.flatten.count r := by
  have := count_flatten_set owns i own [] e r
  simp at this; omega

theorem count_flatten_two {owns : List (List Ref)} {i j : Nat} {own own' : List Ref} (hij : i ≠ j) (e : owns[i]? = some own) (e' : owns[j]? = some own') (r : Ref) :
    own.count r + own'.count r ≤ owns.flatten.count r := by
  have h1 := count_flatten_set owns i own [] e r
  have h2 := count_flatten_le (owns := owns.set i []) (i := j) (own := own') (by rw [List.getElem?_set_ne hij]; exact e') r
  simp at h1; omega

theorem fits {owns : List (List Ref)} {i : Nat} {own : List Ref} {loans : List (Nat × Raw)} (e : owns[i]? = some own) (o : List Obj) :
    Fits own (lentOf loans o) (allRefs owns loans) := fun r => by
  have := count_flatten_le e r
  have := lentOf_le loans o r
  simp only [allRefs, List.count_append]; omega

theorem fits_two {owns : List (List Ref)} {i j : Nat} {own own' : List Ref} {loans : List (Nat × Raw)} (hij : i ≠ j) (e : owns[i]? = some own) (e' : owns[j]? = some own') (o : List Obj) (r : Ref) :
    own.count r + (loanRefs (lentOf loans o)).count r + own'.count r ≤ (allRefs owns loans).count r := by
  have := count_flatten_two hij e e' r
  have := lentOf_le loans o r
  simp only [allRefs, List.count_append]; omega

theorem getElem?_set_cases {α : Type} {l : List α} {i j : Nat} {a b : α} (e : (l.set i a)[j]? = some b) : (i = j ∧ b = a) ∨ (i ≠ j ∧ l[j]? = some b) := by
  by_cases h : i = j
  · subst h
    rw [List.getElem?_set_self' ] at e
    cases h1 : l[i]? with
    | none => rw [h1] at e; simp at e
    | some x => rw [h1] at e; simp at e; exact .inl ⟨rfl, e.symm⟩
  · rw [List.getElem?_set_ne h] at e; exact .inr ⟨h, e⟩

theorem set_same {α : Type} {l : List α} {i : Nat} {a : α} (e : l[i]? = some a) : l.set i a = l := by
  obtain ⟨h, rfl⟩ := List.getElem?_eq_some_iff.1 e
  exact List.set_getElem_self h

/-- Lent trees still belong to somebody. -/
theorem owner_set {P : List PThread} {i : Nat} {q0 q : PThread} {id : Nat} (h : ∃ q ∈ P, (true, id) ∈ q.loans) (e : P[i]? = some q0) (hq : (true, id) ∈ q0.loans → (true, id) ∈ q.loans) :
    ∃ q' ∈ P.set i q, (true, id) ∈ q'.loans := by
  obtain ⟨q1, h1, h2⟩ := h
  obtain ⟨j, e1⟩ := List.getElem?_of_mem h1
  by_cases hj : i = j
  · subst hj
    rw [e] at e1; cases e1
    exact ⟨q, List.mem_of_getElem? (i := i) (by simp [(List.getElem?_eq_some_iff.1 e).1]), hq h2⟩
  · exact ⟨q1, List.mem_of_getElem? (i := j) (by rw [List.getElem?_set_ne hj]; exact e1), h2⟩

theorem ids_set {P : List PThread} {i n n' : Nat} {q : PThread} (h : ∀ q ∈ P, ∀ a ∈ q.loans, a.2 < n) (hn : n ≤ n') (hq : ∀ a ∈ q.loans, a.2 < n') :
    ∀ x ∈ P.set i q, ∀ a ∈ x.loans, a.2 < n' := by
  intro x hx
  rcases List.mem_or_eq_of_mem_set hx with h1 | rfl
  · exact fun a ha => Nat.lt_of_lt_of_le (h x h1 a ha) hn
  · exact hq

/-- The thread `i` and the others after a change of the thread `i`. -/
theorem WOK.set {w : World} {P : List PThread} {owns : List (List Ref)} {loans loans' : List (Nat × Raw)} {i : Nat} {own own' : List Ref} {t : Thread} {q : PThread} {cells' : Heap} {next' : Nat}
    (h : WOK w P owns loans) (e : owns[i]? = some own) (hnd : (loans'.map Prod.fst).Nodup) (hlt : ∀ p ∈ loans', p.1 < next') (hn : w.next ≤ next') (hids : ∀ a ∈ q.loans, a.2 < next')
    (hown : ∀ p ∈ loans', ∃ q' ∈ P.set i q, (true, p.1) ∈ q'.loans)
    (hb : Cells.Inv cells' (allRefs (owns.set i own') loans')) (hi : TOK cells' own' (lentOf loans' q.objs) (allRefs (owns.set i own') loans') t q)
    (ho : ∀ (j : Nat) (t : Thread) (q : PThread) (own : List Ref), i ≠ j → w.threads[j]? = some t → P[j]? = some q → owns[j]? = some own →
      TOK cells' own (lentOf loans' q.objs) (allRefs (owns.set i own') loans') t q) : WOK ⟨cells', w.threads.set i t, next'⟩ (P.set i q) (owns.set i own') loans' := by
  refine ⟨by simp [h.lenO], by simp [h.lenP], hb, hnd, hlt, ids_set h.ids hn hids, hown, fun j t' q' own1 e1 e2 e3 => ?_⟩
  rcases getElem?_set_cases e1 with ⟨rfl, rfl⟩ | ⟨hj, e1⟩
  · rcases getElem?_set_cases e2 with ⟨_, rfl⟩ | ⟨hj, _⟩
    · rcases getElem?_set_cases e3 with ⟨_, rfl⟩ | ⟨hj, _⟩
      · exact hi
      · exact absurd rfl hj
    · exact absurd rfl hj
  · rw [List.getElem?_set_ne hj] at e2 e3
    exact ho j t' q' own1 hj e1 e2 e3

theorem WOK.get {w : World} {P : List PThread} {owns : List (List Ref)} {loans : List (Nat × Raw)} {i : Nat} {t : Thread} (h : WOK w P owns loans) (e : w.threads[i]? = some t) :
    ∃ q own, P[i]? = some q ∧ owns[i]? = some own ∧ TOK w.cells own (lentOf loans q.objs) (allRefs owns loans) t q := by
  have hi : i < w.threads.length := (List.getElem?_eq_some_iff.1 e).1
  have e1 : P[i]? = some (P[i]'(by rw [h.lenP]; exact hi)) := List.getElem?_eq_getElem _
  have e2 : owns[i]? = some (owns[i]'(by rw [h.lenO]; exact hi)) := List.getElem?_eq_getElem _
  exact ⟨_, _, e1, e2, h.each i t _ _ e e1 e2⟩

theorem TOK.mono {cells own lent total total' t q} (h : TOK cells own lent total t q) (ht : ∀ r, total'.count r = total.count r) : TOK cells own lent total' t q := by
  cases t <;> cases q <;> simp only [TOK] at h ⊢
  · exact h.total ht
  · exact ⟨h.1, h.2.total ht⟩

theorem TOK.other {cells own lent total t q} {y : Act} {b : y.Res} {own2 loan2 : List Ref} {cells' : Heap} {total' : List Ref} (h : TOK cells own lent total t q) (hi : Cells.Inv cells total)
    (hle : ∀ r, own.count r + (loanRefs lent).count r + own2.count r ≤ total.count r) (ha : Allowed own2 loan2 cells y) (e : y.exec cells = some (b, cells'))
    (ht : ∀ r, total'.count r + own2.count r = total.count r + (after own2 y b).count r) : TOK cells' own lent total' t q := by
  cases t <;> cases q <;> simp only [TOK] at h ⊢
  · exact h.other hi hle ha e ht
  · exact ⟨h.1, h.2.other hi hle ha e ht⟩

/-- What an idle thread holds. -/
theorem OK.good {ob l p cells own lent total} (h : OK (.done (ob, l)) p cells own lent total) {others env} (hc : Parts own lent others total) (hv : ∀ n, Valid (env n)) :
    p.1 = ob ∧ Good ⟨cells, own, lent, others, env⟩ l p.2 := by
  obtain ⟨l', m', e, g⟩ := h others env hc hv
  simp only [H.run, Option.some.injEq, Prod.mk.injEq] at e
  obtain ⟨⟨rfl, rfl⟩, rfl⟩ := e
  exact ⟨rfl, g⟩

theorem OK.of_good {ob l o cells own lent total} (h : ∀ others env, Parts own lent others total → (∀ n, Valid (env n)) → Good ⟨cells, own, lent, others, env⟩ l o) :
    OK (.done (ob, l)) (ob, o) cells own lent total := fun others env hc hv => ⟨l, _, rfl, h others env hc hv⟩

theorem Parts.inv {own lent others total h} (hp : Parts own lent others total) (hi : Cells.Inv h total) : Cells.Inv h (own ++ loanRefs lent ++ others) :=
  hi.mono fun r => by simp only [List.count_append]; exact hp r

theorem TOK.loans {cells own lent total t q} (h : TOK cells own lent total t q) (hf : Fits own lent total) : t.slots.map Slot.loan = q.objs.map Obj.loan := by
  cases t <;> cases q <;> simp only [TOK] at h
  · exact (OK.good h hf.parts (fun _ => valid_id)).2.2.loans
  · exact h.1

theorem filterMap_eq {α β : Type} (f : α → Option β) : ∀ l : List α, l.filterMap f = (l.map f).filterMap id
  | [] => rfl
  | a :: l => by rw [List.filterMap_cons, filterMap_eq f l]; cases e : f a <;> simp [e]

theorem WOK.held {w P owns loans} (h : WOK w P owns loans) (id : Nat) : w.held id = pheld P id := by
  have key : w.threads.map (fun t => t.slots.map Slot.loan) = P.map (fun q => q.objs.map Obj.loan) := by
    refine List.ext_getElem? fun i => ?_
    rw [List.getElem?_map, List.getElem?_map]
    cases e : w.threads[i]? with
    | none =>
      have : P[i]? = none := by rw [List.getElem?_eq_none_iff] at e ⊢; rw [h.lenP]; exact e
      rw [this]; rfl
    | some t =>
      obtain ⟨q, own, e2, e3, ht⟩ := h.get e
      rw [e2]
      simp [ht.loans (fits e3 _)]
  unfold World.held pheld
  congr 1
  rw [filterMap_eq, filterMap_eq Obj.loan, List.map_flatMap, List.map_flatMap, List.flatMap_def, List.flatMap_def, key]

/-! ### Lent trees stay where they are -/

/-- Trees that are lent are still there. -/
def KeepsLent (o : List Obj) (p : Obs × List Obj) : Prop := ∀ ob ∈ o, ∀ id, ob.loan = some (true, id) → ob ∈ p.2

theorem KeepsLent.same {o : List Obj} {x : Obs} : KeepsLent o (x, o) := fun ob h _ _ => h

theorem KeepsLent.append {o l : List Obj} {x : Obs} : KeepsLent o (x, o ++ l) := fun ob h _ _ => List.mem_append_left _ h

theorem mem_set_of {o : List Obj} {i : Nat} {ob0 ob x : Obj} (e : o[i]? = some ob0) (h : ob ∈ o) (hn : ob ≠ ob0) : ob ∈ o.set i x := by
  obtain ⟨j, e1⟩ := List.getElem?_of_mem h
  refine List.mem_of_getElem? (i := j) ?_
  rw [List.getElem?_set_ne, e1]
  rintro rfl
  rw [e] at e1; cases e1; exact hn rfl

theorem KeepsLent.set {o : List Obj} {x : Obs} {i : Nat} {ob ob0 : Obj} (e : o[i]? = some ob0) (h : ∀ id, ob0.loan ≠ some (true, id)) : KeepsLent o (x, o.set i ob) :=
  fun b hb id hl => mem_set_of e hb (by rintro rfl; exact h id hl)

theorem KeepsLent.setAppend {o l : List Obj} {x : Obs} {i : Nat} {ob ob0 : Obj} (e : o[i]? = some ob0) (h : ∀ id, ob0.loan ≠ some (true, id)) : KeepsLent o (x, o.set i ob ++ l) :=
  fun b hb id hl => List.mem_append_left _ (KeepsLent.set (x := x) e h b hb id hl)

theorem ponTree_keeps {o : List Obj} {i : Nat} {f : Node → Obs × List Obj} (hf : ∀ m, KeepsLent o (f m)) : KeepsLent o (ponTree o i f) := by
  unfold ponTree; split <;> first | exact hf _ | exact .same

theorem ponOwn_keeps {o : List Obj} {i : Nat} {f : Node → Obs × List Obj} (hf : ∀ m, o[i]? = some (.tree m) → KeepsLent o (f m)) : KeepsLent o (ponOwn o i f) := by
  unfold ponOwn; split
  · rename_i e; exact hf _ e
  · exact .same

theorem pstep_keeps (o : List Obj) (op : Op) : KeepsLent o (pstep o op) := by
  cases op <;> simp only [pstep]
  case clone i => split <;> first | exact .same | exact .append
  case drop i =>
    split
    · exact .same
    · rename_i ob hne e
      refine .set e fun id h => ?_
      cases ob <;> simp only [Obj.loan, Option.some.injEq, Prod.mk.injEq, reduceCtorEq] at h
      obtain ⟨rfl, rfl⟩ := h
      exact hne _ _ rfl
    · exact .same
  case next i =>
    unfold pnextOf
    split
    · rename_i e
      split
      · intro b hb id hl
        exact List.mem_append_left _ (List.mem_append_left _ (KeepsLent.set (x := .unit) e (fun id h => by cases h) b hb id hl))
      · exact .set e fun id h => by cases h
    · rename_i e
      split
      · exact .setAppend e fun id h => by cases h
      · exact .set e fun id h => by cases h
    · rename_i e
      split
      · exact .setAppend e fun id h => by cases h
      · exact .set e fun id h => by cases h
    · exact .same
  case read i => unfold preadOf; split <;> exact .same
  all_goals
    first
      | exact KeepsLent.append
      | exact ponTree_keeps fun m => .same
      | exact ponTree_keeps fun m => .append
      | exact ponTree_keeps fun m => ponTree_keeps fun k => .same
      | exact ponTree_keeps fun m => ponTree_keeps fun k => .append
      | exact ponTree_keeps fun m => by unfold pnewValue; split <;> exact .append
      | exact ponTree_keeps fun m => by unfold pnewEntry; split <;> exact .append
      | exact ponOwn_keeps fun m e => .set e fun id h => by cases h
      | (unfold pchangeWith; split <;> first | exact .same | exact ponOwn_keeps fun m e => ponTree_keeps fun k => .set e fun id h => by cases h)

/-- A call does not make references. -/
theorem pstep_loans {o : List Obj} {op : Op} {a} (h : a ∈ (pstep o op).2.filterMap Obj.loan) : a ∈ o.filterMap Obj.loan := by
  obtain ⟨ob, h1, h2⟩ := List.mem_filterMap.1 h
  rcases pstep_new o op ob h1 with h3 | h3
  · exact List.mem_filterMap.2 ⟨ob, h3, h2⟩
  · rw [h3] at h2; cases h2

theorem pstep_lends {o : List Obj} {op : Op} {id} (h : (true, id) ∈ o.filterMap Obj.loan) : (true, id) ∈ (pstep o op).2.filterMap Obj.loan := by
  obtain ⟨ob, h1, h2⟩ := List.mem_filterMap.1 h
  exact List.mem_filterMap.2 ⟨ob, pstep_keeps o op ob h1 id h2, h2⟩

/-! ### Counting references to lent trees -/

theorem sum_set {α : Type} (g : α → Nat) : ∀ (l : List α) (k : Nat) (a b : α), l[k]? = some a → ((l.set k b).map g).sum + g a = (l.map g).sum + g b
  | [], k, a, b, e => by simp at e
  | x :: l, 0, a, b, e => by
    simp only [List.getElem?_cons_zero, Option.some.injEq] at e; subst e
    simp only [List.set_cons_zero, List.map_cons, List.sum_cons]; omega
  | x :: l, k + 1, a, b, e => by
    have := sum_set g l k a b (by simpa using e)
    simp only [List.set_cons_succ, List.map_cons, List.sum_cons] at this ⊢; omega

theorem sum_zero {α : Type} (g : α → Nat) : ∀ (l : List α), (l.map g).sum = 0 → ∀ a ∈ l, g a = 0
  | [], _, a, h => by cases h
  | x :: l, h, a, ha => by
    simp only [List.map_cons, List.sum_cons] at h
    rcases List.mem_cons.1 ha with rfl | ha
    · omega
    · exact sum_zero g l (by omega) a ha

/-- Whether a thing is about the lent tree. -/
def Obj.about (id : Nat) (ob : Obj) : Nat :=
  match ob.loan with
  | some a => if a.2 == id then 1 else 0
  | none => 0

theorem count_about (id : Nat) : ∀ o : List Obj, (o.filterMap Obj.loan).countP (·.2 == id) = (o.map (Obj.about id)).sum
  | [] => rfl
  | ob :: o => by
    have h := count_about id o
    rw [List.filterMap_cons, List.map_cons, List.sum_cons, ← h]
    unfold Obj.about
    cases e : ob.loan with
    | none => simp
    | some a => simp only [List.countP_cons]; omega

theorem pheld_sum (P : List PThread) (id : Nat) : pheld P id = (P.map fun q => (q.objs.map (Obj.about id)).sum).sum := by
  unfold pheld
  rw [count_about]
  induction P with
  | nil => rfl
  | cons q P ih => simp only [List.flatMap_cons, List.map_append, List.sum_append, List.map_cons, List.sum_cons, ih]

theorem about_zero {id : Nat} {o : List Obj} (h : ∀ ob ∈ o, ob.about id = 0) : ∀ a ∈ o.filterMap Obj.loan, a.2 ≠ id := by
  intro a ha
  obtain ⟨ob, h1, h2⟩ := List.mem_filterMap.1 ha
  have := h ob h1
  unfold Obj.about at this
  rw [h2] at this
  intro h3
  simp [h3] at this

/-- Once there are no references to a tree, and its own slot is the tree itself again, nobody knows about it. -/
theorem unheld {P : List PThread} {i k id : Nat} {o : List Obj} {m : Node} (e : P[i]? = some (.idle o)) (e' : o[k]? = some (.ref true id m)) (h : pheld P id = 1) :
    ∀ q ∈ P.set i (.idle (o.set k (.tree m))), ∀ a ∈ q.loans, a.2 ≠ id := by
  rw [pheld_sum] at h
  have h1 := sum_set (fun q : PThread => (q.objs.map (Obj.about id)).sum) P i _ (.idle (o.set k (.tree m))) e
  have h2 := sum_set (Obj.about id) o k _ (.tree m) e'
  have h3 : Obj.about id (.ref true id m) = 1 := by simp [Obj.about, Obj.loan]
  have h4 : Obj.about id (.tree m) = 0 := rfl
  simp only [PThread.objs] at h1
  have h5 : ((P.set i (.idle (o.set k (.tree m)))).map fun q => (q.objs.map (Obj.about id)).sum).sum = 0 := by
    simp only [PThread.objs] at h ⊢; omega
  intro q hq
  exact about_zero (sum_zero _ _ (sum_zero _ _ h5 q hq))

theorem lentOf_fresh {p : Nat × Raw} {loans : List (Nat × Raw)} {o : List Obj} (h : ∀ a ∈ o.filterMap Obj.loan, a.2 ≠ p.1) : lentOf (p :: loans) o = lentOf loans o := by
  unfold lentOf
  rw [List.filter_cons, if_neg]
  intro h1
  obtain ⟨a, h2, h3⟩ := List.any_eq_true.1 h1
  exact h a h2 (by simpa using h3)

theorem lentOf_gone {id : Nat} {loans : List (Nat × Raw)} {o : List Obj} (h : ∀ a ∈ o.filterMap Obj.loan, a.2 ≠ id) : lentOf (loans.filter (·.1 != id)) o = lentOf loans o := by
  unfold lentOf
  rw [List.filter_filter]
  refine List.filter_congr fun p hp => ?_
  cases h1 : (o.filterMap Obj.loan).any (·.2 == p.1) with
  | false => simp
  | true =>
    obtain ⟨a, h2, h3⟩ := List.any_eq_true.1 h1
    have h4 := h a h2
    have h3 : a.2 = p.1 := by simpa using h3
    rw [h3] at h4
    simp [h4]

theorem loanRefs_gone {id : Nat} {x : Raw} (r : Ref) : ∀ {loans : List (Nat × Raw)}, (loans.map Prod.fst).Nodup → (id, x) ∈ loans →
    (loanRefs loans).count r = x.refs.count r + (loanRefs (loans.filter (·.1 != id))).count r
  | [], _, h => by cases h
  | p :: loans, hn, h => by
    simp only [List.map_cons, List.nodup_cons] at hn
    rcases List.mem_cons.1 h with rfl | h
    · have : (loans.filter (·.1 != id)) = loans := List.filter_eq_self.2 fun p hp => by
        have : p.1 ≠ id := by rintro rfl; exact hn.1 (List.mem_map.2 ⟨p, hp, rfl⟩)
        simp [this]
      simp only [List.filter_cons, bne_self_eq_false, Bool.false_eq_true, if_false, this]
      simp [loanRefs, List.flatMap_cons]
    · have ih := loanRefs_gone r hn.2 h
      have : p.1 ≠ id := by rintro rfl; exact hn.1 (List.mem_map.2 ⟨_, h, rfl⟩)
      simp only [List.filter_cons, bne_iff_ne, ne_eq, this, not_false_eq_true, if_true]
      simp only [loanRefs, List.flatMap_cons, List.count_append] at ih ⊢
      omega

theorem loans_set {o : List Obj} {k : Nat} {ob : Obj} {a} (h : a ∈ (o.set k .free).filterMap Obj.loan) : a ∈ (o.set k ob).filterMap Obj.loan := by
  obtain ⟨b, h1, h2⟩ := List.mem_filterMap.1 h
  obtain ⟨j, e1⟩ := List.getElem?_of_mem h1
  rcases getElem?_set_cases e1 with ⟨rfl, rfl⟩ | ⟨hj, e1⟩
  · cases h2
  · exact List.mem_filterMap.2 ⟨b, List.mem_of_getElem? (i := j) (by rw [List.getElem?_set_ne hj]; exact e1), h2⟩

theorem loans_set' {o : List Obj} {k : Nat} {ob ob0 : Obj} {a} (e : o[k]? = some ob0) (h : a ∈ o.filterMap Obj.loan) (hn : ob0.loan ≠ some a) : a ∈ (o.set k ob).filterMap Obj.loan := by
  obtain ⟨b, h1, h2⟩ := List.mem_filterMap.1 h
  exact List.mem_filterMap.2 ⟨b, mem_set_of e h1 (by rintro rfl; exact hn h2), h2⟩

theorem loans_of_set {o : List Obj} {k : Nat} {ob : Obj} {a} (h : a ∈ (o.set k ob).filterMap Obj.loan) : a ∈ o.filterMap Obj.loan ∨ ob.loan = some a := by
  obtain ⟨b, h1, h2⟩ := List.mem_filterMap.1 h
  rcases List.mem_or_eq_of_mem_set h1 with h1 | rfl
  · exact .inl (List.mem_filterMap.2 ⟨b, h1, h2⟩)
  · exact .inr h2

/-! ### Events -/

/-- The number of steps that calls can ask for. -/
def PThread.need : PThread → Nat
  | .idle o => Heap.need o
  | .busy _ o => Heap.need o

/-- An event on plain values that has an effect. -/
def peff (P : List PThread) (nx : Nat) : Event → Option (List PThread × Nat)
  | .call i op =>
    match P[i]? with
    | some (.idle o) => some (P.set i (.busy op o), nx)
    | _ => none
  | .tick i =>
    match P[i]? with
    | some (.busy op o) => some (P.set i (.idle (pstep o op).2), nx)
    | _ => none
  | .send i j k =>
    match P[i]?, P[j]? with
    | some (.idle o), some (.idle o') =>
      match o[k]? with
      | some ob => some ((P.set i (.idle (o.set k .free))).set j (.idle (o' ++ [ob])), nx)
      | none => none
    | _, _ => none
  | .lend i k =>
    match P[i]? with
    | some (.idle o) =>
      match o[k]? with
      | some (.tree m) => some (P.set i (.idle (o.set k (.ref true nx m))), nx + 1)
      | _ => none
    | _ => none
  | .borrow i j k =>
    match P[i]?, P[j]? with
    | some (.idle o), some (.idle o') =>
      match o[k]? with
      | some (.ref _ id m) => some (P.set j (.idle (o' ++ [.ref false id m])), nx)
      | _ => none
    | _, _ => none
  | .unlend i k =>
    match P[i]? with
    | some (.idle o) =>
      match o[k]? with
      | some (.ref _ id m) => some (P.set i (.idle (o.set k (.tree m))), nx)
      | _ => none
    | _ => none

/-- The number of steps that calls of a schedule can ask for, whatever events have an effect. -/
def needEvents (P : List PThread) (nx : Nat) : List Event → Nat
  | [] => 0
  | e :: es => (match e with | .call _ _ => (P.map PThread.need).sum | _ => 0) + needEvents P nx es +
    match peff P nx e with
    | some p => needEvents p.1 p.2 es
    | none => 0

theorem need_le {P : List PThread} {i : Nat} {q : PThread} (e : P[i]? = some q) : q.need ≤ (P.map PThread.need).sum := by
  induction P generalizing i with
  | nil => simp at e
  | cons p P ih =>
    simp only [List.map_cons, List.sum_cons]
    cases i with
    | zero => simp only [List.getElem?_cons_zero, Option.some.injEq] at e; subst e; omega
    | succ i => have := ih (i := i) (by simpa using e); omega

theorem WOK.no_thread {w : World} {P : List PThread} {owns : List (List Ref)} {loans : List (Nat × Raw)} {i : Nat} (h : WOK w P owns loans) (e : w.threads[i]? = none) : ∀ o, P[i]? ≠ some (.idle o) := by
  intro o h1
  have h2 := (List.getElem?_eq_some_iff.1 h1).1
  have h3 := List.getElem?_eq_none_iff.1 e
  have h4 := h.lenP
  omega

theorem WOK.not_idle {w : World} {P : List PThread} {owns : List (List Ref)} {loans : List (Nat × Raw)} {i : Nat} {l x} (h : WOK w P owns loans) (e : w.threads[i]? = some (.busy l x)) :
    ∀ o, P[i]? ≠ some (.idle o) := by
  intro o h1
  obtain ⟨q, own, e2, _, ht⟩ := h.get e
  rw [e2] at h1; cases h1
  exact ht

/-- An idle thread. -/
theorem WOK.idle {w : World} {P : List PThread} {owns : List (List Ref)} {loans : List (Nat × Raw)} {i : Nat} (h : WOK w P owns loans) :
    (∀ o, P[i]? ≠ some (.idle o)) ∧ (∀ l, w.threads[i]? ≠ some (.idle l)) ∨
    ∃ l o own, w.threads[i]? = some (.idle l) ∧ P[i]? = some (.idle o) ∧ owns[i]? = some own ∧ OK (.done (.unit, l)) (.unit, o) w.cells own (lentOf loans o) (allRefs owns loans) ∧
      Good ⟨w.cells, own, lentOf loans o, minus (allRefs owns loans) (own ++ loanRefs (lentOf loans o)), fun _ => id⟩ l o := by
  cases e1 : w.threads[i]? with
  | none => exact .inl ⟨h.no_thread e1, fun l h => by cases h⟩
  | some t =>
    obtain ⟨q, own, e2, e3, ht⟩ := h.get e1
    cases t with
    | busy l x => exact .inl ⟨h.not_idle e1, fun l h => by cases h⟩
    | idle l =>
      cases q with
      | busy _ _ => exact ht.elim
      | idle o => exact .inr ⟨l, o, own, rfl, e2, e3, ht, (OK.good ht (fits e3 o).parts (fun _ => valid_id)).2⟩

theorem lends_eq {m s ob} (h : RepSlot m s ob) : s.lends = ob.lends := by
  cases s <;> cases ob <;> simp only [RepSlot] at h <;> first | rfl | exact h.1

theorem RepAll.at {m l o} (h : RepAll m l o) {k : Nat} {s : Slot} (e : l[k]? = some s) : ∃ ob, o[k]? = some ob ∧ RepSlot m s ob := by
  have h2 := (List.getElem?_eq_some_iff.1 e).1
  have e2 : o[k]? = some (o[k]'(by rw [← h.1]; exact h2)) := List.getElem?_eq_getElem _
  exact ⟨_, e2, h.2 k s _ e e2⟩

theorem RepAll.at' {m l o} (h : RepAll m l o) {k : Nat} {ob : Obj} (e : o[k]? = some ob) : ∃ s, l[k]? = some s ∧ RepSlot m s ob := by
  have h2 := (List.getElem?_eq_some_iff.1 e).1
  have e2 : l[k]? = some (l[k]'(by rw [h.1]; exact h2)) := List.getElem?_eq_getElem _
  exact ⟨_, e2, h.2 k _ ob e2 e⟩

theorem RepSlot.isRef {m s b id t} (h : RepSlot m s (.ref b id t)) : ∃ x, s = .ref b id x ∧ (id, x) ∈ m.lent ∧ Rep m x t := by
  cases s <;> simp only [RepSlot] at h
  obtain ⟨rfl, rfl, h1, h2⟩ := h
  exact ⟨_, rfl, h1, h2⟩

theorem RepSlot.ofRef {m ob b id x} (h : RepSlot m (.ref b id x) ob) : ∃ t, ob = .ref b id t ∧ (id, x) ∈ m.lent ∧ Rep m x t := by
  cases ob <;> simp only [RepSlot] at h
  obtain ⟨rfl, rfl, h1, h2⟩ := h
  exact ⟨_, rfl, h1, h2⟩

theorem RepSlot.isTree {m s t} (h : RepSlot m s (.tree t)) : ∃ x, s = .tree x ∧ Rep m x t := by
  cases s <;> simp only [RepSlot] at h
  exact ⟨_, rfl, h⟩

theorem RepSlot.ofTree {m ob x} (h : RepSlot m (.tree x) ob) : ∃ t, ob = .tree t ∧ Rep m x t := by
  cases ob <;> simp only [RepSlot] at h
  exact ⟨_, rfl, h⟩

theorem call_event {w P owns loans n i op} (h : WOK w P owns loans) (hn : (P.map PThread.need).sum ≤ n) :
    ∃ w' s P' owns' loans', w.step n (.call i op) = some (w', s) ∧ WOK w' P' owns' loans' ∧ PHappens P (.call i op) s P' ∧
      (P' = P ∧ w'.next = w.next ∨ peff P w.next (.call i op) = some (P', w'.next)) := by
  simp only [World.step]
  rcases h.idle (i := i) with ⟨hp, hw⟩ | ⟨l, o, own, e1, e2, e3, ht, _⟩
  · refine ⟨w, [], P, owns, loans, ?_, h, .noCall hp, .inl ⟨rfl, rfl⟩⟩
    split
    · rename_i l e; exact absurd e (hw l)
    · rfl
  · rw [e1]
    have hn' := Nat.le_trans (need_le e2) hn
    refine ⟨_, _, P.set i (.busy op o), owns.set i own, loans, rfl, ?_, .call e2, .inr (by simp only [peff]; rw [e2])⟩
    have hs : owns.set i own = owns := set_same e3
    refine h.set e3 h.nodup h.lt (Nat.le_refl _) (fun a ha => h.ids _ (List.mem_of_getElem? e2) a ha) (fun p hp => owner_set (h.owner p hp) e2 id) (by rw [hs]; exact h.inv) ?_ ?_
    · rw [hs]
      refine ⟨(OK.good ht (fits e3 o).parts (fun _ => valid_id)).2.2.loans, fun others env hc hv => ?_⟩
      obtain ⟨_, g⟩ := OK.good ht hc hv
      obtain ⟨l', m', e4, g'⟩ := step_ok op g (n := n) hn'
      exact ⟨l', m', e4, g'⟩
    · intro j t q own' hj q1 q2 q3
      rw [hs]; exact h.each j t q own' q1 q2 q3

theorem tick_event {w P owns loans n i} (h : WOK w P owns loans) :
    ∃ w' s P' owns' loans', w.step n (.tick i) = some (w', s) ∧ WOK w' P' owns' loans' ∧ PHappens P (.tick i) s P' ∧
      (P' = P ∧ w'.next = w.next ∨ peff P w.next (.tick i) = some (P', w'.next)) := by
  simp only [World.step]
  cases e1 : w.threads[i]? with
  | none => exact ⟨w, [], P, owns, loans, rfl, h, .tick, .inl ⟨rfl, rfl⟩⟩
  | some t =>
    obtain ⟨q, own, e2, e3, ht⟩ := h.get e1
    cases t with
    | idle l => exact ⟨w, [], P, owns, loans, rfl, h, .tick, .inl ⟨rfl, rfl⟩⟩
    | busy l0 x =>
      cases q with
      | idle _ => exact ht.elim
      | busy op o =>
        obtain ⟨hl0, ht⟩ := ht
        have hfit : Fits own (lentOf loans o) (allRefs owns loans) := fits e3 o
        cases x with
        | stop =>
          obtain ⟨l, m, e4, _⟩ := ht _ (fun _ => id) hfit.parts (fun _ => valid_id)
          simp only [H.run] at e4; cases e4
        | done a =>
          obtain ⟨ob, l⟩ := a
          obtain ⟨h1, g0⟩ := OK.good ht hfit.parts (fun _ => valid_id)
          subst h1
          have hs : owns.set i own = owns := set_same e3
          refine ⟨_, _, P.set i (.idle (pstep o op).2), owns.set i own, loans, rfl, ?_, .ret e2, .inr (by simp only [peff]; rw [e2])⟩
          refine h.set e3 h.nodup h.lt (Nat.le_refl _) (fun a ha => h.ids _ (List.mem_of_getElem? e2) a (pstep_loans ha)) (fun p hp => owner_set (h.owner p hp) e2 pstep_lends)
            (by rw [hs]; exact h.inv) ?_ ?_
          · rw [hs]
            refine OK.of_good fun others env hc hv => g0.shift (hc.inv h.inv) hv fun b id x hx => ?_
            obtain ⟨h2, h3⟩ := g0.2.lent (loans := loans) (fun p hp => (mem_lentOf.1 hp).1) hx
            exact mem_lentOf.2 ⟨h2, b, h3⟩
          · intro j t q own' hj q1 q2 q3
            rw [hs]; exact h.each j t q own' q1 q2 q3
        | act y k =>
          obtain ⟨b, h', e4, ha, hk⟩ := OK.next ht hfit
          have hf := count_flatten_set owns i own (after own y b) e3
          have hf' : ∀ r, (allRefs (owns.set i (after own y b)) loans).count r + own.count r = (allRefs owns loans).count r + (after own y b).count r := fun r => by
            have := hf r; simp only [allRefs, List.count_append]; omega
          have hm := count_minus own (allRefs owns loans) (fun r => by have := hfit r; omega)
          have g := guarantee (F := minus (allRefs owns loans) own) (h.inv.mono fun r => by have := hm r; simp only [List.count_append]; omega) ha e4
          refine ⟨⟨h', w.threads.set i (.busy l0 (k b)), w.next⟩, [], P, owns.set i (after own y b), loans, ?_, ?_, .tick, .inl ⟨rfl, rfl⟩⟩
          · simp only [H.next, e4]
          · have hp : P.set i (.busy op o) = P := set_same e2
            have := h.set (t := .busy l0 (k b)) (q := .busy op o) (cells' := h') e3 h.nodup h.lt (Nat.le_refl _) (fun a ha => h.ids _ (List.mem_of_getElem? e2) a ha)
              (fun p hp => owner_set (h.owner p hp) e2 id) (g.1.mono fun r => by have := hm r; have := hf' r; simp only [List.count_append]; omega)
              ⟨hl0, hk _ hf'⟩ (fun j t q own' hj q1 q2 q3 => (h.each j t q own' q1 q2 q3).other h.inv (fun r => by have := fits_two (loans := loans) (Ne.symm hj) q3 e3 q.objs r; omega) ha e4 hf')
            rw [hp] at this
            exact this

theorem send_event {w P owns loans n i j k} (h : WOK w P owns loans) :
    ∃ w' s P' owns' loans', w.step n (.send i j k) = some (w', s) ∧ WOK w' P' owns' loans' ∧ PHappens P (.send i j k) s P' ∧
      (P' = P ∧ w'.next = w.next ∨ peff P w.next (.send i j k) = some (P', w'.next)) := by
  simp only [World.step]
  rcases h.idle (i := i) with ⟨hp, hw⟩ | ⟨l, o, own, e1, e2, e3, ht, gi⟩
  · refine ⟨w, [], P, owns, loans, ?_, h, .noSend (fun ⟨o, o', ob, _, h1, _⟩ => hp o h1), .inl ⟨rfl, rfl⟩⟩
    split
    · exact absurd ‹w.threads[i]? = some (.idle _)› (hw _)
    · rfl
  rcases h.idle (i := j) with ⟨hp, hw⟩ | ⟨l', o', own', f1, f2, f3, ht', gj⟩
  · refine ⟨w, [], P, owns, loans, ?_, h, .noSend (fun ⟨o, o', ob, _, _, h1, _⟩ => hp o' h1), .inl ⟨rfl, rfl⟩⟩
    split
    · exact absurd ‹w.threads[j]? = some (.idle _)› (hw _)
    · rfl
  rw [e1, f1]
  dsimp only
  cases g1 : l[k]? with
  | none =>
    refine ⟨w, [], P, owns, loans, rfl, h, .noSend (fun ⟨o1, o', ob, _, h1, _, h2, _⟩ => ?_), .inl ⟨rfl, rfl⟩⟩
    rw [e2] at h1; cases h1
    obtain ⟨s, h3, _⟩ := gi.2.at' h2
    rw [g1] at h3; cases h3
  | some s =>
    obtain ⟨ob, g2, hrs⟩ := gi.2.at g1
    by_cases hij : i = j ∨ s.lends = true
    · dsimp only; rw [if_pos hij]
      refine ⟨w, [], P, owns, loans, rfl, h, .noSend (fun ⟨o1, _, ob1, h1, h2, _, h3, h4⟩ => ?_), .inl ⟨rfl, rfl⟩⟩
      rw [e2] at h2; cases h2
      rw [g2] at h3; cases h3
      rcases hij with hij | hij
      · exact h1 hij
      · rw [lends_eq hrs, h4] at hij; cases hij
    · dsimp only; rw [if_neg hij]
      have hl : ob.lends = false := by
        rw [← lends_eq hrs]
        cases e : s.lends with
        | false => rfl
        | true => exact absurd (.inr e) hij
      have hij : i ≠ j := fun h => hij (.inl h)
      have hso : ∀ r, s.refs.count r ≤ own.count r := fun r => by
        have h1 := gi.1.le r
        have h2 := count_set l k s .free r g1
        have h3 : (Slot.free.refs).count r = 0 := rfl
        dsimp only at h1
        omega
      have ho := fun r => count_minus s.refs own hso r
      have c1 := count_flatten_set owns i own (minus own s.refs) e3
      have f4 : (owns.set i (minus own s.refs))[j]? = some own' := by rw [List.getElem?_set_ne hij]; exact f3
      have c2 := count_flatten_set (owns.set i (minus own s.refs)) j own' (s.refs ++ own') f4
      have htot : ∀ r, (allRefs ((owns.set i (minus own s.refs)).set j (s.refs ++ own')) loans).count r = (allRefs owns loans).count r := fun r => by
        have := c1 r; have := c2 r; have := ho r
        simp only [allRefs, List.count_append] at *; omega
      have hb : Cells.Inv w.cells (allRefs ((owns.set i (minus own s.refs)).set j (s.refs ++ own')) loans) := h.inv.mono fun r => htot r
      have f5 : (P.set i (.idle (o.set k .free)))[j]? = some (.idle o') := by rw [List.getElem?_set_ne hij]; exact f2
      refine ⟨_, _, _, (owns.set i (minus own s.refs)).set j (s.refs ++ own'), loans, rfl, ⟨by simp [h.lenO], by simp [h.lenP], hb, h.nodup, h.lt, ?_, ?_, ?_⟩, .send hij e2 f2 g2 hl, .inr ?_⟩
      · refine ids_set (n := w.next) (ids_set (n := w.next) h.ids (Nat.le_refl _) ?_) (Nat.le_refl _) ?_
        · intro a ha
          rcases loans_of_set ha with h1 | h1
          · exact h.ids _ (List.mem_of_getElem? e2) a h1
          · cases h1
        · intro a ha
          simp only [PThread.loans, PThread.objs, List.filterMap_append, List.mem_append] at ha
          rcases ha with h1 | h1
          · exact h.ids _ (List.mem_of_getElem? f2) a h1
          · obtain ⟨b, h2, h3⟩ := List.mem_filterMap.1 h1
            rw [List.mem_singleton] at h2; subst h2
            exact h.ids _ (List.mem_of_getElem? e2) a (mem_loan_of g2 h3)
      · intro p hp
        refine owner_set (owner_set (h.owner p hp) e2 fun h1 => loans_set' g2 h1 fun h2 => ?_) f5 fun h1 => ?_
        · cases ob <;> simp only [Obj.loan, Option.some.injEq, Prod.mk.injEq, reduceCtorEq] at h2
          obtain ⟨rfl, _⟩ := h2
          cases hl
        · simp only [PThread.loans, PThread.objs, List.filterMap_append, List.mem_append]; exact .inl h1
      · intro a t q own1 a1 a2 a3
        rcases getElem?_set_cases a1 with ⟨rfl, rfl⟩ | ⟨haj, a1⟩
        · rcases getElem?_set_cases a2 with ⟨_, rfl⟩ | ⟨hj, _⟩
          · rcases getElem?_set_cases a3 with ⟨_, rfl⟩ | ⟨hj, _⟩
            · refine OK.of_good fun others env hc hv => gj.add (s := s) (fun r => by simp only [List.count_append]; omega) (hc.inv hb) hv (fun b id x hx => ?_) ?_
              · obtain ⟨h2, h3⟩ := gj.2.lent (loans := loans) (fun p hp => (mem_lentOf.1 hp).1) hx
                exact mem_lentOf.2 ⟨h2, b, by simp only [PThread.objs, List.filterMap_append, List.mem_append]; exact .inl h3⟩
              · refine hrs.to rfl (fun r hr => gi.1.mem (mem_slotsRefs g1 hr)) (fun r hr => List.mem_append_left _ hr) fun b id x hx => ?_
                subst hx
                obtain ⟨h2, h3⟩ := gi.2.lent (loans := loans) (fun p hp => (mem_lentOf.1 hp).1) (List.mem_of_getElem? g1)
                obtain ⟨t, rfl, _⟩ := hrs.ofRef
                exact mem_lentOf.2 ⟨h2, b, by simp [PThread.objs, List.filterMap_append, Obj.loan]⟩
            · exact absurd rfl hj
          · exact absurd rfl hj
        · rw [List.getElem?_set_ne haj] at a2 a3
          rcases getElem?_set_cases a1 with ⟨rfl, rfl⟩ | ⟨hai, a1⟩
          · rcases getElem?_set_cases a2 with ⟨_, rfl⟩ | ⟨hj, _⟩
            · rcases getElem?_set_cases a3 with ⟨_, rfl⟩ | ⟨hj, _⟩
              · refine OK.of_good fun others env hc hv => gi.change g1 (s' := .free) (fun r => ?_) (hc.inv hb) hv (fun b id x hx => ?_) trivial
                · have := ho r
                  have h3 : (Slot.free.refs).count r = 0 := rfl
                  omega
                · obtain ⟨h2, h3⟩ := (gi.take g1).2.lent (loans := loans) (fun p hp => (mem_lentOf.1 hp).1) hx
                  exact mem_lentOf.2 ⟨h2, b, h3⟩
              · exact absurd rfl hj
            · exact absurd rfl hj
          · rw [List.getElem?_set_ne hai] at a2 a3
            exact (h.each a t q own1 a1 a2 a3).mono htot
      · simp only [peff]; rw [e2, f2]; dsimp only; rw [g2]

theorem lend_event {w P owns loans n i k} (h : WOK w P owns loans) :
    ∃ w' s P' owns' loans', w.step n (.lend i k) = some (w', s) ∧ WOK w' P' owns' loans' ∧ PHappens P (.lend i k) s P' ∧
      (P' = P ∧ w'.next = w.next ∨ peff P w.next (.lend i k) = some (P', w'.next)) := by
  simp only [World.step]
  rcases h.idle (i := i) with ⟨hp, hw⟩ | ⟨l, o, own, e1, e2, e3, ht, gi⟩
  · refine ⟨w, [], P, owns, loans, ?_, h, .noLend (fun ⟨o, m, h1, _⟩ => hp o h1), .inl ⟨rfl, rfl⟩⟩
    split
    · rename_i l e; exact absurd e (hw l)
    · rfl
  rw [e1]
  dsimp only
  split
  · rename_i x g1
    obtain ⟨ob, g2, hrs⟩ := gi.2.at g1
    obtain ⟨m, rfl, hx⟩ := hrs.ofTree
    have hso : ∀ r, x.refs.count r ≤ own.count r := fun r => by
      have h1 := gi.1.le r
      have h2 := count_set l k (.tree x) .free r g1
      have h3 : (Slot.free.refs).count r = 0 := rfl
      have h4 : (Slot.tree x).refs = x.refs := rfl
      rw [h4] at h2
      dsimp only at h1
      omega
    have ho := fun r => count_minus x.refs own hso r
    have c1 := count_flatten_set owns i own (minus own x.refs) e3
    have htot : ∀ r, (allRefs (owns.set i (minus own x.refs)) ((w.next, x) :: loans)).count r = (allRefs owns loans).count r := fun r => by
      have := c1 r; have := ho r
      simp only [allRefs, loanRefs, List.flatMap_cons, List.count_append] at *; omega
    have hb : Cells.Inv w.cells (allRefs (owns.set i (minus own x.refs)) ((w.next, x) :: loans)) := h.inv.mono fun r => htot r
    have hfresh : ∀ q ∈ P, ∀ a ∈ q.loans, a.2 ≠ w.next := fun q hq a ha => by have := h.ids q hq a ha; omega
    refine ⟨_, _, P.set i (.idle (o.set k (.ref true w.next m))), owns.set i (minus own x.refs), (w.next, x) :: loans, rfl, ?_, .lend e2 g2 hfresh, .inr ?_⟩
    · refine h.set (next' := w.next + 1) e3 ?_ ?_ (Nat.le_succ _) ?_ ?_ hb ?_ ?_
      · simp only [List.map_cons, List.nodup_cons]
        refine ⟨fun h1 => ?_, h.nodup⟩
        obtain ⟨p, hp, h2⟩ := List.mem_map.1 h1
        have := h.lt p hp; omega
      · intro p hp
        rcases List.mem_cons.1 hp with rfl | hp
        · exact Nat.lt_succ_self _
        · exact Nat.lt_succ_of_lt (h.lt p hp)
      · intro a ha
        rcases loans_of_set ha with h1 | h1
        · exact Nat.lt_succ_of_lt (h.ids _ (List.mem_of_getElem? e2) a h1)
        · cases h1; exact Nat.lt_succ_self _
      · intro p hp
        rcases List.mem_cons.1 hp with rfl | hp
        · exact ⟨_, List.mem_of_getElem? (i := i) (by simp [(List.getElem?_eq_some_iff.1 e2).1]; rfl),
            mem_loan_of (i := k) (ob := .ref true w.next m) (by simp [PThread.objs, (List.getElem?_eq_some_iff.1 g2).1]) rfl⟩
        · exact owner_set (h.owner p hp) e2 fun h1 => loans_set' g2 h1 fun h2 => by cases h2
      · have hin : (w.next, x) ∈ lentOf ((w.next, x) :: loans) (o.set k (.ref true w.next m)) :=
          mem_lentOf.2 ⟨by simp, true, mem_loan_of (i := k) (ob := .ref true w.next m) (by simp [(List.getElem?_eq_some_iff.1 g2).1]) rfl⟩
        refine OK.of_good fun others env hc hv => gi.change g1 (fun r => ?_) (hc.inv hb) hv (fun b id y hy => ?_) ⟨rfl, rfl, hin, ?_⟩
        · have := ho r
          have h3 : (Slot.ref true w.next x).refs.count r = 0 := rfl
          have h4 : (Slot.tree x).refs = x.refs := rfl
          rw [h4]; omega
        · obtain ⟨h2, h3⟩ := (gi.take g1).2.lent (loans := loans) (fun p hp => (mem_lentOf.1 hp).1) hy
          exact mem_lentOf.2 ⟨List.mem_cons_of_mem _ h2, b, loans_set h3⟩
        · exact hx.to rfl (fun r hr => List.mem_append_left _ (gi.1.mem (mem_slotsRefs g1 hr))) (fun r hr => List.mem_append_right _ (mem_loan hin hr))
      · intro j t q own' hj q1 q2 q3
        rw [lentOf_fresh (p := (w.next, x)) (o := q.objs) (hfresh q (List.mem_of_getElem? q2))]
        exact (h.each j t q own' q1 q2 q3).mono htot
    · simp only [peff]; rw [e2]; dsimp only; rw [g2]
  · rename_i hne
    refine ⟨w, [], P, owns, loans, rfl, h, .noLend (fun ⟨o1, m, h1, h2⟩ => ?_), .inl ⟨rfl, rfl⟩⟩
    rw [e2] at h1; cases h1
    obtain ⟨s, h3, h4⟩ := gi.2.at' h2
    obtain ⟨x, rfl, _⟩ := h4.isTree
    exact hne x h3

theorem borrow_event {w P owns loans n i j k} (h : WOK w P owns loans) :
    ∃ w' s P' owns' loans', w.step n (.borrow i j k) = some (w', s) ∧ WOK w' P' owns' loans' ∧ PHappens P (.borrow i j k) s P' ∧
      (P' = P ∧ w'.next = w.next ∨ peff P w.next (.borrow i j k) = some (P', w'.next)) := by
  simp only [World.step]
  rcases h.idle (i := i) with ⟨hp, hw⟩ | ⟨l, o, own, e1, e2, e3, ht, gi⟩
  · refine ⟨w, [], P, owns, loans, ?_, h, .noBorrow (fun ⟨o, o', _, _, _, h1, _⟩ => hp o h1), .inl ⟨rfl, rfl⟩⟩
    split
    · exact absurd ‹w.threads[i]? = some (.idle _)› (hw _)
    · rfl
  rcases h.idle (i := j) with ⟨hp, hw⟩ | ⟨l', o', own', f1, f2, f3, ht', gj⟩
  · refine ⟨w, [], P, owns, loans, ?_, h, .noBorrow (fun ⟨o, o', _, _, _, _, h1, _⟩ => hp o' h1), .inl ⟨rfl, rfl⟩⟩
    split
    · exact absurd ‹w.threads[j]? = some (.idle _)› (hw _)
    · rfl
  rw [e1, f1]
  dsimp only
  split
  · rename_i b id x g1
    obtain ⟨ob, g2, hrs⟩ := gi.2.at g1
    obtain ⟨m, rfl, hin, hx⟩ := hrs.ofRef
    have hs : owns.set j own' = owns := set_same f3
    have hin' := mem_lentOf.1 hin
    refine ⟨_, _, P.set j (.idle (o' ++ [.ref false id m])), owns.set j own', loans, rfl, ?_, .borrow e2 f2 g2, .inr ?_⟩
    · refine h.set f3 h.nodup h.lt (Nat.le_refl _) (fun a ha => ?_) (fun p hp => owner_set (h.owner p hp) f2 fun h1 => ?_) (by rw [hs]; exact h.inv) ?_ ?_
      · simp only [PThread.loans, PThread.objs, List.filterMap_append, List.mem_append] at ha
        rcases ha with h1 | h1
        · exact h.ids _ (List.mem_of_getElem? f2) a h1
        · simp [Obj.loan] at h1
          subst h1
          exact h.lt _ hin'.1
      · simp only [PThread.loans, PThread.objs, List.filterMap_append, List.mem_append]; exact .inl h1
      · rw [hs]
        have hin2 : (id, x) ∈ lentOf loans (o' ++ [.ref false id m]) := mem_lentOf.2 ⟨hin'.1, false, by simp [List.filterMap_append, Obj.loan]⟩
        refine OK.of_good fun others env hc hv => gj.add (fun r => ?_) (hc.inv h.inv) hv (fun b id x hx => ?_) ⟨rfl, rfl, hin2, ?_⟩
        · have h3 : (Slot.ref false id x).refs.count r = 0 := rfl
          omega
        · obtain ⟨h2, h3⟩ := gj.2.lent (loans := loans) (fun p hp => (mem_lentOf.1 hp).1) hx
          exact mem_lentOf.2 ⟨h2, b, by simp only [PThread.objs, List.filterMap_append, List.mem_append]; exact .inl h3⟩
        · exact hx.to rfl (fun r hr => List.mem_append_right _ (mem_loan hin hr)) (fun r hr => List.mem_append_right _ (mem_loan hin2 hr))
      · intro a t q own1 hj q1 q2 q3
        rw [hs]; exact h.each a t q own1 q1 q2 q3
    · simp only [peff]; rw [e2, f2]; dsimp only; rw [g2]
  · rename_i hne
    refine ⟨w, [], P, owns, loans, rfl, h, .noBorrow (fun ⟨o1, _, b, id, m, h1, _, h2⟩ => ?_), .inl ⟨rfl, rfl⟩⟩
    rw [e2] at h1; cases h1
    obtain ⟨s, h3, h4⟩ := gi.2.at' h2
    obtain ⟨x, rfl, _⟩ := h4.isRef
    exact hne b id x h3

theorem unlend_event {w P owns loans n i k} (h : WOK w P owns loans) :
    ∃ w' s P' owns' loans', w.step n (.unlend i k) = some (w', s) ∧ WOK w' P' owns' loans' ∧ PHappens P (.unlend i k) s P' ∧
      (P' = P ∧ w'.next = w.next ∨ peff P w.next (.unlend i k) = some (P', w'.next)) := by
  simp only [World.step]
  rcases h.idle (i := i) with ⟨hp, hw⟩ | ⟨l, o, own, e1, e2, e3, ht, gi⟩
  · refine ⟨w, [], P, owns, loans, ?_, h, .noUnlend (fun ⟨o, _, _, h1, _⟩ => hp o h1), .inl ⟨rfl, rfl⟩⟩
    split
    · rename_i l e; exact absurd e (hw l)
    · rfl
  rw [e1]
  dsimp only
  split
  · rename_i id x g1
    obtain ⟨ob, g2, hrs⟩ := gi.2.at g1
    obtain ⟨m, rfl, hin, hx⟩ := hrs.ofRef
    have hin' := mem_lentOf.1 hin
    by_cases hh : w.held id = 1
    · rw [if_pos hh]
      rw [h.held] at hh
      have hno := unheld e2 g2 hh
      have c1 := count_flatten_set owns i own (x.refs ++ own) e3
      have htot : ∀ r, (allRefs (owns.set i (x.refs ++ own)) (loans.filter (·.1 != id))).count r = (allRefs owns loans).count r := fun r => by
        have := c1 r; have := loanRefs_gone r h.nodup hin'.1
        simp only [allRefs, List.count_append] at *; omega
      have hb : Cells.Inv w.cells (allRefs (owns.set i (x.refs ++ own)) (loans.filter (·.1 != id))) := h.inv.mono fun r => htot r
      refine ⟨_, _, P.set i (.idle (o.set k (.tree m))), owns.set i (x.refs ++ own), loans.filter (·.1 != id), rfl, ?_, .unlend e2 g2 hh, .inr ?_⟩
      · have hti : ∀ a ∈ (o.set k (.tree m)).filterMap Obj.loan, a.2 ≠ id :=
          hno (.idle (o.set k (.tree m))) (List.mem_of_getElem? (i := i) (by simp [(List.getElem?_eq_some_iff.1 e2).1]))
        refine h.set (next' := w.next) e3 (h.nodup.sublist ((List.filter_sublist (l := loans)).map _)) (fun p hp => h.lt p (List.mem_filter.1 hp).1) (Nat.le_refl _) ?_ ?_ hb ?_ ?_
        · intro a ha
          rcases loans_of_set ha with h1 | h1
          · exact h.ids _ (List.mem_of_getElem? e2) a h1
          · cases h1
        · intro p hp
          obtain ⟨h1, h2⟩ := List.mem_filter.1 hp
          refine owner_set (h.owner p h1) e2 fun h3 => loans_set' g2 h3 fun h4 => ?_
          simp only [Obj.loan, Option.some.injEq, Prod.mk.injEq, true_and] at h4
          simp [h4] at h2
        · refine OK.of_good fun others env hc hv => gi.change g1 (s' := .tree x) (fun r => ?_) (hc.inv hb) hv (fun b id' y hy => ?_) ?_
          · have h3 : (Slot.ref true id x).refs.count r = 0 := rfl
            have h4 : (Slot.tree x).refs = x.refs := rfl
            rw [h4, List.count_append]; omega
          · obtain ⟨h2, h3⟩ := (gi.take g1).2.lent (loans := loans) (fun p hp => (mem_lentOf.1 hp).1) hy
            have h4 := loans_set (ob := .tree m) h3
            have h5 := hti _ h4
            exact mem_lentOf.2 ⟨List.mem_filter.2 ⟨h2, by simpa using h5⟩, b, h4⟩
          · exact hx.to rfl (fun r hr => List.mem_append_right _ (mem_loan hin hr)) (fun r hr => List.mem_append_left _ (List.mem_append_left _ hr))
        · intro j t q own' hj q1 q2 q3
          rw [lentOf_gone (o := q.objs) (hno q (List.mem_of_getElem? (i := j) (by rw [List.getElem?_set_ne hj]; exact q2)))]
          exact (h.each j t q own' q1 q2 q3).mono htot
      · simp only [peff]; rw [e2]; dsimp only; rw [g2]
    · rw [if_neg hh]
      refine ⟨w, [], P, owns, loans, rfl, h, .noUnlend (fun ⟨o1, id1, m1, h1, h2, h3⟩ => ?_), .inl ⟨rfl, rfl⟩⟩
      rw [e2] at h1; cases h1
      rw [g2] at h2; cases h2
      rw [h.held] at hh
      exact hh h3
  · rename_i hne
    refine ⟨w, [], P, owns, loans, rfl, h, .noUnlend (fun ⟨o1, id, m, h1, h2, _⟩ => ?_), .inl ⟨rfl, rfl⟩⟩
    rw [e2] at h1; cases h1
    obtain ⟨s, h3, h4⟩ := gi.2.at' h2
    obtain ⟨x, rfl, _⟩ := h4.isRef
    exact hne id x h3

theorem step_event {w P owns loans n} (h : WOK w P owns loans) (e : Event) (hn : (match e with | .call _ _ => (P.map PThread.need).sum | _ => 0) ≤ n) :
    ∃ w' s P' owns' loans', w.step n e = some (w', s) ∧ WOK w' P' owns' loans' ∧ PHappens P e s P' ∧ (P' = P ∧ w'.next = w.next ∨ peff P w.next e = some (P', w'.next)) := by
  cases e with
  | call i op => exact call_event h hn
  | tick i => exact tick_event h
  | send i j k => exact send_event h
  | lend i k => exact lend_event h
  | borrow i j k => exact borrow_event h
  | unlend i k => exact unlend_event h

theorem run_events : ∀ (es : List Event) (w : World) (P : List PThread) (owns : List (List Ref)) (loans : List (Nat × Raw)) (n : Nat), WOK w P owns loans → needEvents P w.next es ≤ n →
    ∃ w' s P' owns' loans', w.run n es = some (w', s) ∧ WOK w' P' owns' loans' ∧ PHappensAll P es s P'
  | [], w, P, owns, loans, n, h, hn => ⟨w, [], P, owns, loans, rfl, h, .nil⟩
  | e :: es, w, P, owns, loans, n, h, hn => by
    simp only [needEvents] at hn
    obtain ⟨w1, s1, P1, owns1, loans1, e1, h1, p1, hp⟩ := step_event h e (n := n) (by omega)
    have hn1 : needEvents P1 w1.next es ≤ n := by
      rcases hp with ⟨rfl, hp⟩ | hp
      · rw [hp]; omega
      · rw [hp] at hn; dsimp only at hn; omega
    obtain ⟨w2, s2, P2, owns2, loans2, e2, h2, p2⟩ := run_events es w1 P1 owns1 loans1 n h1 hn1
    refine ⟨w2, s1 ++ s2, P2, owns2, loans2, ?_, h2, .cons p1 p2⟩
    simp only [World.run, e1, e2]

theorem WOK.init (c : Nat) : WOK (World.init c) (List.replicate c (.idle [])) (List.replicate c []) [] := by
  have hf : allRefs (List.replicate c ([] : List Ref)) [] = [] := by simp [allRefs, loanRefs]
  have hb : Cells.Inv [] [] := Inv.alone (m := Mem.init) good_init.1 rfl rfl
  refine ⟨by simp [World.init], by simp [World.init], by rw [hf]; exact hb, List.nodup_nil, fun p hp => absurd hp (List.not_mem_nil), fun q hq a ha => ?_, fun p hp => absurd hp (List.not_mem_nil), fun i t q own e1 e2 e3 => ?_⟩
  · rw [List.eq_of_mem_replicate hq] at ha; cases ha
  simp only [World.init, List.getElem?_replicate] at e1 e2 e3
  split at e1
  · rename_i hi
    rw [if_pos hi] at e2 e3
    cases e1; cases e2; cases e3
    rw [hf]
    refine OK.of_good fun others env hc hv => ?_
    have ho : others = [] := List.eq_nil_iff_forall_not_mem.2 fun r hr => by
      have h1 := hc r; have h2 := List.count_pos_iff.2 hr; rw [List.count_nil] at h1; omega
    subst ho
    exact ⟨⟨hb, fun r => by simp [slotsRefs], fun r _ => by simp [slotsRefs], hv⟩, rfl, fun i s ob e => by simp at e⟩
  · cases e1

/-! ### Maps -/

/-- What a thread has, as maps. -/
def PThread.abs (q : PThread) : Spec.Worker := ⟨q.objs.map Heap.abs, q.pending⟩

/-- The trees of a thread are proper, and its call is tame. -/
def PThread.ok (q : PThread) : Prop := (∀ ob ∈ q.objs, OKObj ob) ∧ ∀ op, q.pending = some op → Spec.Tame op

theorem abs_get {P : List PThread} {i : Nat} : (P.map PThread.abs)[i]? = (P[i]?).map PThread.abs := by simp

theorem abs_has {P : List PThread} {i : Nat} {l : List Spec.Thing} (h : Spec.Has (P.map PThread.abs) i l) : ∃ o, P[i]? = some (.idle o) ∧ l = o.map Heap.abs := by
  simp only [Spec.Has, abs_get] at h
  cases e : P[i]? with
  | none => rw [e] at h; cases h
  | some q =>
    rw [e] at h
    cases q with
    | idle o => simp [PThread.abs, PThread.objs] at h; exact ⟨o, rfl, h.1.symm⟩
    | busy op o => simp [PThread.abs, PThread.pending] at h

theorem ok_of {P : List PThread} {i : Nat} {q : PThread} (hk : ∀ q ∈ P, q.ok) (e : P[i]? = some q) : q.ok := hk q (List.mem_of_getElem? e)

theorem ok_set' {P : List PThread} {i : Nat} {q : PThread} (hk : ∀ q ∈ P, q.ok) (h : q.ok) : ∀ x ∈ P.set i q, x.ok := by
  intro x hx
  rcases List.mem_or_eq_of_mem_set hx with h1 | rfl
  · exact hk x h1
  · exact h

theorem abs_lends (ob : Obj) : (Heap.abs ob).lends = ob.lends := by cases ob <;> rfl

theorem abs_loan (ob : Obj) : (Heap.abs ob).loan = ob.loan.map Prod.snd := by cases ob <;> rfl

theorem loans_abs (P : List PThread) : Spec.loans (P.map PThread.abs) = ((P.flatMap PThread.objs).filterMap Obj.loan).map Prod.snd := by
  unfold Spec.loans
  rw [List.flatMap_map]
  have h : (fun q : PThread => (PThread.abs q).things) = fun q => q.objs.map Heap.abs := rfl
  rw [h, ← List.map_flatMap, List.filterMap_map, List.map_filterMap]
  congr 1
  funext ob
  exact abs_loan ob

theorem count_loans (P : List PThread) (id : Nat) : (Spec.loans (P.map PThread.abs)).count id = pheld P id := by
  rw [loans_abs, List.count_eq_countP, List.countP_map]
  rfl

theorem PHappens.maps {P e s P'} (h : PHappens P e s P') (ht : Spec.TameEvent e) (hk : ∀ q ∈ P, q.ok) :
    Spec.Happens (P.map PThread.abs) e s (P'.map PThread.abs) ∧ ∀ q ∈ P', q.ok := by
  cases h with
  | @call i o op e =>
    refine ⟨?_, ok_set' hk ⟨(ok_of hk e).1, fun op' h => by cases h; exact ht⟩⟩
    rw [List.map_set]
    exact .call (by simp only [Spec.Has, abs_get, e]; rfl)
  | noCall e => exact ⟨.noCall fun l hl => by obtain ⟨o, h1, _⟩ := abs_has hl; exact e o h1, hk⟩
  | tick => exact ⟨.tick, hk⟩
  | @ret i o op e =>
    have hq := ok_of hk e
    obtain ⟨h1, h2⟩ := pstep_allowed o op (hq.2 op rfl) hq.1
    refine ⟨?_, ok_set' hk ⟨h2, fun op' h => by cases h⟩⟩
    rw [List.map_set]
    exact .ret (l := o.map Heap.abs) (op := op) (by simp only [abs_get, e]; rfl) h1
  | @send i j k o o' ob hij e e' e'' hl =>
    refine ⟨?_, ok_set' (ok_set' hk ⟨ok_set (ok_of hk e).1 trivial, fun op' h => by cases h⟩)
      ⟨ok_append (ok_of hk e').1 ((ok_of hk e).1 _ (List.mem_of_getElem? e'')), fun op' h => by cases h⟩⟩
    rw [List.map_set, List.map_set]
    have := Spec.Happens.send (ws := P.map PThread.abs) (i := i) (j := j) (k := k) (l := o.map Heap.abs) (l' := o'.map Heap.abs) (t := Heap.abs ob) hij
      (by simp only [Spec.Has, abs_get, e]; rfl) (by simp only [Spec.Has, abs_get, e']; rfl) (by simp [e'']) (by rw [abs_lends]; exact hl)
    simp only [PThread.abs, PThread.objs, PThread.pending, List.map_append, List.map_set, List.map_cons, List.map_nil]
    exact this
  | noSend e =>
    refine ⟨.noSend fun ⟨l, l', t, h1, h2, h3, h4, h5⟩ => ?_, hk⟩
    obtain ⟨o, a1, rfl⟩ := abs_has h2
    obtain ⟨o', a2, rfl⟩ := abs_has h3
    simp only [List.getElem?_map, Option.map_eq_some_iff] at h4
    obtain ⟨ob, a3, rfl⟩ := h4
    rw [abs_lends] at h5
    exact e ⟨o, o', ob, h1, a1, a2, a3, h5⟩
  | @lend i k o m id e e' hf =>
    have hm : OKObj (.tree m) := (ok_of hk e).1 _ (List.mem_of_getElem? e')
    refine ⟨?_, ok_set' hk ⟨ok_set (ok_of hk e).1 hm, fun op' h => by cases h⟩⟩
    rw [List.map_set]
    have := Spec.Happens.lend (ws := P.map PThread.abs) (i := i) (k := k) (l := o.map Heap.abs) (m := Radix.get m) (id := id)
      (by simp only [Spec.Has, abs_get, e]; rfl) (by simp only [List.getElem?_map, e']; rfl) (by
        rw [loans_abs]
        intro h1
        obtain ⟨a, h2, h3⟩ := List.mem_map.1 h1
        obtain ⟨ob, h4, h5⟩ := List.mem_filterMap.1 h2
        obtain ⟨q, h6, h7⟩ := List.mem_flatMap.1 h4
        exact hf q h6 a (List.mem_filterMap.2 ⟨ob, h7, h5⟩) h3)
    simp only [PThread.abs, PThread.objs, PThread.pending, List.map_set]
    exact this
  | noLend e =>
    refine ⟨.noLend fun ⟨l, m, h1, h2⟩ => ?_, hk⟩
    obtain ⟨o, a1, rfl⟩ := abs_has h1
    simp only [List.getElem?_map, Option.map_eq_some_iff] at h2
    obtain ⟨ob, a2, a3⟩ := h2
    cases ob <;> simp only [Heap.abs, reduceCtorEq] at a3
    exact e ⟨o, _, a1, a2⟩
  | @borrow i j k o o' b id m e e' e'' =>
    have hm : OKObj (.ref b id m) := (ok_of hk e).1 _ (List.mem_of_getElem? e'')
    refine ⟨?_, ok_set' hk ⟨ok_append (ok_of hk e').1 hm, fun op' h => by cases h⟩⟩
    rw [List.map_set]
    have := Spec.Happens.borrow (ws := P.map PThread.abs) (i := i) (j := j) (k := k) (l := o.map Heap.abs) (l' := o'.map Heap.abs) (own := b) (id := id) (m := Radix.get m)
      (by simp only [Spec.Has, abs_get, e]; rfl) (by simp only [Spec.Has, abs_get, e']; rfl) (by simp only [List.getElem?_map, e'']; rfl)
    simp only [PThread.abs, PThread.objs, PThread.pending, List.map_append, List.map_cons, List.map_nil]
    exact this
  | noBorrow e =>
    refine ⟨.noBorrow fun ⟨l, l', b, id, m, h1, h2, h3⟩ => ?_, hk⟩
    obtain ⟨o, a1, rfl⟩ := abs_has h1
    obtain ⟨o', a2, rfl⟩ := abs_has h2
    simp only [List.getElem?_map, Option.map_eq_some_iff] at h3
    obtain ⟨ob, a3, a4⟩ := h3
    cases ob <;> simp only [Heap.abs, reduceCtorEq] at a4
    exact e ⟨o, o', _, _, _, a1, a2, a3⟩
  | @unlend i k o id m e e' hh =>
    have hm : OKObj (.ref true id m) := (ok_of hk e).1 _ (List.mem_of_getElem? e')
    refine ⟨?_, ok_set' hk ⟨ok_set (ok_of hk e).1 hm, fun op' h => by cases h⟩⟩
    rw [List.map_set]
    have := Spec.Happens.unlend (ws := P.map PThread.abs) (i := i) (k := k) (l := o.map Heap.abs) (id := id) (m := Radix.get m)
      (by simp only [Spec.Has, abs_get, e]; rfl) (by simp only [List.getElem?_map, e']; rfl) (by rw [count_loans]; exact hh)
    simp only [PThread.abs, PThread.objs, PThread.pending, List.map_set]
    exact this
  | noUnlend e =>
    refine ⟨.noUnlend fun ⟨l, id, m, h1, h2, h3⟩ => ?_, hk⟩
    obtain ⟨o, a1, rfl⟩ := abs_has h1
    simp only [List.getElem?_map, Option.map_eq_some_iff] at h2
    obtain ⟨ob, a2, a3⟩ := h2
    rw [count_loans] at h3
    cases ob <;> simp only [Heap.abs, reduceCtorEq, Spec.Thing.ref.injEq] at a3
    obtain ⟨rfl, rfl, _⟩ := a3
    exact e ⟨o, _, _, a1, a2, h3⟩

theorem PHappensAll.maps {P es s P'} (h : PHappensAll P es s P') (ht : ∀ e ∈ es, Spec.TameEvent e) (hk : ∀ q ∈ P, q.ok) :
    Spec.HappensAll (P.map PThread.abs) es s (P'.map PThread.abs) := by
  induction h with
  | nil => exact .nil
  | cons h1 _ ih =>
    obtain ⟨a, b⟩ := h1.maps (ht _ (by simp)) hk
    exact .cons a (ih (fun e he => ht e (by simp [he])) b)

theorem workers_init (c : Nat) : (List.replicate c (PThread.idle [])).map PThread.abs = Spec.workers c := by
  simp [Spec.workers, PThread.abs, PThread.objs, PThread.pending]

theorem ok_init (c : Nat) : ∀ q ∈ List.replicate c (PThread.idle []), q.ok := by
  intro q hq
  rw [List.eq_of_mem_replicate hq]
  exact ⟨by simp [PThread.objs], fun op h => by cases h⟩

/-! ### One thread alone -/

/-- The calls of a thread. -/
def callsOf (i : Nat) : List Seen → List Op
  | .call j op :: s => if j = i then op :: callsOf i s else callsOf i s
  | _ :: s => callsOf i s
  | [] => []

/-- What the calls of a thread gave. -/
def retsOf (i : Nat) : List Seen → List Obs
  | .ret j o :: s => if j = i then o :: retsOf i s else retsOf i s
  | _ :: s => retsOf i s
  | [] => []

/-- The event does not hand or lend anything to or from the thread. -/
def Event.apart (i : Nat) : Event → Prop
  | .send a b _ => a ≠ i ∧ b ≠ i
  | .lend a _ => a ≠ i
  | .borrow _ b _ => b ≠ i
  | .unlend a _ => a ≠ i
  | _ => True

theorem callsOf_append (i : Nat) : ∀ s t, callsOf i (s ++ t) = callsOf i s ++ callsOf i t
  | [], t => rfl
  | x :: s, t => by
    cases x <;> simp only [List.cons_append, callsOf, callsOf_append i s t]
    split <;> rfl

theorem retsOf_append (i : Nat) : ∀ s t, retsOf i (s ++ t) = retsOf i s ++ retsOf i t
  | [], t => rfl
  | x :: s, t => by
    cases x <;> simp only [List.cons_append, retsOf, retsOf_append i s t]
    split <;> rfl

theorem PHappens.alone {P e s P'} {i : Nat} {q : PThread} (h : PHappens P e s P') (he : e.apart i) (hq : P[i]? = some q) :
    ∃ q' ops, P'[i]? = some q' ∧ q.pending.toList ++ callsOf i s = ops ++ q'.pending.toList ∧ prun q.objs ops = (retsOf i s, q'.objs) := by
  have same : ∀ {P' : List PThread}, P'[i]? = P[i]? → callsOf i s = [] → retsOf i s = [] →
      ∃ q' ops, P'[i]? = some q' ∧ q.pending.toList ++ callsOf i s = ops ++ q'.pending.toList ∧ prun q.objs ops = (retsOf i s, q'.objs) := by
    intro P' h1 h2 h3
    exact ⟨q, [], by rw [h1, hq], by rw [h2]; simp, by rw [h3]; rfl⟩
  have hl : i < P.length := (List.getElem?_eq_some_iff.1 hq).1
  cases h with
  | @call j o op e =>
    by_cases hj : j = i
    · subst hj
      rw [hq] at e; cases e
      refine ⟨.busy op o, [], by simp [hl], ?_, rfl⟩
      simp [PThread.pending, callsOf]
    · refine same (List.getElem?_set_ne hj) ?_ ?_ <;> simp [callsOf, retsOf, hj]
  | noCall e => exact same rfl rfl rfl
  | tick => exact same rfl rfl rfl
  | @ret j o op e =>
    by_cases hj : j = i
    · subst hj
      rw [hq] at e; cases e
      refine ⟨.idle (pstep o op).2, [op], by simp [hl], ?_, ?_⟩
      · simp [PThread.pending, callsOf]
      · simp [prun, PThread.objs, retsOf]
    · refine same (List.getElem?_set_ne hj) ?_ ?_ <;> simp [callsOf, retsOf, hj]
  | send hij e e' e'' =>
    refine same ?_ rfl rfl
    rw [List.getElem?_set_ne he.2, List.getElem?_set_ne he.1]
  | noSend e => exact same rfl rfl rfl
  | lend e e' hf => exact same (List.getElem?_set_ne he) rfl rfl
  | noLend e => exact same rfl rfl rfl
  | borrow e e' e'' => exact same (List.getElem?_set_ne he) rfl rfl
  | noBorrow e => exact same rfl rfl rfl
  | unlend e e' hh => exact same (List.getElem?_set_ne he) rfl rfl
  | noUnlend e => exact same rfl rfl rfl

theorem PHappensAll.alone {P es s P'} (h : PHappensAll P es s P') {i : Nat} (he : ∀ e ∈ es, e.apart i) {q : PThread} (hq : P[i]? = some q) :
    ∃ q' ops, P'[i]? = some q' ∧ q.pending.toList ++ callsOf i s = ops ++ q'.pending.toList ∧ prun q.objs ops = (retsOf i s, q'.objs) := by
  induction h generalizing q with
  | nil => exact ⟨q, [], hq, by simp [callsOf], rfl⟩
  | cons h1 _ ih =>
    obtain ⟨q1, ops1, a1, a2, a3⟩ := h1.alone (he _ (by simp)) hq
    obtain ⟨q2, ops2, b1, b2, b3⟩ := ih (fun e h => he e (by simp [h])) a1
    refine ⟨q2, ops1 ++ ops2, b1, ?_, ?_⟩
    · rw [callsOf_append, ← List.append_assoc, a2, List.append_assoc, b2, List.append_assoc]
    · rw [prun_append, a3, retsOf_append]
      dsimp only
      rw [b3]

/-! ### Calls return -/

theorem World.run_append (n : Nat) : ∀ (es fs : List Event) (w w1 w2 : World) (s t : List Seen), w.run n es = some (w1, s) → w1.run n fs = some (w2, t) →
    w.run n (es ++ fs) = some (w2, s ++ t)
  | [], fs, w, w1, w2, s, t, h, h' => by simp only [World.run, Option.some.injEq, Prod.mk.injEq] at h; obtain ⟨rfl, rfl⟩ := h; exact h'
  | e :: es, fs, w, w1, w2, s, t, h, h' => by
    simp only [World.run, List.cons_append] at h ⊢
    cases h1 : w.step n e with
    | none => rw [h1] at h; cases h
    | some q =>
      obtain ⟨w3, s3⟩ := q
      rw [h1] at h
      dsimp only at h ⊢
      cases h2 : w3.run n es with
      | none => rw [h2] at h; cases h
      | some q =>
        obtain ⟨w4, s4⟩ := q
        rw [h2] at h
        simp only [Option.some.injEq, Prod.mk.injEq] at h
        obtain ⟨rfl, rfl⟩ := h
        rw [World.run_append n es fs w3 w4 w2 s4 t h2 h']
        simp

/-- The first `m` steps of a schedule that only says whose turn it is. -/
def ticks (f : Nat → Nat) (m : Nat) : List Event := (List.range m).map fun k => .tick (f k)

theorem ticks_add (f : Nat → Nat) (m m' : Nat) : ticks f (m + m') = ticks f m ++ ticks (fun k => f (m + k)) m' := by
  simp only [ticks, List.range_add, List.map_append, List.map_map]
  congr 1

theorem needEvents_ticks : ∀ (es : List Event) (P : List PThread) (nx : Nat), (∀ e ∈ es, ∃ i, e = .tick i) → needEvents P nx es = 0
  | [], P, nx, h => rfl
  | e :: es, P, nx, h => by
    obtain ⟨i, rfl⟩ := h e (by simp)
    have h' : ∀ e ∈ es, ∃ i, e = Event.tick i := fun e he => h e (by simp [he])
    simp only [needEvents, needEvents_ticks es P nx h']
    cases peff P nx (.tick i) with
    | none => rfl
    | some p => simp only [needEvents_ticks es p.1 p.2 h']

theorem mem_ticks {f m e} (h : e ∈ ticks f m) : ∃ i, e = .tick i := by
  simp only [ticks, List.mem_map] at h
  obtain ⟨k, _, rfl⟩ := h
  exact ⟨_, rfl⟩

theorem needEvents_append (f : Nat → Nat) (m : Nat) : ∀ (es : List Event) (P : List PThread) (nx : Nat), needEvents P nx (es ++ ticks f m) = needEvents P nx es
  | [], P, nx => needEvents_ticks _ _ _ fun e h => mem_ticks h
  | e :: es, P, nx => by
    simp only [List.cons_append, needEvents, needEvents_append f m es P nx]
    cases peff P nx e with
    | none => rfl
    | some p => simp only [needEvents_append f m es p.1 p.2]

/-- A step of another thread does not change what a thread is doing. -/
theorem step_other {n : Nat} {w w' : World} {i j : Nat} {s : List Seen} (e : w.step n (.tick j) = some (w', s)) (h : j ≠ i) : w'.threads[i]? = w.threads[i]? := by
  simp only [World.step] at e
  split at e
  · cases e; exact List.getElem?_set_ne h
  · split at e
    · cases e; exact List.getElem?_set_ne h
    · cases e
  · cases e; rfl

theorem step_idle {n : Nat} {w w' : World} {i j : Nat} {s : List Seen} {l : List Slot} (e : w.step n (.tick j) = some (w', s)) (h : w.threads[i]? = some (.idle l)) : w'.threads[i]? = some (.idle l) := by
  by_cases hj : j = i
  · subst hj
    simp only [World.step, h] at e
    cases e; exact h
  · rw [step_other e hj]; exact h

theorem run_idle {n i : Nat} {l : List Slot} : ∀ (es : List Event) (w w' : World) (s : List Seen), (∀ e ∈ es, ∃ i, e = .tick i) → w.run n es = some (w', s) → w.threads[i]? = some (.idle l) →
    w'.threads[i]? = some (.idle l)
  | [], w, w', s, _, e, h => by simp only [World.run, Option.some.injEq, Prod.mk.injEq] at e; obtain ⟨rfl, rfl⟩ := e; exact h
  | e :: es, w, w', s, ht, h, hi => by
    obtain ⟨j, rfl⟩ := ht e (by simp)
    simp only [World.run] at h
    cases h1 : w.step n (.tick j) with
    | none => rw [h1] at h; cases h
    | some q =>
      obtain ⟨w3, s3⟩ := q
      rw [h1] at h
      dsimp only at h
      cases h2 : w3.run n es with
      | none => rw [h2] at h; cases h
      | some q =>
        obtain ⟨w4, s4⟩ := q
        rw [h2] at h
        simp only [Option.some.injEq, Prod.mk.injEq] at h
        obtain ⟨rfl, rfl⟩ := h
        exact run_idle es w3 w4 s4 (fun e he => ht e (by simp [he])) h2 (step_idle h1 hi)

theorem run_others {n i : Nat} : ∀ (es : List Event) (w w' : World) (s : List Seen), (∀ e ∈ es, ∃ j, e = .tick j ∧ j ≠ i) → w.run n es = some (w', s) → w'.threads[i]? = w.threads[i]?
  | [], w, w', s, _, e => by simp only [World.run, Option.some.injEq, Prod.mk.injEq] at e; obtain ⟨rfl, rfl⟩ := e; rfl
  | e :: es, w, w', s, ht, h => by
    obtain ⟨j, rfl, hj⟩ := ht e (by simp)
    simp only [World.run] at h
    cases h1 : w.step n (.tick j) with
    | none => rw [h1] at h; cases h
    | some q =>
      obtain ⟨w3, s3⟩ := q
      rw [h1] at h
      dsimp only at h
      cases h2 : w3.run n es with
      | none => rw [h2] at h; cases h
      | some q =>
        obtain ⟨w4, s4⟩ := q
        rw [h2] at h
        simp only [Option.some.injEq, Prod.mk.injEq] at h
        obtain ⟨rfl, rfl⟩ := h
        rw [run_others es w3 w4 s4 (fun e he => ht e (by simp [he])) h2, step_other h1 hj]

theorem first_turn (f : Nat → Nat) (i : Nat) : ∀ m, f m = i → ∃ m0, f m0 = i ∧ ∀ k, k < m0 → f k ≠ i := by
  intro m
  induction m using Nat.strongRecOn with
  | _ m ih =>
    intro h
    by_cases hx : ∃ k, k < m ∧ f k = i
    · obtain ⟨k, h1, h2⟩ := hx; exact ih k h1 h2
    · exact ⟨m, h, fun k hk e => hx ⟨k, hk, e⟩⟩

theorem returns_one {n i : Nat} {l0 : List Slot} (x : H (Obs × List Slot)) : ∀ (w : World) (P : List PThread) (owns : List (List Ref)) (loans : List (Nat × Raw)) (f : Nat → Nat), WOK w P owns loans → w.threads[i]? = some (.busy l0 x) →
    (∀ m, ∃ m', m ≤ m' ∧ f m' = i) → ∃ m w' s l, w.run n (ticks f m) = some (w', s) ∧ w'.threads[i]? = some (.idle l) := by
  have main : ∀ (y : H (Obs × List Slot)), (∀ (w : World) (P : List PThread) (owns : List (List Ref)) (loans : List (Nat × Raw)) (f : Nat → Nat), WOK w P owns loans → w.threads[i]? = some (.busy l0 y) →
      (∀ m, ∃ m', m ≤ m' ∧ f m' = i) → ∃ m0 w1 s1 w2 s2, w.run n (ticks f m0) = some (w1, s1) ∧ w1.threads[i]? = some (.busy l0 y) ∧ w1.step n (.tick i) = some (w2, s2) ∧
        w.run n (ticks f (m0 + 1)) = some (w2, s1 ++ s2) ∧ ∃ P2 owns2 loans2, WOK w2 P2 owns2 loans2) := by
    intro y w P owns loans f h hi hf
    obtain ⟨m, _, hm⟩ := hf 0
    obtain ⟨m0, h0, hlt⟩ := first_turn f i m hm
    obtain ⟨w1, s1, P1, owns1, loans1, e1, h1, _⟩ := run_events (ticks f m0) w P owns loans n h (by rw [needEvents_ticks _ _ _ fun e h => mem_ticks h]; omega)
    have hi1 : w1.threads[i]? = some (.busy l0 y) := by
      rw [run_others (i := i) (ticks f m0) w w1 s1 ?_ e1]
      · exact hi
      · intro e he
        simp only [ticks, List.mem_map, List.mem_range] at he
        obtain ⟨k, hk, rfl⟩ := he
        exact ⟨_, rfl, hlt k hk⟩
    obtain ⟨w2, s2, P2, owns2, loans2, e2, h2, _⟩ := step_event h1 (.tick i) (n := n) (Nat.zero_le _)
    refine ⟨m0, w1, s1, w2, s2, e1, hi1, e2, ?_, P2, owns2, loans2, h2⟩
    rw [ticks_add]
    refine World.run_append n _ _ w w1 w2 s1 s2 e1 ?_
    simp [ticks, h0, World.run, e2]
  induction x with
  | done a =>
    intro w P owns loans f h hi hf
    obtain ⟨m0, w1, s1, w2, s2, _, hi1, e2, e3, _⟩ := main _ w P owns loans f h hi hf
    obtain ⟨o, l⟩ := a
    have hl : i < w1.threads.length := (List.getElem?_eq_some_iff.1 hi1).1
    simp only [World.step, hi1] at e2
    cases e2
    exact ⟨m0 + 1, _, _, l, e3, by simp [hl]⟩
  | stop =>
    intro w P owns loans f h hi hf
    obtain ⟨m0, w1, s1, w2, s2, _, hi1, e2, e3, _⟩ := main _ w P owns loans f h hi hf
    simp only [World.step, hi1, H.next] at e2
    cases e2
  | act y k ih =>
    intro w P owns loans f h hi hf
    obtain ⟨m0, w1, s1, w2, s2, _, hi1, e2, e3, P2, owns2, loans2, h2⟩ := main _ w P owns loans f h hi hf
    have hl : i < w1.threads.length := (List.getElem?_eq_some_iff.1 hi1).1
    simp only [World.step, hi1, H.next] at e2
    cases ey : y.exec w1.cells with
    | none => rw [ey] at e2; cases e2
    | some q =>
      obtain ⟨b, h'⟩ := q
      rw [ey] at e2
      simp only [Option.some.injEq, Prod.mk.injEq] at e2
      obtain ⟨rfl, rfl⟩ := e2
      obtain ⟨m, w3, s3, l, e4, hi3⟩ := ih b _ P2 owns2 loans2 (fun k => f (m0 + 1 + k)) h2 (by simp [hl]) (fun m => by
        obtain ⟨m', h5, h6⟩ := hf (m0 + 1 + m)
        exact ⟨m' - (m0 + 1), by omega, by rw [← h6]; congr 1; omega⟩)
      have e5 := World.run_append n _ _ w _ w3 _ _ e3 e4
      rw [← ticks_add] at e5
      exact ⟨m0 + 1 + m, w3, _, l, e5, hi3⟩

/-- If every thread gets its turn again and again, all calls return. -/
theorem returns_all {n : Nat} {w : World} {P : List PThread} {owns : List (List Ref)} {loans : List (Nat × Raw)} (f : Nat → Nat) (h : WOK w P owns loans) (hf : ∀ i, i < w.threads.length → ∀ m, ∃ m', m ≤ m' ∧ f m' = i) :
    ∀ c, c ≤ w.threads.length → ∃ m, ∀ m', m ≤ m' → ∃ w' s, w.run n (ticks f m') = some (w', s) ∧ ∀ i, i < c → ∃ l, w'.threads[i]? = some (.idle l) := by
  intro c
  induction c with
  | zero =>
    intro _
    refine ⟨0, fun m' _ => ?_⟩
    obtain ⟨w1, s1, P1, owns1, loans1, e1, h1, _⟩ := run_events (ticks f m') w P owns loans n h (by rw [needEvents_ticks _ _ _ fun e h => mem_ticks h]; omega)
    exact ⟨w1, s1, e1, fun i hi => by omega⟩
  | succ c ih =>
    intro hc
    obtain ⟨m, hm⟩ := ih (by omega)
    obtain ⟨m1, w1, s1, l, e1, hl⟩ : ∃ m1 w1 s1 l, w.run n (ticks f m1) = some (w1, s1) ∧ w1.threads[c]? = some (.idle l) := by
      cases e : w.threads[c]? with
      | none => have := List.getElem?_eq_none_iff.1 e; omega
      | some t =>
        cases t with
        | idle l => exact ⟨0, w, [], l, rfl, e⟩
        | busy l0 x => exact returns_one x w P owns loans f h e (hf c (by omega))
    refine ⟨max m m1, fun m' hm' => ?_⟩
    obtain ⟨w2, s2, e2, hi⟩ := hm m' (by omega)
    refine ⟨w2, s2, e2, fun i hic => ?_⟩
    rcases Nat.lt_or_ge i c with h1 | h1
    · exact hi i h1
    · have : i = c := by omega
      subst this
      obtain ⟨d, rfl⟩ : ∃ d, m' = m1 + d := ⟨m' - m1, by omega⟩
      obtain ⟨w3, s3, P3, owns3, loans3, e3, h3, _⟩ := run_events (ticks f m1) w P owns loans n h (by rw [needEvents_ticks _ _ _ fun e h => mem_ticks h]; omega)
      rw [e1] at e3
      simp only [Option.some.injEq, Prod.mk.injEq] at e3
      obtain ⟨rfl, rfl⟩ := e3
      obtain ⟨w4, s4, _, _, _, e4, _, _⟩ := run_events (ticks (fun k => f (m1 + k)) d) w1 P3 owns3 loans3 n h3 (by rw [needEvents_ticks _ _ _ fun e h => mem_ticks h]; omega)
      have := World.run_append n _ _ w w1 w4 _ _ e1 e4
      rw [← ticks_add, e2] at this
      simp only [Option.some.injEq, Prod.mk.injEq] at this
      obtain ⟨rfl, rfl⟩ := this
      exact ⟨l, run_idle _ w1 w2 s4 (fun e h => mem_ticks h) e4 hl⟩

/-! ### Data races, and memory given back -/

/-- The cell that a step uses. -/
def Act.uses : Act → Option Ref
  | .alloc _ => none
  | .readBlob a | .incBlob a | .decBlob a | .takeBlob a => some (.blob a)
  | .readKids a | .incKids a | .decKids a | .takeKids a => some (.kids a)
  | .size => none

theorem uses_reach {own loan h y r} (ha : Allowed own loan h y) (hr : y.uses = some r) : Cells.Reach h (own ++ loan) r := by
  cases y <;> simp only [Act.uses, Option.some.injEq, reduceCtorEq] at hr <;> subst hr <;> first | exact ha | exact .root (List.mem_append_left _ ha)

theorem content_of_cnt {h : Heap} {r : Ref} (h2 : 1 ≤ cnt h r) : Cells.content h r ≠ none := by
  unfold cnt at h2
  cases r with
  | blob a =>
    simp only [Cells.content, Cells.cB]
    cases e : h[a]? with
    | none => simp [Ref.addr, e, ocnt] at h2
    | some c => rcases c with _ | ⟨_ | _⟩ <;> simp_all [Ref.addr, ocnt]
  | kids a =>
    simp only [Cells.content, Cells.cK]
    cases e : h[a]? with
    | none => simp [Ref.addr, e, ocnt] at h2
    | some c => rcases c with _ | ⟨_ | _⟩ <;> simp_all [Ref.addr, ocnt]

theorem no_race {n : Nat} {w w' : World} {P : List PThread} {owns : List (List Ref)} {loans : List (Nat × Raw)} {i j : Nat} {s : List Seen} {l0 : List Slot} {y : Act} {k : y.Res → H (Obs × List Slot)}
    {r : Ref} (h : WOK w P owns loans) (hij : i ≠ j) (hj : w.threads[j]? = some (.busy l0 (.act y k))) (hr : y.uses = some r)
    (e : w.step n (.tick i) = some (w', s)) : Cells.content w.cells r ≠ none ∧ Cells.content w'.cells r = Cells.content w.cells r := by
  obtain ⟨q, own, e2, e3, ht⟩ := h.get hj
  cases q with
  | idle _ => exact ht.elim
  | busy op o =>
    obtain ⟨_, _, _, ha, _⟩ := OK.next ht.2 (fits e3 _)
    have hreach := uses_reach ha hr
    refine ⟨content_of_cnt (Cells.Reach.live h.inv (hreach.mono fun r hr => ?_)), ?_⟩
    · have h1 := List.count_pos_iff.2 hr
      have h2 := fits e3 o (loans := loans) r
      rw [List.count_append] at h1
      dsimp only [PThread.objs] at h1
      exact List.count_pos_iff.1 (by omega)
    · simp only [World.step] at e
      cases e1 : w.threads[i]? with
      | none => rw [e1] at e; cases e; rfl
      | some t =>
        obtain ⟨q', own', f2, f3, ht'⟩ := h.get e1
        cases t with
        | idle l => rw [e1] at e; cases e; rfl
        | busy l0' x =>
          cases q' with
          | idle _ => exact ht'.elim
          | busy op' o' =>
            cases x with
            | stop => rw [e1] at e; cases e
            | done a => rw [e1] at e; cases e; rfl
            | act z k' =>
              obtain ⟨b, h', e4, ha', _⟩ := OK.next ht'.2 (fits f3 _)
              rw [e1] at e
              simp only [H.next, e4] at e
              cases e
              have hm := count_minus own' (allRefs owns loans) (fun r => by have := fits f3 o' (loans := loans) r; omega)
              have g := guarantee (F := minus (allRefs owns loans) own') (h.inv.mono fun r => by have := hm r; simp only [List.count_append]; omega) ha' e4
              refine g.2 r (hreach.mono fun r hr => ?_)
              have h1 := List.count_pos_iff.2 hr
              have h2 := fits_two (loans := loans) (Ne.symm hij) e3 f3 o r
              have := hm r
              rw [List.count_append] at h1
              dsimp only [PThread.objs] at h1
              exact List.count_pos_iff.1 (by omega)

/-- What a slot holds, and the tree itself while it is lent. -/
def Slot.keeps : Slot → List Ref
  | .ref true _ x => x.refs
  | s => s.refs

/-- What the threads hold. -/
def World.refs (w : World) : List Ref := w.threads.flatMap fun t => match t with | .idle l => l.flatMap Slot.keeps | .busy _ _ => []

theorem slotsRefs_keeps {l : List Slot} {r : Ref} (h : r ∈ slotsRefs l) : r ∈ l.flatMap Slot.keeps := by
  obtain ⟨s, h1, h2⟩ := List.mem_flatMap.1 h
  refine List.mem_flatMap.2 ⟨s, h1, ?_⟩
  cases s <;> first | exact h2 | (rename_i b id x; cases h2)

theorem lent_unique {id : Nat} {x y : Raw} : ∀ {loans : List (Nat × Raw)}, (loans.map Prod.fst).Nodup → (id, x) ∈ loans → (id, y) ∈ loans → x = y
  | [], _, h, _ => by cases h
  | p :: loans, hn, h, h' => by
    simp only [List.map_cons, List.nodup_cons] at hn
    rcases List.mem_cons.1 h with rfl | h1
    · rcases List.mem_cons.1 h' with h' | h'
      · cases h'; rfl
      · exact absurd (List.mem_map.2 ⟨_, h', rfl⟩) hn.1
    · rcases List.mem_cons.1 h' with h2 | h2
      · subst h2
        have h3 : id ∈ loans.map Prod.fst := List.mem_map.2 ⟨(id, x), h1, rfl⟩
        exact absurd h3 hn.1
      · exact lent_unique hn.2 h1 h2

theorem Cells.Reach.skip {h : Heap} {R R' : List Ref} {r : Ref} (hr : Cells.Reach h R r) (hs : ∀ r ∈ R, Cells.content h r ≠ some (.inr []) → r ∈ R')
    (hc : Cells.content h r ≠ some (.inr [])) : Cells.Reach h R' r := by
  induction hr with
  | root h1 => exact .root (hs _ h1 hc)
  | @step a ns r h1 h2 h3 ih =>
    refine .step (ih ?_) h2 h3
    simp only [Cells.content, h2, Option.map_some]
    intro h4
    simp only [Option.some.injEq, Sum.inr.injEq] at h4
    subst h4
    simp at h3

theorem WOK.reach {w : World} {P : List PThread} {owns : List (List Ref)} {loans : List (Nat × Raw)} (h : WOK w P owns loans) (hi : ∀ t ∈ w.threads, ∃ l, t = .idle l) {r : Ref}
    (hc : Cells.content w.cells r ≠ none) (hn : Cells.content w.cells r ≠ some (.inr [])) : Cells.Reach w.cells w.refs r := by
  refine (h.inv.reach w.cells.length r (by omega) hc hn).skip (fun r hr hn => ?_) hn
  rcases List.mem_append.1 hr with hr | hr
  · obtain ⟨own, h1, h2⟩ := List.mem_flatten.1 hr
    obtain ⟨i, e3⟩ := List.getElem?_of_mem h1
    have hl : i < w.threads.length := by rw [← h.lenO]; exact (List.getElem?_eq_some_iff.1 e3).1
    have e1 : w.threads[i]? = some w.threads[i] := List.getElem?_eq_getElem hl
    obtain ⟨l, hl'⟩ := hi _ (List.mem_of_getElem? e1)
    rw [hl'] at e1
    rcases h.idle (i := i) with ⟨_, hw⟩ | ⟨l', o, own', e1', e2, e3', ht, g⟩
    · exact absurd e1 (hw l)
    · rw [e3] at e3'; cases e3'
      rw [e1] at e1'; cases e1'
      have h5 := g.1.eq r hn
      have h6 := List.count_pos_iff.2 h2
      have h7 : 0 < (slotsRefs l).count r := by rw [h5]; exact h6
      exact List.mem_flatMap.2 ⟨.idle l, List.mem_of_getElem? e1, slotsRefs_keeps (List.count_pos_iff.1 h7)⟩
  · obtain ⟨⟨id, x⟩, h1, h2⟩ := List.mem_flatMap.1 hr
    obtain ⟨q, h3, h4⟩ := h.owner _ h1
    obtain ⟨i, e2⟩ := List.getElem?_of_mem h3
    have hl : i < w.threads.length := by rw [← h.lenP]; exact (List.getElem?_eq_some_iff.1 e2).1
    have e1 : w.threads[i]? = some w.threads[i] := List.getElem?_eq_getElem hl
    obtain ⟨l, hl'⟩ := hi _ (List.mem_of_getElem? e1)
    rw [hl'] at e1
    rcases h.idle (i := i) with ⟨_, hw⟩ | ⟨l', o, own', e1', e2', e3', ht, g⟩
    · exact absurd e1 (hw l)
    · rw [e2] at e2'; cases e2'
      rw [e1] at e1'; cases e1'
      obtain ⟨ob, h5, h6⟩ := List.mem_filterMap.1 h4
      obtain ⟨k, e4⟩ := List.getElem?_of_mem h5
      obtain ⟨s, e5, h7⟩ := g.2.at' e4
      cases ob <;> simp only [Obj.loan, Option.some.injEq, Prod.mk.injEq, reduceCtorEq] at h6
      obtain ⟨rfl, rfl⟩ := h6
      obtain ⟨y, rfl, h8, _⟩ := h7.isRef
      have h9 : y = x := lent_unique h.nodup (mem_lentOf.1 h8).1 h1
      subst h9
      exact List.mem_flatMap.2 ⟨.idle l, List.mem_of_getElem? e1, List.mem_flatMap.2 ⟨_, List.mem_of_getElem? e5, h2⟩⟩

end Radix.Heap
