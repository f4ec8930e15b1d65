import Verif.Spec.ThreadMaps
import Verif.Proofs.AttMapsEnds
import Verif.Proofs.AttThreads
import Verif.Proofs.Shared

set_option linter.unusedVariables false

namespace Radix.Kept
open Radix
open Radix.Heap.Att
open Radix.Spec (Map)
open Radix.Spec.Kept

section
variable {σ ε : Type} {S : BlobStore σ ε} {L : Lawful S} {mask : Nat → Nat → List Bool} {n : Nat}

/-- A step whose panics are caught: it is a step of the iterator, or it fails with what the step fails with, and then only the iterator has changed. -/
theorem caught_next {st st' : σ} {l l' : List Obj} {o : Obs ε} {i : Nat} (h : pcaughtOf S n (st, l) i = some (o, st', l')) :
    (∀ e, o ≠ .err e) ∧ pnextOf S n (st, l) i = some (o, st', l') ∨ (∃ e, o = .err e) ∧ st' = st ∧ (∃ ob, l' = l.set i ob) ∧ ∃ l1, pnextOf S n (st, l) i = some (o, st, l1) := by
  unfold pcaughtOf at h
  unfold pnextOf
  dsimp only at h ⊢
  cases e : l[i]? with
  | none => rw [e] at h; cases h; exact .inl ⟨by simp, rfl⟩
  | some x =>
    rw [e] at h
    cases x with
    | kv a m =>
      dsimp only at h ⊢
      unfold SIter.next
      rw [step_forget]
      cases e1 : SIter.step (storeOf S st a).S (storeOf S st a).st n m with
      | ok r =>
        rw [e1] at h
        obtain ⟨r, m'⟩ := r
        rcases r with e | _ | ⟨k, v⟩
        · cases h; exact .inr ⟨⟨_, rfl⟩, rfl, ⟨_, rfl⟩, _, rfl⟩
        · cases h; exact .inl ⟨by simp, rfl⟩
        · cases h; exact .inl ⟨by simp, rfl⟩
      | err e => cases e
      | panic => rw [e1] at h; cases h
      | deep => rw [e1] at h; cases h
    | vals a m =>
      dsimp only at h ⊢
      unfold valNextS
      rw [valStep_forget]
      cases e1 : valStep (storeOf S st a).S (storeOf S st a).st n m with
      | ok r =>
        rw [e1] at h
        obtain ⟨r, m'⟩ := r
        rcases r with e | _ | v
        · cases h; exact .inr ⟨⟨_, rfl⟩, rfl, ⟨_, rfl⟩, _, rfl⟩
        · cases h; exact .inl ⟨by simp, rfl⟩
        · cases h; exact .inl ⟨by simp, rfl⟩
      | err e => cases e
      | panic => rw [e1] at h; cases h
      | deep => rw [e1] at h; cases h
    | _ => cases h; exact .inl ⟨by simp, rfl⟩

theorem caught_nextGroup {st st' : σ} {l l' : List Obj} {o : Obs ε} {i : Nat} {d : Bytes → Except ε Bool} (h : pcaughtGroupOf S n (st, l) i d = some (o, st', l')) :
    (∀ e, o ≠ .err e) ∧ pnextGroupOf S n (st, l) i d = some (o, st', l') ∨ (∃ e, o = .err e) ∧ st' = st ∧ (∃ ob, l' = l.set i ob) ∧ ∃ l1, pnextGroupOf S n (st, l) i d = some (o, st, l1) := by
  unfold pcaughtGroupOf at h
  unfold pnextGroupOf
  dsimp only at h ⊢
  cases e : l[i]? with
  | none => rw [e] at h; cases h; exact .inl ⟨by simp, rfl⟩
  | some x =>
    rw [e] at h
    cases x with
    | group a m =>
      dsimp only at h ⊢
      unfold groupNextS
      rw [groupStep_forget]
      cases e1 : groupStep (storeOf S st a).S d (storeOf S st a).st n m with
      | ok r =>
        rw [e1] at h
        obtain ⟨r, m'⟩ := r
        rcases r with e | _ | v
        · cases h; exact .inr ⟨⟨_, rfl⟩, rfl, ⟨_, rfl⟩, _, rfl⟩
        · cases h; exact .inl ⟨by simp, rfl⟩
        · cases h; exact .inl ⟨by simp, rfl⟩
      | err e => cases e
      | panic => rw [e1] at h; cases h
      | deep => rw [e1] at h; cases h
    | _ => cases h; exact .inl ⟨by simp, rfl⟩

/-- One call, or a step whose panics are caught. -/
theorem callStep_ok {st : σ} {o w} (h : Rel L st o w) (mask) (n : Nat) (c : Call σ ε) (hk : ∀ g, c = .op (.outside g) → Mono L st (g st)) :
    Fin L (pstepC S mask n (st, o) c) fun ob st' w' => CallStep L st w c ob st' w' := by
  cases c with
  | op op => exact step_ok h mask n op fun g e => hk g (by rw [e])
  | next i =>
    intro ob st' o' e
    rcases caught_next e with ⟨h1, h2⟩ | ⟨h1, rfl, ⟨x, rfl⟩, l1, h2⟩
    · obtain ⟨w', h3, h4⟩ := step_ok h mask n (.next i) (fun g e => by cases e) ob st' o' h2
      exact ⟨w', .inl ⟨h1, h3⟩, h4⟩
    · obtain ⟨w', h3, h4⟩ := step_ok h mask n (.next i) (fun g e => by cases e) ob _ _ h2
      exact ⟨_, .inr ⟨h1, rfl, rfl, w', h3⟩, h.put i .unknown⟩
  | nextGroup i d =>
    intro ob st' o' e
    rcases caught_nextGroup e with ⟨h1, h2⟩ | ⟨h1, rfl, ⟨x, rfl⟩, l1, h2⟩
    · obtain ⟨w', h3, h4⟩ := step_ok h mask n (.nextGroup i d) (fun g e => by cases e) ob st' o' h2
      exact ⟨w', .inl ⟨h1, h3⟩, h4⟩
    · obtain ⟨w', h3, h4⟩ := step_ok h mask n (.nextGroup i d) (fun g e => by cases e) ob _ _ h2
      exact ⟨_, .inr ⟨h1, rfl, rfl, w', h3⟩, h.put i .unknown⟩

/-! ### Threads -/

/-- What a thread has that is not in the middle of a call: each thing was right at some earlier return of a call. -/
def Holding (L : Lawful S) (past : List σ) (o : List Obj) (l : List Item) : Prop :=
  o.length = l.length ∧ ∀ (i : Nat) ob x, o[i]? = some ob → l[i]? = some x → ∃ st0 ∈ past, RelItem L st0 ob x

theorem Holding.more {past past' : List σ} {o l} (h : Holding L past o l) (hp : ∀ st ∈ past, st ∈ past') : Holding L past' o l :=
  ⟨h.1, fun i ob x a b => by obtain ⟨st0, h1, h2⟩ := h.2 i ob x a b; exact ⟨st0, hp _ h1, h2⟩⟩

theorem Holding.at {past : List σ} {o l} (h : Holding L past o l) {st : σ} (hm : ∀ st0 ∈ past, Mono L st0 st) : RelAll L st o l :=
  ⟨h.1, fun i ob x a b => by obtain ⟨st0, h1, h2⟩ := h.2 i ob x a b; exact h2.mono (hm _ h1)⟩

theorem Holding.of {past : List σ} {o l} {st : σ} (h : RelAll L st o l) (hs : st ∈ past) : Holding L past o l :=
  ⟨h.1, fun i ob x a b => ⟨st, hs, h.2 i ob x a b⟩⟩

theorem Holding.give {past : List σ} {o l} (h : Holding L past o l) (k : Nat) : Holding L past (o.set k .free) (l.set k .free) := by
  refine ⟨by simp [h.1], fun j ob x ho hl => ?_⟩
  by_cases e : k = j
  · subst e
    rw [List.getElem?_set_self'] at ho hl
    cases ho1 : o[k]? <;> rw [ho1] at ho <;> cases ho
    cases hl1 : l[k]? <;> rw [hl1] at hl <;> cases hl
    obtain ⟨st0, h1, _⟩ := h.2 k _ _ ho1 hl1
    exact ⟨st0, h1, .free⟩
  · rw [List.getElem?_set_ne e] at ho hl
    exact h.2 j _ _ ho hl

theorem Holding.take {past : List σ} {o l} (h : Holding L past o l) {ob x} (hx : ∃ st0 ∈ past, RelItem L st0 ob x) : Holding L past (o ++ [ob]) (l ++ [x]) := by
  refine ⟨by simp [h.1], fun j ob' x' ho hl => ?_⟩
  by_cases hj : j < o.length
  · rw [List.getElem?_append_left hj] at ho
    rw [List.getElem?_append_left (by rw [← h.1]; exact hj)] at hl
    exact h.2 j _ _ ho hl
  · rw [List.getElem?_append_right (by omega)] at ho
    rw [List.getElem?_append_right (by rw [← h.1]; omega), ← h.1] at hl
    cases e : j - o.length with
    | zero => rw [e] at ho hl; cases ho; cases hl; exact hx
    | succ k => rw [e] at ho; simp at ho

theorem Holding.get {past : List σ} {o l} (h : Holding L past o l) {k : Nat} {ob} (ho : o[k]? = some ob) : ∃ x, l[k]? = some x ∧ ∃ st0 ∈ past, RelItem L st0 ob x := by
  have hk : k < l.length := by rw [← h.1]; exact (List.getElem?_eq_some_iff.1 ho).1
  exact ⟨l[k], List.getElem?_eq_getElem hk, h.2 k _ _ ho (List.getElem?_eq_getElem hk)⟩

/-- A thread on plain values, and what it is for the specification. -/
def TRel (L : Lawful S) (past : List σ) (q : TWorker σ ε) (t : MThread σ ε) : Prop :=
  match q.call with
  | none => t.call = none ∧ Holding L past q.things t.items
  | some (c, st) => ∃ sv, t.call = some (c, st, sv) ∧ Rel L st q.things ⟨t.items, sv⟩ ∧ ∀ g, c = .op (.outside g) → Mono L st (g st)

theorem TRel.more {past past' : List σ} {q : TWorker σ ε} {t} (h : TRel L past q t) (hp : ∀ st ∈ past, st ∈ past') : TRel L past' q t := by
  unfold TRel at h ⊢
  split
  · rename_i e; rw [e] at h; exact ⟨h.1, h.2.more hp⟩
  · rename_i e; rw [e] at h; exact h

/-- All threads. -/
structure WRel (L : Lawful S) (past : List σ) (ws : List (TWorker σ ε)) (w : MWorld σ ε) : Prop where
  len : ws.length = w.threads.length
  all : ∀ (i : Nat) q t, ws[i]? = some q → w.threads[i]? = some t → TRel L past q t
  saved : ∀ id m, w.saved id = some m → ∃ st0 ∈ past, Saved L st0 id m

theorem WRel.get {past : List σ} {ws : List (TWorker σ ε)} {w} (h : WRel L past ws w) {i : Nat} {q} (hi : ws[i]? = some q) : ∃ t, w.threads[i]? = some t ∧ TRel L past q t := by
  have hk : i < w.threads.length := by rw [← h.len]; exact (List.getElem?_eq_some_iff.1 hi).1
  exact ⟨w.threads[i], List.getElem?_eq_getElem hk, h.all i _ _ hi (List.getElem?_eq_getElem hk)⟩

theorem WRel.idle {past : List σ} {ws : List (TWorker σ ε)} {w} (h : WRel L past ws w) {i : Nat} {l} (hi : THas ws i l) : ∃ l', w.threads[i]? = some ⟨l', none⟩ ∧ Holding L past l l' := by
  obtain ⟨⟨l', c⟩, h1, h2, h3⟩ := h.get hi
  dsimp only at h2; subst h2
  exact ⟨l', h1, h3⟩

theorem WRel.set {past : List σ} {ws : List (TWorker σ ε)} {w} (h : WRel L past ws w) (i : Nat) {q t} (hr : TRel L past q t) : WRel L past (ws.set i q) (w.set i t) := by
  refine ⟨by simp [MWorld.set, h.len], fun j q' t' hq ht => ?_, h.saved⟩
  unfold MWorld.set at ht
  by_cases e : i = j
  · subst e
    rw [List.getElem?_set_self'] at hq ht
    cases hq1 : ws[i]? <;> rw [hq1] at hq <;> cases hq
    cases ht1 : w.threads[i]? <;> rw [ht1] at ht <;> cases ht
    exact hr
  · rw [List.getElem?_set_ne e] at hq ht
    exact h.all j _ _ hq ht

theorem WRel.start (c : Nat) : WRel (ε := ε) L [] (tworkers c) (MWorld.start c) := by
  refine ⟨by simp [tworkers, MWorld.start], fun i q t hq ht => ?_, fun id m e => by cases e⟩
  simp only [tworkers, MWorld.start, List.getElem?_replicate] at hq ht
  split at hq <;> cases hq
  rename_i hc
  rw [if_pos hc] at ht; cases ht
  exact ⟨rfl, rfl, fun i ob x h => by cases h⟩

theorem saved_mono {st st' : σ} {id : Bytes} {m : Map} (h : Saved L st id m) (hm : Mono L st st') : Saved L st' id m := by
  obtain ⟨t, bs, h1, h2, h3, h4, h5⟩ := h
  exact ⟨t, bs, h1, h2, h3, hm _ _ h4, recRep_mono hm h5⟩

theorem msees_ok {es : List (TEvent σ ε)} {seen : List (TSeen σ ε)} {ws ws' : List (TWorker σ ε)} (h : THappensAll S mask n ws es seen ws') :
    ∀ {past : List σ} {w : MWorld σ ε}, WRel L past ws w → Lasting L past seen → ∃ w', MSees L w seen w' ∧ WRel L ((returned seen).reverse ++ past) ws' w' := by
  induction h with
  | nil => intro past w hr hk; exact ⟨w, .nil, hr⟩
  | @cons ws e s ws1 es ss ws2 h1 h2 ih =>
    intro past w hr hk
    cases h1 with
    | @call i l c st h =>
      obtain ⟨hk1, hk2, hk3⟩ := hk
      obtain ⟨l', h3, h4⟩ := hr.idle h
      have hrel : Rel L st l ⟨l', w.saved⟩ := ⟨h4.at hk1, fun id m e => by obtain ⟨st0, h5, h6⟩ := hr.saved id m e; exact saved_mono h6 (hk1 _ h5)⟩
      obtain ⟨w', h5, h6⟩ := ih (hr.set i (q := ⟨l, some (c, st)⟩) (t := ⟨l', some (c, st, w.saved)⟩) ⟨_, rfl, hrel, hk2⟩) hk3
      exact ⟨w', .call h3 h5, h6⟩
    | noCall h => exact ih hr hk
    | tick => exact ih hr hk
    | @ret i l c st o st' l' h e =>
      obtain ⟨⟨l1, c1⟩, h3, h4⟩ := hr.get h
      obtain ⟨sv, rfl, h5, h6⟩ := h4
      obtain ⟨⟨l2, sv'⟩, h7, h8⟩ := callStep_ok h5 mask n c h6 o st' l' e
      have hr1 : WRel L (st' :: past) (ws.set i ⟨l', none⟩) (w.set i ⟨l2, none⟩) :=
        WRel.set ⟨hr.len, fun j q t a b => (hr.all j q t a b).more fun _ h => .tail _ h, fun id m e => by obtain ⟨st0, h9, h10⟩ := hr.saved id m e; exact ⟨st0, .tail _ h9, h10⟩⟩
          i ⟨rfl, .of h8.1 (List.mem_cons_self)⟩
      have hr2 : WRel L (st' :: past) (ws.set i ⟨l', none⟩) { w.set i ⟨l2, none⟩ with saved := fun id => (sv' id).or (w.saved id) } := by
        refine ⟨hr1.len, hr1.all, fun id m e => ?_⟩
        dsimp only at e
        cases e1 : sv' id with
        | some m' => rw [e1] at e; cases e; exact ⟨st', List.mem_cons_self, h8.2 id m e1⟩
        | none => rw [e1] at e; exact hr1.saved id m e
      obtain ⟨w', h9, h10⟩ := ih hr2 hk
      exact ⟨w', .ret h3 h7 h9, by simpa [returned] using h10⟩
    | @send i j k l l' t hij hi hj ht =>
      obtain ⟨m, h3, h4⟩ := hr.idle hi
      obtain ⟨m', h5, h6⟩ := hr.idle hj
      obtain ⟨x, h7, h8⟩ := h4.get ht
      have hr1 := (hr.set i (q := ⟨l.set k .free, none⟩) (t := ⟨m.set k .free, none⟩) ⟨rfl, h4.give k⟩).set j (q := ⟨l' ++ [t], none⟩) (t := ⟨m' ++ [x], none⟩) ⟨rfl, h6.take h8⟩
      obtain ⟨w', h9, h10⟩ := ih hr1 hk
      exact ⟨w', .send hij h3 h5 h7 h9, h10⟩
    | noSend h => exact ih hr hk

end

/-! ### One order of all writes -/

section
variable {σ ε : Type} {S : BlobStore σ ε} (L : Lawful S)

theorem world_bytes (st : σ) (l : List (Bool × Bytes)) : world S st l = (l.map fun e => e.2).foldl (fun st d => (S.write st d).2) st := by
  unfold world; rw [List.foldl_map]

theorem order_mono {st : σ} {G : List Bytes} {s s' : Sharing} (h : s.log.map (fun e => e.2) <+: G) (h' : s'.log.map (fun e => e.2) <+: G) (hl : s.log.length ≤ s'.log.length) :
    Mono (sharedLawful L st) s s' := by
  have hp : s.log.map (fun e => e.2) <+: s'.log.map (fun e => e.2) := List.prefix_of_prefix_length_le h h' (by simpa using hl)
  obtain ⟨t, e⟩ := hp
  intro i d hh
  show L.Has (world S st s'.log) i d
  have e1 : world S st s'.log = world S st (s.log ++ others t) := by
    rw [world_bytes, world_bytes, ← e]; simp [others, Function.comp_def]
  rw [e1, world_append]
  exact world_mono L _ _ _ _ hh

theorem lasting_of_order (st : σ) {G : List Bytes} : ∀ (seen : List (TSeen Sharing ε)) (m : Nat) (past : List Sharing),
    (∀ s ∈ past, s.log.map (fun e => e.2) <+: G ∧ s.log.length ≤ m) → OneOrder G m seen → Lasting (sharedLawful L st) past seen
  | [], m, past, _, _ => trivial
  | .call i c s :: seen, m, past, hp, ⟨h1, h2, h3, h4⟩ =>
    ⟨fun s0 h0 => order_mono L (hp s0 h0).1 h1 (Nat.le_trans (hp s0 h0).2 h2), fun g e => absurd e (h3 g), lasting_of_order st seen m past hp h4⟩
  | .ret i o s :: seen, m, past, hp, ⟨h1, h2⟩ => by
    refine lasting_of_order st seen (max m s.log.length) (s :: past) (fun s0 h0 => ?_) h2
    rcases List.mem_cons.1 h0 with rfl | h0
    · exact ⟨h1, by omega⟩
    · exact ⟨(hp s0 h0).1, Nat.le_trans (hp s0 h0).2 (by omega)⟩
  | .send i j k :: seen, m, past, hp, h => lasting_of_order st seen m past hp h

end

/-! ### Calls that do not panic -/

section
variable {σ ε : Type} {S : BlobStore σ ε} {L : Lawful S} {mask : Nat → Nat → List Bool} {n : Nat}

theorem safe_call {past : List σ} {ws : List (TWorker σ ε)} {w : MWorld σ ε} (hr : WRel L past ws w) {i : Nat} {l : List Item} {op : Op σ ε} {st : σ}
    (hi : w.threads[i]? = some ⟨l, none⟩) (hm : ∀ st0 ∈ past, Mono L st0 st) (hs : Safe L st ⟨l, w.saved⟩ op) : ∃ N, ∀ n', N ≤ n' → ¬ TStuck S mask n' ws (.call i (.op op) st) := by
  by_cases hq : ∃ q, THas ws i q
  · obtain ⟨q, hq⟩ := hq
    obtain ⟨l', h1, h2⟩ := hr.idle hq
    rw [hi] at h1; cases h1
    have hrel : Rel L st q ⟨l, w.saved⟩ := ⟨h2.at hm, fun id m e => by obtain ⟨st0, h5, h6⟩ := hr.saved id m e; exact saved_mono h6 (hm _ h5)⟩
    obtain ⟨N, hN⟩ := step_ends hrel mask op hs
    obtain ⟨⟨ob, st2, o2⟩, e2⟩ := Option.isSome_iff_exists.1 hN
    refine ⟨N, fun n' hn ⟨q', h3, h4⟩ => ?_⟩
    unfold THas at hq h3
    rw [hq] at h3; cases h3
    rw [show pstepC S mask n' (st, q) (.op op) = pstep S mask n' (st, q) op from rfl, pstep_more mask hn e2] at h4
    cases h4
  · exact ⟨0, fun n' _ ⟨q, h3, _⟩ => hq ⟨q, h3⟩⟩

end

end Radix.Kept
