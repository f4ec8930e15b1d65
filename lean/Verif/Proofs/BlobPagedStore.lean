import Verif.Proofs.BlobPaged

/-
`PagedFileStore` keeps to the rules of memory.
-/

set_option linter.unusedVariables false

namespace Radix.Blobs
open Radix.Paged (View M Inner Out)

variable {α β : Type}

/-! ### Parts that do not use the tables -/

/-- What a call does and returns does not depend on the tables, and it does not change them. -/
def Indep (x : M α) : Prop := ∀ (w : Inner) (p : List Nat) (r : List (Nat × Bytes)),
  x { w with pages := p, recent := r } = ((x w).1, { (x w).2 with pages := p, recent := r }) ∧ (x w).2.pageSize = w.pageSize

theorem indep_bind {x : M α} {f : α → M β} (hx : Indep x) (hf : ∀ a, Indep (f a)) : Indep (x >>= f) := by
  intro w p r
  obtain ⟨e, hp⟩ := hx w p r
  show Paged.M.bind x f _ = (_, _) ∧ (Paged.M.bind x f w).2.pageSize = _
  have e0 : (x >>= f) w = Paged.M.bind x f w := rfl
  rw [e0]
  unfold Paged.M.bind
  rw [e]
  rcases hxw : x w with ⟨o, w1⟩
  rw [hxw] at hp
  cases o with
  | ok a =>
    obtain ⟨e2, hp2⟩ := hf a w1 p r
    exact ⟨e2, by dsimp only; rw [hp2]; exact hp⟩
  | err => exact ⟨rfl, hp⟩
  | panic => exact ⟨rfl, hp⟩
  | crash => exact ⟨rfl, hp⟩

theorem indep_self {f : Inner → M β} (h : ∀ w p r, f { w with pages := p, recent := r } = f w) (hf : ∀ w, Indep (f w)) :
    Indep (Paged.self >>= f) := by
  intro w p r
  show f _ _ = ((f w w).1, _) ∧ (f w w).2.pageSize = _
  rw [h w p r]
  exact hf w w p r

theorem indep_update {g : Inner → Inner} (h : ∀ w p r, g { w with pages := p, recent := r } = { g w with pages := p, recent := r })
    (hp : ∀ w, (g w).pageSize = w.pageSize) : Indep (Paged.update g) := by
  intro w p r
  exact ⟨by simp only [Paged.update, h w p r], hp w⟩

theorem indep_pure (a : α) : Indep (pure a : M α) := fun w p r => ⟨rfl, rfl⟩
theorem indep_fail : Indep (Paged.fail : M α) := fun w p r => ⟨rfl, rfl⟩
theorem indep_die : Indep (Paged.die : M α) := fun w p r => ⟨rfl, rfl⟩
theorem indep_panic : Indep (Paged.panic : M α) := fun w p r => ⟨rfl, rfl⟩

theorem indep_ite {c : Prop} [Decidable c] {x y : M α} (hx : Indep x) (hy : Indep y) : Indep (if c then x else y) := by
  split <;> assumption

theorem indep_ensure (b : Bool) : Indep (Paged.ensure b) := by
  unfold Paged.ensure
  exact indep_ite (indep_pure _) indep_fail

theorem indep_nextEv : Indep Paged.nextEv := by
  rintro ⟨data, pos, size, pages, recent, last, evs⟩ p r
  cases evs <;> exact ⟨rfl, rfl⟩

theorem indep_sub64 (dbg : Bool) (a b : Nat) : Indep (Paged.sub64 dbg a b) := by
  unfold Paged.sub64
  exact indep_ite (indep_pure _) (indep_ite indep_panic (indep_pure _))

theorem indep_add64 (dbg : Bool) (a b : Nat) : Indep (Paged.add64 dbg a b) := by
  unfold Paged.add64
  exact indep_ite (indep_pure _) (indep_ite indep_panic (indep_pure _))

theorem indep_put (bs : Bytes) : Indep (Paged.put bs) := indep_update (fun w p r => rfl) (fun w => rfl)

theorem indep_writeAll (bs : Bytes) : Indep (Paged.writeAll bs) := by
  unfold Paged.writeAll
  refine indep_self (fun w p r => rfl) fun w => indep_bind indep_nextEv fun e => ?_
  cases e with
  | ok => exact indep_ite (indep_put _) indep_fail
  | fail n => exact indep_bind (indep_put _) fun _ => indep_fail
  | crash n => exact indep_bind (indep_put _) fun _ => indep_die

theorem indep_readExact (n : Nat) : Indep (Paged.readExact n) := by
  unfold Paged.readExact
  refine indep_self (fun w p r => rfl) fun w => indep_bind indep_nextEv fun e => ?_
  cases e with
  | ok => exact indep_ite (indep_bind (indep_update (fun w p r => rfl) (fun w => rfl)) fun _ => indep_pure _) indep_fail
  | fail n => exact indep_fail
  | crash n => exact indep_die

theorem indep_seekStart (n : Nat) : Indep (Paged.seekStart n) :=
  indep_bind (indep_ensure _) fun _ => indep_update (fun w p r => rfl) (fun w => rfl)

theorem indep_seekEnd : Indep Paged.seekEnd :=
  indep_bind (indep_update (fun w p r => rfl) (fun w => rfl)) fun _ => indep_self (fun _ _ _ => rfl) fun _ => indep_pure _

theorem indep_writeSize (n : Nat) : Indep (Paged.writeSize n) :=
  indep_bind (indep_seekStart _) fun _ => indep_bind (indep_writeAll _) fun _ => indep_bind indep_seekEnd fun _ => indep_pure _

theorem indep_commit : Indep Paged.commit :=
  indep_bind indep_seekEnd fun _ => indep_bind (indep_writeSize _) fun _ => indep_pure _

theorem indep_padLoop (offset : Nat) : ∀ n, Indep (Paged.padLoop n offset)
  | 0 => indep_pure _
  | n + 1 => by
    unfold Paged.padLoop
    refine indep_self (fun _ _ _ => rfl) fun w => ?_
    exact indep_ite (indep_bind (indep_writeAll _) fun _ => indep_padLoop offset n) (indep_pure _)

theorem indep_padTo (offset : Nat) : Indep (Paged.padTo offset) := indep_self (fun _ _ _ => rfl) fun w => indep_padLoop _ _

theorem indep_sliceBefore (d : Bytes) (hi len : Nat) : Indep (Paged.sliceBefore d hi len) := by
  unfold Paged.sliceBefore
  exact indep_ite (indep_pure _) indep_panic

theorem indep_pageView (p o : Nat) : Indep (Paged.pageView p o) := by
  unfold Paged.pageView
  exact indep_self (fun _ _ _ => rfl) fun w => indep_bind (indep_ensure _) fun _ => indep_bind (indep_sliceBefore _ _ _) fun _ =>
    indep_bind (indep_ensure _) fun _ => indep_bind (indep_sliceBefore _ _ _) fun _ => indep_pure _

theorem indep_recentBytes (dbg : Bool) (id : Nat) : Indep (recentBytes dbg id) := by
  unfold recentBytes
  exact indep_bind (indep_ensure _) fun _ => indep_bind (indep_add64 _ _ _) fun _ => indep_bind (indep_sub64 _ _ _) fun _ =>
    indep_bind (indep_seekStart _) fun _ => indep_bind (indep_readExact _) fun _ => indep_bind (indep_ensure _) fun _ =>
    indep_bind (indep_add64 _ _ _) fun _ => indep_bind (indep_sub64 _ _ _) fun _ => indep_bind (indep_sub64 _ _ _) fun _ =>
    indep_bind (indep_seekStart _) fun _ => indep_bind (indep_readExact _) fun _ => indep_bind indep_seekEnd fun _ => indep_pure _

/-! ### The relation -/

/-- The recent blobs. -/
def RecRel (m : Mem) : List (Nat × Blob) → List (Nat × Bytes) → Prop
  | [], [] => True
  | e :: t, f :: s => e.1 = f.1 ∧ Shows m e.2 (.own f.2) ∧ RecRel m t s
  | _, _ => False

/-- The store in memory and the store with values. -/
structure PRel (m : Mem) (t : PState) (s : Inner) : Prop where
  base : t.base = { s with pages := [], recent := [] }
  pages : ∀ p, match find t.pages p with
    | some a => s.pages.contains p = true ∧ m.get a = some (.page (Paged.offsetOfPage p s.pageSize) s.pageSize)
    | none => s.pages.contains p = false
  recent : RecRel m t.recent s.recent

/-- The references of the tables. -/
def prefs (t : PState) : List Nat := t.pages.map (·.2) ++ t.recent.flatMap fun e => e.2.refs

theorem recRel_mono {m m' : Mem} : ∀ {t : List (Nat × Blob)} {s : List (Nat × Bytes)}, RecRel m t s →
    (∀ a ∈ t.flatMap (fun e => e.2.refs), m'.get a = m.get a) → RecRel m' t s
  | [], [], _, _ => trivial
  | [], _ :: _, h, _ => h.elim
  | _ :: _, [], h, _ => h.elim
  | e :: t, f :: s, h, hg => ⟨h.1, h.2.1.mono (fun a ha => hg a (by simp only [List.flatMap_cons, List.mem_append]; exact Or.inl ha)),
      recRel_mono h.2.2 (fun a ha => hg a (by simp only [List.flatMap_cons, List.mem_append]; exact Or.inr ha))⟩

theorem recRel_filter {m : Mem} (P : Nat → Bool) : ∀ {t : List (Nat × Blob)} {s : List (Nat × Bytes)}, RecRel m t s →
    RecRel m (t.filter fun e => P e.1) (s.filter fun e => P e.1)
  | [], [], _ => trivial
  | [], _ :: _, h => h.elim
  | _ :: _, [], h => h.elim
  | e :: t, f :: s, h => by
    simp only [List.filter_cons]
    rw [h.1]
    cases P f.1 with
    | true => exact ⟨h.1, h.2.1, recRel_filter P h.2.2⟩
    | false => exact recRel_filter P h.2.2

theorem recRel_find {m : Mem} (id : Nat) : ∀ {t : List (Nat × Blob)} {s : List (Nat × Bytes)}, RecRel m t s →
    match (t.find? fun e => e.1 = id).map (·.2), (s.find? fun e => e.1 = id).map (·.2) with
    | some b, some d => Shows m b (.own d)
    | none, none => True
    | _, _ => False
  | [], [], _ => trivial
  | [], _ :: _, h => h.elim
  | _ :: _, [], h => h.elim
  | e :: t, f :: s, h => by
    have ih := recRel_find id h.2.2
    simp only [List.find?_cons]
    rw [h.1]
    by_cases hf : f.1 = id
    · simp only [hf, decide_true]; exact h.2.1
    · simp only [hf, decide_false]; exact ih

theorem prel_mono {m m' : Mem} {t : PState} {s : Inner} (h : PRel m t s) (hg : ∀ a ∈ prefs t, m'.get a = m.get a) : PRel m' t s := by
  refine ⟨h.base, fun p => ?_, recRel_mono h.recent (fun a ha => hg a (List.mem_append_right _ ha))⟩
  have := h.pages p
  split
  · rename_i a e
    rw [e] at this
    exact ⟨this.1, by rw [hg a (List.mem_append_left _ (find_mem e))]; exact this.2⟩
  · rename_i e
    rw [e] at this
    exact this

/-- Two lists of one: those that satisfy a test and those that do not. -/
theorem count_split {γ : Type} (f : γ → List Nat) (P Q : γ → Bool) (hPQ : ∀ x, Q x = !P x) (a : Nat) : ∀ l : List γ,
    ((l.filter P).flatMap f).count a + ((l.filter Q).flatMap f).count a = (l.flatMap f).count a
  | [] => rfl
  | x :: l => by
    have ih := count_split f P Q hPQ a l
    simp only [List.filter_cons, hPQ x]
    cases P x <;> simp only [Bool.not_true, Bool.not_false, if_true, if_false, Bool.false_eq_true, List.flatMap_cons, List.count_append] <;> omega

theorem map_flat {γ : Type} (f : γ → Nat) (l : List γ) : l.map f = l.flatMap fun x => [f x] := by
  induction l with
  | nil => rfl
  | cons x l ih => simp [ih]

/-! ### Rules -/

/-- A call of the model without memory. -/
def plM (x : M β) : Pl Inner β := fun s =>
  (match (x s).1 with | .ok a => .ok a | .err => .err | .panic => .panic | .crash => .crash, (x s).2)

theorem plM_bind (x : M α) (f : α → M β) : plM (x >>= f) = (plM x).bind (fun a => plM (f a)) := by
  funext s
  have e0 : (x >>= f) s = Paged.M.bind x f s := rfl
  unfold plM Pl.bind
  rw [e0]
  unfold Paged.M.bind
  dsimp only
  rcases x s with ⟨o, s'⟩
  cases o <;> rfl

theorem plM_pure (b : β) : plM (pure b : M β) = Pl.pure b := rfl

abbrev PRef (hold : α → List Nat) (same : Mem → PState → Inner → α → β → Prop) (H : List Nat) (pre : Mem → PState → Inner → Prop)
    (x : Act PState α) (y : M β) : Prop := Ref prefs PRel true hold same H pre x (plM y)

/-- No references are held. -/
def no (_ : α) : List Nat := []

theorem pref_bind {α' β' : Type} {hold1 : α → List Nat} {same1 : Mem → PState → Inner → α → β → Prop} {hold2 : α' → List Nat}
    {same2 : Mem → PState → Inner → α' → β' → Prop} {H : List Nat} {pre : Mem → PState → Inner → Prop} {x : Act PState α} {y : M β}
    {f : α → Act PState α'} {g : β → M β'}
    (hx : PRef hold1 same1 H pre x y)
    (hf : ∀ a b, PRef hold2 same2 (hold1 a) (fun m t s => same1 m t s a b) (f a) (g b)) :
    PRef hold2 same2 H pre (x >>= f) (y >>= g) := by
  unfold PRef
  rw [plM_bind]
  exact ref_bind hx hf

theorem indep_tables {x : M α} (h : Indep x) (s : Inner) : (x s).2.pages = s.pages ∧ (x s).2.recent = s.recent ∧ (x s).2.pageSize = s.pageSize := by
  obtain ⟨e, hp⟩ := h s s.pages s.recent
  have e : x s = ((x s).1, { (x s).2 with pages := s.pages, recent := s.recent }) := e
  have e2 := congrArg (fun r => r.2) e
  dsimp only at e2
  exact ⟨by rw [e2], by rw [e2], hp⟩

theorem prel_indep {x : M α} (h : Indep x) {m : Mem} {t : PState} {s : Inner} (hr : PRel m t s) :
    (x t.base).1 = (x s).1 ∧ PRel m { t with base := (x t.base).2 } (x s).2 := by
  have h1 : x t.base = ((x s).1, { (x s).2 with pages := [], recent := [] }) := by
    rw [hr.base]; exact (h s [] []).1
  obtain ⟨h2, h3, h4⟩ := indep_tables h s
  refine ⟨by rw [h1], ⟨by dsimp only; rw [h1], fun p => ?_, by rw [h3]; exact hr.recent⟩⟩
  rw [h2, h4]
  exact hr.pages p

/-- A part that does not use the tables. -/
theorem pref_ofM {x : M α} (h : Indep x) {pre : Mem → PState → Inner → Prop} :
    PRef no (fun _ _ _ a b => a = b) [] pre (ofM x) x := by
  intro rest m t s hi hr hp
  obtain ⟨h1, h2⟩ := prel_indep h hr
  refine ⟨_, _, _, rfl, ?_⟩
  unfold plM Post
  rw [h1]
  cases e : (x s).1 with
  | ok a => exact ⟨rfl, hi, h2, fun _ _ => rfl⟩
  | err => exact ⟨hi, h2, fun _ _ => rfl⟩
  | panic => exact fun _ => ⟨hi, h2, fun _ _ => rfl⟩
  | crash => trivial

/-- A computation that does not touch the state keeps what is known. -/
theorem pref_const {x : M α} {o : Out α} (h : ∀ w, x w = (o, w)) {pre : Mem → PState → Inner → Prop} :
    PRef no (fun m t s a b => a = b ∧ pre m t s) [] pre (ofM x) x := by
  intro rest m t s hi hr hp
  refine ⟨_, _, _, rfl, ?_⟩
  unfold plM Post
  rw [h, h]
  cases o with
  | ok a => exact ⟨⟨rfl, hp⟩, hi, hr, fun _ _ => rfl⟩
  | err => exact ⟨hi, hr, fun _ _ => rfl⟩
  | panic => exact fun _ => ⟨hi, hr, fun _ _ => rfl⟩
  | crash => trivial

theorem pref_self {hold : α → List Nat} {same : Mem → PState → Inner → α → β → Prop} {H : List Nat} {pre : Mem → PState → Inner → Prop}
    {f : PState → Act PState α} {g : Inner → M β}
    (h : ∀ t0 s0, PRef hold same H (fun m t s => pre m t s ∧ t = t0 ∧ s = s0 ∧ t0.base = { s0 with pages := [], recent := [] }) (f t0) (g s0)) :
    PRef hold same H pre (Act.self >>= f) (Paged.self >>= g) := by
  refine ref_self (g := fun s0 => plM (g s0)) (fun s => rfl) fun t0 s0 => ?_
  intro rest m t s hi hr hp
  exact h t0 s0 rest m t s hi hr ⟨hp.1, hp.2.1, hp.2.2, by rw [← hp.2.1, ← hp.2.2]; exact hr.base⟩

/-! ### The tables -/

theorem find_cons (p a q : Nat) (l : List (Nat × Nat)) : find ((p, a) :: l) q = if p = q then some a else find l q := by
  unfold find
  rw [List.find?_cons]
  by_cases h : p = q
  · subst h; simp
  · have : (p == q) = false := by simpa using h
    rw [if_neg h, this]

theorem find_filter (p q : Nat) (h : p ≠ q) : ∀ l : List (Nat × Nat), find (l.filter fun e => e.1 ≠ p) q = find l q
  | [] => rfl
  | e :: l => by
    have ih := find_filter p q h l
    obtain ⟨k, a⟩ := e
    rw [List.filter_cons, find_cons]
    by_cases hk : k = p
    · subst hk; rw [if_neg (by simp), if_neg h]; exact ih
    · rw [if_pos (by simpa using hk), find_cons, ih]

theorem insertPage_ref (p : Nat) {pre : Mem → PState → Inner → Prop} :
    PRef no (fun _ _ _ _ _ => True) [] pre
      (do
        let ps := (← Act.self).base.pageSize
        let a ← Act.alloc (.page (Paged.offsetOfPage p ps) ps)
        insertPage p a : Act PState Unit)
      (Paged.update fun w => { w with pages := p :: w.pages }) := by
  intro rest m t s hi hr hp
  have hps : t.base.pageSize = s.pageSize := by rw [hr.base]
  obtain ⟨i1, g1, n1, k1⟩ := alloc_ok hi (.page (Paged.offsetOfPage p s.pageSize) s.pageSize)
  generalize ea : m.alloc (.page (Paged.offsetOfPage p s.pageSize) s.pageSize) = am at i1 g1 n1 k1
  obtain ⟨a, m1⟩ := am
  dsimp only at i1 g1 n1 k1
  let t' : PState := { t with pages := (p, a) :: t.pages.filter fun e => e.1 ≠ p }
  obtain ⟨m2, e2, i2, k2⟩ := decs_ok ((t.pages.filter fun e => e.1 = p).map (·.2)) (R := prefs t' ++ rest) (i1.of (fun x => by
    have := count_split (fun e : Nat × Nat => [e.2]) (fun e => decide (e.1 = p)) (fun e => decide (e.1 ≠ p)) (fun e => by simp) x t.pages
    simp only [prefs, t', map_flat, List.count_append, List.count_cons, List.flatMap_cons, List.nil_append, List.count_nil] at this ⊢
    omega))
  refine ⟨.ok (), t', m2, ?_, ?_⟩
  · show Act.bind Act.self _ t m = _
    simp only [Act.bind, Act.self, bind, Act.alloc, Act.mem, insertPage, Option.map_some, hps, ea]
    rw [e2]; rfl
  · refine ⟨trivial, i2, ⟨hr.base, fun q => ?_, ?_⟩, fun x hx => ?_⟩
    · show match find t'.pages q with | some a => (p :: s.pages).contains q = true ∧ _ | none => (p :: s.pages).contains q = false
      show match find ((p, a) :: t.pages.filter fun e => e.1 ≠ p) q with
        | some a => (p :: s.pages).contains q = true ∧ m2.get a = some (.page (Paged.offsetOfPage q s.pageSize) s.pageSize)
        | none => (p :: s.pages).contains q = false
      rw [find_cons]
      by_cases hq : p = q
      · subst hq
        rw [if_pos rfl]
        refine ⟨by simp, ?_⟩
        rw [k2 a (by simp [prefs, t']), g1]
      · rw [if_neg hq, find_filter p q hq]
        have := hr.pages q
        split
        · rename_i b eb
          rw [eb] at this
          refine ⟨by simp only [List.contains_cons, this.1, Bool.or_true], ?_⟩
          have hb : b ∈ prefs t' := by
            have : find (t.pages.filter fun e => e.1 ≠ p) q = some b := by rw [find_filter p q hq]; exact eb
            exact List.mem_append_left _ (List.mem_cons_of_mem _ (find_mem this))
          rw [k2 b (List.mem_append_left _ hb), k1 b (List.mem_append_left _ (List.mem_append_left _ (find_mem eb)))]
          exact this.2
        · rename_i eb
          rw [eb] at this
          simp only [List.contains_cons, this, Bool.or_false]
          simpa using fun h => hq h.symm
    · refine recRel_mono (m := m) hr.recent (fun x hx => ?_)
      rw [k2 x (List.mem_append_left _ (List.mem_append_right _ hx)), k1 x (List.mem_append_left _ (List.mem_append_right _ hx))]
    · rw [k2 x (List.mem_append_right _ hx), k1 x (List.mem_append_right _ (by simpa using hx))]

theorem loadPage_ref (p : Nat) {pre : Mem → PState → Inner → Prop} :
    PRef no (fun _ _ _ _ _ => True) [] pre (loadPage p) (Paged.loadPage p) := by
  unfold loadPage Paged.loadPage
  refine pref_bind (pref_ofM indep_nextEv) fun a b => ?_
  intro rest m t s hi hr hp
  have hp : a = b := hp
  subst hp
  cases a with
  | ok => exact insertPage_ref p (pre := fun _ _ _ => True) rest m t s hi hr trivial
  | fail n => exact ref_fail (pre := fun _ _ _ => True) rest m t s hi hr trivial
  | crash n => exact ref_die (H := []) (pre := fun _ _ _ => True) rest m t s hi hr trivial

theorem insertRecent_ref (id : Nat) (d : Bytes) {pre : Mem → PState → Inner → Prop} :
    PRef no (fun _ _ _ _ _ => True) [] pre
      (do
        let b ← Act.mem fun m => some (Blob.copy m d)
        insertRecent id b : Act PState Unit)
      (Paged.insertRecent id d) := by
  intro rest m t s hi hr hp
  obtain ⟨i1, s1, k1⟩ := copy_ok hi d
  generalize ea : Blob.copy m d = am at i1 s1 k1
  obtain ⟨b, m1⟩ := am
  dsimp only at i1 s1 k1
  let t' : PState := { t with recent := (id, b) :: t.recent.filter fun e => e.1 ≠ id }
  obtain ⟨m2, e2, i2, k2⟩ := decs_ok ((t.recent.filter fun e => e.1 = id).flatMap fun e => e.2.refs) (R := prefs t' ++ rest) (i1.of (fun x => by
    have := count_split (fun e : Nat × Blob => e.2.refs) (fun e => decide (e.1 = id)) (fun e => decide (e.1 ≠ id)) (fun e => by simp) x t.recent
    simp only [prefs, t', List.count_append, List.flatMap_cons, List.nil_append] at this ⊢
    omega))
  refine ⟨.ok (), t', m2, ?_, ?_⟩
  · show Act.bind _ _ t m = _
    simp only [Act.bind, Act.mem, insertRecent, Option.map_some, ea]
    rw [e2]; rfl
  · have hk : ∀ x ∈ prefs t' ++ rest, x ∈ prefs t ++ rest → m2.get x = m.get x := fun x h1 h2 => by rw [k2 x h1, k1 x (by simpa using h2)]
    refine ⟨trivial, i2, ⟨hr.base, fun q => ?_, ?_⟩, fun x hx => hk x (List.mem_append_right _ hx) (List.mem_append_right _ hx)⟩
    · have := hr.pages q
      show match find t.pages q with
        | some a => s.pages.contains q = true ∧ m2.get a = some (.page (Paged.offsetOfPage q s.pageSize) s.pageSize)
        | none => s.pages.contains q = false
      split
      · rename_i a e
        rw [e] at this
        refine ⟨this.1, ?_⟩
        rw [hk a (List.mem_append_left _ (List.mem_append_left _ (find_mem e))) (List.mem_append_left _ (List.mem_append_left _ (find_mem e)))]
        exact this.2
      · rename_i e
        rw [e] at this
        exact this
    · refine ⟨rfl, s1.mono (fun x hx => k2 x (List.mem_append_left _ (List.mem_append_right _ ?_))), ?_⟩
      · simp only [t', List.flatMap_cons, List.mem_append]; exact Or.inl hx
      · refine recRel_mono (recRel_filter (fun k => decide (k ≠ id)) hr.recent) (fun x hx => hk x (List.mem_append_left _ (List.mem_append_right _ ?_)) (List.mem_append_left _ (List.mem_append_right _ ?_)))
        · simp only [t', List.flatMap_cons, List.mem_append]; exact Or.inr hx
        · obtain ⟨e, he, hx⟩ := List.mem_flatMap.1 hx
          exact List.mem_flatMap.2 ⟨e, (List.mem_filter.1 he).1, hx⟩

theorem retainRecent_ref (ps cur : Nat) {pre : Mem → PState → Inner → Prop} :
    PRef no (fun _ _ _ _ _ => True) [] pre (retainRecent ps cur)
      (Paged.update fun w => { w with recent := w.recent.filter fun e => Paged.page e.1 ps ≠ cur }) := by
  intro rest m t s hi hr hp
  let t' : PState := { t with recent := t.recent.filter fun e => Paged.page e.1 ps ≠ cur }
  obtain ⟨m2, e2, i2, k2⟩ := decs_ok ((t.recent.filter fun e => Paged.page e.1 ps = cur).flatMap fun e => e.2.refs) (R := prefs t' ++ rest) (hi.of (fun x => by
    have := count_split (fun e : Nat × Blob => e.2.refs) (fun e => decide (Paged.page e.1 ps = cur)) (fun e => decide (Paged.page e.1 ps ≠ cur)) (fun e => by simp) x t.recent
    simp only [prefs, t', List.count_append, List.nil_append] at this ⊢
    omega))
  refine ⟨.ok (), t', m2, ?_, ?_⟩
  · simp only [retainRecent]
    rw [e2]; rfl
  · refine ⟨trivial, i2, ⟨hr.base, fun q => ?_, ?_⟩, fun x hx => k2 x (List.mem_append_right _ hx)⟩
    · have := hr.pages q
      show match find t.pages q with
        | some a => s.pages.contains q = true ∧ m2.get a = some (.page (Paged.offsetOfPage q s.pageSize) s.pageSize)
        | none => s.pages.contains q = false
      split
      · rename_i a e
        rw [e] at this
        exact ⟨this.1, by rw [k2 a (List.mem_append_left _ (List.mem_append_left _ (find_mem e)))]; exact this.2⟩
      · rename_i e
        rw [e] at this
        exact this
    · exact recRel_mono (recRel_filter (fun k => decide (Paged.page k ps ≠ cur)) hr.recent) (fun x hx => k2 x (List.mem_append_left _ (List.mem_append_right _ hx)))

/-! ### The calls -/

theorem M_assoc {γ : Type} (x : M α) (f : α → M β) (g : β → M γ) : (x >>= f) >>= g = x >>= fun a => f a >>= g := by
  funext w
  show Paged.M.bind (Paged.M.bind x f) g w = Paged.M.bind x (fun a => Paged.M.bind (f a) g) w
  unfold Paged.M.bind
  rcases x w with ⟨o, w'⟩
  cases o <;> rfl

theorem M_pure_bind (a : α) (f : α → M β) : (pure a : M α) >>= f = f a := rfl

theorem loadRecent_eq (dbg : Bool) (id : Nat) : Paged.loadRecent dbg id = recentBytes dbg id >>= fun buf => Paged.insertRecent id buf := by
  unfold recentBytes Paged.loadRecent
  simp only [M_assoc, M_pure_bind]

theorem loadRecent_ref (dbg : Bool) (id : Nat) {pre : Mem → PState → Inner → Prop} :
    PRef no (fun _ _ _ _ _ => True) [] pre (loadRecent dbg id) (Paged.loadRecent dbg id) := by
  rw [loadRecent_eq]
  unfold loadRecent
  refine pref_bind (pref_ofM (indep_recentBytes dbg id)) fun a b => ?_
  intro rest m t s hi hr hp
  have hp : a = b := hp
  subst hp
  exact insertRecent_ref id a (pre := fun _ _ _ => True) rest m t s hi hr trivial

/-- What a call knows when it begins. -/
theorem pref_use {hold : α → List Nat} {same : Mem → PState → Inner → α → β → Prop} {H : List Nat} {pre : Mem → PState → Inner → Prop}
    {x : Act PState α} {y : M β} {P : Prop} (hp : ∀ m t s, pre m t s → P) (h : P → PRef hold same H pre x y) : PRef hold same H pre x y :=
  fun rest m t s hi hr hq => h (hp m t s hq) rest m t s hi hr hq

theorem closePage_ref (cur : Nat) {pre : Mem → PState → Inner → Prop} :
    PRef no (fun _ _ _ _ _ => True) [] pre (closePage cur) (Paged.closePage cur) := by
  unfold closePage Paged.closePage
  refine pref_self fun t0 s0 => ?_
  refine pref_use (P := t0.base.pageSize = s0.pageSize) (fun m t s hp => by rw [hp.2.2.2]) fun e => ?_
  rw [e]
  exact pref_bind (pref_ofM (indep_padTo _)) fun _ _ => pref_bind (pref_ofM indep_commit) fun _ _ =>
    pref_bind (loadPage_ref cur) fun _ _ => retainRecent_ref _ _

theorem pref_ite {hold : α → List Nat} {same : Mem → PState → Inner → α → β → Prop} {H : List Nat} {pre : Mem → PState → Inner → Prop}
    {c c' : Prop} [Decidable c] [Decidable c'] {x x' : Act PState α} {y y' : M β} (hc : c ↔ c')
    (h : PRef hold same H pre x y) (h' : PRef hold same H pre x' y') : PRef hold same H pre (if c then x else x') (if c' then y else y') := by
  by_cases hh : c
  · rw [if_pos hh, if_pos (hc.1 hh)]; exact h
  · rw [if_neg hh, if_neg (fun x => hh (hc.2 x))]; exact h'

theorem pref_pure {hold : α → List Nat} {same : Mem → PState → Inner → α → β → Prop} {pre : Mem → PState → Inner → Prop} {a : α} {b : β}
    (hh : hold a = []) (h : ∀ m t s, pre m t s → same m t s a b) : PRef hold same [] pre (pure a) (pure b) := by
  have := ref_pure (refs := prefs) (R := PRel) (go := true) (hold := hold) (same := same) (pre := pre) (a := a) (b := b) (fun m t s _ => h m t s)
  rw [hh] at this
  exact this

theorem pref_panic {hold : α → List Nat} {same : Mem → PState → Inner → α → β → Prop} {pre : Mem → PState → Inner → Prop} :
    PRef hold same [] pre Act.panic (Paged.panic) := ref_panic

theorem sub64_const (dbg : Bool) (a b : Nat) : ∃ o, ∀ w, Paged.sub64 dbg a b w = (o, w) := by
  unfold Paged.sub64
  by_cases h : b ≤ a
  · rw [if_pos h]; exact ⟨.ok (a - b), fun w => rfl⟩
  · rw [if_neg h]
    cases dbg with
    | true => exact ⟨.panic, fun w => rfl⟩
    | false => exact ⟨.ok (2 ^ 64 - (b - a)), fun w => rfl⟩

theorem pref_sub64 (dbg : Bool) (a b : Nat) {pre : Mem → PState → Inner → Prop} :
    PRef no (fun m t s x y => x = y ∧ pre m t s) [] pre (ofM (Paged.sub64 dbg a b)) (Paged.sub64 dbg a b) := by
  obtain ⟨o, ho⟩ := sub64_const dbg a b
  exact pref_const ho

/-- `Page::bytes` on a page that is mapped. -/
theorem pageBlob_ref (p a offset : Nat) {pre : Mem → PState → Inner → Prop} (hp : ∀ m t s, pre m t s → find t.pages p = some a) :
    PRef Blob.refs (fun m _ _ b v => Shows m b v) [] pre (pageBlob p a offset) (Paged.pageView p offset) := by
  intro rest m t s hi hr hpre
  have hf := hp m t s hpre
  obtain ⟨h1, h2⟩ := prel_indep (indep_pageView p offset) hr
  have hpg := hr.pages p
  rw [hf] at hpg
  dsimp only at hpg
  -- what `pageView` gives
  have shape : ∀ v s', Paged.pageView p offset s = (.ok v, s') → s' = s ∧ ∃ start len, v = .map start len ∧ Paged.offsetOfPage p s.pageSize ≤ start := by
    intro v s' e
    unfold Paged.pageView at e
    have e : (do
      Paged.ensure (4 ≤ offset)
      let length := ofBE (← Paged.sliceBefore ((s.data.drop (Paged.offsetOfPage p s.pageSize)).take s.pageSize) offset 4)
      Paged.ensure (length + 4 ≤ offset)
      let _ ← Paged.sliceBefore ((s.data.drop (Paged.offsetOfPage p s.pageSize)).take s.pageSize) (offset - 4) length
      pure (View.map (Paged.offsetOfPage p s.pageSize + (offset - 4 - length)) length) : M View) s = (.ok v, s') := e
    by_cases c1 : 4 ≤ offset
    · simp only [Paged.ensure, c1, decide_true, if_true] at e
      unfold Paged.sliceBefore at e
      split at e
      · simp only [M_pure_bind] at e
        split at e
        · simp only [M_pure_bind] at e
          split at e
          · simp only [M_pure_bind] at e
            cases e
            exact ⟨rfl, _, _, rfl, Nat.le_add_right _ _⟩
          · cases e
        · cases e
      · cases e
    · simp only [Paged.ensure, c1, decide_false] at e
      cases e
  show ∃ r t' m', Act.bind (ofM (Paged.pageView p offset)) _ t m = _ ∧ _
  have eo : ofM (Paged.pageView p offset) t m = some ((plM (Paged.pageView p offset) s).1, { t with base := (Paged.pageView p offset t.base).2 }, m) := by
    unfold ofM plM
    dsimp only
    rw [h1]
    cases (Paged.pageView p offset s).1 <;> rfl
  simp only [Act.bind, eo]
  unfold plM
  rcases ev : Paged.pageView p offset s with ⟨o, s'⟩
  rw [ev] at h2
  dsimp only
  cases o with
  | ok v =>
    obtain ⟨hs', start, len, hv, hle⟩ := shape v s' ev
    subst hv
    have ha : a ∈ prefs t ++ rest := List.mem_append_left _ (List.mem_append_left _ (find_mem hf))
    obtain ⟨m', e', i', g'⟩ := inc_ok (R := prefs t ++ rest) hi ha
    have hb : (Paged.pageView p offset t.base).2.pageSize = s.pageSize := by
      have := h2.base
      dsimp only at this
      rw [this, hs']
    refine ⟨.ok (.part a (start - Paged.offsetOfPage p s.pageSize) len), { t with base := (Paged.pageView p offset t.base).2 }, m', ?_, ?_⟩
    · show Act.bind Act.self _ _ m = _
      simp only [Act.bind, Act.self, bind, Act.inc, Act.mem]
      rw [e', hb]; rfl
    · refine ⟨⟨?_, rfl⟩, i'.of (fun x => ?_), prel_mono h2 (fun x _ => g' x), fun x _ => g' x⟩
      · unfold Blob.view
        dsimp only
        rw [g' a, hpg.2]
        dsimp only
        rw [Nat.add_sub_cancel' hle]
      · show (prefs t ++ ([a] ++ rest)).count x = _
        simp only [List.count_append, List.count_cons, List.count_nil]; omega
  | err => exact ⟨.err, _, _, rfl, hi, h2, fun _ _ => rfl⟩
  | panic => exact ⟨.panic, _, _, rfl, fun _ => ⟨hi, h2, fun _ _ => rfl⟩⟩
  | crash => exact ⟨.crash, _, _, rfl, trivial⟩

/-- After a page was loaded it is in the table. -/
theorem loadPage_find (p : Nat) (t : PState) (m : Mem) (u : Unit) (t' : PState) (m' : Mem)
    (h : loadPage p t m = some (.ok u, t', m')) : ∃ a, find t'.pages p = some a := by
  unfold loadPage at h
  have h : Act.bind (ofM Paged.nextEv) _ t m = some (.ok u, t', m') := h
  unfold Act.bind at h
  split at h
  · cases h
  · rename_i e t1 m1 eq
    cases e with
    | ok =>
      dsimp only at h
      have h : insertPage p (m1.alloc (.page (Paged.offsetOfPage p t1.base.pageSize) t1.base.pageSize)).1 t1
        (m1.alloc (.page (Paged.offsetOfPage p t1.base.pageSize) t1.base.pageSize)).2 = some (.ok u, t', m') := h
      unfold insertPage at h
      rcases ed : (m1.alloc (.page (Paged.offsetOfPage p t1.base.pageSize) t1.base.pageSize)).2.decs ((t1.pages.filter fun e => e.1 = p).map (·.2)) with _ | m2
      · rw [ed] at h; cases h
      · rw [ed] at h
        cases h
        refine ⟨(m1.alloc (.page (Paged.offsetOfPage p t1.base.pageSize) t1.base.pageSize)).1, ?_⟩
        dsimp only
        rw [find_cons, if_pos rfl]
    | fail n => cases h
    | crash n => cases h
  · cases h
  · cases h
  · cases h

end Radix.Blobs
