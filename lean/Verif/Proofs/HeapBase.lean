import Verif.Proofs.HeapCells

/-
Memory as one thread sees it, while other threads work on it.

The thread runs its steps; before each step that changes memory the others may do whatever respects the reference counts (`Move`, `Valid`). The
references that the thread and the others hold, and the trees that were lent to the thread, are written down along with memory, and each step checks that the
thread only uses what it can reach from its own references and from those of the lent trees, and that it only uses up its own. A computation that has a result here has the same result in every interleaving with other such
computations (`Verif/Proofs/HeapThreads.lean`).
-/

set_option linter.unusedVariables false

namespace Radix.Heap

/-- What other threads do to memory and to the references they hold. -/
abbrev Move := Heap × List Ref → Heap × List Ref

/-- Memory, with the references that this thread and the others hold, the trees that the thread may read although they are not its own, and what the others will do. -/
structure Mem where
  cells : Heap
  own : List Ref
  lent : List (Nat × Raw)
  others : List Ref
  env : Nat → Move

/-- The references of lent trees. -/
def loanRefs (l : List (Nat × Raw)) : List Ref := l.flatMap fun p => p.2.refs

/-- What the thread may start from to read. -/
def Mem.roots (m : Mem) : List Ref := m.own ++ loanRefs m.lent

/-- The others keep the counts right, and leave alone what can be reached from the references that they do not hold. -/
def Valid (e : Move) : Prop := ∀ h T R, Cells.Inv h (R ++ T) → Cells.Inv (e (h, T)).1 (R ++ (e (h, T)).2) ∧ Cells.Keep R h (e (h, T)).1

open Classical in
/-- The bytes that the thread can reach. -/
noncomputable def cB (m : Mem) (a : Nat) : Option Bytes := if Cells.Reach m.cells m.roots (.blob a) then Cells.cB m.cells a else none

open Classical in
/-- The nodes that the thread can reach. -/
noncomputable def cK (m : Mem) (a : Nat) : Option (List Raw) := if Cells.Reach m.cells m.roots (.kids a) then Cells.cK m.cells a else none

/-- What a reference refers to, if the thread can reach it. -/
noncomputable def content (m : Mem) : Ref → Option (Bytes ⊕ List Raw)
  | .blob a => (cB m a).map .inl
  | .kids a => (cK m a).map .inr

/-- What can be reached from `S`. -/
inductive Via (m : Mem) (S : List Ref) : Ref → Prop where
  | root {r} : r ∈ S → Via m S r
  | step {a ns r} : Via m S (.kids a) → cK m a = some ns → r ∈ refsL ns → Via m S r

/-- Everything that can be reached from `S` is still there. -/
def Core (S : List Ref) (m m' : Mem) : Prop := ∀ r, Via m S r → content m' r = content m r

/-- What can be reached from `R` and from the lent trees. -/
def Reach (m : Mem) (R : List Ref) (r : Ref) : Prop := Via m (R ++ loanRefs m.lent) r

/-- Everything that can be reached from `R` and from the lent trees is still there. -/
structure Keep (R : List Ref) (m m' : Mem) : Prop where
  lent : m'.lent = m.lent
  same : Core (R ++ loanRefs m.lent) m m'

instance {R m m'} : CoeFun (Keep R m m') (fun _ => ∀ r, Reach m R r → content m' r = content m r) := ⟨fun k => k.same⟩

theorem Reach.root {m : Mem} {R : List Ref} {r : Ref} (h : r ∈ R) : Reach m R r := Via.root (List.mem_append_left _ h)

theorem Reach.loan {m : Mem} {R : List Ref} {r : Ref} (h : r ∈ loanRefs m.lent) : Reach m R r := Via.root (List.mem_append_right _ h)

theorem Reach.step {m : Mem} {R : List Ref} {a : Nat} {ns : List Raw} {r : Ref} (h : Reach m R (.kids a)) (h2 : cK m a = some ns) (h3 : r ∈ refsL ns) : Reach m R r := Via.step h h2 h3

/-- The counts are right, `R` are the references of the thread (except for forgotten ones to empty arrays of children), and the others behave. -/
structure Inv (m : Mem) (R : List Ref) : Prop where
  base : Cells.Inv m.cells (m.roots ++ m.others)
  le : ∀ r, R.count r ≤ m.own.count r
  eq : ∀ r, Cells.content m.cells r ≠ some (.inr []) → R.count r = m.own.count r
  env : ∀ n, Valid (m.env n)

/-! ### Running -/

/-- After the others did something. -/
def Mem.moved (m : Mem) : Mem :=
  ⟨(m.env 0 (m.cells, m.others)).1, m.own, m.lent, (m.env 0 (m.cells, m.others)).2, fun n => m.env (n + 1)⟩

/-- `rs` taken away from `own`. -/
def minus (own rs : List Ref) : List Ref := rs.foldl List.erase own

/-- The references that a step uses up are the thread's, and what it uses can be reached from them or from the lent ones. -/
def Allowed (own loan : List Ref) (h : Heap) : Act → Prop
  | .alloc c => ocnt (some (some c)) (.blob 0) + ocnt (some (some c)) (.kids 0) = 1 ∧ ∀ r, (orefs (some c)).count r ≤ own.count r
  | .readBlob a => Cells.Reach h (own ++ loan) (.blob a)
  | .readKids a => Cells.Reach h (own ++ loan) (.kids a)
  | .incBlob a => Cells.Reach h (own ++ loan) (.blob a)
  | .incKids a => Cells.Reach h (own ++ loan) (.kids a)
  | .decBlob a => .blob a ∈ own
  | .decKids a => .kids a ∈ own
  | .takeBlob a => .blob a ∈ own
  | .takeKids a => .kids a ∈ own
  | .size => True

/-- The references of the thread after a step. -/
def after (own : List Ref) : (x : Act) → x.Res → List Ref
  | .alloc c, a => c.ref a :: minus own (orefs (some c))
  | .readBlob _, _ => own
  | .readKids _, _ => own
  | .incBlob a, _ => .blob a :: own
  | .incKids a, _ => .kids a :: own
  | .decBlob a, _ => own.erase (.blob a)
  | .decKids a, ns => refsL ns ++ own.erase (.kids a)
  | .takeBlob a, o => match (o : Option Bytes) with
    | some _ => own.erase (.blob a)
    | none => own
  | .takeKids a, o => match (o : Option (List Raw)) with
    | some ns => refsL ns ++ own.erase (.kids a)
    | none => own
  | .size, _ => own

open Classical in
/-- A step that changes memory, after the others did something. -/
noncomputable def Act.change (x : Act) (m : Mem) : Option (x.Res × Mem) :=
  if Allowed m.own (loanRefs m.lent) m.moved.cells x then
    match x.exec m.moved.cells with
    | some (b, h) => some (b, ⟨h, after m.own x b, m.lent, m.moved.others, m.moved.env⟩)
    | none => none
  else none

/-- A step. Before a step that only reads the others do nothing: what they do can be done after it as well. -/
noncomputable def Act.run : (x : Act) → Mem → Option (x.Res × Mem)
  | .readBlob a, m => (cB m a).map fun d => (d, m)
  | .readKids a, m => (cK m a).map fun ns => (ns, m)
  | .alloc c, m => (Act.alloc c).change m
  | .incBlob a, m => (Act.incBlob a).change m
  | .incKids a, m => (Act.incKids a).change m
  | .decBlob a, m => (Act.decBlob a).change m
  | .decKids a, m => (Act.decKids a).change m
  | .takeBlob a, m => (Act.takeBlob a).change m
  | .takeKids a, m => (Act.takeKids a).change m
  | .size, m => Act.size.change m

/-- A computation. -/
noncomputable def H.run {α : Type} : H α → Mem → Option (α × Mem)
  | .done a, m => some (a, m)
  | .stop, _ => none
  | .act x k, m =>
    match x.run m with
    | some (b, m) => (k b).run m
    | none => none

noncomputable instance {α : Type} : CoeFun (H α) (fun _ => Mem → Option (α × Mem)) := ⟨H.run⟩

theorem H.bind_done {α : Type} (x : H α) : H.bind x .done = x := by
  induction x with
  | done b => rfl
  | stop => rfl
  | act y k ih => simp only [H.bind]; congr 1; funext b; exact ih b

theorem H.bind_bind {α β γ : Type} (x : H α) (f : α → H β) (g : β → H γ) : H.bind (H.bind x f) g = H.bind x fun a => H.bind (f a) g := by
  induction x with
  | done b => rfl
  | stop => rfl
  | act y k ih => simp only [H.bind]; congr 1; funext b; exact ih b

theorem run_bind {α β : Type} {x : H α} {f : α → H β} {m m' : Mem} {a : α} (e : x m = some (a, m')) : (x >>= f) m = f a m' := by
  show (H.bind x f).run m = _
  induction x generalizing m with
  | done b => simp only [H.run] at e; cases e; rfl
  | stop => simp only [H.run] at e; cases e
  | act y k ih =>
    simp only [H.run] at e
    simp only [H.bind, H.run]
    cases h : y.run m with
    | none => rw [h] at e; cases e
    | some q => obtain ⟨b, m1⟩ := q; rw [h] at e; exact ih b e

theorem run_pure {α : Type} (a : α) (m : Mem) : (pure a : H α) m = some (a, m) := rfl

theorem run_do {x : Act} {m m' : Mem} {b : x.Res} (e : x.run m = some (b, m')) : x.do m = some (b, m') := by
  simp only [Act.do, H.run]
  rw [e]

/-! ### Reachability and what is kept -/

theorem Inv.mono {m R R'} (hi : Inv m R) (hc : ∀ r, R'.count r = R.count r) : Inv m R' :=
  ⟨hi.base, fun r => by rw [hc]; exact hi.le r, fun r hr => by rw [hc]; exact hi.eq r hr, hi.env⟩

theorem cB_some {m a d} (h : cB m a = some d) : Cells.Reach m.cells m.roots (.blob a) ∧ Cells.cB m.cells a = some d := by
  unfold cB at h
  split at h
  · exact ⟨by assumption, h⟩
  · cases h

theorem cK_some {m a d} (h : cK m a = some d) : Cells.Reach m.cells m.roots (.kids a) ∧ Cells.cK m.cells a = some d := by
  unfold cK at h
  split at h
  · exact ⟨by assumption, h⟩
  · cases h

theorem cB_reach {m a} (h : Cells.Reach m.cells m.roots (.blob a)) : cB m a = Cells.cB m.cells a := if_pos h
theorem cK_reach {m a} (h : Cells.Reach m.cells m.roots (.kids a)) : cK m a = Cells.cK m.cells a := if_pos h

theorem content_reach {m r} (h : Cells.Reach m.cells m.roots r) : content m r = Cells.content m.cells r := by
  cases r with
  | blob a => simp only [content, Cells.content, cB_reach h]
  | kids a => simp only [content, Cells.content, cK_reach h]

/-- Forgetting an empty array of children. -/
theorem Inv.leak {m R a} (hi : Inv m (.kids a :: R)) (hc : cK m a = some []) : Inv m R := by
  refine ⟨hi.base, fun r => ?_, fun r hr => ?_, hi.env⟩
  · have := hi.le r; rw [List.count_cons] at this; omega
  · have := hi.eq r hr
    rw [List.count_cons] at this
    have h1 : (Ref.kids a == r) = false := by
      rw [beq_eq_false_iff_ne]
      intro h1; subst h1
      exact hr (by simp [Cells.content, (cK_some hc).2])
    rw [h1] at this; simpa using this

theorem app_sub {A B L : List Ref} (h : ∀ r ∈ A, r ∈ B) : ∀ r ∈ A ++ L, r ∈ B ++ L := fun r hr =>
  (List.mem_append.1 hr).elim (fun h1 => List.mem_append_left _ (h r h1)) fun h1 => List.mem_append_right _ h1

theorem Via.trans {h S S'} (hs : ∀ r ∈ S, Via h S' r) {r} (hr : Via h S r) : Via h S' r := by
  induction hr with
  | root h1 => exact hs _ h1
  | step _ h2 h3 ih => exact .step ih h2 h3

theorem Via.mono {h S S'} (hs : ∀ r ∈ S, r ∈ S') {r} (hr : Via h S r) : Via h S' r := hr.trans fun r h => .root (hs r h)

theorem Reach.trans {h R R'} (hs : ∀ r ∈ R, Reach h R' r) {r} (hr : Reach h R r) : Reach h R' r :=
  Via.trans (fun r h1 => (List.mem_append.1 h1).elim (hs r) fun h => Via.root (List.mem_append_right _ h)) hr

theorem Reach.mono {h R R'} (hs : ∀ r ∈ R, r ∈ R') {r} (hr : Reach h R r) : Reach h R' r := hr.trans fun r h => .root (hs r h)

theorem Core.mono {S S' h h'} (hk : Core S' h h') (hs : ∀ r ∈ S, Via h S' r) : Core S h h' := fun r hr => hk r (hr.trans hs)

theorem Keep.mono_reach {R R' h h'} (hk : Keep R' h h') (hs : ∀ r ∈ R, Reach h R' r) : Keep R h h' :=
  ⟨hk.lent, fun r hr => hk.same r (Reach.trans (R := R) hs hr)⟩

theorem Keep.mono {R R' h h'} (hk : Keep R' h h') (hs : ∀ r ∈ R, r ∈ R') : Keep R h h' := hk.mono_reach fun r h => .root (hs r h)

theorem content_cK {h h' a ns} (e : content h' (.kids a) = content h (.kids a)) (hc : cK h a = some ns) : cK h' a = some ns := by
  simp only [content, hc] at e
  cases h1 : cK h' a with
  | none => rw [h1] at e; simp at e
  | some x => rw [h1] at e; simp at e; rw [e]

theorem content_cB {h h' a d} (e : content h' (.blob a) = content h (.blob a)) (hc : cB h a = some d) : cB h' a = some d := by
  simp only [content, hc] at e
  cases h1 : cB h' a with
  | none => rw [h1] at e; simp at e
  | some x => rw [h1] at e; simp at e; rw [e]

theorem Core.via {S h h'} (hk : Core S h h') {r} (hr : Via h S r) : Via h' S r := by
  induction hr with
  | root h1 => exact .root h1
  | step h1 h2 h3 ih => exact .step ih (content_cK (hk _ h1) h2) h3

theorem Keep.reach {R h h'} (hk : Keep R h h') {r} (hr : Reach h R r) : Reach h' R r := by
  unfold Reach
  rw [hk.lent]
  exact hk.same.via hr

theorem Keep.trans {R h h1 h2} (hk : Keep R h h1) (hk' : Keep R h1 h2) : Keep R h h2 :=
  ⟨hk'.lent.trans hk.lent, fun r hr => (hk' r (hk.reach hr)).trans (hk r hr)⟩

theorem Keep.refl (R h) : Keep R h h := ⟨rfl, fun _ _ => rfl⟩

theorem Inv.mem {m R r} (hi : Inv m R) (hr : r ∈ R) : r ∈ m.own := by
  have := hi.le r
  have := List.count_pos_iff.2 hr
  exact List.count_pos_iff.1 (by omega)

theorem Inv.mem_roots {m R r} (hi : Inv m R) (hr : r ∈ R ++ loanRefs m.lent) : r ∈ m.roots :=
  (List.mem_append.1 hr).elim (fun h => List.mem_append_left _ (hi.mem h)) (fun h => List.mem_append_right _ h)

theorem Via.cells {m S r} (hr : Via m S r) : Cells.Reach m.cells S r := by
  induction hr with
  | root h => exact .root h
  | step _ h2 h3 ih => exact .step ih (cK_some h2).2 h3

theorem Reach.roots {m R r} (hi : Inv m R) (hr : Reach m R r) : Cells.Reach m.cells m.roots r := (Via.cells hr).mono fun r h => hi.mem_roots h

/-- What an operation guarantees to the rest: everything else is still there, and what it returns is counted. -/
structure Post (R : List Ref) (m m' : Mem) (own : List Ref) : Prop where
  inv : Inv m' (own ++ R)
  keep : Keep R m m'

theorem Core.of_cells {S m m'} (hs : ∀ r ∈ S, Cells.Reach m.cells m.roots r) (hs' : ∀ r ∈ S, Cells.Reach m'.cells m'.roots r)
    (hk : Cells.Keep S m.cells m'.cells) : Core S m m' := by
  intro r hr
  have h1 := hr.cells
  rw [content_reach (h1.trans hs), content_reach ((hk.reach h1).trans hs')]
  exact hk r h1

theorem Keep.of_cells' {R m m'} (hs : ∀ r ∈ R, Cells.Reach m.cells m.roots r) (hs' : ∀ r ∈ R, Cells.Reach m'.cells m'.roots r) (hl : m'.lent = m.lent)
    (hk : Cells.Keep (R ++ loanRefs m.lent) m.cells m'.cells) : Keep R m m' :=
  ⟨hl, .of_cells (fun r h => (List.mem_append.1 h).elim (hs r) fun h => .root (List.mem_append_right _ h))
    (fun r h => (List.mem_append.1 h).elim (hs' r) fun h => .root (List.mem_append_right _ (by rw [hl]; exact h))) hk⟩

theorem Keep.of_cells {R m m'} (hs : ∀ r ∈ R, r ∈ m.own) (hs' : ∀ r ∈ R, r ∈ m'.own) (hl : m'.lent = m.lent)
    (hk : Cells.Keep (R ++ loanRefs m.lent) m.cells m'.cells) : Keep R m m' :=
  .of_cells' (fun r h => .root (List.mem_append_left _ (hs r h))) (fun r h => .root (List.mem_append_left _ (hs' r h))) hl hk

theorem Cells.Keep.back {R h h'} (hk : Cells.Keep R h h') {r} (hr : Cells.Reach h' R r) : Cells.Reach h R r := by
  induction hr with
  | root h1 => exact .root h1
  | step h1 h2 h3 ih => exact .step ih (Cells.content_cK (hk _ ih).symm h2) h3

/-! ### The others -/

theorem Inv.moved {m R} (hi : Inv m R) : Inv m.moved R ∧ Cells.Keep m.roots m.cells m.moved.cells := by
  obtain ⟨h1, h2⟩ := hi.env 0 m.cells m.others m.roots hi.base
  refine ⟨⟨h1, hi.le, fun r hr => ?_, fun n => hi.env (n + 1)⟩, h2⟩
  rcases Nat.eq_zero_or_pos (m.own.count r) with h3 | h3
  · have := hi.le r; show R.count r = m.own.count r; omega
  · refine hi.eq r ?_
    rw [← h2 r (.root (List.mem_append_left _ (List.count_pos_iff.1 h3)))]
    exact hr

/-- A step that keeps the forgotten references. -/
theorem Inv.after {m : Mem} {R R' own' kept : List Ref} {h' : Heap} (hi : Inv m R) (hb : Cells.Inv h' (own' ++ loanRefs m.lent ++ m.others))
    (hd : ∀ r, own'.count r + R.count r = R'.count r + m.own.count r) (hk : Cells.Keep kept m.cells h')
    (hl : ∀ r, R.count r < m.own.count r → r ∈ kept) : Inv ⟨h', own', m.lent, m.others, m.env⟩ R' := by
  have key : ∀ r, R.count r < m.own.count r → Cells.content h' r = some (.inr []) := by
    intro r hr
    rw [hk r (.root (hl r hr))]
    refine Classical.byContradiction fun h => ?_
    have := hi.eq r h
    omega
  refine ⟨hb, fun r => ?_, fun r hr => ?_, hi.env⟩
  · have := hi.le r; have := hd r; show R'.count r ≤ own'.count r; omega
  · show R'.count r = own'.count r
    have := hi.le r; have := hd r
    rcases Nat.lt_or_ge (R.count r) (m.own.count r) with h1 | h1
    · exact absurd (key r h1) hr
    · omega

theorem count_minus : ∀ (rs own : List Ref), (∀ r, rs.count r ≤ own.count r) → ∀ r, (minus own rs).count r + rs.count r = own.count r
  | [], own, _, r => by simp [minus]
  | x :: rs, own, h, r => by
    have h0 := h x
    simp only [List.count_cons_self] at h0
    have hx : x ∈ own := List.count_pos_iff.1 (by omega)
    have h1 : ∀ r, (own.erase x).count r + (if x == r then 1 else 0) = own.count r := by
      intro r
      rw [List.count_erase]
      by_cases hxr : x = r
      · subst hxr; simp; omega
      · have : (x == r) = false := by simpa using hxr
        have h2 : (r == x) = false := by simpa using fun e => hxr e.symm
        simp [this, h2]
    have := count_minus rs (own.erase x) (fun r => by have := h r; have := h1 r; rw [List.count_cons] at *; omega) r
    have := h1 r
    simp only [minus, List.foldl_cons, List.count_cons] at *
    omega

theorem count_erase_add {own : List Ref} {x : Ref} (hx : x ∈ own) (r : Ref) : (own.erase x).count r + (if x == r then 1 else 0) = own.count r := by
  have h0 := List.count_pos_iff.2 hx
  rw [List.count_erase]
  by_cases hxr : x = r
  · subst hxr; simp; omega
  · have : (x == r) = false := by simpa using hxr
    have h2 : (r == x) = false := by simpa using fun e => hxr e.symm
    simp [this, h2]

/-! ### The steps -/

theorem readBlob_spec {m a d} (h : cB m a = some d) : readBlob a m = some (d, m) := run_do (by simp only [Act.run, h]; rfl)

theorem readKids_spec {m a d} (h : cK m a = some d) : readKids a m = some (d, m) := run_do (by simp only [Act.run, h]; rfl)

theorem change_of {x : Act} {m : Mem} {b : x.Res} {h : Heap} (ha : Allowed m.own (loanRefs m.lent) m.moved.cells x) (e : x.exec m.moved.cells = some (b, h)) :
    x.change m = some (b, ⟨h, Radix.Heap.after m.own x b, m.lent, m.moved.others, m.moved.env⟩) := by
  unfold Act.change
  rw [if_pos ha, e]

theorem incBlob_spec {m R a} (hi : Inv m R) (hr : Reach m R (.blob a)) :
    ∃ m', incBlob a m = some ((), m') ∧ Inv m' (.blob a :: R) ∧ Keep R m m' := by
  obtain ⟨h1, h2⟩ := hi.moved
  have h3 : Cells.Reach m.moved.cells m.roots (.blob a) := h2.reach (hr.roots hi)
  obtain ⟨h', e, i, c⟩ := Cells.incBlob_spec (a := a) h1.base ((h3.mono (fun r h => List.mem_append_left _ h)).live h1.base)
  refine ⟨_, run_do (change_of (x := .incBlob a) h3 e), h1.after (own' := .blob a :: m.own) (kept := m.own) i (fun r => ?_)
    (Cells.Keep.of_content c) (fun r h => List.count_pos_iff.1 (by show 0 < m.moved.own.count r; omega)), ?_⟩
  · show List.count r (.blob a :: m.own) + _ = _ + m.own.count r
    simp only [List.count_cons]; omega
  · refine Keep.of_cells (fun r h => hi.mem h) (fun r h => List.mem_cons_of_mem _ (hi.mem h)) rfl ?_
    exact (h2.mono fun r h => hi.mem_roots h).trans (Cells.Keep.of_content c)

theorem incKids_spec {m R a} (hi : Inv m R) (hr : Reach m R (.kids a)) :
    ∃ m', incKids a m = some ((), m') ∧ Inv m' (.kids a :: R) ∧ Keep R m m' := by
  obtain ⟨h1, h2⟩ := hi.moved
  have h3 : Cells.Reach m.moved.cells m.roots (.kids a) := h2.reach (hr.roots hi)
  obtain ⟨h', e, i, c⟩ := Cells.incKids_spec (a := a) h1.base ((h3.mono (fun r h => List.mem_append_left _ h)).live h1.base)
  refine ⟨_, run_do (change_of (x := .incKids a) h3 e), h1.after (own' := .kids a :: m.own) (kept := m.own) i (fun r => ?_)
    (Cells.Keep.of_content c) (fun r h => List.count_pos_iff.1 (by show 0 < m.moved.own.count r; omega)), ?_⟩
  · show List.count r (.kids a :: m.own) + _ = _ + m.own.count r
    simp only [List.count_cons]; omega
  · refine Keep.of_cells (fun r h => hi.mem h) (fun r h => List.mem_cons_of_mem _ (hi.mem h)) rfl ?_
    exact (h2.mono fun r h => hi.mem_roots h).trans (Cells.Keep.of_content c)

/-- Nothing becomes visible. -/
def NoNew (m m' : Mem) : Prop := ∀ a ns, cK m' a = some ns → cK m a = some ns

theorem NoNew.of_keep {m m' : Mem} (hs : ∀ r ∈ m'.roots, Cells.Reach m.cells m.roots r) (hk : Cells.Keep m'.roots m.cells m'.cells) : NoNew m m' := by
  intro a ns h
  obtain ⟨h1, h2⟩ := cK_some h
  have h3 := hk.back h1
  rw [cK_reach (h3.trans hs)]
  exact Cells.content_cK (hk _ h3).symm h2

theorem decBlob_spec {m R a} (hi : Inv m (.blob a :: R)) : ∃ m', decBlob a m = some ((), m') ∧ Inv m' R ∧ Keep R m m' ∧ NoNew m m' := by
  obtain ⟨h1, h2⟩ := hi.moved
  have ha : Ref.blob a ∈ m.own := hi.mem (List.mem_cons_self ..)
  have hra : Ref.blob a ∈ m.roots := List.mem_append_left _ ha
  obtain ⟨h', e, i, k⟩ := Cells.decBlob_spec (a := a) (R := m.own.erase (.blob a) ++ loanRefs m.lent ++ m.moved.others) (h1.base.mono (fun r => by
    have := count_erase_add ha r
    show _ = List.count r (m.own ++ loanRefs m.lent ++ _)
    simp only [List.count_cons, List.count_append] at *; omega))
  have hsub : ∀ r ∈ m.own.erase (.blob a), r ∈ m.own := fun r h => List.mem_of_mem_erase h
  have hR : ∀ r ∈ R, r ∈ m.own.erase (.blob a) := fun r h => by
    have h3 := hi.le r
    have h4 := count_erase_add ha r
    have := List.count_pos_iff.2 h
    rw [List.count_cons] at h3
    exact List.count_pos_iff.1 (by omega)
  have k' := k.mono (R := m.own.erase (.blob a) ++ loanRefs m.lent) (fun r h => List.mem_append_left _ h)
  refine ⟨_, run_do (change_of (x := .decBlob a) ha e), h1.after (own' := m.own.erase (.blob a)) (kept := m.own.erase (.blob a) ++ loanRefs m.lent) i (fun r => ?_) k' (fun r h => ?_), ?_, ?_⟩
  · have := count_erase_add ha r
    show _ = _ + m.own.count r
    simp only [List.count_cons]; omega
  · have h4 := count_erase_add ha r
    simp only [List.count_cons, Mem.moved] at h
    exact List.mem_append_left _ (List.count_pos_iff.1 (by omega))
  · exact Keep.of_cells (fun r h => hsub _ (hR r h)) hR rfl (((h2.mono (app_sub hsub)).trans k').mono (app_sub hR))
  · exact NoNew.of_keep (fun r h => .root (app_sub hsub r h)) ((h2.mono (app_sub hsub)).trans k')

theorem decKids_spec {m R a} (hi : Inv m (.kids a :: R)) :
    ∃ ns m', decKids a m = some (ns, m') ∧ Inv m' (refsL ns ++ R) ∧ Keep (refsL ns ++ R) m m' ∧ Keep R m m' ∧
      (∀ xs, cK m a = some xs → ns = xs ∨ ns = []) ∧ NoNew m m' ∧ (ns ≠ [] → cK m a = some ns ∧ cK m' a = none) := by
  obtain ⟨h1, h2⟩ := hi.moved
  have ha : Ref.kids a ∈ m.own := hi.mem (List.mem_cons_self ..)
  have hra : Ref.kids a ∈ m.roots := List.mem_append_left _ ha
  obtain ⟨ns, h', e, i, k, _, hx, _, _, hfree⟩ := Cells.decKids_spec (a := a) (R := m.own.erase (.kids a) ++ loanRefs m.lent ++ m.moved.others) (h1.base.mono (fun r => by
    have := count_erase_add ha r
    show _ = List.count r (m.own ++ loanRefs m.lent ++ _)
    simp only [List.count_cons, List.count_append] at *; omega))
  have hsub : ∀ r ∈ m.own.erase (.kids a), r ∈ m.own := fun r h => List.mem_of_mem_erase h
  have hR : ∀ r ∈ R, r ∈ m.own.erase (.kids a) := fun r h => by
    have h3 := hi.le r
    have h4 := count_erase_add ha r
    have := List.count_pos_iff.2 h
    rw [List.count_cons] at h3
    exact List.count_pos_iff.1 (by omega)
  have hcK : ∀ xs, cK m a = some xs → Cells.cK m.moved.cells a = some xs := fun xs h =>
    Cells.content_cK (h2 _ (.root hra)) (cK_some h).2
  have hrev : Cells.cK m.moved.cells a = cK m a := by
    rw [cK_reach (.root hra)]
    have := h2 _ (.root hra)
    simp only [Cells.content] at this
    cases h3 : Cells.cK m.moved.cells a <;> cases h4 : Cells.cK m.cells a <;> rw [h3, h4] at this <;> simp at this <;> simp [this]
  have hns : ∀ r ∈ refsL ns, Cells.Reach m.cells m.roots r := by
    intro r hr
    obtain ⟨n, d, e1⟩ := Cells.live_kids (h1.base.cnt_pos (r := .kids a) (List.mem_append_left _ hra))
    have hd := Cells.cK_of e1
    rcases hx d hd with h3 | h3
    · subst h3
      rw [hrev] at hd
      exact .step (.root hra) (cK_some hd).2 hr
    · subst h3; simp at hr
  have k' := k.mono (R := refsL ns ++ m.own.erase (.kids a) ++ loanRefs m.lent) (fun r h => by simp only [List.mem_append] at h ⊢; rcases h with (h | h) | h; exact .inl h; exact .inr (.inl (.inl h)); exact .inr (.inl (.inr h)))
  have kk : Cells.Keep (refsL ns ++ m.own.erase (.kids a) ++ loanRefs m.lent) m.cells h' := by
    refine Cells.Keep.trans (h2.mono_reach (fun r h => ?_)) k'
    rcases List.mem_append.1 h with h | h
    · rcases List.mem_append.1 h with h | h
      · exact hns r h
      · exact .root (List.mem_append_left _ (hsub r h))
    · exact .root (List.mem_append_right _ h)
  refine ⟨ns, _, run_do (change_of (x := .decKids a) ha e), ?_, ?_, ?_, fun xs hc => hx xs (hcK xs hc), ?_, ?_⟩
  · refine h1.after (own' := refsL ns ++ m.own.erase (.kids a)) (kept := m.own.erase (.kids a)) (i.mono (by intro r; simp only [List.count_append, Mem.moved]; omega)) (fun r => ?_) (k'.mono (fun r h => List.mem_append_left _ (List.mem_append_right _ h))) (fun r h => ?_)
    · have := count_erase_add ha r
      show _ = _ + m.own.count r
      simp only [List.count_cons, List.count_append]; omega
    · have h4 := count_erase_add ha r
      simp only [List.count_cons, Mem.moved] at h
      exact List.count_pos_iff.1 (by omega)
  · refine Keep.of_cells' (fun r h => ?_) (fun r h => .root (List.mem_append_left _ ?_)) rfl (kk.mono (app_sub fun r h => ?_))
    · rcases List.mem_append.1 h with h | h
      · exact hns r h
      · exact .root (List.mem_append_left _ (hsub r (hR r h)))
    all_goals
      simp only [List.mem_append] at h
      rcases h with h | h
      · exact List.mem_append_left _ h
      · exact List.mem_append_right _ (hR r h)
  · exact Keep.of_cells (fun r h => hsub _ (hR r h)) (fun r h => List.mem_append_right _ (hR r h)) rfl (kk.mono (app_sub fun r h => List.mem_append_right _ (hR r h)))
  · exact NoNew.of_keep (fun r h => by
      rcases List.mem_append.1 h with h | h
      · rcases List.mem_append.1 h with h | h
        · exact hns r h
        · exact .root (List.mem_append_left _ (hsub r h))
      · exact .root (List.mem_append_right _ h)) kk
  · intro h3
    refine ⟨?_, ?_⟩
    · obtain ⟨n, d, e1⟩ := Cells.live_kids (h1.base.cnt_pos (r := .kids a) (List.mem_append_left _ hra))
      have hd := Cells.cK_of e1
      rcases hx d hd with h4 | h4
      · subst h4; rw [← hrev]; exact hd
      · exact absurd h4 h3
    · cases h4 : cK (⟨h', Radix.Heap.after m.own (.decKids a) ns, m.lent, m.moved.others, m.moved.env⟩ : Mem) a with
      | none => rfl
      | some d =>
        have h5 := (cK_some h4).2
        have h6 := hfree h3
        dsimp only at h5
        rw [h6] at h5; cases h5

/-- Taking the contents out of a cell with a single reference. -/
theorem takeKids_spec {m R a xs} (hi : Inv m (.kids a :: R)) (hc : cK m a = some xs) :
    ∃ o m', takeKids a m = some (o, m') ∧
      ((o = some xs ∧ Inv m' (refsL xs ++ R) ∧ Keep (refsL xs ++ R) m m' ∧ Keep R m m') ∨ (o = none ∧ Inv m' (.kids a :: R) ∧ Keep (.kids a :: R) m m')) := by
  obtain ⟨h1, h2⟩ := hi.moved
  have ha : Ref.kids a ∈ m.own := hi.mem (List.mem_cons_self ..)
  have hra : Ref.kids a ∈ m.roots := List.mem_append_left _ ha
  have hcm : Cells.cK m.moved.cells a = some xs := Cells.content_cK (h2 _ (.root hra)) (cK_some hc).2
  obtain ⟨n, d, e1⟩ := Cells.live_kids (h1.base.cnt_pos (r := .kids a) (List.mem_append_left _ hra))
  have hd : d = xs := by rw [Cells.cK_of e1] at hcm; cases hcm; rfl
  subst hd
  by_cases hn : n = 0
  · subst hn
    obtain ⟨ns, h', e, i, k, _, hx, _, _, hfree⟩ := Cells.decKids_spec (a := a) (R := m.own.erase (.kids a) ++ loanRefs m.lent ++ m.moved.others) (h1.base.mono (fun r => by
      have := count_erase_add ha r
      show _ = List.count r (m.own ++ loanRefs m.lent ++ _)
      simp only [List.count_cons, List.count_append] at *; omega))
    have e2 : (Act.decKids a).exec m.moved.cells = some (d, m.moved.cells.set a none) := by simp only [Act.exec, e1]; rfl
    rw [e2] at e
    cases e
    have e3 : (Act.takeKids a).exec m.moved.cells = some (some d, m.moved.cells.set a none) := by simp only [Act.exec, e1]; rfl
    have hsub : ∀ r ∈ m.own.erase (.kids a), r ∈ m.own := fun r h => List.mem_of_mem_erase h
    have hR : ∀ r ∈ R, r ∈ m.own.erase (.kids a) := fun r h => by
      have h3 := hi.le r
      have h4 := count_erase_add ha r
      have := List.count_pos_iff.2 h
      rw [List.count_cons] at h3
      exact List.count_pos_iff.1 (by omega)
    have hns : ∀ r ∈ refsL d, Cells.Reach m.cells m.roots r := fun r hr => .step (.root hra) (cK_some hc).2 hr
    have k' := k.mono (R := refsL d ++ m.own.erase (.kids a) ++ loanRefs m.lent) (fun r h => by simp only [List.mem_append] at h ⊢; rcases h with (h | h) | h; exact .inl h; exact .inr (.inl (.inl h)); exact .inr (.inl (.inr h)))
    have kk : Cells.Keep (refsL d ++ m.own.erase (.kids a) ++ loanRefs m.lent) m.cells (m.moved.cells.set a none) := by
      refine Cells.Keep.trans (h2.mono_reach (fun r h => ?_)) k'
      rcases List.mem_append.1 h with h | h
      · rcases List.mem_append.1 h with h | h
        · exact hns r h
        · exact .root (List.mem_append_left _ (hsub r h))
      · exact .root (List.mem_append_right _ h)
    have hkeep : Keep (refsL d ++ R) m ⟨m.moved.cells.set a none, refsL d ++ m.own.erase (.kids a), m.lent, m.moved.others, m.moved.env⟩ := by
      refine Keep.of_cells' (fun r h => ?_) (fun r h => .root (List.mem_append_left _ ?_)) rfl (kk.mono (app_sub fun r h => ?_))
      · rcases List.mem_append.1 h with h | h
        · exact hns r h
        · exact .root (List.mem_append_left _ (hsub r (hR r h)))
      all_goals
        simp only [List.mem_append] at h
        rcases h with h | h
        · exact List.mem_append_left _ h
        · exact List.mem_append_right _ (hR r h)
    refine ⟨some d, _, run_do (change_of (x := .takeKids a) ha e3), .inl ⟨rfl, ?_, hkeep, hkeep.mono fun r h => List.mem_append_right _ h⟩⟩
    refine h1.after (own' := refsL d ++ m.own.erase (.kids a)) (kept := m.own.erase (.kids a)) (i.mono (by intro r; simp only [List.count_append, Mem.moved]; omega)) (fun r => ?_) (k'.mono (fun r h => List.mem_append_left _ (List.mem_append_right _ h))) (fun r h => ?_)
    · have := count_erase_add ha r
      show _ = _ + m.own.count r
      simp only [List.count_cons, List.count_append]; omega
    · have h4 := count_erase_add ha r
      simp only [List.count_cons, Mem.moved] at h
      exact List.count_pos_iff.1 (by omega)
  · have e3 : (Act.takeKids a).exec m.moved.cells = some ((none : Option (List Raw)), m.moved.cells) := by
      simp only [Act.exec, e1]; rw [if_neg (by omega)]; rfl
    exact ⟨none, _, run_do (change_of (x := .takeKids a) ha e3), .inr ⟨rfl, h1, Keep.of_cells (fun r h => hi.mem h) (fun r h => hi.mem h) rfl (h2.mono fun r h => hi.mem_roots h)⟩⟩

/-- Taking the bytes out of a cell with a single reference. -/
theorem takeBlob_spec {m R a d} (hi : Inv m (.blob a :: R)) (hc : cB m a = some d) :
    ∃ o m', takeBlob a m = some (o, m') ∧
      ((o = some d ∧ Inv m' R ∧ Keep R m m') ∨ (o = none ∧ Inv m' (.blob a :: R) ∧ Keep (.blob a :: R) m m')) := by
  obtain ⟨h1, h2⟩ := hi.moved
  have ha : Ref.blob a ∈ m.own := hi.mem (List.mem_cons_self ..)
  have hra : Ref.blob a ∈ m.roots := List.mem_append_left _ ha
  have hcm : Cells.cB m.moved.cells a = some d := Cells.content_cB (h2 _ (.root hra)) (cB_some hc).2
  obtain ⟨n, x, e1⟩ := Cells.live_blob (h1.base.cnt_pos (r := .blob a) (List.mem_append_left _ hra))
  have hd : x = d := by rw [Cells.cB_of e1] at hcm; cases hcm; rfl
  subst hd
  by_cases hn : n = 0
  · subst hn
    obtain ⟨h', e, i, k⟩ := Cells.decBlob_spec (a := a) (R := m.own.erase (.blob a) ++ loanRefs m.lent ++ m.moved.others) (h1.base.mono (fun r => by
      have := count_erase_add ha r
      show _ = List.count r (m.own ++ loanRefs m.lent ++ _)
      simp only [List.count_cons, List.count_append] at *; omega))
    have e2 : (Act.decBlob a).exec m.moved.cells = some ((), m.moved.cells.set a none) := by simp only [Act.exec, e1]; rfl
    rw [e2] at e
    cases e
    have e3 : (Act.takeBlob a).exec m.moved.cells = some (some x, m.moved.cells.set a none) := by simp only [Act.exec, e1]; rfl
    have hsub : ∀ r ∈ m.own.erase (.blob a), r ∈ m.own := fun r h => List.mem_of_mem_erase h
    have hR : ∀ r ∈ R, r ∈ m.own.erase (.blob a) := fun r h => by
      have h3 := hi.le r
      have h4 := count_erase_add ha r
      have := List.count_pos_iff.2 h
      rw [List.count_cons] at h3
      exact List.count_pos_iff.1 (by omega)
    have k' := k.mono (R := m.own.erase (.blob a) ++ loanRefs m.lent) (fun r h => List.mem_append_left _ h)
    refine ⟨some x, _, run_do (change_of (x := .takeBlob a) ha e3), .inl ⟨rfl, ?_, ?_⟩⟩
    · refine h1.after (own' := m.own.erase (.blob a)) (kept := m.own.erase (.blob a) ++ loanRefs m.lent) i (fun r => ?_) k' (fun r h => ?_)
      · have := count_erase_add ha r
        show _ = _ + m.own.count r
        simp only [List.count_cons]; omega
      · have h4 := count_erase_add ha r
        simp only [List.count_cons, Mem.moved] at h
        exact List.mem_append_left _ (List.count_pos_iff.1 (by omega))
    · exact Keep.of_cells (fun r h => hsub _ (hR r h)) hR rfl (((h2.mono (app_sub hsub)).trans k').mono (app_sub hR))
  · have e3 : (Act.takeBlob a).exec m.moved.cells = some ((none : Option Bytes), m.moved.cells) := by
      simp only [Act.exec, e1]; rw [if_neg (by omega)]; rfl
    exact ⟨none, _, run_do (change_of (x := .takeBlob a) ha e3), .inr ⟨rfl, h1, Keep.of_cells (fun r h => hi.mem h) (fun r h => hi.mem h) rfl (h2.mono fun r h => hi.mem_roots h)⟩⟩

theorem alloc_spec {m R} (c : Cell) (hc : ∀ r, cnt [some c] r ≤ 1) (h1 : ocnt (some (some c)) (.blob 0) + ocnt (some (some c)) (.kids 0) = 1)
    (hi : Inv m (orefs (some c) ++ R)) :
    ∃ a m', alloc c m = some (a, m') ∧ m'.cells[a]? = some (some c) ∧ Inv m' (c.ref a :: R) ∧ Keep (orefs (some c) ++ R) m m' := by
  obtain ⟨i1, h2⟩ := hi.moved
  have hle : ∀ r, (orefs (some c)).count r ≤ m.own.count r := fun r => by have := hi.le r; rw [List.count_append] at this; omega
  have hm := count_minus _ _ hle
  obtain ⟨e, hg, i, k⟩ := Cells.alloc_spec (R := minus m.own (orefs (some c)) ++ loanRefs m.lent ++ m.moved.others) c hc h1 (i1.base.mono (fun r => by
    have := hm r
    show _ = List.count r (m.own ++ loanRefs m.lent ++ _)
    simp only [List.count_append] at *; omega))
  have k' : Cells.Keep m.roots m.moved.cells (m.moved.cells ++ [some c]) := k.mono (fun r h => by
    rcases List.mem_append.1 h with h | h
    rotate_left
    · exact List.mem_append_right _ (List.mem_append_left _ (List.mem_append_right _ h))
    have := hm r
    have h3 := List.count_pos_iff.2 h
    rcases Nat.eq_zero_or_pos ((orefs (some c)).count r) with h4 | h4
    · exact List.mem_append_right _ (List.mem_append_left _ (List.mem_append_left _ (List.count_pos_iff.1 (by omega))))
    · exact List.mem_append_left _ (List.count_pos_iff.1 h4))
  have hsub : ∀ r ∈ minus m.own (orefs (some c)), r ∈ m.own := fun r h => by
    have := hm r; have := List.count_pos_iff.2 h; exact List.count_pos_iff.1 (by omega)
  refine ⟨m.moved.cells.length, _, run_do (change_of (x := .alloc c) ⟨h1, hle⟩ e), hg, ?_, ?_⟩
  · refine i1.after (own' := c.ref m.moved.cells.length :: minus m.own (orefs (some c))) (kept := m.roots) i (fun r => ?_) k' (fun r h => List.mem_append_left _ (List.count_pos_iff.1 (by show 0 < m.moved.own.count r; omega)))
    have := hm r
    show _ = _ + m.own.count r
    simp only [List.count_cons, List.count_append]; omega
  · have k2 : Cells.Keep m.roots m.cells (m.moved.cells ++ [some c]) := h2.trans k'
    refine Keep.of_cells' (fun r h => .root (List.mem_append_left _ (hi.mem h))) (fun r h => ?_) rfl (k2.mono fun r h => hi.mem_roots h)
    have h3 := hi.mem h
    rcases Nat.eq_zero_or_pos ((minus m.own (orefs (some c))).count r) with h4 | h4
    · have h5 : r ∈ orefs (some c) := List.count_pos_iff.1 (by have := hm r; have := List.count_pos_iff.2 h3; omega)
      cases c with
      | blob n d => simp [orefs] at h5
      | kids n d =>
        refine .step (a := m.moved.cells.length) (.root (List.mem_append_left _ (List.mem_cons_self ..))) (Cells.cK_of hg) ?_
        exact h5
    · exact .root (List.mem_append_left _ (List.mem_cons_of_mem _ (List.count_pos_iff.1 h4)))

theorem allocBlob_spec {m R} (d : Bytes) (hi : Inv m R) : ∃ a m', alloc (.blob 1 d) m = some (a, m') ∧ cB m' a = some d ∧
    Inv m' (.blob a :: R) ∧ Keep R m m' := by
  obtain ⟨a, m', e, h2, h3, h4⟩ := alloc_spec (R := R) (.blob 1 d) (by intro r; rcases r with a | a <;> rcases a with _ | a <;> simp [cnt, ocnt, Ref.addr]) rfl (by simpa [orefs] using hi)
  exact ⟨a, m', e, by rw [cB_reach (.root (List.mem_append_left _ (h3.mem (List.mem_cons_self ..))))]; exact Cells.cB_of h2, h3, h4.mono (by simp [orefs])⟩

theorem allocKids_spec {m R} (d : List Raw) (hi : Inv m (refsL d ++ R)) : ∃ a m', alloc (.kids 1 d) m = some (a, m') ∧ cK m' a = some d ∧
    Inv m' (.kids a :: R) ∧ Keep (refsL d ++ R) m m' := by
  obtain ⟨a, m', e, h2, h3, h4⟩ := alloc_spec (R := R) (.kids 1 d) (by intro r; rcases r with a | a <;> rcases a with _ | a <;> simp [cnt, ocnt, Ref.addr]) rfl (by simpa [orefs] using hi)
  exact ⟨a, m', e, by rw [cK_reach (.root (List.mem_append_left _ (h3.mem (List.mem_cons_self ..))))]; exact Cells.cK_of h2, h3, h4⟩

/-! ### Sizes -/

/-- Sum of `f` below `n`. -/
def sumTo (f : Nat → Nat) : Nat → Nat
  | 0 => 0
  | n + 1 => sumTo f n + f n

theorem sumTo_le {f g : Nat → Nat} : ∀ n, (∀ a, a < n → f a ≤ g a) → sumTo f n ≤ sumTo g n
  | 0, _ => Nat.le_refl _
  | n + 1, h => by
    have := sumTo_le n (fun a ha => h a (by omega))
    have := h n (by omega)
    simp only [sumTo]; omega

theorem sumTo_zero {f : Nat → Nat} {n : Nat} : ∀ k, n ≤ k → (∀ a, n ≤ a → f a = 0) → sumTo f k = sumTo f n
  | 0, h, _ => by have : n = 0 := by omega
                  subst this; rfl
  | k + 1, h, h0 => by
    rcases Nat.lt_or_ge k n with h1 | h1
    · have : n = k + 1 := by omega
      subst this; rfl
    · simp only [sumTo]; rw [sumTo_zero k h1 h0, h0 k h1]; rfl

theorem sumTo_lt {f g : Nat → Nat} {b : Nat} : ∀ n, b < n → (∀ a, f a ≤ g a) → f b = 0 → sumTo f n + g b ≤ sumTo g n
  | 0, h, _, _ => absurd h (by omega)
  | n + 1, h, hl, h0 => by
    simp only [sumTo]
    by_cases hb : b = n
    · subst hb
      have := sumTo_le b (fun a _ => hl a)
      omega
    · have := sumTo_lt n (by omega) hl h0
      have := hl n
      omega

/-- Number of nodes of a cell that the thread can reach. -/
noncomputable def visLen (m : Mem) (a : Nat) : Nat := ((cK m a).map List.length).getD 0

/-- Number of the nodes that the thread can reach. -/
noncomputable def visSize (m : Mem) : Nat := sumTo (visLen m) m.cells.length

theorem heapSize_append : ∀ (h : Heap) (o : Option Cell), heapSize (h ++ [o]) = heapSize h + heapSize [o]
  | [], o => by simp [heapSize]
  | x :: h, o => by
    have := heapSize_append h o
    rcases x with _ | _ | _ <;> simp only [List.cons_append, heapSize] <;> omega

theorem sumTo_heapSize (f : Nat → Nat) : ∀ (n : Nat) (h : Heap), h.length = n →
    (∀ a ns, Cells.cK h a = some ns → f a ≤ ns.length) → (∀ a, Cells.cK h a = none → f a = 0) → sumTo f n ≤ heapSize h
  | 0, h, hn, h1, h2 => Nat.zero_le _
  | n + 1, h, hn, h1, h2 => by
    have hne : h ≠ [] := by intro e; subst e; cases hn
    obtain ⟨k, o, rfl⟩ : ∃ k o, h = k ++ [o] := ⟨h.dropLast, h.getLast hne, (List.dropLast_concat_getLast hne).symm⟩
    have hk : k.length = n := by simpa using hn
    rw [heapSize_append]
    have hlast : Cells.cK (k ++ [o]) n = Cells.cK [o] 0 := by
      unfold Cells.cK; rw [← hk]; simp
    have hold : ∀ a, a < n → Cells.cK (k ++ [o]) a = Cells.cK k a := by
      intro a ha; exact Cells.cK_congr (List.getElem?_append_left (by omega))
    have ih := sumTo_heapSize (fun a => if a < n then f a else 0) n k hk (fun a ns h => by
      split
      · rename_i ha; exact h1 a ns (by rw [hold a ha]; exact h)
      · omega) (fun a h => by
      split
      · rename_i ha; exact h2 a (by rw [hold a ha]; exact h)
      · rfl)
    have e1 : sumTo (fun a => if a < n then f a else 0) n = sumTo f n :=
      Nat.le_antisymm (sumTo_le n fun a ha => by simp [ha]) (sumTo_le n fun a ha => by simp [ha])
    rw [e1] at ih
    simp only [sumTo]
    have : f n ≤ heapSize [o] := by
      cases o with
      | none => have := h2 n (by rw [hlast]; rfl); omega
      | some c =>
        cases c with
        | blob x d => have := h2 n (by rw [hlast]; rfl); omega
        | kids x d => have := h1 n d (by rw [hlast]; rfl); simpa [heapSize] using this
    omega

theorem visSize_le (m : Mem) : visSize m ≤ heapSize m.cells := by
  refine sumTo_heapSize _ _ m.cells rfl (fun a ns h => ?_) (fun a h => ?_)
  · unfold visLen cK
    split
    · rw [h]; simp
    · simp
  · unfold visLen cK
    split
    · rw [h]; rfl
    · rfl

theorem visLen_zero {m : Mem} {a : Nat} (h : m.cells.length ≤ a) : visLen m a = 0 := by
  unfold visLen cK
  split
  · simp only [Cells.cK]; rw [List.getElem?_eq_none h]; rfl
  · rfl

theorem visSize_eq (m : Mem) {n : Nat} (h : m.cells.length ≤ n) : visSize m = sumTo (visLen m) n :=
  (sumTo_zero n h (fun a ha => visLen_zero ha)).symm

theorem NoNew.visLen {m m' : Mem} (h : NoNew m m') (a : Nat) : visLen m' a ≤ visLen m a := by
  unfold Radix.Heap.visLen
  cases e : cK m' a with
  | none => simp
  | some ns => rw [h a ns e]; simp

theorem NoNew.size {m m' : Mem} (h : NoNew m m') : visSize m' ≤ visSize m := by
  rw [visSize_eq m (Nat.le_max_left _ m'.cells.length), visSize_eq m' (Nat.le_max_right m.cells.length _)]
  exact sumTo_le _ fun a _ => h.visLen a

theorem NoNew.size_free {m m' : Mem} {a : Nat} {ns : List Raw} (h : NoNew m m') (h1 : cK m a = some ns) (h2 : cK m' a = none) :
    visSize m' + ns.length ≤ visSize m := by
  have ha : a < max m.cells.length m'.cells.length := by
    rcases Nat.lt_or_ge a m.cells.length with h3 | h3
    · exact Nat.lt_of_lt_of_le h3 (Nat.le_max_left _ _)
    · have := (cK_some h1).2
      simp only [Cells.cK] at this
      rw [List.getElem?_eq_none h3] at this; cases this
  rw [visSize_eq m (Nat.le_max_left _ m'.cells.length), visSize_eq m' (Nat.le_max_right m.cells.length _)]
  have := sumTo_lt (b := a) _ ha (fun b => h.visLen b) (by unfold Radix.Heap.visLen; rw [h2]; rfl)
  have e : Radix.Heap.visLen m a = ns.length := by unfold Radix.Heap.visLen; rw [h1]; rfl
  omega

theorem NoNew.refl (m : Mem) : NoNew m m := fun _ _ h => h

theorem NoNew.trans {m m1 m2 : Mem} (h : NoNew m m1) (h' : NoNew m1 m2) : NoNew m m2 := fun a ns e => h a ns (h' a ns e)

/-- A bound for the number of nodes that the thread can reach. -/
theorem memSize_spec {m R} (hi : Inv m R) : ∃ n m', memSize m = some (n, m') ∧ Inv m' R ∧ Keep R m m' ∧ visSize m' ≤ n := by
  obtain ⟨h1, h2⟩ := hi.moved
  refine ⟨heapSize m.moved.cells, m.moved, run_do (change_of (x := .size) trivial rfl), h1,
    Keep.of_cells (fun r h => hi.mem h) (fun r h => hi.mem h) rfl (h2.mono fun r h => hi.mem_roots h), visSize_le _⟩

end Radix.Heap
