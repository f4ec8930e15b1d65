import Verif.Heap.Model

/- Reference counts: the invariant, reachability, and what the `Arc` steps keep, for all references together. -/

set_option linter.unusedVariables false

namespace Radix.Heap

/-- A counted reference. -/
inductive Ref where
  | blob (a : Nat)
  | kids (a : Nat)
  deriving DecidableEq

def Ref.addr : Ref → Nat
  | .blob a => a
  | .kids a => a

def Word.refs : Word → List Ref
  | .bytes _ => []
  | .blob a => [.blob a]
  | .kids a => [.kids a]

def Fld.refs (f : Fld) : List Ref := f.w.refs

def Raw.refs (x : Raw) : List Ref := x.pfx.refs ++ x.val.refs ++ x.ch.refs

def refsL (xs : List Raw) : List Ref := xs.flatMap Raw.refs

@[simp] theorem refsL_nil : refsL [] = [] := rfl
@[simp] theorem refsL_cons (x : Raw) (xs) : refsL (x :: xs) = x.refs ++ refsL xs := by simp [refsL]
@[simp] theorem refsL_append (xs ys) : refsL (xs ++ ys) = refsL xs ++ refsL ys := by simp [refsL]

def orefs : Option Cell → List Ref
  | some (.kids _ ns) => refsL ns
  | _ => []

def heapRefs : Heap → List Ref
  | [] => []
  | o :: h => orefs o ++ heapRefs h

def ocnt : Option (Option Cell) → Ref → Nat
  | some (some (.blob n _)), .blob _ => n
  | some (some (.kids n _)), .kids _ => n
  | _, _ => 0

/-- The strong count of what a reference refers to. -/
def cnt (h : Heap) (r : Ref) : Nat := ocnt h[r.addr]? r

/-- The reference to a cell at an address. -/
def Cell.ref : Cell → Nat → Ref
  | .blob _ _, a => .blob a
  | .kids _ _, a => .kids a

namespace Cells

def cB (h : Heap) (a : Nat) : Option Bytes :=
  match h[a]? with
  | some (some (.blob _ d)) => some d
  | _ => none

def cK (h : Heap) (a : Nat) : Option (List Raw) :=
  match h[a]? with
  | some (some (.kids _ ns)) => some ns
  | _ => none

/-- What a reference refers to. -/
def content (h : Heap) : Ref → Option (Bytes ⊕ List Raw)
  | .blob a => (cB h a).map .inl
  | .kids a => (cK h a).map .inr

/-- All references, those from outside (`R`) and those in memory, are counted, and nothing else is, except for empty arrays of children (which
`canonicalize` forgets). What is in memory has a count that is not zero, and refers only to what is older. -/
structure Inv (h : Heap) (R : List Ref) : Prop where
  le : ∀ r, R.count r + (heapRefs h).count r ≤ cnt h r
  eq : ∀ r, content h r ≠ some (.inr []) → R.count r + (heapRefs h).count r = cnt h r
  ord : ∀ a ns r, cK h a = some ns → r ∈ refsL ns → r.addr < a
  pos : ∀ r, content h r ≠ none → 1 ≤ cnt h r

/-- What can be reached from `R`. -/
inductive Reach (h : Heap) (R : List Ref) : Ref → Prop where
  | root {r} : r ∈ R → Reach h R r
  | step {a ns r} : Reach h R (.kids a) → cK h a = some ns → r ∈ refsL ns → Reach h R r

/-- Everything that can be reached from `R` is still there. -/
def Keep (R : List Ref) (h h' : Heap) : Prop := ∀ r, Reach h R r → content h' r = content h r

theorem Inv.mono {h R R'} (hi : Inv h R) (hc : ∀ r, R'.count r = R.count r) : Inv h R' :=
  ⟨fun r => by rw [hc]; exact hi.le r, fun r hr => by rw [hc]; exact hi.eq r hr, hi.ord, hi.pos⟩

/-- Forgetting an empty array of children. -/
theorem Inv.leak {h R a} (hi : Inv h (.kids a :: R)) (hc : cK h a = some []) : Inv h R := by
  refine ⟨fun r => ?_, fun r hr => ?_, hi.ord, hi.pos⟩
  · have := hi.le r; rw [List.count_cons] at this; omega
  · have := hi.eq r hr
    rw [List.count_cons] at this
    have h1 : (Ref.kids a == r) = false := by
      rw [beq_eq_false_iff_ne]
      intro h1; subst h1
      exact hr (by simp [content, hc])
    rw [h1] at this; simpa using this

/-- A step that changes counts and references alike. -/
theorem Inv.balance {h h' R R'} (hi : Inv h R)
    (hb : ∀ r, R'.count r + (heapRefs h').count r + cnt h r = R.count r + (heapRefs h).count r + cnt h' r)
    (hc : ∀ r, (content h' r = content h r ∧ (1 ≤ cnt h r → 1 ≤ cnt h' r)) ∨ (content h' r = none ∧ cnt h' r = 0)) : Inv h' R' := by
  have le : ∀ r, R'.count r + (heapRefs h').count r ≤ cnt h' r := fun r => by have := hi.le r; have := hb r; omega
  refine ⟨le, fun r hr => ?_, fun a ns r ha hr => ?_, fun r hr => ?_⟩
  · rcases hc r with ⟨h1, _⟩ | ⟨_, h1⟩
    · rw [h1] at hr; have := hi.eq r hr; have := hb r; omega
    · have := le r; omega
  · rcases hc (.kids a) with ⟨h1, _⟩ | ⟨h1, _⟩
    · refine hi.ord a ns r ?_ hr
      simp only [content, ha] at h1
      cases h2 : cK h a with
      | none => rw [h2] at h1; cases h1
      | some x => rw [h2] at h1; simp at h1; rw [h1]
    · simp [content, ha] at h1
  · rcases hc r with ⟨h1, h2⟩ | ⟨h1, _⟩
    · rw [h1] at hr; exact h2 (hi.pos r hr)
    · exact absurd h1 hr

theorem Reach.mono {h R R'} (hs : ∀ r ∈ R, r ∈ R') {r} (hr : Reach h R r) : Reach h R' r := by
  induction hr with
  | root h1 => exact .root (hs _ h1)
  | step _ h2 h3 ih => exact .step ih h2 h3

theorem Reach.trans {h R R'} (hs : ∀ r ∈ R, Reach h R' r) {r} (hr : Reach h R r) : Reach h R' r := by
  induction hr with
  | root h1 => exact hs _ h1
  | step _ h2 h3 ih => exact .step ih h2 h3

theorem Keep.mono {R R' h h'} (hk : Keep R' h h') (hs : ∀ r ∈ R, r ∈ R') : Keep R h h' :=
  fun r hr => hk r (hr.mono hs)

theorem Keep.mono_reach {R R' h h'} (hk : Keep R' h h') (hs : ∀ r ∈ R, Reach h R' r) : Keep R h h' :=
  fun r hr => hk r (hr.trans hs)

theorem content_cK {h h' a ns} (e : content h' (.kids a) = content h (.kids a)) (hc : cK h a = some ns) : cK h' a = some ns := by
  simp only [content, hc] at e
  cases h1 : cK h' a with
  | none => rw [h1] at e; simp at e
  | some x => rw [h1] at e; simp at e; rw [e]

theorem content_cB {h h' a d} (e : content h' (.blob a) = content h (.blob a)) (hc : cB h a = some d) : cB h' a = some d := by
  simp only [content, hc] at e
  cases h1 : cB h' a with
  | none => rw [h1] at e; simp at e
  | some x => rw [h1] at e; simp at e; rw [e]

theorem Keep.reach {R h h'} (hk : Keep R h h') {r} (hr : Reach h R r) : Reach h' R r := by
  induction hr with
  | root h1 => exact .root h1
  | step h1 h2 h3 ih => exact .step ih (content_cK (hk _ h1) h2) h3

theorem Keep.trans {R h h1 h2} (hk : Keep R h h1) (hk' : Keep R h1 h2) : Keep R h h2 :=
  fun r hr => (hk' r (hk.reach hr)).trans (hk r hr)

theorem Keep.refl (R h) : Keep R h h := fun _ _ => rfl

theorem mem_orefs {o : Option Cell} {h : Heap} {a : Nat} (e : h[a]? = some o) {r} (hr : r ∈ orefs o) : r ∈ heapRefs h := by
  induction h generalizing a with
  | nil => simp at e
  | cons o' h ih =>
    cases a with
    | zero => simp at e; subst e; simp [heapRefs, hr]
    | succ a => simp at e; simp [heapRefs, ih e]

theorem mem_heapRefs_of_cK {h a ns r} (e : cK h a = some ns) (hr : r ∈ refsL ns) : r ∈ heapRefs h := by
  unfold cK at e
  split at e
  · rename_i n ns' e1; cases e; exact mem_orefs e1 hr
  · cases e

theorem Reach.live {h R r} (hi : Inv h R) (hr : Reach h R r) : 1 ≤ cnt h r := by
  have := hi.le r
  cases hr with
  | root h1 => have := List.count_pos_iff.2 h1; omega
  | step _ h2 h3 => have := List.count_pos_iff.2 (mem_heapRefs_of_cK h2 h3); omega

theorem Reach.not {h R r} (h1 : R.count r = 0) (h2 : (heapRefs h).count r = 0) : ¬ Reach h R r := by
  intro hr
  cases hr with
  | root h3 => have := List.count_pos_iff.2 h3; omega
  | step _ h4 h5 => have := List.count_pos_iff.2 (mem_heapRefs_of_cK h4 h5); omega

theorem live_blob {h a} (e : 1 ≤ cnt h (.blob a)) : ∃ n d, h[a]? = some (some (.blob (n + 1) d)) := by
  simp only [cnt, Ref.addr] at e
  cases h1 : h[a]? with
  | none => rw [h1] at e; simp [ocnt] at e
  | some o =>
    rw [h1] at e
    cases o with
    | none => simp [ocnt] at e
    | some c =>
      cases c with
      | kids n ns => simp [ocnt] at e
      | blob n d =>
        simp only [ocnt] at e
        obtain ⟨m, rfl⟩ : ∃ m, n = m + 1 := ⟨n - 1, by omega⟩
        exact ⟨m, d, rfl⟩

theorem live_kids {h a} (e : 1 ≤ cnt h (.kids a)) : ∃ n ns, h[a]? = some (some (.kids (n + 1) ns)) := by
  simp only [cnt, Ref.addr] at e
  cases h1 : h[a]? with
  | none => rw [h1] at e; simp [ocnt] at e
  | some o =>
    rw [h1] at e
    cases o with
    | none => simp [ocnt] at e
    | some c =>
      cases c with
      | blob n ns => simp [ocnt] at e
      | kids n d =>
        simp only [ocnt] at e
        obtain ⟨m, rfl⟩ : ∃ m, n = m + 1 := ⟨n - 1, by omega⟩
        exact ⟨m, d, rfl⟩

theorem cB_of {h a n d} (e : h[a]? = some (some (.blob n d))) : cB h a = some d := by simp [cB, e]
theorem cK_of {h a n d} (e : h[a]? = some (some (.kids n d))) : cK h a = some d := by simp [cK, e]

/-! ### Changing one cell -/

theorem count_heapRefs_set {h : Heap} {a o} (e : h[a]? = some o) (o' : Option Cell) (r : Ref) :
    (heapRefs (h.set a o')).count r + (orefs o).count r = (heapRefs h).count r + (orefs o').count r := by
  induction h generalizing a with
  | nil => simp at e
  | cons x h ih =>
    cases a with
    | zero => simp at e; subst e; simp [heapRefs, List.count_append]; omega
    | succ a => simp at e; have := ih e; simp [heapRefs, List.count_append]; omega

theorem count_heapRefs_append (h : Heap) (o : Option Cell) (r : Ref) :
    (heapRefs (h ++ [o])).count r = (heapRefs h).count r + (orefs o).count r := by
  induction h with
  | nil => simp [heapRefs]
  | cons x h ih => simp [heapRefs, List.count_append, ih]; omega

theorem cnt_set {h : Heap} {a o} (e : h[a]? = some o) (o' : Option Cell) (r : Ref) :
    cnt (h.set a o') r = if r.addr = a then ocnt (some o') r else cnt h r := by
  have hl : a < h.length := by
    rcases Nat.lt_or_ge a h.length with h1 | h1
    · exact h1
    · rw [List.getElem?_eq_none h1] at e; cases e
  unfold cnt
  by_cases h1 : r.addr = a
  · rw [if_pos h1, h1, List.getElem?_set_self hl]
  · rw [if_neg h1, List.getElem?_set_ne (fun h2 => h1 h2.symm)]

theorem get_set_of_ne {h : Heap} {a b : Nat} (hne : b ≠ a) (o') : (h.set a o')[b]? = h[b]? :=
  List.getElem?_set_ne (fun h2 => hne h2.symm)

theorem cB_congr {h h' : Heap} {a} (e : h'[a]? = h[a]?) : cB h' a = cB h a := by simp [cB, e]
theorem cK_congr {h h' : Heap} {a} (e : h'[a]? = h[a]?) : cK h' a = cK h a := by simp [cK, e]

theorem content_congr {h h' : Heap} {r : Ref} (e : h'[r.addr]? = h[r.addr]?) : content h' r = content h r := by
  cases r with
  | blob a => simp only [Ref.addr] at e; simp [content, cB_congr e]
  | kids a => simp only [Ref.addr] at e; simp [content, cK_congr e]

theorem lt_of_get {h : Heap} {a o} (e : h[a]? = some o) : a < h.length := by
  rcases Nat.lt_or_ge a h.length with h1 | h1
  · exact h1
  · rw [List.getElem?_eq_none h1] at e; cases e

theorem content_set_blob {h : Heap} {a n d} (e : h[a]? = some (some (.blob n d))) (m : Nat) (r : Ref) :
    content (h.set a (some (.blob m d))) r = content h r := by
  by_cases h1 : r.addr = a
  · subst h1
    have h2 := List.getElem?_set_self (a := some (Cell.blob m d)) (lt_of_get e)
    cases r <;> simp only [Ref.addr] at * <;> simp [content, cB, cK, e, h2]
  · exact content_congr (get_set_of_ne h1 _)

theorem content_set_kids {h : Heap} {a n d} (e : h[a]? = some (some (.kids n d))) (m : Nat) (r : Ref) :
    content (h.set a (some (.kids m d))) r = content h r := by
  by_cases h1 : r.addr = a
  · subst h1
    have h2 := List.getElem?_set_self (a := some (Cell.kids m d)) (lt_of_get e)
    cases r <;> simp only [Ref.addr] at * <;> simp [content, cB, cK, e, h2]
  · exact content_congr (get_set_of_ne h1 _)

def cellOrefs (h : Heap) (a : Nat) : List Ref := orefs ((h[a]?).getD none)

theorem heapRefs_congr : ∀ (h h' : Heap), (∀ a, cellOrefs h' a = cellOrefs h a) → ∀ r, (heapRefs h').count r = (heapRefs h).count r
  | [], [], _, _ => rfl
  | [], o :: h', e, r => by
    have h0 := e 0
    simp [cellOrefs, orefs] at h0
    have := heapRefs_congr [] h' (fun a => by have := e (a + 1); simpa [cellOrefs] using this) r
    have h1 : orefs o = [] := by unfold orefs; split <;> simp_all
    simp [heapRefs, h1] at this ⊢; exact this
  | o :: h, [], e, r => by
    have h0 := e 0
    simp [cellOrefs, orefs] at h0
    have := heapRefs_congr h [] (fun a => by have := e (a + 1); simpa [cellOrefs] using this) r
    have h1 : orefs o = [] := by unfold orefs; split <;> simp_all
    simp [heapRefs, h1] at this ⊢; exact this
  | o :: h, o' :: h', e, r => by
    have h0 := e 0
    simp [cellOrefs] at h0
    have := heapRefs_congr h h' (fun a => by have := e (a + 1); simpa [cellOrefs] using this) r
    simp [heapRefs, List.count_append, h0, this]

theorem cellOrefs_cK (h : Heap) (a : Nat) : cellOrefs h a = ((cK h a).map refsL).getD [] := by
  unfold cellOrefs cK
  rcases h[a]? with _ | _ | ⟨_ | _⟩ <;> rfl

theorem heapRefs_content {h h' : Heap} (hc : ∀ r, content h' r = content h r) (r : Ref) : (heapRefs h').count r = (heapRefs h).count r := by
  refine heapRefs_congr h h' (fun a => ?_) r
  rw [cellOrefs_cK, cellOrefs_cK]
  have := hc (.kids a)
  simp only [content] at this
  rcases h1 : cK h a with _ | x <;> rcases h2 : cK h' a with _ | y <;> rw [h1, h2] at this <;> simp at this
  all_goals first | rfl | rw [this]

/-! ### The `Arc` operations -/

theorem Inv.cnt_pos {h R r} (hi : Inv h R) (hr : r ∈ R) : 1 ≤ cnt h r := Reach.live hi (.root hr)

theorem cnt_self_blob {h : Heap} {a n d} (e : h[a]? = some (some (.blob n d))) : cnt h (.blob a) = n ∧ cnt h (.kids a) = 0 := by
  simp [cnt, Ref.addr, e, ocnt]

theorem cnt_self_kids {h : Heap} {a n d} (e : h[a]? = some (some (.kids n d))) : cnt h (.kids a) = n ∧ cnt h (.blob a) = 0 := by
  simp [cnt, Ref.addr, e, ocnt]

theorem beq_ref_of_addr {r : Ref} {a : Nat} (h : r.addr ≠ a) : (Ref.blob a == r) = false ∧ (Ref.kids a == r) = false := by
  cases r <;> simp [Ref.addr] at * <;> exact fun h1 => h h1.symm

theorem incBlob_spec {h R a} (hi : Inv h R) (hl : 1 ≤ cnt h (.blob a)) :
    ∃ h', (Act.incBlob a).exec h = some ((), h') ∧ Inv h' (.blob a :: R) ∧ ∀ r, content h' r = content h r := by
  obtain ⟨n, d, e⟩ := live_blob hl
  have hc := content_set_blob e (n + 1 + 1)
  have hcnt : ∀ r, cnt (h.set a (some (.blob (n + 1 + 1) d))) r = cnt h r + if Ref.blob a == r then 1 else 0 := by
    intro r
    rw [cnt_set e]
    by_cases h3 : r.addr = a
    · subst h3; cases r <;> simp only [Ref.addr] at e ⊢ <;> simp [ocnt, cnt_self_blob e]
    · rw [if_neg h3, (beq_ref_of_addr h3).1]; simp
  refine ⟨_, by simp only [Act.exec, e] <;> rfl, hi.balance (fun r => ?_) (fun r => .inl ⟨hc r, fun h1 => by rw [hcnt]; omega⟩), hc⟩
  have h1 := count_heapRefs_set e (some (.blob (n + 1 + 1) d)) r
  rw [hcnt]
  simp only [orefs, List.count_nil, List.count_cons] at h1 ⊢
  omega

theorem incKids_spec {h R a} (hi : Inv h R) (hl : 1 ≤ cnt h (.kids a)) :
    ∃ h', (Act.incKids a).exec h = some ((), h') ∧ Inv h' (.kids a :: R) ∧ ∀ r, content h' r = content h r := by
  obtain ⟨n, d, e⟩ := live_kids hl
  have hc := content_set_kids e (n + 1 + 1)
  have hcnt : ∀ r, cnt (h.set a (some (.kids (n + 1 + 1) d))) r = cnt h r + if Ref.kids a == r then 1 else 0 := by
    intro r
    rw [cnt_set e]
    by_cases h3 : r.addr = a
    · subst h3; cases r <;> simp only [Ref.addr] at e ⊢ <;> simp [ocnt, cnt_self_kids e]
    · rw [if_neg h3, (beq_ref_of_addr h3).2]; simp
  refine ⟨_, by simp only [Act.exec, e] <;> rfl, hi.balance (fun r => ?_) (fun r => .inl ⟨hc r, fun h1 => by rw [hcnt]; omega⟩), hc⟩
  have h1 := count_heapRefs_set e (some (.kids (n + 1 + 1) d)) r
  rw [hcnt]
  simp only [orefs, List.count_nil, List.count_cons] at h1 ⊢
  omega

theorem Keep.of_content {R h h'} (hc : ∀ r, content h' r = content h r) : Keep R h h' := fun r _ => hc r

theorem content_none_set {h : Heap} {a : Nat} {o} (e : h[a]? = some o) {r : Ref} (hr : r.addr = a) : content (h.set a none) r = none ∧ cnt (h.set a none) r = 0 := by
  have h2 : (h.set a none)[a]? = some none := List.getElem?_set_self (lt_of_get e)
  subst hr
  cases r <;> simp only [Ref.addr] at h2 <;> simp [content, cB, cK, cnt, Ref.addr, h2, ocnt]

theorem decBlob_spec {h R a} (hi : Inv h (.blob a :: R)) : ∃ h', (Act.decBlob a).exec h = some ((), h') ∧ Inv h' R ∧ Keep R h h' := by
  obtain ⟨n, d, e⟩ := live_blob (hi.cnt_pos (List.mem_cons_self ..))
  refine ⟨h.set a (if n = 0 then none else some (.blob n d)), by simp only [Act.exec, e] <;> rfl, ?_, ?_⟩
  · have hcnt : ∀ r, cnt (h.set a (if n = 0 then none else some (.blob n d))) r + (if Ref.blob a == r then 1 else 0) = cnt h r := by
      intro r
      rw [cnt_set e]
      by_cases h3 : r.addr = a
      · subst h3
        by_cases hn : n = 0
        · rw [if_pos hn]; cases r <;> simp only [Ref.addr] at e ⊢ <;> simp [ocnt, cnt_self_blob e, hn]
        · rw [if_neg hn]; cases r <;> simp only [Ref.addr] at e ⊢ <;> simp [ocnt, cnt_self_blob e]
      · rw [if_neg h3, (beq_ref_of_addr h3).1]; simp
    refine hi.balance (fun r => ?_) (fun r => ?_)
    · have h1 := count_heapRefs_set e (if n = 0 then none else some (.blob n d)) r
      have h0 : orefs (if n = 0 then none else some (.blob n d)) = [] := by split <;> rfl
      rw [h0] at h1
      have h2 := hcnt r
      simp only [orefs, List.count_nil, List.count_cons] at h1 ⊢
      omega
    · by_cases h3 : r.addr = a
      · by_cases hn : n = 0
        · rw [if_pos hn]; exact .inr (content_none_set e h3)
        · rw [if_neg hn]
          refine .inl ⟨content_set_blob e n r, fun h4 => ?_⟩
          rw [cnt_set e, if_pos h3]
          subst h3
          cases r <;> simp only [Ref.addr] at e h4 ⊢ <;> simp [ocnt, cnt_self_blob e] at h4 ⊢; omega
      · exact .inl ⟨content_congr (get_set_of_ne h3 _), fun h4 => by rw [cnt_set e, if_neg h3]; exact h4⟩
  · by_cases hn : n = 0
    · subst hn
      intro r hr
      by_cases h3 : r.addr = a
      · exfalso
        have h2 := hi.le r
        cases r with
        | blob b =>
          simp only [Ref.addr] at h3; subst h3
          simp only [cnt, Ref.addr, e, ocnt, List.count_cons] at h2
          simp at h2
          exact Reach.not (by omega) (by omega) hr
        | kids b =>
          simp only [Ref.addr] at h3; subst h3
          simp only [cnt, Ref.addr, e, ocnt, List.count_cons] at h2
          simp at h2
          exact Reach.not (by omega) (by omega) hr
      · exact content_congr (get_set_of_ne h3 _)
    · rw [if_neg hn]
      exact Keep.of_content (content_set_blob e n)

theorem decKids_spec {h R a} (hi : Inv h (.kids a :: R)) :
    ∃ (ns : List Raw) (h' : Heap), (Act.decKids a).exec h = some (ns, h') ∧ Inv h' (refsL ns ++ R) ∧ Keep (refsL ns ++ R) h h' ∧ Keep R h h' ∧
      (∀ xs, cK h a = some xs → ns = xs ∨ ns = []) ∧ heapSize h' + ns.length = heapSize h ∧ (2 ≤ cnt h (.kids a) → ns = []) ∧ (ns ≠ [] → cK h' a = none) := by
  obtain ⟨n, d, e⟩ := live_kids (hi.cnt_pos (List.mem_cons_self ..))
  have hkeep : ∀ R', (∀ r ∈ R', r ∈ (if n = 0 then refsL d else []) ++ R) → Keep R' h (h.set a (if n = 0 then none else some (.kids n d))) := by
    intro R' hR'
    by_cases hn : n = 0
    · subst hn
      intro r hr
      by_cases h3 : r.addr = a
      · exfalso
        have h2 := hi.le r
        have h4 : ∀ r, r ∈ R' → r ∈ heapRefs h ∨ r ∈ R := by
          intro r hr
          have := hR' r hr
          simp only [if_true, List.mem_append] at this
          rcases this with h5 | h5
          · exact .inl (mem_heapRefs_of_cK (cK_of e) h5)
          · exact .inr h5
        have h6 : List.count r (.kids a :: R) + (heapRefs h).count r ≤ 1 → r.addr = a → R'.count r = 0 ∧ (heapRefs h).count r = 0 := by
          intro h7 h8
          have h9 : (heapRefs h).count r = 0 ∧ R.count r = 0 := by
            cases r with
            | blob b =>
              simp only [Ref.addr] at h8; subst h8
              have := hi.le (.blob b)
              simp only [cnt, Ref.addr, e, ocnt, List.count_cons] at this
              simp at this; simp [this]
            | kids b =>
              simp only [Ref.addr] at h8; subst h8
              simp only [List.count_cons] at h7
              simp at h7; omega
          refine ⟨?_, h9.1⟩
          rcases Nat.eq_zero_or_pos (R'.count r) with h10 | h10
          · exact h10
          · exfalso
            rcases h4 r (List.count_pos_iff.1 h10) with h11 | h11
            · have := List.count_pos_iff.2 h11; omega
            · have := List.count_pos_iff.2 h11; omega
        have h12 : cnt h r ≤ 1 := by
          unfold cnt; rw [h3, e]; cases r <;> simp [ocnt]
        have h13 := h6 (by omega) h3
        exact Reach.not h13.1 h13.2 hr
      · exact content_congr (get_set_of_ne h3 _)
    · rw [if_neg hn]
      exact Keep.of_content (content_set_kids e n)
  have hsz : ∀ (h : Heap) (a : Nat), h[a]? = some (some (.kids (n + 1) d)) →
      heapSize (h.set a (if n = 0 then none else some (.kids n d))) + (if n = 0 then d else []).length = heapSize h := by
    intro h
    induction h with
    | nil => intro a e; simp at e
    | cons x h ih =>
      intro a e
      cases a with
      | zero =>
        simp at e; subst e
        by_cases hn : n = 0
        · simp [hn, heapSize]; omega
        · simp [hn, heapSize]
      | succ a =>
        simp at e
        have := ih a e
        rcases x with _ | x | x <;> simp [heapSize] <;> omega
  refine ⟨(if n = 0 then d else [] : List Raw), h.set a (if n = 0 then none else some (.kids n d)), by simp only [Act.exec, e] <;> rfl, ?_, ?_, ?_, ?_, ?_, ?_, ?_⟩
  · have hcnt : ∀ r, cnt (h.set a (if n = 0 then none else some (.kids n d))) r + (if Ref.kids a == r then 1 else 0) = cnt h r := by
      intro r
      rw [cnt_set e]
      by_cases h3 : r.addr = a
      · subst h3
        by_cases hn : n = 0
        · rw [if_pos hn]; cases r <;> simp only [Ref.addr] at e ⊢ <;> simp [ocnt, cnt_self_kids e, hn]
        · rw [if_neg hn]; cases r <;> simp only [Ref.addr] at e ⊢ <;> simp [ocnt, cnt_self_kids e]
      · rw [if_neg h3, (beq_ref_of_addr h3).2]; simp
    refine hi.balance (fun r => ?_) (fun r => ?_)
    · have h1 := count_heapRefs_set e (if n = 0 then none else some (.kids n d)) r
      have h00 : orefs (some (.kids (n + 1) d)) = refsL d := rfl
      rw [h00] at h1
      have h4 : (orefs (if n = 0 then none else some (.kids n d))).count r + (refsL (if n = 0 then d else [])).count r = (refsL d).count r := by
        by_cases hn : n = 0
        · simp [hn, orefs]
        · simp [hn, orefs]
      have h2 := hcnt r
      simp only [List.count_append, List.count_cons] at h1 ⊢
      omega
    · by_cases h3 : r.addr = a
      · by_cases hn : n = 0
        · rw [if_pos hn]; exact .inr (content_none_set e h3)
        · rw [if_neg hn]
          refine .inl ⟨content_set_kids e n r, fun h4 => ?_⟩
          rw [cnt_set e, if_pos h3]
          subst h3
          cases r <;> simp only [Ref.addr] at e h4 ⊢ <;> simp [ocnt, cnt_self_kids e] at h4 ⊢; omega
      · exact .inl ⟨content_congr (get_set_of_ne h3 _), fun h4 => by rw [cnt_set e, if_neg h3]; exact h4⟩
  · refine hkeep _ ?_
    intro r hr
    by_cases hn : n = 0
    · simpa [hn] using hr
    · simpa [hn] using hr
  · exact hkeep _ (fun r hr => List.mem_append_right _ hr)
  · intro xs hxs
    rw [cK_of e] at hxs; cases hxs
    by_cases hn : n = 0
    · simp [hn]
    · simp [hn]
  · exact hsz h a e
  · intro h1
    rw [(cnt_self_kids e).1] at h1
    rw [if_neg (by omega)]
  · intro h1
    by_cases hn : n = 0
    · have := (content_none_set e (r := .kids a) rfl).1
      rw [if_pos hn]
      simp only [content, Option.map_eq_none_iff] at this
      exact this
    · rw [if_neg hn] at h1; exact absurd rfl h1

theorem alloc_spec {h R} (c : Cell) (hc : ∀ r, cnt [some c] r ≤ 1) (h1 : ocnt (some (some c)) (.blob 0) + ocnt (some (some c)) (.kids 0) = 1)
    (hi : Inv h (orefs (some c) ++ R)) :
    (Act.alloc c).exec h = some (h.length, h ++ [some c]) ∧ (h ++ [some c])[h.length]? = some (some c) ∧
      Inv (h ++ [some c]) (c.ref h.length :: R) ∧
      Keep (orefs (some c) ++ R) h (h ++ [some c]) := by
  have hget : (h ++ [some c])[h.length]? = some (some c) := by simp
  have hlt : ∀ r : Ref, 1 ≤ cnt h r → r.addr < h.length := by
    intro r hr
    rcases Nat.lt_or_ge r.addr h.length with h2 | h2
    · exact h2
    · unfold cnt at hr; rw [List.getElem?_eq_none h2] at hr; cases r <;> simp [ocnt] at hr
  refine ⟨rfl, hget, ?_, ?_⟩
  · have hcnt : ∀ r, cnt (h ++ [some c]) r = cnt h r + if c.ref h.length == r then 1 else 0 := by
      intro r
      rcases Nat.lt_trichotomy r.addr h.length with h3 | h3 | h3
      · have h4 : cnt (h ++ [some c]) r = cnt h r := by unfold cnt; rw [List.getElem?_append_left h3]
        have h5 : (c.ref h.length == r) = false := by
          cases c <;> cases r <;> simp [Ref.addr, Cell.ref] at * <;> omega
        rw [h4, h5]; simp
      · have h4 : cnt (h ++ [some c]) r = ocnt (some (some c)) r := by unfold cnt; rw [h3, hget]
        have h5 : cnt h r = 0 := by
          rcases Nat.eq_zero_or_pos (cnt h r) with h6 | h6
          · exact h6
          · have := hlt r h6; omega
        rw [h4]
        cases c <;> cases r <;> simp only [Ref.addr] at h3 <;> subst h3 <;> simp [ocnt, Cell.ref] at h1 h5 ⊢ <;> omega
      · have h4 : cnt h r = 0 := by
          rcases Nat.eq_zero_or_pos (cnt h r) with h6 | h6
          · exact h6
          · have := hlt r h6; omega
        have h6 : cnt (h ++ [some c]) r = 0 := by
          unfold cnt; rw [List.getElem?_eq_none (by simp; omega)]; cases r <;> rfl
        have h5 : (c.ref h.length == r) = false := by
          cases c <;> cases r <;> simp [Ref.addr, Cell.ref] at * <;> omega
        rw [h4, h5, h6]; simp
    have hbal : ∀ r, (c.ref h.length :: R).count r + (heapRefs (h ++ [some c])).count r + cnt h r =
        (orefs (some c) ++ R).count r + (heapRefs h).count r + cnt (h ++ [some c]) r := by
      intro r
      rw [count_heapRefs_append, hcnt]
      simp only [List.count_append, List.count_cons]
      omega
    have hold : ∀ r : Ref, r.addr ≠ h.length → content (h ++ [some c]) r = content h r := by
      intro r h3
      rcases Nat.lt_or_gt_of_ne h3 with h4 | h4
      · exact content_congr (List.getElem?_append_left h4)
      · have h5 : h.length < r.addr := h4
        exact content_congr (by rw [List.getElem?_eq_none (l := h) (by omega), List.getElem?_eq_none (by rw [List.length_append, List.length_singleton]; omega)])
    have hnew : ∀ r : Ref, r.addr = h.length → content h r = none := by
      intro r h3
      have h4 : h[r.addr]? = none := List.getElem?_eq_none (by omega)
      cases r <;> simp only [Ref.addr] at h4 <;> simp [content, cB, cK, h4]
    have hle : ∀ r, (c.ref h.length :: R).count r + (heapRefs (h ++ [some c])).count r ≤ cnt (h ++ [some c]) r := by
      intro r; have := hi.le r; have := hbal r; omega
    refine ⟨hle, fun r hr => ?_, fun a ns r ha hr => ?_, fun r hr => ?_⟩
    · by_cases h3 : r.addr = h.length
      · have := hi.eq r (by rw [hnew r h3]; simp); have := hbal r; omega
      · have := hi.eq r (by rw [← hold r h3]; exact hr); have := hbal r; omega
    · by_cases h3 : a = h.length
      · subst h3
        have h5 : orefs (some c) = refsL ns := by
          simp only [cK, hget] at ha
          cases c with
          | blob _ _ => cases ha
          | kids n d => cases ha; rfl
        refine hlt r (Reach.live hi (.root ?_))
        rw [h5]; exact List.mem_append_left _ hr
      · exact hi.ord a ns r (content_cK (hold (.kids a) h3).symm ha) hr
    · by_cases h3 : r.addr = h.length
      · rw [hcnt]
        have h5 : (c.ref h.length == r) = true := by
          cases c <;> cases r <;> simp only [Ref.addr] at h3 <;> subst h3 <;> simp [content, cB, cK, hget, Cell.ref] at hr ⊢
        rw [h5]; simp
      · have := hi.pos r (by rw [← hold r h3]; exact hr)
        rw [hcnt]; omega
  · intro r hr
    have := hlt r (hr.live hi)
    exact content_congr (List.getElem?_append_left this)

theorem allocBlob_spec {h R} (d : Bytes) (hi : Inv h R) : ∃ a h', (Act.alloc (.blob 1 d)).exec h = some (a, h') ∧ cB h' a = some d ∧
    Inv h' (.blob a :: R) ∧ Keep R h h' := by
  obtain ⟨h1, h2, h3, h4⟩ := alloc_spec (R := R) (.blob 1 d) (by intro r; rcases r with a | a <;> rcases a with _ | a <;> simp [cnt, ocnt, Ref.addr]) rfl (by simpa [orefs] using hi)
  exact ⟨_, _, h1, cB_of h2, h3, h4.mono (by simp [orefs])⟩

theorem allocKids_spec {h R} (d : List Raw) (hi : Inv h (refsL d ++ R)) : ∃ a h', (Act.alloc (.kids 1 d)).exec h = some (a, h') ∧ cK h' a = some d ∧
    Inv h' (.kids a :: R) ∧ Keep (refsL d ++ R) h h' := by
  obtain ⟨h1, h2, h3, h4⟩ := alloc_spec (R := R) (.kids 1 d) (by intro r; rcases r with a | a <;> rcases a with _ | a <;> simp [cnt, ocnt, Ref.addr]) rfl (by simpa [orefs] using hi)
  exact ⟨_, _, h1, cK_of h2, h3, h4⟩

end Cells

end Radix.Heap
