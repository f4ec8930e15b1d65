import Verif.Proofs.BlobPagedCalls

/-
`PagingFile` keeps to the rules of memory: its last page is changed in place only if no blob shows it.
-/

set_option linter.unusedVariables false

namespace Radix.Blobs
namespace Pg
open Radix.Paged (View)
open Radix.Browser (Out Range Ev)
open Radix.Browser.Paging (P Inner lift)

variable {α β : Type}

/-- What a call does and returns does not depend on the pages, and it does not change them. -/
def Indep (x : P α) : Prop := ∀ (w : Inner) (f : List (Nat × Bytes)) (l : Bytes),
  x { w with fullPages := f, lastPage := l } = ((x w).1, { (x w).2 with fullPages := f, lastPage := l })

/-- The store in memory and the store with values. -/
structure BRel (m : Mem) (t : BState) (s : Inner) : Prop where
  base : t.base = { s with fullPages := [], lastPage := [] }
  last : m.get t.last = some (.vec s.lastPage)
  full : ∀ p, match find t.full p with
    | some a => ∃ bs, s.get p = some bs ∧ m.get a = some (.vec bs)
    | none => s.get p = none

/-- The references of the pages. -/
def brefs (t : BState) : List Nat := t.last :: t.full.map (·.2)

theorem brel_mono {m m' : Mem} {t : BState} {s : Inner} (h : BRel m t s) (hg : ∀ a ∈ brefs t, m'.get a = m.get a) : BRel m' t s := by
  refine ⟨h.base, by rw [hg t.last (by simp [brefs])]; exact h.last, fun p => ?_⟩
  have := h.full p
  split
  · rename_i a e
    rw [e] at this
    obtain ⟨bs, h1, h2⟩ := this
    exact ⟨bs, h1, by rw [hg a (List.mem_cons_of_mem _ (find_mem e))]; exact h2⟩
  · rename_i e
    rw [e] at this
    exact this

/-- A call of the model without memory. -/
def plP (x : P β) : Pl Inner β := fun s =>
  (match (x s).1 with | .ok a => .ok a | .err => .err | .panic => .panic | .crash => .crash, (x s).2)

theorem plP_bind (x : P α) (f : α → P β) : plP (x >>= f) = (plP x).bind (fun a => plP (f a)) := by
  funext s
  have e0 : (x >>= f) s = Browser.Paging.P.bind x f s := rfl
  unfold plP Pl.bind
  rw [e0]
  unfold Browser.Paging.P.bind
  dsimp only
  rcases x s with ⟨o, s'⟩
  cases o <;> rfl

abbrev BRef (hold : α → List Nat) (same : Mem → BState → Inner → α → β → Prop) (H : List Nat) (pre : Mem → BState → Inner → Prop)
    (x : Act BState α) (y : P β) : Prop := Ref brefs BRel false hold same H pre x (plP y)

theorem bref_bind {α' β' : Type} {hold1 : α → List Nat} {same1 : Mem → BState → Inner → α → β → Prop} {hold2 : α' → List Nat}
    {same2 : Mem → BState → Inner → α' → β' → Prop} {H : List Nat} {pre : Mem → BState → Inner → Prop} {x : Act BState α} {y : P β}
    {f : α → Act BState α'} {g : β → P β'}
    (hx : BRef hold1 same1 H pre x y)
    (hf : ∀ a b, BRef hold2 same2 (hold1 a) (fun m t s => same1 m t s a b) (f a) (g b)) :
    BRef hold2 same2 H pre (x >>= f) (y >>= g) := by
  unfold BRef
  rw [plP_bind]
  exact ref_bind hx hf

theorem bref_use {hold : α → List Nat} {same : Mem → BState → Inner → α → β → Prop} {H : List Nat} {pre : Mem → BState → Inner → Prop}
    {x : Act BState α} {y : P β} {Q : Prop} (hp : ∀ m t s, pre m t s → Q) (h : Q → BRef hold same H pre x y) : BRef hold same H pre x y :=
  fun rest m t s hi hr hq => h (hp m t s hq) rest m t s hi hr hq

theorem bref_pre {hold : α → List Nat} {same : Mem → BState → Inner → α → β → Prop} {H : List Nat} {pre pre' : Mem → BState → Inner → Prop}
    {x : Act BState α} {y : P β} (h : BRef hold same H pre x y) (hp : ∀ m t s, BRel m t s → pre' m t s → pre m t s) :
    BRef hold same H pre' x y :=
  fun rest m t s hi hr hq => h rest m t s hi hr (hp m t s hr hq)

theorem bref_pure {hold : α → List Nat} {same : Mem → BState → Inner → α → β → Prop} {pre : Mem → BState → Inner → Prop} {a : α} {b : β}
    (hh : hold a = []) (h : ∀ m t s, pre m t s → same m t s a b) : BRef hold same [] pre (pure a) (pure b) := by
  have := ref_pure (refs := brefs) (R := BRel) (go := false) (hold := hold) (same := same) (pre := pre) (a := a) (b := b) (fun m t s _ => h m t s)
  rw [hh] at this
  exact this

/-- Panics end the store. -/
theorem bref_panic {hold : α → List Nat} {same : Mem → BState → Inner → α → β → Prop} {H : List Nat} {pre : Mem → BState → Inner → Prop} :
    BRef hold same H pre Act.panic (lift .panic) :=
  fun rest m t s hi hr hp => ⟨.panic, t, m, rfl, fun h => by cases h⟩

theorem bref_self {hold : α → List Nat} {same : Mem → BState → Inner → α → β → Prop} {H : List Nat} {pre : Mem → BState → Inner → Prop}
    {f : BState → Act BState α} {g : Inner → P β}
    (h : ∀ t0 s0, t0.base = { s0 with fullPages := [], lastPage := [] } →
      BRef hold same H (fun m t s => pre m t s ∧ t = t0 ∧ s = s0) (f t0) (g s0)) :
    BRef hold same H pre (Act.self >>= f) (Browser.Paging.self >>= g) := by
  refine ref_self (g := fun s0 => plP (g s0)) (fun s => rfl) fun t0 s0 => ?_
  intro rest m t s hi hr hp
  exact h t0 s0 (by rw [← hp.2.1, ← hp.2.2]; exact hr.base) rest m t s hi hr hp

/-- A computation that does not touch the state keeps what is known. -/
theorem bref_lift (o : Out α) {pre : Mem → BState → Inner → Prop} :
    BRef no (fun m t s a b => a = b ∧ pre m t s) [] pre (ofP (lift o)) (lift o) := by
  intro rest m t s hi hr hp
  refine ⟨_, _, _, rfl, ?_⟩
  cases o with
  | ok a => exact ⟨⟨rfl, hp⟩, hi, hr, fun _ _ => rfl⟩
  | err => exact ⟨hi, hr, fun _ _ => rfl⟩
  | panic => exact fun h => by cases h
  | crash => trivial

/-- As `bref_lift`, with the rest of the call. -/
theorem bref_lift_bind {α' β' : Type} {hold : α' → List Nat} {same : Mem → BState → Inner → α' → β' → Prop} (o : Out α)
    {pre : Mem → BState → Inner → Prop} {f : α → Act BState α'} {g : α → P β'} (h : ∀ a, BRef hold same [] pre (f a) (g a)) :
    BRef hold same [] pre (ofP (lift o) >>= f) (lift o >>= g) :=
  bref_bind (bref_lift o) fun a b => bref_use (Q := a = b) (fun m t s hp => hp.1) fun e => by
    subst e
    exact bref_pre (h a) (fun m t s _ hp => hp.2)

theorem indep_last {x : P α} (h : Indep x) (s : Inner) : (x s).2.lastPage = s.lastPage ∧ (x s).2.fullPages = s.fullPages := by
  have e : x s = ((x s).1, { (x s).2 with fullPages := s.fullPages, lastPage := s.lastPage }) := h s s.fullPages s.lastPage
  have e2 := congrArg (fun r => r.2) e
  dsimp only at e2
  exact ⟨by rw [e2], by rw [e2]⟩

/-- A part that does not use the pages. What is known of the pages in memory is still known. -/
theorem bref_ofP {x : P α} (h : Indep x) {Q : Mem → Nat → List (Nat × Nat) → Bytes → Prop} :
    BRef no (fun m t s a b => a = b ∧ Q m t.last t.full s.lastPage) [] (fun m t s => Q m t.last t.full s.lastPage) (ofP x) x := by
  intro rest m t s hi hr hp
  have h1 : x t.base = ((x s).1, { (x s).2 with fullPages := [], lastPage := [] }) := by
    rw [hr.base]; exact h s [] []
  obtain ⟨h2, h3⟩ := indep_last h s
  have hr' : BRel m { t with base := (x t.base).2 } (x s).2 := by
    refine ⟨by dsimp only; rw [h1], by rw [h2]; exact hr.last, fun p => ?_⟩
    have := hr.full p
    unfold Browser.Paging.Inner.get at this ⊢
    rw [h3]
    exact this
  refine ⟨_, _, _, rfl, ?_⟩
  unfold plP Post
  rw [h1] at hr' ⊢
  cases e : (x s).1 with
  | ok a => exact ⟨⟨rfl, by rw [h2]; exact hp⟩, hi, hr', fun _ _ => rfl⟩
  | err => exact ⟨hi, hr', fun _ _ => rfl⟩
  | panic => exact fun h => by cases h
  | crash => trivial

theorem indep_call (f : List Ev → Browser.Call) : Indep (Browser.Paging.call f) := fun w p l => rfl

theorem indep_lift (o : Out α) : Indep (lift o) := fun w p l => rfl

theorem indep_pure (a : α) : Indep (pure a : P α) := fun w p l => rfl

theorem indep_bind {x : P α} {f : α → P β} (hx : Indep x) (hf : ∀ a, Indep (f a)) : Indep (x >>= f) := by
  intro w p l
  show Browser.Paging.P.bind x f _ = ((Browser.Paging.P.bind x f w).1, { (Browser.Paging.P.bind x f w).2 with fullPages := p, lastPage := l })
  unfold Browser.Paging.P.bind
  rw [hx w p l]
  rcases x w with ⟨o, w'⟩
  cases o with
  | ok a => exact hf a w' p l
  | err => rfl
  | panic => rfl
  | crash => rfl

theorem indep_fileWrite (o : Nat) (d : Bytes) : Indep (Browser.Paging.fileWrite o d) := by
  unfold Browser.Paging.fileWrite
  refine indep_bind (indep_call _) fun a => ?_
  split
  · exact indep_pure _
  · exact indep_lift _
  · exact indep_lift _

theorem indep_fileRead (g : Range) : Indep (Browser.Paging.fileRead g) := by
  unfold Browser.Paging.fileRead
  refine indep_bind (indep_call _) fun a => ?_
  split
  · exact indep_pure _
  · exact indep_lift _
  · exact indep_lift _

/-- A call that reads only the other fields. -/
theorem indep_self {f : Inner → P β} (hf : ∀ w, Indep (f w)) (hc : ∀ w p l, f { w with fullPages := p, lastPage := l } = f w) :
    Indep (Browser.Paging.self >>= f) := by
  intro w p l
  show f { w with fullPages := p, lastPage := l } { w with fullPages := p, lastPage := l } = ((f w w).1, { (f w w).2 with fullPages := p, lastPage := l })
  rw [hc]
  exact hf w w p l

theorem indep_alignLength : Indep Browser.Paging.alignLength := by
  unfold Browser.Paging.alignLength
  refine indep_self (fun w => ?_) (fun w p l => rfl)
  refine indep_bind (indep_lift _) fun l4 => ?_
  split
  · exact indep_pure _
  · exact indep_bind (indep_lift _) fun e => fun w p l => rfl

/-! ### The pages in memory -/

theorem act_assoc {τ γ δ ε : Type} (x : Act τ γ) (f : γ → Act τ δ) (g : δ → Act τ ε) : (x >>= f) >>= g = x >>= fun a => f a >>= g := by
  funext t m
  show Act.bind (Act.bind x f) g t m = Act.bind x (fun a => Act.bind (f a) g) t m
  unfold Act.bind
  rcases x t m with _ | ⟨r, t', m'⟩
  · rfl
  · cases r <;> rfl

theorem inner_get_insert (s : Inner) (p q : Nat) (bs : Bytes) : (s.insert p bs).get q = if p = q then some bs else s.get q := by
  unfold Browser.Paging.Inner.insert Browser.Paging.Inner.get
  dsimp only
  rw [List.find?_cons]
  by_cases h : p = q
  · subst h; simp
  · have : (decide (p = q)) = false := by simpa using h
    rw [if_neg h, this]

/-- A page goes into the table of full pages. -/
theorem insertFull_ok (p a : Nat) {bs : Bytes} {X : List Nat} {m : Mem} {t : BState} {s : Inner} (hi : Inv m (a :: (brefs t ++ X))) (hr : BRel m t s)
    (hg : m.get a = some (.vec bs)) :
    ∃ m', insertFull p a t m = some (.ok (), { t with full := (p, a) :: t.full.filter fun e => e.1 ≠ p }, m') ∧
      Inv m' (brefs { t with full := (p, a) :: t.full.filter fun e => e.1 ≠ p } ++ X) ∧
      BRel m' { t with full := (p, a) :: t.full.filter fun e => e.1 ≠ p } (s.insert p bs) ∧ ∀ x ∈ X, m'.get x = m.get x := by
  obtain ⟨m2, e2, i2, k2⟩ := decs_ok ((t.full.filter fun e => e.1 = p).map (·.2))
    (R := brefs { t with full := (p, a) :: t.full.filter fun e => e.1 ≠ p } ++ X) (hi.of (fun x => by
    have := count_split (fun e : Nat × Nat => [e.2]) (fun e => decide (e.1 = p)) (fun e => decide (e.1 ≠ p)) (fun e => by simp) x t.full
    simp only [brefs, map_flat, List.count_append, List.count_cons, List.flatMap_cons, List.nil_append, List.count_nil, List.cons_append] at this ⊢
    omega))
  refine ⟨m2, ?_, i2, ⟨?_, ?_, fun q => ?_⟩, fun x hx => k2 x (List.mem_append_right _ hx)⟩
  · unfold insertFull
    rw [e2]; rfl
  · show t.base = _
    rw [hr.base]; rfl
  · show m2.get t.last = some (.vec s.lastPage)
    rw [k2 t.last (by simp [brefs])]
    exact hr.last
  · rw [inner_get_insert]
    show match find ((p, a) :: t.full.filter fun e => e.1 ≠ p) q with
      | some a => ∃ b, (if p = q then some bs else s.get q) = some b ∧ m2.get a = some (.vec b)
      | none => (if p = q then some bs else s.get q) = none
    rw [find_cons]
    by_cases hq : p = q
    · subst hq
      rw [if_pos rfl, if_pos rfl]
      exact ⟨bs, rfl, by rw [k2 a (by simp [brefs])]; exact hg⟩
    · rw [if_neg hq, if_neg hq, find_filter p q hq]
      have := hr.full q
      split
      · rename_i b eb
        rw [eb] at this
        obtain ⟨c, h1, h2⟩ := this
        refine ⟨c, h1, ?_⟩
        have hb : find (t.full.filter fun e => e.1 ≠ p) q = some b := by rw [find_filter p q hq]; exact eb
        rw [k2 b (List.mem_append_left _ (List.mem_cons_of_mem _ (List.mem_cons_of_mem _ (find_mem hb))))]
        exact h2
      · rename_i eb
        rw [eb] at this
        exact this

/-- Nothing but the store refers to its last page. -/
def Excl (m : Mem) (a : Nat) : Prop := m.cnt a = 1

theorem excl_not {m : Mem} {a : Nat} {R : List Nat} (hi : Inv m (a :: R)) (h : Excl m a) : a ∉ R := by
  have := hi.cnt a
  unfold Excl at h
  rw [h, List.count_cons_self] at this
  exact List.count_eq_zero.1 (by omega)

theorem excl_of {m : Mem} {a : Nat} {R : List Nat} (hi : Inv m (a :: R)) (h : a ∉ R) : Excl m a := by
  unfold Excl
  rw [hi.cnt a, List.count_cons_self, List.count_eq_zero.2 h]

theorem makeMut_left {D : Inner → Inner → Prop} {pre : Mem → BState → Inner → Prop} (hp : ∀ m t s, pre m t s → D t.base s) :
    Ref brefs BRel false no (fun m t s (_ : Unit) (_ : Unit) => Excl m t.last ∧ D t.base s) [] pre makeMutLast (Pl.pure ()) := by
  intro rest m t s hi hr hq
  have hi' : Inv m (t.last :: (t.full.map (·.2) ++ rest)) := hi
  obtain ⟨a', m', e, i', n', g', k'⟩ := makeMut_ok hi'
  refine ⟨.ok (), { t with last := a' }, m', ?_, ⟨excl_of i' n', hp m t s hq⟩, i', ⟨hr.base, ?_, fun p => ?_⟩, fun x hx => k' x (List.mem_append_right _ hx)⟩
  · unfold makeMutLast
    rw [e]; rfl
  · show m'.get a' = _
    rw [g']; exact hr.last
  · have := hr.full p
    show match find t.full p with | some a => ∃ bs, s.get p = some bs ∧ m'.get a = some (.vec bs) | none => s.get p = none
    split
    · rename_i a ea
      rw [ea] at this
      obtain ⟨bs, h1, h2⟩ := this
      exact ⟨bs, h1, by rw [k' a (List.mem_append_left _ (find_mem ea))]; exact h2⟩
    · rename_i ea
      rw [ea] at this
      exact this

/-- `self` again, in memory only. -/
theorem self_left {α' β' : Type} {hold : α' → List Nat} {same : Mem → BState → Inner → α' → β' → Prop} {H : List Nat} {pre : Mem → BState → Inner → Prop}
    {f : BState → Act BState α'} {g : Pl Inner β'} (h : ∀ t0, Ref brefs BRel false hold same H (fun m t s => pre m t s ∧ t = t0) (f t0) g) :
    Ref brefs BRel false hold same H pre (Act.self >>= f) g :=
  fun rest m t s hi hr hp => h t rest m t s hi hr ⟨hp, rfl⟩

/-- The bytes of the last page. -/
theorem vec_left {α' β' : Type} {hold : α' → List Nat} {same : Mem → BState → Inner → α' → β' → Prop} {H : List Nat} {pre : Mem → BState → Inner → Prop}
    {a : Nat} {f : Bytes → Act BState α'} {g : Pl Inner β'} (ha : ∀ m t s, pre m t s → t.last = a)
    (h : ∀ bs, Ref brefs BRel false hold same H (fun m t s => pre m t s ∧ s.lastPage = bs) (f bs) g) :
    Ref brefs BRel false hold same H pre (Act.vec a >>= f) g := by
  intro rest m t s hi hr hp
  obtain ⟨r, t', m', e, hh⟩ := h s.lastPage rest m t s hi hr ⟨hp, rfl⟩
  refine ⟨r, t', m', ?_, hh⟩
  have h1 : (Act.vec a : Act BState Bytes) t m = some (.ok s.lastPage, t, m) := by
    show (match m.get a with | some (.vec bs) => some (bs, m) | _ => none : Option (Bytes × Mem)).map _ = _
    rw [← ha m t s hp, hr.last]; rfl
  show Act.bind _ _ t m = _
  unfold Act.bind
  rw [h1]
  exact e

/-- A write to the last page, if nothing else refers to it. -/
theorem putLast_ok {bs : Bytes} {X : List Nat} {m : Mem} {t : BState} {s : Inner} (hi : Inv m (brefs t ++ X)) (hr : BRel m t s) (hx : Excl m t.last) :
    ∃ m', putLast bs t m = some (.ok (), t, m') ∧ Inv m' (brefs t ++ X) ∧ BRel m' t { s with lastPage := bs } ∧ ∀ x ∈ X, m'.get x = m.get x := by
  have hi' : Inv m (t.last :: (t.full.map (·.2) ++ X)) := hi
  obtain ⟨m', e, i', g', k'⟩ := put_ok hi' (excl_not hi' hx) (.vec bs)
  refine ⟨m', ?_, i', ⟨hr.base, g', fun p => ?_⟩, fun x hx => k' x (List.mem_append_right _ hx)⟩
  · unfold putLast
    rw [e]; rfl
  · have := hr.full p
    show match find t.full p with | some a => ∃ bs, s.get p = some bs ∧ m'.get a = some (.vec bs) | none => s.get p = none
    split
    · rename_i a ea
      rw [ea] at this
      obtain ⟨bs, h1, h2⟩ := this
      exact ⟨bs, h1, by rw [k' a (List.mem_append_left _ (find_mem ea))]; exact h2⟩
    · rename_i ea
      rw [ea] at this
      exact this

/-- What `close_page` does with the pages. -/
theorem closeTables_ref (p n : Nat) (bs zeros : Bytes) :
    BRef no (fun _ _ _ _ _ => True) [] (fun m t s => Excl m t.last ∧ s.lastPage = bs) (do
        let a ← Act.alloc (.vec bs)
        insertFull p a
        ofP (Browser.Paging.update fun v => { v with length := n })
        putLast zeros : Act BState Unit)
      (Browser.Paging.update fun v => { v.insert p bs with length := n, lastPage := zeros }) := by
  intro rest m t s hi hr hp
  have hi' : Inv m (t.last :: (t.full.map (·.2) ++ rest)) := hi
  have hn := excl_not hi' hp.1
  obtain ⟨i1, g1, n1, k1⟩ := alloc_ok hi (.vec bs)
  generalize ea : m.alloc (.vec bs) = am at i1 g1 n1 k1
  obtain ⟨a, m1⟩ := am
  dsimp only at i1 g1 n1 k1
  have hr1 : BRel m1 t s := brel_mono hr (fun x hx => k1 x (List.mem_append_left _ hx))
  obtain ⟨m2, e2, i2, hr2, k2⟩ := insertFull_ok p a (bs := bs) i1 hr1 g1
  generalize et : ({ t with full := (p, a) :: t.full.filter fun e => e.1 ≠ p } : BState) = t2 at e2 i2 hr2
  have hl : t2.last = t.last := by rw [← et]
  have hf : t2.full = (p, a) :: t.full.filter fun e => e.1 ≠ p := by rw [← et]
  have hr3 : BRel m2 { t2 with base := { t2.base with length := n } } { s.insert p bs with length := n } :=
    ⟨by show ({ t2.base with length := n } : Inner) = _; rw [hr2.base], hr2.last, hr2.full⟩
  have hx : Excl m2 t2.last := by
    have i2' : Inv m2 (t2.last :: (t2.full.map (·.2) ++ ([] ++ rest))) := i2
    refine excl_of i2' ?_
    rw [hl, hf]
    intro hm
    simp only [List.map_cons, List.cons_append, List.nil_append, List.mem_cons, List.mem_append] at hm
    rcases hm with h | h | h
    · exact n1 (by rw [← h]; simp [brefs])
    · refine hn (List.mem_append_left _ ?_)
      obtain ⟨e, he, hh⟩ := List.mem_map.1 h
      exact List.mem_map.2 ⟨e, (List.mem_filter.1 he).1, hh⟩
    · exact hn (List.mem_append_right _ h)
  obtain ⟨m3, e3, i3, hr4, k3⟩ := putLast_ok (bs := zeros) (t := { t2 with base := { t2.base with length := n } }) i2 hr3 hx
  refine ⟨.ok (), _, m3, ?_, trivial, i3, hr4, fun x hx => ?_⟩
  · show Act.bind (Act.alloc _) _ t m = _
    have h1 : (Act.alloc (.vec bs) : Act BState Nat) t m = some (.ok a, t, m1) := by
      simp only [Act.alloc, Act.mem, ea, Option.map_some]
    unfold Act.bind
    rw [h1]
    show Act.bind (insertFull p a) _ t m1 = _
    unfold Act.bind
    rw [e2]
    exact e3
  · rw [k3 x (List.mem_append_right _ hx), k2 x (List.mem_append_right _ hx), k1 x (by simp [hx])]

theorem bref_ite {hold : α → List Nat} {same : Mem → BState → Inner → α → β → Prop} {H : List Nat} {pre : Mem → BState → Inner → Prop}
    {c c' : Prop} [Decidable c] [Decidable c'] {x x' : Act BState α} {y y' : P β} (hc : c ↔ c') (h1 : BRef hold same H pre x y)
    (h2 : BRef hold same H pre x' y') : BRef hold same H pre (if c then x else x') (if c' then y else y') := by
  by_cases h : c
  · rw [if_pos h, if_pos (hc.1 h)]; exact h1
  · rw [if_neg h, if_neg (fun h' => h (hc.2 h'))]; exact h2

theorem closePage_ref {pre : Mem → BState → Inner → Prop} :
    BRef no (fun _ _ _ _ _ => True) [] pre bClosePage Browser.Paging.closePage := by
  unfold bClosePage Browser.Paging.closePage
  refine bref_self fun t0 s0 hb => ?_
  dsimp only
  have e1 : t0.base.length = s0.length := by rw [hb]
  have e2 : t0.base.pageSize = s0.pageSize := by rw [hb]
  rw [e1, e2]
  refine bref_lift_bind _ fun page0 => bref_lift_bind _ fun r => ?_
  refine ref_left (makeMut_left (D := fun _ s => s = s0) (fun m t s hp => hp.2.2)) fun _ => ?_
  refine self_left fun t1 => vec_left (fun m t s hp => by rw [hp.2]) fun bs => ?_
  refine bref_use (Q := bs = s0.lastPage) (fun m t s hp => by rw [← hp.2, hp.1.1.2]) fun eb => ?_
  subst eb
  refine bref_bind (bref_pre (bref_ofP (indep_fileWrite _ _) (Q := fun m last full lp => Excl m last ∧ lp = s0.lastPage))
    (fun m t s _ hp => ⟨hp.1.1.1, hp.2⟩)) fun _ _ => ?_
  have ha : ∀ (k : Unit → Act BState Unit), (do
      let a ← Act.alloc (.vec s0.lastPage)
      insertFull page0 a
      ofP (Browser.Paging.update fun v => { v with length := r.2 })
      putLast (List.replicate s0.lastPage.length 0)
      k () : Act BState Unit) = (do
      let a ← Act.alloc (.vec s0.lastPage)
      insertFull page0 a
      ofP (Browser.Paging.update fun v => { v with length := r.2 })
      putLast (List.replicate s0.lastPage.length 0)) >>= k := by
    intro k
    rw [act_assoc]
    congr; funext a
    rw [act_assoc]
    congr
  rw [ha fun _ => ofP (lift (Browser.Paging.pageNum r.2 s0.pageSize)) >>= fun page1 => if page0 + 1 = page1 then pure () else Act.panic]
  refine bref_bind (bref_pre (closeTables_ref page0 r.2 s0.lastPage _) (fun m t s _ hp => hp.2)) fun _ _ => ?_
  refine bref_lift_bind _ fun page1 => ?_
  exact bref_ite Iff.rfl (bref_pure rfl fun _ _ _ _ => trivial) bref_panic

theorem sync_ref {pre : Mem → BState → Inner → Prop} : BRef no (fun _ _ _ _ _ => True) [] pre bSync Browser.Paging.sync := by
  unfold bSync Browser.Paging.sync
  refine bref_self fun t0 s0 hb => ?_
  dsimp only
  have e1 : t0.base.length = s0.length := by rw [hb]
  have e2 : t0.base.pageSize = s0.pageSize := by rw [hb]
  rw [e1, e2]
  refine bref_lift_bind _ fun _ => bref_lift_bind _ fun r => bref_lift_bind _ fun offset => ?_
  refine vec_left (fun m t s hp => by rw [hp.2.1]) fun bs => ?_
  refine bref_use (Q := bs = s0.lastPage) (fun m t s hp => by rw [← hp.2, hp.1.2.2]) fun eb => ?_
  subst eb
  refine bref_ite Iff.rfl ?_ bref_panic
  exact ref_mono (bref_pre (bref_ofP (indep_fileWrite _ _) (Q := fun _ _ _ _ => True)) (fun _ _ _ _ _ => trivial)) fun _ _ _ _ _ _ => trivial

/-- What `append` does with the last page. -/
theorem putAppend_ref (w0 : Inner) (bs bs' : Bytes) (k : Nat) :
    BRef no (fun _ _ _ a b => a = b) [] (fun m t s => Excl m t.last ∧ s = w0) (do
        putLast bs'
        let l ← ofP (lift (Browser.Paging.u64 k))
        ofP (Browser.Paging.update fun w => { w with length := l })
        return w0.length : Act BState Nat)
      (do
        let l ← lift (Browser.Paging.u64 k)
        Browser.Paging.update fun w => { w with lastPage := bs', length := l }
        return w0.length) := by
  intro rest m t s hi hr hp
  obtain ⟨m1, e1, i1, hr1, k1⟩ := putLast_ok (bs := bs') hi hr hp.1
  have ex : (do
        putLast bs'
        let l ← ofP (lift (Browser.Paging.u64 k))
        ofP (Browser.Paging.update fun w => { w with length := l })
        return w0.length : Act BState Nat) t m = (do
        let l ← ofP (lift (Browser.Paging.u64 k))
        ofP (Browser.Paging.update fun w => { w with length := l })
        return w0.length : Act BState Nat) t m1 := by
    show Act.bind (putLast bs') _ t m = _
    unfold Act.bind
    rw [e1]
  rw [ex]
  cases h : Browser.Paging.u64 k with
  | ok l =>
    refine ⟨.ok w0.length, { t with base := { t.base with length := l } }, m1, rfl, rfl, i1, ⟨?_, hr1.last, hr1.full⟩, fun x hx => k1 x (List.mem_append_right _ hx)⟩
    show ({ t.base with length := l } : Inner) = _
    rw [hr.base]
    simp only [hp.2]
    rfl
  | err => exact ⟨.err, t, m1, rfl, by unfold Browser.Paging.u64 at h; split at h <;> cases h⟩
  | panic => exact ⟨.panic, t, m1, rfl, fun h => by cases h⟩
  | crash => exact ⟨.crash, t, m1, rfl, trivial⟩

theorem append_ref (data : Bytes) {pre : Mem → BState → Inner → Prop} :
    BRef no (fun _ _ _ a b => a = b) [] pre (bAppend data) (Browser.Paging.append data) := by
  unfold bAppend Browser.Paging.append
  refine bref_self fun t0 s0 hb => ?_
  have e2 : t0.base.pageSize = s0.pageSize := by rw [hb]
  rw [e2]
  unfold Browser.Paging.ensure
  refine bref_lift_bind _ fun _ => bref_lift_bind _ fun l8 => ?_
  refine bref_self fun t1 s1 hb1 => ?_
  have e3 : Browser.Paging.remaining t1.base = Browser.Paging.remaining s1 := by rw [hb1]; rfl
  rw [e3]
  refine bref_lift_bind _ fun rem => ?_
  have hclose : ∀ {pre : Mem → BState → Inner → Prop}, BRef no (fun _ _ _ _ _ => True) [] pre (if l8 > rem then bClosePage else pure ())
      (if l8 > rem then Browser.Paging.closePage else pure () : P Unit) := by
    intro pre
    exact bref_ite Iff.rfl closePage_ref (bref_pure rfl fun _ _ _ _ => trivial)
  refine bref_bind hclose fun _ _ => ?_
  refine bref_bind (bref_pre (bref_ofP indep_alignLength (Q := fun _ _ _ _ => True)) (fun _ _ _ _ _ => trivial)) fun _ _ => ?_
  refine ref_left (makeMut_left (D := fun _ _ => True) (fun _ _ _ _ => trivial)) fun _ => ?_
  refine bref_self fun t2 s2 hb2 => ?_
  dsimp only
  have e4 : t2.base.length = s2.length := by rw [hb2]
  have e5 : t2.base.pageSize = s2.pageSize := by rw [hb2]
  rw [e4, e5]
  refine bref_lift_bind _ fun offset => ?_
  refine vec_left (fun m t s hp => by rw [hp.2.1]) fun bs => ?_
  refine bref_use (Q := bs = s2.lastPage) (fun m t s hp => by rw [← hp.2, hp.1.2.2]) fun eb => ?_
  subst eb
  refine bref_ite Iff.rfl ?_ bref_panic
  refine fun rest m t s hi hr hp => ?_
  obtain ⟨r, t', m', e, hh⟩ := putAppend_ref s2 s2.lastPage (s2.lastPage.take offset ++ data ++ s2.lastPage.drop (offset + data.length)) (s2.length + data.length)
    rest m t s hi hr ⟨hp.1.1.1, hp.1.2.2⟩
  refine ⟨r, t', m', e, ?_⟩
  have hs : s = s2 := hp.1.2.2
  subst hs
  unfold plP at hh ⊢
  cases hu : Browser.Paging.u64 (s.length + data.length) <;> (rw [hu] at hh; exact hh)

theorem appendPrefixed_ref (data : Bytes) {pre : Mem → BState → Inner → Prop} :
    BRef no (fun _ _ _ a b => a = b) [] pre (bAppendPrefixed data) (Browser.Paging.appendPrefixed data) := by
  unfold bAppendPrefixed Browser.Paging.appendPrefixed
  exact bref_ite Iff.rfl (append_ref _) bref_panic

/-! ### Reading -/

/-- A blob of a part of the last page. -/
theorem lastBlob_ref (a e : Nat) (bs : Bytes) {pre : Mem → BState → Inner → Prop} (hp : ∀ m t s, pre m t s → t.last = a ∧ s.lastPage = bs)
    (he : e ≤ bs.length) :
    BRef Blob.refs (fun m _ _ b d => Shows m b (.own d)) [] pre (do
        Act.inc a
        let whole := Blob.ofArc a bs
        let b ← Act.slice whole 0 e
        Act.drop whole
        return b : Act BState Blob)
      (pure (bs.take e)) := by
  intro rest m t s hi hr hq
  obtain ⟨ha, hb⟩ := hp m t s hq
  have hg : m.get a = some (.vec bs) := by rw [← ha, ← hb]; exact hr.last
  have hm : a ∈ brefs t ++ ([] ++ rest) := by rw [← ha]; simp [brefs]
  obtain ⟨m1, e1, i1, g1⟩ := inc_ok hi hm
  have hs : Shows m1 (Blob.ofArc a bs) (.own bs) := ofArc_shows (by rw [g1]; exact hg)
  obtain ⟨b, m2, e2, i2, s2, g2⟩ := sub_ok (b := Blob.ofArc a bs) (i := 0) (j := e) i1 (fun x hx => by
    have : x = a := by simpa [Blob.ofArc, Blob.refs] using hx
    rw [this]; exact List.mem_cons_self ..) hs (Nat.zero_le _) he
  obtain ⟨m3, e3, i3, g3⟩ := drop_ok (b := Blob.ofArc a bs) (m := m2) (R := brefs t ++ (b.refs ++ rest)) (i2.of (fun x => by
    simp only [Blob.ofArc, Blob.refs, List.count_append, List.count_cons, List.count_nil]; omega))
  have hsh : Shows m3 b (.own (bs.take e)) := by
    have : Spec.Blobs.part 0 e (View.own bs) = .own (bs.take e) := by simp [Spec.Blobs.part]
    rw [← this]
    exact s2.mono (fun x hx => g3 x (by simp [hx]))
  refine ⟨.ok b, t, m3, ?_, hsh, i3, brel_mono hr (fun x hx => ?_), fun x hx => ?_⟩
  · show Act.bind (Act.inc a) _ t m = _
    have h1 : (Act.inc a : Act BState Unit) t m = some (.ok (), t, m1) := by
      show ((m.inc a).map fun m => ((), m)).map _ = _
      rw [e1]; rfl
    unfold Act.bind
    rw [h1]
    show Act.bind (Act.slice (Blob.ofArc a bs) 0 e) _ t m1 = _
    have h2 : (Act.slice (Blob.ofArc a bs) 0 e : Act BState Blob) t m1 = some (.ok b, t, m2) := by
      unfold Act.slice
      rw [if_pos ⟨Nat.zero_le _, he⟩]
      show ((Blob.ofArc a bs).sub m1 0 e).map _ = _
      rw [e2]; rfl
    unfold Act.bind
    rw [h2]
    show Act.bind (Act.drop (Blob.ofArc a bs)) _ t m2 = _
    have h3 : (Act.drop (Blob.ofArc a bs) : Act BState Unit) t m2 = some (.ok (), t, m3) := by
      show (((Blob.ofArc a bs).drop m2).map fun m => ((), m)).map _ = _
      rw [e3]; rfl
    unfold Act.bind
    rw [h3]
    rfl
  · rw [g3 x (by simp [hx]), g2, g1]
  · rw [g3 x (by simp [hx]), g2, g1]

/-- A blob of a full page. -/
theorem fullBlob_ref (a : Nat) (bs : Bytes) {pre : Mem → BState → Inner → Prop} (hp : ∀ m t s, BRel m t s → pre m t s → a ∈ brefs t ∧ m.get a = some (.vec bs)) :
    BRef Blob.refs (fun m _ _ b d => Shows m b (.own d)) [] pre (do
        let bs ← Act.vec a
        Act.inc a
        return Blob.ofArc a bs : Act BState Blob)
      (pure bs) := by
  intro rest m t s hi hr hq
  obtain ⟨ha, hg⟩ := hp m t s hr hq
  obtain ⟨m1, e1, i1, g1⟩ := inc_ok hi (List.mem_append_left _ ha)
  refine ⟨.ok (Blob.ofArc a bs), t, m1, ?_, ofArc_shows (by rw [g1]; exact hg), i1.of (fun x => ?_), brel_mono hr (fun x _ => g1 x), fun x _ => g1 x⟩
  · show Act.bind (Act.vec a) _ t m = _
    have h1 : (Act.vec a : Act BState Bytes) t m = some (.ok bs, t, m) := by
      show (match m.get a with | some (.vec bs) => some (bs, m) | _ => none : Option (Bytes × Mem)).map _ = _
      rw [hg]; rfl
    unfold Act.bind
    rw [h1]
    show Act.bind (Act.inc a) _ t m = _
    have h1 : (Act.inc a : Act BState Unit) t m = some (.ok (), t, m1) := by
      show ((m.inc a).map fun m => ((), m)).map _ = _
      rw [e1]; rfl
    unfold Act.bind
    rw [h1]
    rfl
  · simp only [Blob.ofArc, Blob.refs, List.count_append, List.count_cons, List.count_nil]; omega

/-- A page that was read from the file. -/
theorem readBlob_ref (p : Nat) (bs : Bytes) {pre : Mem → BState → Inner → Prop} :
    BRef Blob.refs (fun m _ _ b d => Shows m b (.own d)) [] pre (do
        let a ← Act.alloc (.vec bs)
        Act.inc a
        insertFull p a
        return Blob.ofArc a bs : Act BState Blob)
      (do
        Browser.Paging.update fun w => w.insert p bs
        return bs) := by
  intro rest m t s hi hr hq
  obtain ⟨i1, g1, n1, k1⟩ := alloc_ok hi (.vec bs)
  generalize ea : m.alloc (.vec bs) = am at i1 g1 n1 k1
  obtain ⟨a, m1⟩ := am
  dsimp only at i1 g1 n1 k1
  obtain ⟨m2, e2, i2, g2⟩ := inc_ok i1 (List.mem_cons_self ..)
  have hr2 : BRel m2 t s := brel_mono hr (fun x hx => by rw [g2, k1 x (List.mem_append_left _ hx)])
  obtain ⟨m3, e3, i3, hr3, k3⟩ := insertFull_ok p a (bs := bs) (X := a :: rest) (m := m2) (t := t) (s := s) (i2.of (fun x => by
    simp only [List.count_append, List.count_cons, List.count_nil, List.nil_append]; omega)) hr2 (by rw [g2]; exact g1)
  refine ⟨.ok (Blob.ofArc a bs), _, m3, ?_, ofArc_shows (by rw [k3 a (List.mem_cons_self ..), g2]; exact g1), i3, hr3, fun x hx => ?_⟩
  · show Act.bind (Act.alloc (.vec bs)) _ t m = _
    have h1 : (Act.alloc (.vec bs) : Act BState Nat) t m = some (.ok a, t, m1) := by
      simp only [Act.alloc, Act.mem, ea, Option.map_some]
    unfold Act.bind
    rw [h1]
    show Act.bind (Act.inc a) _ t m1 = _
    have h2 : (Act.inc a : Act BState Unit) t m1 = some (.ok (), t, m2) := by
      show ((m1.inc a).map fun m => ((), m)).map _ = _
      rw [e2]; rfl
    unfold Act.bind
    rw [h2]
    show Act.bind (insertFull p a) _ t m2 = _
    unfold Act.bind
    rw [e3]
    rfl
  · rw [k3 x (List.mem_cons_of_mem _ hx), g2, k1 x (by simp [hx])]

theorem loadPage_ref (start : Nat) {pre : Mem → BState → Inner → Prop} :
    BRef Blob.refs (fun m _ _ b d => Shows m b (.own d)) [] pre (bLoadPage start) (Browser.Paging.loadPage start) := by
  unfold bLoadPage Browser.Paging.loadPage
  refine bref_self fun t0 s0 hb => ?_
  dsimp only
  have e1 : t0.base.length = s0.length := by rw [hb]
  have e2 : t0.base.pageSize = s0.pageSize := by rw [hb]
  rw [e1, e2]
  refine bref_lift_bind _ fun last => bref_lift_bind _ fun p => bref_ite Iff.rfl ?_ ?_
  · refine bref_lift_bind _ fun e => vec_left (fun m t s hp => by rw [hp.2.1]) fun bs => ?_
    refine bref_use (Q := bs = s0.lastPage) (fun m t s hp => by rw [← hp.2, hp.1.2.2]) fun eb => ?_
    subst eb
    by_cases he : e ≤ s0.lastPage.length
    · rw [if_pos he, if_pos he]
      exact lastBlob_ref t0.last e s0.lastPage (fun m t s hp => ⟨by rw [hp.1.2.1], hp.2⟩) he
    · rw [if_neg he, if_neg he]
      exact bref_panic
  · intro rest m t s hi hr hp
    have hf := hr.full p
    rw [hp.2.1, hp.2.2] at hf
    split at hf
    · rename_i a ea
      obtain ⟨bs, h1, h2⟩ := hf
      rw [ea, h1]
      exact fullBlob_ref a bs (pre := fun m t _ => a ∈ brefs t ∧ m.get a = some (.vec bs)) (fun _ _ _ _ h => h) rest m t s hi hr
        ⟨by rw [hp.2.1]; exact List.mem_cons_of_mem _ (find_mem ea), h2⟩
    · rename_i ea
      rw [ea, hf]
      unfold Browser.Paging.ensure
      refine bref_lift_bind _ (pre := fun _ _ _ => True) (fun _ => bref_lift_bind _ fun r => ?_) rest m t s hi hr trivial
      refine bref_bind (bref_ofP (indep_fileRead r) (Q := fun _ _ _ _ => True)) fun bs bs' => ?_
      refine bref_use (Q := bs = bs') (fun m t s h => h.1) fun eb => ?_
      subst eb
      exact readBlob_ref p bs

/-- A blob that is held goes away. -/
theorem dropPage_ok {X : List Nat} {b : Blob} {m : Mem} {t : BState} {s : Inner} (hi : Inv m (brefs t ++ (b.refs ++ X))) (hr : BRel m t s) :
    ∃ m', (Act.drop b : Act BState Unit) t m = some (.ok (), t, m') ∧ Inv m' (brefs t ++ X) ∧ BRel m' t s ∧ ∀ x ∈ X, m'.get x = m.get x := by
  obtain ⟨m3, e3, i3, g3⟩ := drop_ok (b := b) (m := m) (R := brefs t ++ X) (hi.of (fun x => by
    simp only [List.count_append]; omega))
  refine ⟨m3, ?_, i3, brel_mono hr (fun x hx => g3 x (List.mem_append_left _ hx)), fun x hx => g3 x (List.mem_append_right _ hx)⟩
  show ((b.drop m).map fun m => ((), m)).map _ = _
  rw [e3]; rfl

theorem bytes_ok {b : Blob} {d : Bytes} {m : Mem} {t : BState} (h : Shows m b (.own d)) : (Act.bytes b : Act BState Bytes) t m = some (.ok d, t, m) ∧ b.len = d.length := by
  refine ⟨?_, h.2⟩
  show (match b.view m with | some (.own bs) => some (bs, m) | _ => none : Option (Bytes × Mem)).map _ = _
  rw [h.1]; rfl

theorem loadPrefixed_ref (start : Nat) {pre : Mem → BState → Inner → Prop} :
    BRef Blob.refs (fun m _ _ b d => Shows m b (.own d)) [] pre (bLoadPrefixed start) (Browser.Paging.loadPrefixed start) := by
  unfold bLoadPrefixed Browser.Paging.loadPrefixed
  refine bref_self fun t0 s0 hb => ?_
  have e2 : t0.base.pageSize = s0.pageSize := by rw [hb]
  rw [e2]
  refine bref_lift_bind _ fun offset => bref_bind (loadPage_ref start) fun page d => ?_
  intro rest m t s hi hr hs
  have hs : Shows m page (.own d) := hs
  obtain ⟨hv, hlen⟩ := bytes_ok (t := t) hs
  obtain ⟨m1, e1, i1, hr1, k1⟩ := dropPage_ok hi hr
  have ex : ∀ (f : Bytes → Act BState Blob), (Act.bytes page >>= f) t m = f d t m := by
    intro f
    show Act.bind _ _ t m = _
    unfold Act.bind
    rw [hv]
  rw [ex, hlen]
  have hfail : (do Act.drop page; Act.fail : Act BState Blob) t m = some (.err, t, m1) := by
    show Act.bind _ _ t m = _
    unfold Act.bind
    rw [e1]; rfl
  unfold Browser.Paging.ensure
  by_cases h1 : offset + 4 ≤ d.length
  · rw [if_pos h1]
    dsimp only
    generalize ofBE ((d.drop offset).take 4) = len
    by_cases h2 : offset + 4 + len ≤ d.length
    · rw [if_pos h2]
      obtain ⟨b, m2, e2, i2, s2, g2⟩ := sub_ok (b := page) (i := offset + 4) (j := offset + 4 + len) hi (fun x hx => by simp [hx]) hs (by omega) (by rw [hlen]; exact h2)
      obtain ⟨m3, e3, i3, hr3, k3⟩ := dropPage_ok (b := page) (X := b.refs ++ rest) (m := m2) (t := t) (s := s) (i2.of (fun x => by
        simp only [List.count_append]; omega)) (brel_mono hr (fun x _ => g2 x))
      refine ⟨.ok b, t, m3, ?_, ?_⟩
      · have h3 : (Act.slice page (offset + 4) (offset + 4 + len) : Act BState Blob) t m = some (.ok b, t, m2) := by
          unfold Act.slice
          rw [if_pos ⟨by omega, by rw [hlen]; exact h2⟩]
          show (page.sub m (offset + 4) (offset + 4 + len)).map _ = _
          rw [e2]; rfl
        show Act.bind (Act.slice page (offset + 4) (offset + 4 + len)) _ t m = _
        unfold Act.bind
        rw [h3]
        show Act.bind (Act.drop page) _ t m2 = _
        unfold Act.bind
        rw [e3]
        rfl
      · have hy : plP (do
            lift (if decide (offset + 4 ≤ d.length) = true then Out.ok () else Out.err)
            lift (if decide (offset + 4 + len ≤ d.length) = true then Out.ok () else Out.err)
            pure ((d.drop (offset + 4)).take len) : P Bytes) s = (.ok ((d.drop (offset + 4)).take len), s) := by
          simp only [h1, h2, decide_true, if_true]
          rfl
        rw [hy]
        refine ⟨?_, i3, hr3, fun x hx => by rw [k3 x (List.mem_append_right _ hx), g2]⟩
        have : Spec.Blobs.part (offset + 4) (offset + 4 + len) (View.own d) = .own ((d.drop (offset + 4)).take len) := by
          simp [Spec.Blobs.part, Nat.add_sub_cancel_left]
        show Shows m3 b (.own ((d.drop (offset + 4)).take len))
        rw [← this]
        exact s2.mono (fun x hx => k3 x (List.mem_append_left _ hx))
    · rw [if_neg h2]
      refine ⟨.err, t, m1, hfail, ?_⟩
      have hy : plP (do
            lift (if decide (offset + 4 ≤ d.length) = true then Out.ok () else Out.err)
            lift (if decide (offset + 4 + len ≤ d.length) = true then Out.ok () else Out.err)
            pure ((d.drop (offset + 4)).take len) : P Bytes) s = (.err, s) := by
        simp only [h1, h2, decide_true, decide_false, if_true, if_false, Bool.false_eq_true]
        rfl
      rw [hy]
      exact ⟨i1, hr1, k1⟩
  · rw [if_neg h1]
    refine ⟨.err, t, m1, hfail, ?_⟩
    simp only [h1, decide_false, if_false, Bool.false_eq_true]
    exact ⟨i1, hr1, k1⟩

/-! ### The calls -/

/-- The outcome of a call. -/
theorem answer_ok {hold : α → List Nat} {same : Mem → BState → Inner → α → β → Prop} {x : Act BState α} {y : P β} {f : α → Ans Blob} {g : β → Ans View}
    (h : BRef hold same [] (fun _ _ _ => True) x y)
    (hs : ∀ m t s a b, same m t s a b → (f a).seen = (g b).seen ∧ AllShow m (f a).blob? (g b).blob? ∧ (f a).blob?.flatMap Blob.refs = hold a)
    {A : Ans View × Option Inner} {rest : List Nat} {m : Mem} {t : BState} {s : Inner} (hi : Inv m (brefs t ++ rest)) (hr : BRel m t s)
    (hA : A = match y s with | (.ok b, s) => (g b, some s) | (.err, s) => (.err, some s) | (.panic, _) => (.panic, none) | (.crash, _) => (.crash, none)) :
    ∃ a t' m', (x t m).map (answer f false) = some (a, t', m') ∧ a.seen = A.1.seen ∧ AllShow m' a.blob? A.1.blob? ∧ After brefs BRel rest m m' a t' A.2 := by
  obtain ⟨r, t', m', e, hh⟩ := h rest m t s hi hr trivial
  rw [e]
  subst hA
  unfold Post plP at hh
  rcases ey : y s with ⟨o, s'⟩
  rw [ey] at hh
  cases o with
  | ok b =>
    cases r <;> first | exact hh.elim | skip
    rename_i a
    obtain ⟨h1, h2, h3, h4⟩ := hh
    obtain ⟨g1, g2, g3⟩ := hs _ _ _ _ _ h1
    exact ⟨f a, some t', m', rfl, g1, g2, by rw [g3]; exact h2, h3, h4⟩
  | err =>
    cases r <;> first | exact hh.elim | skip
    exact ⟨.err, some t', m', rfl, rfl, trivial, hh.1, hh.2.1, hh.2.2⟩
  | panic =>
    cases r <;> first | exact hh.elim | skip
    exact ⟨.panic, none, m', rfl, rfl, trivial, trivial⟩
  | crash =>
    cases r <;> first | exact hh.elim | skip
    exact ⟨.crash, none, m', rfl, rfl, trivial, trivial⟩

theorem keeps_paging : Keeps pagingImpl Spec.Blobs.pagingPlain BRel where
  frame m m' t s hg h := brel_mono h hg
  step m t s c rest hi hr := by
    cases c with
    | put data =>
      refine answer_ok (f := fun n => .id (toBE 8 n)) (g := fun n => .id (toBE 8 n)) (appendPrefixed_ref data)
        (fun m t s a b h => by subst h; exact ⟨rfl, trivial, rfl⟩) hi hr ?_
      unfold Spec.Blobs.pagingPlain Browser.Paging.pstep
      dsimp only
      rcases Browser.Paging.appendPrefixed data s with ⟨o, s'⟩
      cases o <;> rfl
    | get id =>
      show ∃ a t' m', (if id.length = 8 then _ else _) = some (a, t', m') ∧ _
      by_cases hl : id.length = 8
      · rw [if_pos hl]
        refine answer_ok (f := .blob) (g := fun d => .blob (.own d)) (loadPrefixed_ref (ofBE id))
          (fun m t s a b h => ⟨rfl, ⟨h, trivial⟩, by simp [Ans.blob?]⟩) hi hr ?_
        unfold Spec.Blobs.pagingPlain Browser.Paging.pstep
        dsimp only
        rw [if_pos hl]
        rcases Browser.Paging.loadPrefixed (ofBE id) s with ⟨o, s'⟩
        cases o <;> rfl
      · rw [if_neg hl]
        have e : Spec.Blobs.pagingPlain s (.get id) = (.err, some s) := by
          unfold Spec.Blobs.pagingPlain Browser.Paging.pstep
          dsimp only
          rw [if_neg hl]
        rw [e]
        exact ⟨.err, some t, m, rfl, rfl, trivial, hi, hr, fun _ _ => rfl⟩
    | sync =>
      refine answer_ok (f := fun _ => .unit) (g := fun _ => .unit) sync_ref
        (fun m t s a b h => ⟨rfl, trivial, rfl⟩) hi hr ?_
      unfold Spec.Blobs.pagingPlain Browser.Paging.pstep
      dsimp only
      rcases Browser.Paging.sync s with ⟨o, s'⟩
      cases o <;> rfl

end Pg
end Radix.Blobs
